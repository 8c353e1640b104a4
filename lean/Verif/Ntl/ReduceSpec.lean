import Verif.Ntl.MatUtilsModel
import Verif.Forms.Spec
import Mathlib.LinearAlgebra.Matrix.Determinant.Basic

/-!
# What a reduced form of a square matrix is
-/

namespace PML.Ntl.Reduce

open Polynomial PML.Ntl.Utils PML.Forms.Spec

variable {F : Type} [Field F]

/-- `R` is row reduced (even in ordered weak Popov form), and `R = U A` for a matrix `U` which has an inverse with
    polynomial entries. -/
structure IsReducedForm (A R : PMat F[X]) : Prop where
  rows : R.rows = A.rows
  cols : R.cols = A.rows
  reduced : RowReduced A.rows A.rows (fun _ => 0) fun i j => R.e (i, j)
  popov : OrderedWeakPopovLower A.rows A.rows (fun _ => 0) fun i j => R.e (i, j)
  equiv : ∃ U W : Matrix (Fin A.rows) (Fin A.rows) F[X], U * W = 1 ∧ W * U = 1 ∧
    (Matrix.of fun i j : Fin A.rows => R.e (i, j)) = U * Matrix.of fun i j : Fin A.rows => A.e (i, j)

end PML.Ntl.Reduce
