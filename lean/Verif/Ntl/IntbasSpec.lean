import Verif.Ntl.IntbasModel
import Verif.Ntl.MbasisSpec
import Verif.Approx.SpecInterp

/-!
# What an interpolant basis is, in terms of the arguments of the functions
-/

namespace PML.Ntl.Intbas

open Polynomial PML.Ntl.Utils PML.Ntl.Mbasis PML.Approx.Spec PML.Forms.Spec

variable {F : Type} [Field F]

/-- The matrices `evals[off], evals[off+1], ...`. -/
def Evals.mats (E : Evals F) (off : Nat) : Nat → Matrix (Fin E.rows) (Fin E.cols) F := fun k i j => E.e (off + k, i) j

/-- The values of `pmat` at the points `x 0, x 1, ...`. -/
noncomputable def values (pmat : PMat F[X]) (x : Nat → F) : Nat → Matrix (Fin pmat.rows) (Fin pmat.cols) F :=
  fun k i j => (pmat.e (i, j)).eval (x k)

/-- `P` is an interpolant basis for the matrices `M 0, ..., M (d-1)` at the points `x 0, ..., x (d-1)`, in ordered
    weak Popov form for the shift `s`, with its pivots on the diagonal, and `t` holds the shifted degrees of its
    rows. -/
structure IsMinInt {m n : Nat} (M : Nat → Matrix (Fin m) (Fin n) F) (x : Nat → F) (d : Nat) (s : Nat → Int) (P : PMat F[X])
    (t : Nat → Int) : Prop where
  rows : P.rows = m
  cols : P.cols = m
  basis : IsInterpolantBasis M x d (mat m m P)
  popov : OrderedWeakPopovLower m m s fun i j => P.e (i, j)
  pivot : ∀ i, i < m → PivotLower m s (fun j => P.e (i, j)) i (t i - s i).toNat
  rdeg : ∀ i, i < m → ShiftedDegree m s (fun j => P.e (i, j)) (t i)
  ge : ∀ i, i < m → s i ≤ t i
  deg : Utils.deg P ≤ d

/-- The points `x off, ..., x (off+d-1)` are pairwise distinct. -/
def DistinctPts (x : Nat → F) (off d : Nat) : Prop := ∀ k l, k < d → l < d → x (off + k) = x (off + l) → k = l

end PML.Ntl.Intbas
