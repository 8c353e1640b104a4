import Verif.Ntl.KerbasModel

import Verif.Ntl.InvSpec
import Verif.Kernel.Spec
import Verif.Ntl.GeomProps
import Verif.Ntl.MbasisProps

/-!
# Specification of kernel bases of polynomial matrices
-/

namespace PML.Ntl.Kerbas

open Polynomial PML.Ntl.Utils PML.Ntl.Mbasis PML.Ntl.Inv PML.Kernel.Spec PML.Forms.Spec

variable {F : Type} [Field F]

/-- The rows of `K` are a basis of the left kernel of `pmat`, in ordered weak Popov form for the shift `s`; `piv` holds the
    indices of the pivots and `t` the shifted degrees of the rows. -/
structure IsMinKernel (pmat : PMat F[X]) (s : List Int) (K : PMat F[X]) (piv : List Nat) (t : List Int) : Prop where
  cols : K.cols = pmat.rows
  basis : IsKernelBasis (mat pmat.rows pmat.cols pmat) (mat K.rows pmat.rows K)
  popov : OrderedWeakPopovLower K.rows pmat.rows (fun j => s.getD j 0) fun i j => K.e (i, j)
  len_piv : piv.length = K.rows
  len_deg : t.length = K.rows
  pivot : ∀ i, i < K.rows → ∃ δ, PivotLower pmat.rows (fun j => s.getD j 0) (fun j => K.e (i, j)) (piv.getD i 0) δ
  rdeg : ∀ i, i < K.rows → ShiftedDegree pmat.rows (fun j => s.getD j 0) (fun j => K.e (i, j)) (t.getD i 0)

/-- The rows of `K` are linearly independent and in the left kernel of `pmat`. -/
structure InKernel (pmat K : PMat F[X]) : Prop where
  cols : K.cols = pmat.rows
  zero : ∀ i, Matrix.vecMul (mat K.rows pmat.rows K i) (mat pmat.rows pmat.cols pmat) = 0
  independent : ∀ u, Matrix.vecMul u (mat K.rows pmat.rows K) = 0 → u = 0

/-- The functions called do what they are for: see C75, C76, C80, C66, and C63 for `element_of_order`, which gives zero or an
    element whose order is at least the integer it is given. -/
structure EnvOk (e : Env F) : Prop where
  N : e.N.Ok
  mid : MiddleOk e.mid
  mul : MulOk e.mul
  thr : 0 < e.thr
  mp : ∀ n, Geom.MidOK e.mp n
  elt : ∀ n, e.elt n = 0 ∨ ∀ i, 1 ≤ i → i < n → e.elt n ^ i ≠ 1

end PML.Ntl.Kerbas
