import Verif.Ntl.MbasisModel
import Verif.Ntl.InvSpec
import Verif.Approx.Spec
import Verif.Forms.Spec

/-!
# What is assumed of `kernel` and `image`, and what an approximant basis is
-/

namespace PML.Ntl.Mbasis

open Polynomial PML.Ntl.Utils PML.Approx.Spec PML.Forms.Spec

variable {F : Type} [Field F]

/-- The rows of `X` are a basis of the left kernel of `A`, in any order and any shape. -/
structure IsLeftKernel (A X : PMat F) : Prop where
  cols : X.cols = A.rows
  indep : ∀ c : Nat → F, (∀ l, l < A.rows → ∑ r ∈ Finset.range X.rows, c r * X.e (r, l) = 0) → ∀ r, r < X.rows → c r = 0
  span : ∀ v : Nat → F, (∀ j, j < A.cols → ∑ l ∈ Finset.range A.rows, v l * A.e (l, j) = 0) ↔
    ∃ c : Nat → F, ∀ l, l < A.rows → v l = ∑ r ∈ Finset.range X.rows, c r * X.e (r, l)

/-- `X` is in row echelon form, and its rows generate the same space as those of `A`. -/
structure IsImage (A X : PMat F) : Prop where
  cols : X.cols = A.cols
  span : ∀ v : Nat → F, (∃ c : Nat → F, ∀ l, l < A.cols → v l = ∑ r ∈ Finset.range A.rows, c r * A.e (r, l)) ↔
    ∃ c : Nat → F, ∀ l, l < A.cols → v l = ∑ r ∈ Finset.range X.rows, c r * X.e (r, l)
  echelon : ∃ q : Nat → Nat, (∀ r, r < X.rows → q r < A.cols ∧ X.e (r, q r) ≠ 0 ∧ ∀ j, j < q r → X.e (r, j) = 0) ∧
    ∀ r r', r < r' → r' < X.rows → q r < q r'

/-- What is assumed of NTL's functions. -/
structure Nt.Ok (N : Nt F) : Prop where
  ker : ∀ A, IsLeftKernel A (N.ker A)
  img : ∀ A, IsImage A (N.img A)

/-- The matrix of a `Mat`. -/
def mat {α : Type} (m n : Nat) (a : PMat α) : Matrix (Fin m) (Fin n) α := fun i j => a.e (i, j)

/-- `P` is an approximant basis of `pmat` at `order`, in ordered weak Popov form for the shift `s`, with its
    pivots on the diagonal, and `t` holds the shifted degrees of its rows. -/
structure IsMinBasis (pmat : PMat F[X]) (order : Nat) (s : Nat → Int) (P : PMat F[X]) (t : Nat → Int) : Prop where
  rows : P.rows = pmat.rows
  cols : P.cols = pmat.rows
  basis : IsApproximantBasis (mat pmat.rows pmat.cols pmat) order (mat pmat.rows pmat.rows P)
  popov : OrderedWeakPopovLower pmat.rows pmat.rows s fun i j => P.e (i, j)
  pivot : ∀ i, i < pmat.rows → PivotLower pmat.rows s (fun j => P.e (i, j)) i (t i - s i).toNat
  rdeg : ∀ i, i < pmat.rows → ShiftedDegree pmat.rows s (fun j => P.e (i, j)) (t i)
  ge : ∀ i, i < pmat.rows → s i ≤ t i
  deg : Utils.deg P ≤ order

end PML.Ntl.Mbasis
