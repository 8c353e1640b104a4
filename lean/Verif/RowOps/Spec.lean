import Verif.PolyMul.Spec
import Mathlib.LinearAlgebra.Matrix.Determinant.Basic
import Mathlib.LinearAlgebra.Matrix.Rank
import Mathlib.RingTheory.Localization.FractionRing

/-!
# Specification: left transformations, rank and row rank profile

Matrices are index functions; the column index may be of any type, so that two
matrices side by side (`beside`) undergo one and the same transformation.
-/

namespace PML.RowOps.Spec

open PML.PolyMul.Spec

/-- The first `m` rows of `B` are `U * A` for an `m × m` matrix `U` of determinant
    `σ`; the other rows are the same. -/
def Transformed {R ι : Type} [CommRing R] (m : Nat) (σ : R) (A B : Nat → ι → R) : Prop :=
  ∃ U : Nat → Nat → R, (asMatrix m m U).det = σ ∧
    (∀ i, i < m → ∀ j, B i j = ∑ k ∈ Finset.range m, U i k * A k j) ∧
    ∀ i, m ≤ i → B i = A i

/-- `A` and the optional `T` side by side. -/
def beside {R : Type} [Zero R] (A : Nat → Nat → R) (T : Option (Nat → Nat → R)) :
    Nat → Nat ⊕ Nat → R := fun i j => match j with
  | .inl j => A i j
  | .inr j => (T.getD fun _ _ => 0) i j

/-- Rank of the `m × c` matrix `A` over the field of fractions. -/
noncomputable def rankOf {R : Type} [CommRing R] [IsDomain R] (m c : Nat) (A : Nat → Nat → R) : Nat :=
  ((asMatrix m c A).map (algebraMap R (FractionRing R))).rank

/-- `p 0 < p 1 < ... < p (k-1)` is the row rank profile of the `m × c` matrix: the
    indices of the rows which are independent from the previous rows. -/
structure RowRankProfile {R : Type} [CommRing R] [IsDomain R] (m c : Nat) (A : Nat → Nat → R)
    (k : Nat) (p : Nat → Nat) : Prop where
  lt : ∀ l, l < k → p l < m
  increasing : ∀ l l', l < l' → l' < k → p l < p l'
  profile : ∀ i, i < m → ((∃ l, l < k ∧ p l = i) ↔ rankOf i c A < rankOf (i + 1) c A)

end PML.RowOps.Spec
