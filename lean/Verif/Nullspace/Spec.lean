import Verif.Pluq.Spec

/-!
# Specification: nullspaces
-/

namespace PML.Nullspace.Spec

open PML.MatOps.Spec PML.Pluq.Spec

variable {K : Type} [Field K]

/-- What is assumed of FLINT's `nmod_mat_nullspace` on a `rows × cols` matrix
    `B`: the first `nullity` columns of `X` lie in the right kernel of `B`,
    `nullity = cols - rank B`, and they are in reduced column echelon form with
    unit pivots at the last nonzero entries, in increasing order. -/
structure RightNullspace (rows cols : Nat) (B X : Nat → Nat → K) (nullity : Nat) : Prop where
  dim : nullity + (toMatrix rows cols B).rank = cols
  ker : ∀ i t, i < rows → t < nullity → ∑ k ∈ Finset.range cols, B i k * X k t = 0
  echelon : ∃ piv : Nat → Nat, (∀ t, t < nullity → piv t < cols) ∧
    (∀ s t, s < t → t < nullity → piv s < piv t) ∧
    (∀ s t, s < nullity → t < nullity → X (piv s) t = if s = t then 1 else 0) ∧
    (∀ k t, t < nullity → piv t < k → k < cols → X k t = 0)

/-- A compact left nullspace of the `m × n` matrix `A`. -/
structure CompactLeftNullspace (m n : Nat) (A X : Nat → Nat → K) (perm : Nat → Nat)
    (nullity : Nat) : Prop where
  dim : nullity + (toMatrix m n A).rank = m
  isPerm : IsPerm m perm
  mono₁ : ∀ i j, i < j → j < m - nullity → perm i < perm j
  mono₂ : ∀ i j, m - nullity ≤ i → i < j → j < m → perm i < perm j
  /-- the first entries of `perm` are the row rank profile of `A` -/
  profile : ∀ i, InRowRankProfile m n A i ↔ ∃ k, k < m - nullity ∧ perm k = i
  /-- row `perm[rank+i]` plus the combination of profile rows given by `X` vanishes -/
  relation : ∀ i j, i < nullity → j < n →
    A (perm (m - nullity + i)) j + ∑ k ∈ Finset.range (m - nullity), X i k * A (perm k) j = 0
  /-- only rows above are used -/
  lower : ∀ i k, i < nullity → k < m - nullity → X i k ≠ 0 → perm k < perm (m - nullity + i)

/-- `X` is a basis of the left nullspace of the `m × n` matrix `A`, with
    `nullity` rows, in reduced row echelon form with unit rightmost pivots. -/
structure LeftNullspaceBasis (m n : Nat) (A X : Nat → Nat → K) (nullity : Nat) : Prop where
  dim : nullity + (toMatrix m n A).rank = m
  ker : ∀ i j, i < nullity → j < n → ∑ k ∈ Finset.range m, X i k * A k j = 0
  /-- every vector of the left kernel is a combination of the rows of `X`, in one way only -/
  basis : ∀ v : Nat → K, (∀ j, j < n → ∑ k ∈ Finset.range m, v k * A k j = 0) →
    ∃ a : Nat → K, (∀ k, k < m → v k = ∑ i ∈ Finset.range nullity, a i * X i k) ∧
      ∀ b : Nat → K, (∀ k, k < m → v k = ∑ i ∈ Finset.range nullity, b i * X i k) →
        ∀ i, i < nullity → b i = a i
  echelon : ∃ piv : Nat → Nat, (∀ t, t < nullity → piv t < m) ∧
    (∀ s t, s < t → t < nullity → piv s < piv t) ∧
    (∀ s t, s < nullity → t < nullity → X t (piv s) = if s = t then 1 else 0) ∧
    (∀ k t, t < nullity → piv t < k → k < m → X t k = 0)

end PML.Nullspace.Spec
