import Mathlib.Logic.Function.Basic

/-!
# Specification: rotations, permutations, triangular factors

Independent of the model.
-/

namespace PML.MatOps.Spec

/-- `g` is `f` with the block `i..j` rotated by one position towards larger
    indices: the last entry comes first, the others move by one. -/
structure RotatedDown {α : Type} (i j : Nat) (f g : Nat → α) : Prop where
  first : g i = f j
  block : ∀ k, i ≤ k → k < j → g (k + 1) = f k
  other : ∀ k, k < i ∨ j < k → g k = f k

/-- `g` is `f` with the block `i..j` rotated by one position towards smaller
    indices. -/
structure RotatedUp {α : Type} (i j : Nat) (f g : Nat → α) : Prop where
  last : g j = f i
  block : ∀ k, i ≤ k → k < j → g k = f (k + 1)
  other : ∀ k, k < i ∨ j < k → g k = f k

/-- `p` maps `{0,…,n-1}` bijectively to itself. -/
def IsPerm (n : Nat) (p : Nat → Nat) : Prop :=
  (∀ i, i < n → p i < n) ∧ (∀ i j, i < n → j < n → p i = p j → i = j)

/-- Unit lower triangular factor stored in the first `rk` columns of `LU`. -/
def lower {K : Type} [Zero K] [One K] (rk : Nat) (LU : Nat → Nat → K) (i j : Nat) : K :=
  if i = j then 1 else if j < i ∧ j < rk then LU i j else 0

/-- Upper triangular factor stored in the first `rk` rows of `LU`. -/
def upper {K : Type} [Zero K] (rk : Nat) (LU : Nat → Nat → K) (i j : Nat) : K :=
  if i ≤ j ∧ i < rk then LU i j else 0

end PML.MatOps.Spec
