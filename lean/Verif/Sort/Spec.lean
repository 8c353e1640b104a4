import Verif.MatOps.Spec

/-! # Specification: stable sorting permutation -/

namespace PML.Sort.Spec

open PML.MatOps.Spec

/-- `p` is the stable sorting permutation of the `n` first entries of `vec`:
    values become nondecreasing, equal values keep their order. -/
structure StableSort (n : Nat) (vec : Nat → Int) (p : Nat → Nat) : Prop where
  isPerm : IsPerm n p
  sorted : ∀ i j, i < j → j < n → vec (p i) ≤ vec (p j)
  stable : ∀ i j, i < j → j < n → vec (p i) = vec (p j) → p i < p j

end PML.Sort.Spec
