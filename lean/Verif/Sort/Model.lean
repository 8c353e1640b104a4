import Verif.MatOps.Model

/-!
# Model: stable sort of a vector with its permutation
(flint-extras/src/nmod_poly_mat_extra/nmod_poly_mat_utils.c:84-176 and
flint-extras/src/nmod_mat_poly_extra/nmod_mat_poly_mbasis.c:61-114)

The C library's `qsort` is a parameter; `QsortContract` is what the C standard
says of it, for the comparator used here. Vectors of `slong` are `Nat → Int`
(comparison only, no overflow).
-/

namespace PML.Sort

open PML.MatOps

/-- `_slong_pair_compare` on (value, index). nmod_poly_mat_utils.c:96-113,
    nmod_mat_poly_mbasis.c:69-86. -/
def pairCompare (a b : Int × Nat) : Int :=
  if a.1 = b.1 then
    if a.2 < b.2 then -1 else if a.2 > b.2 then 1 else 0
  else if a.1 < b.1 then -1 else 1

/-- `qsort(pair_tmp, n, sizeof(slong_pair), _slong_pair_compare)`. -/
abbrev QsortFn := List (Int × Nat) → List (Int × Nat)

/-- The array is rearranged, and sorted for the comparator. -/
def QsortContract (qs : QsortFn) : Prop :=
  ∀ l, (qs l).Perm l ∧ (qs l).Pairwise fun a b => pairCompare a b ≤ 0

/-- The array of pairs filled by the first loop.
    nmod_poly_mat_utils.c:136-140, nmod_mat_poly_mbasis.c:104-108. -/
def pairs (n : Nat) (vec : Nat → Int) : List (Int × Nat) :=
  (List.range n).map fun i => (vec i, i)

/-- `_find_shift_permutation(perm, shift, n, pair_tmp)` (mbasis.c:99-114) and the
    permutation of `_vec_sort_permutation` (nmod_poly_mat_utils.c:130-145). -/
def sortPerm (qs : QsortFn) (n : Nat) (vec : Nat → Int) (perm : Nat → Nat) : Nat → Nat :=
  fun i => if i < n then ((qs (pairs n vec)).getD i (0, 0)).2 else perm i

/-- `sorted_vec` of `_vec_sort_permutation`, aliasing `vec`.
    nmod_poly_mat_utils.c:146-148. -/
def sortedVec (qs : QsortFn) (n : Nat) (vec : Nat → Int) : Nat → Int :=
  fun i => if i < n then ((qs (pairs n vec)).getD i (0, 0)).1 else vec i

/-- `_nmod_poly_mat_permute_rows_by_sorting_vec(mat, r, vec, perm)` for a matrix
    with `m` rows: `(mat, vec, perm)`. nmod_poly_mat_utils.c:151-162. -/
def permuteRowsBySorting {α : Type} (qs : QsortFn) (m : Nat) (A : Mat α) (r : Nat)
    (vec : Nat → Int) (perm : Nat → Nat) : Mat α × (Nat → Int) × (Nat → Nat) :=
  let p := sortPerm qs r vec perm
  let p : Nat → Nat := fun i => if r ≤ i ∧ i < m then i else p i
  ((permuteRows m A p none).1, sortedVec qs r vec, p)

/-- `_nmod_poly_mat_permute_columns_by_sorting_vec`. nmod_poly_mat_utils.c:165-176. -/
def permuteColumnsBySorting {α : Type} (qs : QsortFn) (m n : Nat) (A : Mat α) (r : Nat)
    (vec : Nat → Int) (perm : Nat → Nat) : Mat α × (Nat → Int) × (Nat → Nat) :=
  let p := sortPerm qs r vec perm
  let p : Nat → Nat := fun i => if r ≤ i ∧ i < n then i else p i
  ((permuteColumns m n A p none).1, sortedVec qs r vec, p)

end PML.Sort
