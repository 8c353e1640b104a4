import Verif.MatOps.Model
import Mathlib.Algebra.Field.Defs

/-!
# Model: left nullspace (flint-extras/src/nmod_mat_extra/left_nullspace.c)

FLINT's `nmod_mat_nullspace` (right nullspace) is a parameter `fl`; what is
assumed about it is `Spec.RightNullspace`.
-/

namespace PML.Nullspace

open PML.MatOps

variable {K : Type} [Field K] [DecidableEq K]

/-- Right nullspace oracle: `fl rows cols B = (X, nullity)` stands for
    `nullity = nmod_mat_nullspace(X, B)`. -/
abbrev RightNullspaceFn (K : Type) := Nat → Nat → Mat K → Mat K × Nat

/-- `p = n - 1; while (p >= 0 && col[p] == 0) --p;` left_nullspace.c:71-73.
    If no entry is nonzero the C code yields -1 and this definition 0; this
    never happens on a nullspace basis (as the code's comment says). -/
def searchDown (col : Nat → K) : Nat → Nat
  | 0 => 0
  | n + 1 => if col n = 0 then searchDown col n else n

/-- `for (i = lo; i < lo + n; i++, r++) permutation[r] = i;`
    left_nullspace.c:79-80, 83-84, 86-87. -/
def fillLoop : Nat → Nat → (Nat → Nat) × Nat → (Nat → Nat) × Nat
  | 0, _, s => s
  | n + 1, i, s => fillLoop n (i + 1) (Function.update s.1 s.2 i, s.2 + 1)

/-- The loop over `j` of lines 82-84, from `j`, for `n` values of `j`. -/
def gapsLoop : Nat → Nat → (Nat → Nat) × Nat → (Nat → Nat) × Nat
  | 0, _, s => s
  | n + 1, j, s => gapsLoop n (j + 1) (fillLoop (s.1 (j + 1) - (s.1 j + 1)) (s.1 j + 1) s)

/-- Lines 69-87 of left_nullspace.c: `permutation` from the nullspace basis
    `Xt` (`m` rows); `perm0` is the (uninitialised) input array. -/
def buildPerm (m rank : Nat) (Xt : Mat K) (perm0 : Nat → Nat) : Nat → Nat :=
  let p0 : Nat → Nat := fun j =>
    if rank ≤ j ∧ j < m then searchDown (fun k => Xt k (j - rank)) m else perm0 j
  let s1 := fillLoop (p0 rank) 0 (p0, 0)
  let s2 := gapsLoop (m - 1 - rank) rank s1
  let s3 := fillLoop (m - (s2.1 (m - 1) + 1)) (s2.1 (m - 1) + 1) s2
  s3.1

/-- `nmod_mat_left_nullspace_compact(X, permutation, A)`, `A` of size `m × n`:
    `(X, permutation, nullity)`. left_nullspace.c:42-102. -/
def leftNullspaceCompact (fl : RightNullspaceFn K) (m n : Nat) (A : Mat K) (perm0 : Nat → Nat) :
    Mat K × (Nat → Nat) × Nat :=
  let At : Mat K := fun i j => A j i
  let res := fl n m At
  let Xt := res.1
  let nullity := res.2
  let rank := m - nullity
  if nullity ≠ 0 then
    let perm := buildPerm m rank Xt perm0
    (fun i j => if i < nullity ∧ j < rank then Xt (perm j) i else 0, perm, nullity)
  else
    (fun _ _ => 0, fun i => if i < m then i else perm0 i, nullity)

/-- `for (i = 0; i < n; ++i) X[i][perm[rank+i]] = 1` after `nmod_mat_init`
    (zero matrix), left_nullspace.c:29-31. -/
def onesLoop (rank : Nat) (perm : Nat → Nat) : Nat → Mat K → Mat K
  | 0, X => X
  | i + 1, X =>
    let X := onesLoop rank perm i X
    Function.update X i (Function.update (X i) (perm (rank + i)) 1)

/-- `for (j = 0; j < n; ++j) row[perm[j]] = y[j]`, left_nullspace.c:33-34. -/
def scatterRow (perm : Nat → Nat) (y : Nat → K) : Nat → (Nat → K) → (Nat → K)
  | 0, row => row
  | j + 1, row => Function.update (scatterRow perm y j row) (perm j) (y j)

/-- `nmod_mat_left_nullspace(X, A)`: `(X, nullity)`. left_nullspace.c:18-40. -/
def leftNullspace (fl : RightNullspaceFn K) (m n : Nat) (A : Mat K) (perm0 : Nat → Nat) :
    Mat K × Nat :=
  let res := leftNullspaceCompact fl m n A perm0
  let Y := res.1
  let perm := res.2.1
  let nullity := res.2.2
  let rank := m - nullity
  let X1 : Mat K := onesLoop rank perm nullity (fun _ _ => 0)
  (fun i => if i < nullity then scatterRow perm (Y i) rank (X1 i) else X1 i, nullity)

end PML.Nullspace
