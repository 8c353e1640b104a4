import Mathlib.Logic.Function.Basic

/-!
# Model: rotations, permutations and compact LU expansion

Matrices are modelled as total functions `Nat → Nat → α` (row, column) together
with explicit dimensions `r`, `c`; entries outside `r × c` stand for memory the
function does not own and must not change. Vectors of indices are functions
`Nat → Nat`. Rows of a matrix are the functions `A i`.
All loops are in-place: each assignment is one `Function.update`.
-/

namespace PML.MatOps

/-- A matrix as an index function. -/
abbrev Mat (α : Type) := Nat → Nat → α

/-- `for (ii = i+n; ii > i; ii--) f[ii] = f[ii-1];`
    flint-extras/src/nmod_mat_extra/nmod_mat_rotations.c:31-32, 37-38, 95-96, 102-103. -/
def shiftDownLoop {α : Type} (i : Nat) : Nat → (Nat → α) → (Nat → α)
  | 0, f => f
  | n + 1, f => shiftDownLoop i n (Function.update f (i + n + 1) (f (i + n)))

/-- `for (ii = i; ii < i+n; ii++) f[ii] = f[ii+1];`
    flint-extras/src/nmod_mat_extra/nmod_mat_rotations.c:60-61, 66-67, 116-117, 124-125. -/
def shiftUpLoop {α : Type} : Nat → Nat → (Nat → α) → (Nat → α)
  | _, 0, f => f
  | i, n + 1, f => shiftUpLoop (i + 1) n (Function.update f i (f (i + 1)))

/-- Save entry `j`, shift, put it at `i`; nothing when `i = j`
    (nmod_mat_rotations.c:24-33, the block on `vec`, and 34-48 on the rows). -/
def rotDown {α : Type} (i j : Nat) (f : Nat → α) : Nat → α :=
  if i ≠ j then
    let tmp := f j
    Function.update (shiftDownLoop i (j - i) f) i tmp
  else f

/-- Save entry `i`, shift, put it at `j`; nothing when `i = j`
    (nmod_mat_rotations.c:54-63 and 64-78). -/
def rotUp {α : Type} (i j : Nat) (f : Nat → α) : Nat → α :=
  if i ≠ j then
    let tmp := f i
    Function.update (shiftUpLoop i (j - i) f) j tmp
  else f

/-- `_nmod_mat_rotate_rows_downward(mat, vec, i, j)`; `vec = none` is `NULL`.
    nmod_mat_rotations.c:22-50; also `_nmod_poly_mat_rotate_rows_downward`,
    nmod_poly_mat_extra/nmod_poly_mat_utils.c:22-51. Both FLINT branches (row
    pointers, or row contents through a buffer) move whole rows. -/
def rotateRowsDownward {α : Type} (A : Mat α) (vec : Option (Nat → Nat)) (i j : Nat) :
    Mat α × Option (Nat → Nat) :=
  (rotDown i j A, vec.map (rotDown i j))

/-- `_nmod_mat_rotate_rows_upward(mat, vec, i, j)`.
    nmod_mat_rotations.c:52-80; nmod_poly_mat_utils.c:53-82. -/
def rotateRowsUpward {α : Type} (A : Mat α) (vec : Option (Nat → Nat)) (i j : Nat) :
    Mat α × Option (Nat → Nat) :=
  (rotUp i j A, vec.map (rotUp i j))

/-- `_nmod_mat_rotate_columns_rightward(mat, vec, i, j)` on a matrix with `r`
    rows. nmod_mat_rotations.c:87-107. Rows are independent, so the outer loop
    is written as a map over the rows `ii < r`. -/
def rotateColumnsRightward {α : Type} (r : Nat) (A : Mat α) (vec : Option (Nat → Nat))
    (i j : Nat) : Mat α × Option (Nat → Nat) :=
  (fun ii => if ii < r then rotDown i j (A ii) else A ii, vec.map (rotDown i j))

/-- The body of the row loop of `_nmod_mat_rotate_columns_leftward`, as written:
    the saved entry goes back to column `i` (line 126), not to column `j`. -/
def leftwardRow {α : Type} (i j : Nat) (f : Nat → α) : Nat → α :=
  if i ≠ j then
    let tmp := f i
    Function.update (shiftUpLoop i (j - i) f) i tmp
  else f

/-- `_nmod_mat_rotate_columns_leftward(mat, vec, i, j)` as written.
    nmod_mat_rotations.c:109-129. -/
def rotateColumnsLeftward {α : Type} (r : Nat) (A : Mat α) (vec : Option (Nat → Nat))
    (i j : Nat) : Mat α × Option (Nat → Nat) :=
  (fun ii => if ii < r then leftwardRow i j (A ii) else A ii, vec.map (rotUp i j))

/-- FLINT `_perm_compose(res, p1, p2, n)` with `res = p1`: `res[i] = p1[p2[i]]`
    for `i < n` (FLINT copies `p1` first when it aliases `res`). -/
def permCompose (n : Nat) (p1 p2 : Nat → Nat) : Nat → Nat :=
  fun i => if i < n then p1 (p2 i) else p1 i

/-- `nmod_poly_mat_permute_rows(mat, perm_act, perm_store)`.
    flint-extras/src/nmod_poly_mat_utils.h:264-290; same code per coefficient in
    `nmod_mat_poly_permute_rows`, nmod_mat_poly.h:413-449. The buffer holds
    `mat[perm_act[i]]` for `i < r` before anything is written. -/
def permuteRows {α : Type} (r : Nat) (A : Mat α) (act : Nat → Nat)
    (store : Option (Nat → Nat)) : Mat α × Option (Nat → Nat) :=
  (fun i => if i < r then A (act i) else A i, store.map (fun s => permCompose r s act))

/-- `nmod_poly_mat_permute_columns(mat, perm_act, perm_store)`.
    flint-extras/src/nmod_poly_mat_utils.h:297-316. -/
def permuteColumns {α : Type} (r c : Nat) (A : Mat α) (act : Nat → Nat)
    (store : Option (Nat → Nat)) : Mat α × Option (Nat → Nat) :=
  (fun i j => if i < r ∧ j < c then A i (act j) else A i j,
   store.map (fun s => permCompose c s act))

/-- `nmod_mat_permute_columns(mat, perm_act, perm_store)` as written: the stored
    permutation is composed on `mat->r` entries (line 147).
    flint-extras/src/nmod_mat_extra/nmod_mat_rotations.c:141-164. -/
def nmodMatPermuteColumns {α : Type} (r c : Nat) (A : Mat α) (act : Nat → Nat)
    (store : Option (Nat → Nat)) : Mat α × Option (Nat → Nat) :=
  (fun i j => if i < r ∧ j < c then A i (act j) else A i j,
   store.map (fun s => permCompose r s act))

/-! ### Swaps and inversions of rows and columns (nmod_poly_mat_utils.h) -/

/-- Exchange two entries of an array. -/
def swapAt {α : Type} (a b : Nat) (f : Nat → α) : Nat → α :=
  if a ≠ b then
    let t := f b
    Function.update (Function.update f b (f a)) a t
  else f

/-- `nmod_poly_mat_swap_rows(mat, perm, r, s)`. nmod_poly_mat_utils.h:169-191. -/
def swapRows {α : Type} (A : Mat α) (perm : Option (Nat → Nat)) (a b : Nat) :
    Mat α × Option (Nat → Nat) :=
  (swapAt a b A, perm.map (swapAt a b))

/-- `nmod_poly_mat_swap_columns(mat, perm, r, s)`. nmod_poly_mat_utils.h:210-230. -/
def swapColumns {α : Type} (r : Nat) (A : Mat α) (perm : Option (Nat → Nat)) (a b : Nat) :
    Mat α × Option (Nat → Nat) :=
  (fun ii => if ii < r then swapAt a b (A ii) else A ii, perm.map (swapAt a b))

/-- `for (i = 0; i < m/2; i++) swap(f[i], f[m-i-1]);` with `k` iterations done. -/
def invertLoop {α : Type} (m : Nat) : Nat → (Nat → α) → (Nat → α)
  | 0, f => f
  | k + 1, f => swapAt k (m - k - 1) (invertLoop m k f)

/-- `nmod_poly_mat_invert_rows(mat, perm)`. nmod_poly_mat_utils.h:197-203. -/
def invertRows {α : Type} (r : Nat) (A : Mat α) (perm : Option (Nat → Nat)) :
    Mat α × Option (Nat → Nat) :=
  (invertLoop r (r / 2) A, perm.map (invertLoop r (r / 2)))

/-- `nmod_poly_mat_invert_columns(mat, perm)`. nmod_poly_mat_utils.h:236-257. -/
def invertColumns {α : Type} (r c : Nat) (A : Mat α) (perm : Option (Nat → Nat)) :
    Mat α × Option (Nat → Nat) :=
  (fun ii => if ii < r then invertLoop c (c / 2) (A ii) else A ii,
   perm.map (invertLoop c (c / 2)))

/-! ### Expansion of a compact LU (nmod_mat_pluq.c) -/

section CompactLU
variable {K : Type} [Zero K] [One K]

/-- `_nmod_vec_set(dst + o, src + o, n)` on one row. -/
def copyRange (o n : Nat) (dst src : Nat → K) : Nat → K :=
  fun j => if o ≤ j ∧ j < o + n then src j else dst j

/-- `_nmod_vec_zero(dst + o, n)` on one row. -/
def zeroRange (o n : Nat) (dst : Nat → K) : Nat → K :=
  fun j => if o ≤ j ∧ j < o + n then 0 else dst j

/-- Filling of `L`, nmod_mat_pluq.c:32-50: entry (0,0), then rows `1 ≤ i < rk`,
    then rows `rk ≤ i < r`. Rows are independent. -/
def fillL (r rk : Nat) (L LU : Mat K) : Mat K :=
  let L0 : Mat K := fun i => if i = 0 then Function.update (L 0) 0 1 else L i
  let L1 : Mat K := fun i =>
    if 1 ≤ i ∧ i < rk then Function.update (copyRange 0 i (L0 i) (LU i)) i 1 else L0 i
  fun i =>
    if rk ≤ i ∧ i < r then Function.update (copyRange 0 rk (L1 i) (LU i)) i 1 else L1 i

/-- Zeroing of the lower part when `U` aliases `LU`, nmod_mat_pluq.c:55-66. -/
def zeroLowerU (r rk : Nat) (LU : Mat K) : Mat K :=
  let U1 : Mat K := fun i => if 1 ≤ i ∧ i < rk then zeroRange 0 i (LU i) else LU i
  fun i => if rk ≤ i ∧ i < r then zeroRange 0 rk (U1 i) else U1 i

/-- `_nmod_mat_l_u_from_compactlu_zeroin(L, U, LU, rk)` with `U` aliasing `LU`:
    the value of `(L, LU)` after the call. nmod_mat_pluq.c:22-67. -/
def luZeroinAliased (r rk : Nat) (L LU : Mat K) : Mat K × Mat K :=
  if r = 0 then (L, LU)
  else (fillL r rk L LU, zeroLowerU r rk LU)

/-- `_nmod_mat_l_u_from_compactlu_zeroin(L, U, LU, rk)`, `U` not aliasing, FLINT
    before 3.3 (line 72). nmod_mat_pluq.c:22-76. -/
def luZeroinOld (r c rk : Nat) (L U LU : Mat K) : Mat K × Mat K :=
  if r = 0 then (L, U)
  else (fillL r rk L LU,
        fun i => if i < rk then copyRange i (c - i) (U i) (LU i) else U i)

/-- Same function, FLINT 3.3 and later (line 74): the rows of `U` are written
    into `L`. nmod_mat_pluq.c:22-76. `c - i` entries are written from `(i,i)`;
    this definition keeps them in row `i` (when `c > r` the C code runs over
    the following rows, and over the end of the array for the last one). -/
def luZeroinNew (r c rk : Nat) (L U LU : Mat K) : Mat K × Mat K :=
  if r = 0 then (L, U)
  else (let L1 := fillL r rk L LU
        fun i => if i < rk then copyRange i (c - i) (L1 i) (LU i) else L1 i, U)

/-- Zeroing of `L` in `nmod_mat_l_u_from_compactlu`, nmod_mat_pluq.c:84-95
    (the first loop starts at row 1). `L` is `r × r`. -/
def preZeroL (r rk : Nat) (L : Mat K) : Mat K :=
  let L1 : Mat K := fun i =>
    if 1 ≤ i ∧ i < rk then zeroRange (i + 1) (r - i - 1) (L i) else L i
  fun i => if rk ≤ i ∧ i < r then zeroRange rk (r - rk) (L1 i) else L1 i

/-- Zeroing of `U`, nmod_mat_pluq.c:98-112. -/
def preZeroU (r c rk : Nat) (U : Mat K) : Mat K :=
  let U1 : Mat K := fun i => if 1 ≤ i ∧ i < rk then zeroRange 0 i (U i) else U i
  fun i => if rk ≤ i ∧ i < r then zeroRange 0 c (U1 i) else U1 i

/-- `nmod_mat_l_u_from_compactlu(L, U, LU, rk)`, `U` aliasing `LU`.
    nmod_mat_pluq.c:78-116. -/
def luFromCompactAliased (r rk : Nat) (L LU : Mat K) : Mat K × Mat K :=
  luZeroinAliased r rk (preZeroL r rk L) LU

/-- `nmod_mat_l_u_from_compactlu(L, U, LU, rk)`, `U` distinct, FLINT before 3.3. -/
def luFromCompactOld (r c rk : Nat) (L U LU : Mat K) : Mat K × Mat K :=
  luZeroinOld r c rk (preZeroL r rk L) (preZeroU r c rk U) LU

/-- `nmod_mat_l_u_from_compactlu(L, U, LU, rk)`, `U` distinct, FLINT 3.3 and later. -/
def luFromCompactNew (r c rk : Nat) (L U LU : Mat K) : Mat K × Mat K :=
  luZeroinNew r c rk (preZeroL r rk L) (preZeroU r c rk U) LU

end CompactLU

end PML.MatOps
