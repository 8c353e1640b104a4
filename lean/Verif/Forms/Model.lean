import Verif.MatPoly.Model
import Mathlib.LinearAlgebra.Matrix.Rank

/-!
# Model: degrees, pivots, leading matrix and form predicates
(flint-extras/src/nmod_poly_mat_extra/degrees_pivots_leadingmatrix.c,
flint-extras/src/nmod_poly_mat_extra/nmod_poly_mat_is_form.c and
flint-extras/src/nmod_poly_mat_forms.h:493-515)

Degrees and shifts are mathematical integers. A shift is `none` for `NULL`.
Vectors are index functions. The column functions repeat the code of the row
functions on columns; they are modelled as one function on `line`s.
-/

namespace PML.Forms

open PML.MatOps PML.MatPoly Polynomial

variable {K : Type} [Field K] [DecidableEq K]

/-- `orientation_t`, nmod_poly_mat_forms.h:98-104. -/
inductive Orient | colUpper | colLower | rowUpper | rowLower
  deriving DecidableEq

/-- `orient == ROW_LOWER || orient == ROW_UPPER`. -/
def Orient.isRow : Orient → Bool
  | .rowLower => true
  | .rowUpper => true
  | _ => false

/-- `orient == ROW_LOWER || orient == COL_UPPER`. -/
def Orient.isRight : Orient → Bool
  | .rowLower => true
  | .colUpper => true
  | _ => false

/-- Row `k` or column `k`. -/
def line (row : Bool) (M : Mat K[X]) (k : Nat) : Nat → K[X] :=
  if row then M k else fun i => M i k

/-- Number of rows or columns. -/
def lineNum (row : Bool) (r c : Nat) : Nat := if row then r else c

/-- Length of the rows or columns. -/
def lineLen (row : Bool) (r c : Nat) : Nat := if row then c else r

/-- FLINT `nmod_poly_degree`: -1 for the zero polynomial. -/
noncomputable def pdeg (p : K[X]) : Int := (polyLength p : Int) - 1

/-- Inner loop, shift `NULL`. degrees_pivots_leadingmatrix.c:31-37, 81-87. -/
noncomputable def degLoopNull (p : Nat → K[X]) : Nat → Int
  | 0 => -1
  | j + 1 =>
    let max := degLoopNull p j
    let d := pdeg (p j)
    if max < d then d else max

/-- `for (j...) if (shift[j] < min_shift) min_shift = shift[j];`, lines 50-53, 100-103. -/
def minShiftLoop (s : Nat → Int) (init : Int) : Nat → Int
  | 0 => init
  | j + 1 =>
    let m := minShiftLoop s init j
    if s j < m then s j else m

/-- `min_shift`, lines 48-53, 98-103. -/
def minShift (s : Nat → Int) (n : Nat) : Int := minShiftLoop s (if n > 0 then s 0 else 0) n

/-- Inner loop with a shift, from `max = min_shift - 1`. Lines 57-64, 107-114. -/
noncomputable def degLoopShift (p : Nat → K[X]) (s : Nat → Int) (init : Int) : Nat → Int
  | 0 => init
  | j + 1 =>
    let max := degLoopShift p s init j
    let d := pdeg (p j) + s j
    if s j ≤ d ∧ max < d then d else max

/-- Degree of one vector and whether it is counted as nonzero, lines 31-40, 57-67. -/
noncomputable def vecDegree (shift : Option (Nat → Int)) (n : Nat) (p : Nat → K[X]) : Int × Bool :=
  match shift with
  | none =>
    let max := degLoopNull p n
    (max, decide (max ≥ 0))
  | some s =>
    let ms := minShift s n
    let max := degLoopShift p s (ms - 1) n
    (max, decide (max ≥ ms))

/-- Number of `true` among `f 0, ..., f (n-1)` (the counter `nnz`). -/
def countLoop (f : Nat → Bool) : Nat → Nat
  | 0 => 0
  | i + 1 => countLoop f i + if f i then 1 else 0

/-- `nmod_poly_mat_row_degree` (row, lines 23-71) and
    `nmod_poly_mat_column_degree` (lines 73-121): degrees and return value;
    `deg0` is the previous content of the output array. -/
noncomputable def lineDegrees (row : Bool) (r c : Nat) (M : Mat K[X])
    (shift : Option (Nat → Int)) (deg0 : Nat → Int) : (Nat → Int) × Nat :=
  let f := fun k => vecDegree shift (lineLen row r c) (line row M k)
  (fun k => if k < lineNum row r c then (f k).1 else deg0 k,
   countLoop (fun k => (f k).2) (lineNum row r c))

/-- `nmod_poly_mat_row_degree_zero`, `..._column_degree_zero`, lines 123-237. -/
noncomputable def lineDegreesZero (row : Bool) (r c : Nat) (M : Mat K[X])
    (shift : Option (Nat → Int)) (deg0 : Nat → Int) : (Nat → Int) × Nat :=
  let f := fun k => vecDegree shift (lineLen row r c) (line row M k)
  let z : Int := match shift with
    | none => 0
    | some s => minShift s (lineLen row r c)
  (fun k => if k < lineNum row r c then (if (f k).2 then (f k).1 else z) else deg0 k,
   countLoop (fun k => (f k).2) (lineNum row r c))

/-- `nmod_poly_mat_degree_matrix_shifted` (lines 247-267); with `NULL`, also
    `nmod_poly_mat_degree_matrix` (lines 240-245). -/
noncomputable def degreeMatrixShifted (r c : Nat) (M : Mat K[X]) (shift : Option (Nat → Int))
    (o : Orient) (D0 : Mat Int) : Mat Int := fun i j =>
  if i < r ∧ j < c then
    match shift with
    | none => pdeg (M i j)
    | some s => if o.isRow then pdeg (M i j) + s j else pdeg (M i j) + s i
  else D0 i j

/-- Comparison of the pivot loops: `max <= d` (rightmost) or `max < d`. -/
def better (right : Bool) (max d : Int) : Prop := if right then max ≤ d else max < d

instance (right : Bool) (max d : Int) : Decidable (better right max d) := by
  unfold better; infer_instance

/-- Pivot loop, shift `NULL`: `(max, piv)`. Lines 285-296, 328-339. -/
noncomputable def pivLoopNull (right : Bool) (p : Nat → K[X]) : Nat → Int × Int
  | 0 => (-1, -1)
  | j + 1 =>
    let s := pivLoopNull right p j
    let d := pdeg (p j)
    if 0 ≤ d ∧ better right s.1 d then (d, (j : Int)) else s

/-- Pivot loop with a shift: `(max, piv)`. Lines 303-318, 346-361. -/
noncomputable def pivLoopShift (right : Bool) (p : Nat → K[X]) (sh : Nat → Int) : Nat → Int × Int
  | 0 => (0, -1)
  | j + 1 =>
    let s := pivLoopShift right p sh j
    let d := pdeg (p j)
    if 0 ≤ d ∧ (s.2 = -1 ∨ better right s.1 (d + sh j)) then (d + sh j, (j : Int)) else s

/-- `_nmod_poly_vec_pivot_profile(pivind, pivdeg, vec, shift, len, orient)`:
    `(pivind, pivdeg, return value)`. Lines 274-367. Note the last case (lines
    362-363), where the two sentinels are exchanged. -/
noncomputable def vecPivotProfile (o : Orient) (shift : Option (Nat → Int)) (len : Nat)
    (p : Nat → K[X]) : Int × Int × Nat :=
  if o.isRight then
    match shift with
    | none =>
      let s := pivLoopNull true p len
      (s.2, s.1, if s.2 ≥ 0 then 1 else 0)
    | some sh =>
      let s := pivLoopShift true p sh len
      (s.2, if s.2 = -1 then -1 else s.1 - sh s.2.toNat, if s.2 ≥ 0 then 1 else 0)
  else
    match shift with
    | none =>
      let s := pivLoopNull false p len
      (if s.2 = -1 then (len : Int) else s.2, s.1, if s.2 ≥ 0 then 1 else 0)
    | some sh =>
      let s := pivLoopShift false p sh len
      (s.2, if s.2 = -1 then (len : Int) else s.1 - sh s.2.toNat, if s.2 ≥ 0 then 1 else 0)

/-- `nmod_poly_mat_pivot_profile(pivind, pivdeg, mat, shift, orient)`, lines 399-426
    (`nmod_poly_mat_pivot_index`, 369-397, is the first component):
    `(pivind, pivdeg, number of nonzero lines)`. Only entries `k < dim` are
    meaningful. -/
noncomputable def pivotProfile (o : Orient) (r c : Nat) (M : Mat K[X])
    (shift : Option (Nat → Int)) : (Nat → Int) × (Nat → Int) × Nat :=
  let f := fun k => vecPivotProfile o shift (lineLen o.isRow r c) (line o.isRow M k)
  (fun k => (f k).1, fun k => (f k).2.1,
   countLoop (fun k => decide ((f k).2.2 = 1)) (lineNum o.isRow r c))

/-- `piv = n - 1; while (piv >= 0 && vec[piv] == 0) piv--;`, lines 437-439, 470-472. -/
noncomputable def searchLast (p : Nat → K[X]) : Nat → Int
  | 0 => -1
  | n + 1 => if p n = 0 then searchLast p n else (n : Int)

/-- `piv = 0; while (piv < n && vec[piv] == 0) piv++;` from `piv`, `k` steps at
    most. Lines 448-450, 459-461. -/
noncomputable def searchFirst (p : Nat → K[X]) : Nat → Nat → Nat
  | 0, piv => piv
  | k + 1, piv => if p piv = 0 then searchFirst p k (piv + 1) else piv

/-- `nmod_poly_mat_echelon_pivot_profile`, lines 479-533: index and degree for one
    line (`..._pivot_index`, 428-477, is the first component). -/
noncomputable def echelonPivot (o : Orient) (n : Nat) (p : Nat → K[X]) : Int × Int :=
  if o.isRight then
    let piv := searchLast p n
    (piv, if piv = -1 then -1 else pdeg (p piv.toNat))
  else
    let piv := searchFirst p n 0
    ((piv : Int), if piv = n then -1 else pdeg (p piv))

/-- Echelon pivot index of line `k`. -/
noncomputable def echelonIndex (o : Orient) (r c : Nat) (M : Mat K[X]) (k : Nat) : Int :=
  (echelonPivot o (lineLen o.isRow r c) (line o.isRow M k)).1

/-- Echelon pivot degree of line `k`. -/
noncomputable def echelonDegree (o : Orient) (r c : Nat) (M : Mat K[X]) (k : Nat) : Int :=
  (echelonPivot o (lineLen o.isRow r c) (line o.isRow M k)).2

/-- Coefficient extracted by `nmod_poly_mat_leading_matrix` for an entry `e` of a
    line of degree `d`, lines 553-576. -/
noncomputable def leadCoeff (shift : Option (Nat → Int)) (d : Int) (j : Nat) (e : K[X]) : K :=
  match shift with
  | none => if d ≥ 0 then e.coeff d.toNat else 0
  | some s => if d ≥ s j then e.coeff (d - s j).toNat else 0

/-- `nmod_poly_mat_leading_matrix(lmat, mat, shift, orient)`, lines 540-607. -/
noncomputable def leadingMatrix (o : Orient) (r c : Nat) (M : Mat K[X])
    (shift : Option (Nat → Int)) (lmat0 : Mat K) : Mat K := fun i j =>
  if i < r ∧ j < c then
    let k := if o.isRow then i else j
    let l := if o.isRow then j else i
    let d := (lineDegrees o.isRow r c M shift (fun _ => 0)).1 k
    leadCoeff shift d l (M i j)
  else lmat0 i j

/-- `nmod_poly_mat_is_reduced(mat, shift, orient)`, nmod_poly_mat_is_form.c:33-46.
    FLINT's `nmod_mat_rank` is Mathlib's rank. -/
noncomputable def isReduced (o : Orient) (r c : Nat) (M : Mat K[X])
    (shift : Option (Nat → Int)) : Bool :=
  let lmat := leadingMatrix o r c M shift (fun _ _ => 0)
  let rank := (Matrix.of fun (i : Fin r) (j : Fin c) => lmat i j : Matrix (Fin r) (Fin c) K).rank
  decide (lineNum o.isRow r c = rank)

/-- `qsort(pivind, dim, sizeof(slong), _slong_comparator)`. -/
abbrev QsortIntFn := List Int → List Int

/-- The C standard's contract for the comparator `_slong_comparator`
    (nmod_poly_mat_is_form.c:19-27). -/
def QsortIntContract (qs : QsortIntFn) : Prop :=
  ∀ l, (qs l).Perm l ∧ (qs l).Pairwise (· ≤ ·)

/-- `for (i = 0; i < n; i++) if (f[i] >= f[i+1]) return 0;` (true = no return). -/
def increasingLoop (f : Nat → Int) : Nat → Bool
  | 0 => true
  | i + 1 => increasingLoop f i && decide (f i < f (i + 1))

/-- The three tests of lines 68-79 and 102-113 on an array of `dim` indices. -/
def pivotTests (dim zpiv : Nat) (f : Nat → Int) : Bool :=
  if dim > 0 ∧ f 0 = -1 then false
  else if increasingLoop f (dim - 1) = false then false
  else if dim > 0 ∧ f (dim - 1) = (zpiv : Int) then false
  else true

/-- `nmod_poly_mat_is_weak_popov`, lines 52-83 (the array is not freed on the
    early returns; memory is not modelled here). -/
noncomputable def isWeakPopov (qs : QsortIntFn) (o : Orient) (r c : Nat) (M : Mat K[X])
    (shift : Option (Nat → Int)) : Bool :=
  let dim := lineNum o.isRow r c
  let pivind := (pivotProfile o r c M shift).1
  let sorted := qs ((List.range dim).map pivind)
  pivotTests dim (lineLen o.isRow r c) (fun i => sorted.getD i 0)

/-- `nmod_poly_mat_is_ordered_weak_popov`, lines 89-117. -/
noncomputable def isOrderedWeakPopov (o : Orient) (r c : Nat) (M : Mat K[X])
    (shift : Option (Nat → Int)) : Bool :=
  pivotTests (lineNum o.isRow r c) (lineLen o.isRow r c) (pivotProfile o r c M shift).1

/-- Entry `(i, j)`, or `none` when it is outside the `r × c` matrix. -/
def entryAt (r c : Nat) (M : Mat K[X]) (i j : Int) : Option K[X] :=
  if 0 ≤ i ∧ i < r ∧ 0 ≤ j ∧ j < c then some (M i.toNat j.toNat) else none

/-- Tests in the order of the loop, with early exit; `none` is an access out of
    bounds. -/
def allLoop (t : Nat → Option Bool) : Nat → Option Bool
  | 0 => some true
  | n + 1 =>
    match allLoop t n with
    | some true => t n
    | res => res

/-- The tests of `nmod_poly_mat_is_popov` after the form test, lines 142-168;
    `get k x` is the entry read for line `k` at position `x`. -/
noncomputable def popovTests (get : Int → Int → Option K[X]) (dim : Nat) (pivind pivdeg : Nat → Int) :
    Option Bool :=
  match allLoop (fun i => (get i (pivind i)).map fun e => decide (e.leadingCoeff = 1)) dim with
  | some true =>
    allLoop (fun i => allLoop (fun ii =>
      if i ≠ ii then (get ii (pivind i)).map fun e => decide (¬ pdeg e ≥ pivdeg i)
      else some true) dim) dim
  | res => res

/-- `nmod_poly_mat_is_popov`, lines 123-172. The test of line 142 is
    `orient == ROW_LOWER || orient == ROW_LOWER`: the orientation `ROW_UPPER`
    goes to the column branch, with `dim` the number of rows. -/
noncomputable def isPopov (o : Orient) (r c : Nat) (M : Mat K[X])
    (shift : Option (Nat → Int)) : Option Bool :=
  let dim := lineNum o.isRow r c
  if isOrderedWeakPopov o r c M shift = false then some false
  else
    let prof := pivotProfile o r c M shift
    if o = Orient.rowLower ∨ o = Orient.rowLower then
      popovTests (fun k x => entryAt r c M k x) dim prof.1 prof.2.1
    else
      popovTests (fun k x => entryAt r c M x k) dim prof.1 prof.2.1

/-- `i = 0; while (i < dim && f[i] == -1) i++;` from `i`, `n` steps at most,
    lines 194-196. -/
def skipUp (f : Nat → Int) : Nat → Nat → Nat
  | 0, i => i
  | n + 1, i => if f i = -1 then skipUp f n (i + 1) else i

/-- `while (i+1 < dim) { if (f[i] >= f[i+1]) return 0; i++; }`, lines 202-209,
    `n = dim - 1 - i`. -/
def checkUp (f : Nat → Int) : Nat → Nat → Bool
  | 0, _ => true
  | n + 1, i => if f i ≥ f (i + 1) then false else checkUp f n (i + 1)

/-- `i = dim - 1; while (i >= 0 && f[i] == zpiv) i--;` result `i + 1`, lines 214-216. -/
def skipDown (f : Nat → Int) (zpiv : Int) : Nat → Nat
  | 0 => 0
  | n + 1 => if f n = zpiv then skipDown f zpiv n else n + 1

/-- `while (i > 0) { if (f[i-1] >= f[i]) return 0; i--; }`, lines 222-229. -/
def checkDown (f : Nat → Int) : Nat → Bool
  | 0 => true
  | n + 1 => if f n ≥ f (n + 1) then false else checkDown f n

/-- `nmod_poly_mat_is_echelon(mat, orient)`, lines 178-234. -/
noncomputable def isEchelon (o : Orient) (r c : Nat) (M : Mat K[X]) : Bool :=
  let dim := lineNum o.isRow r c
  let f := echelonIndex o r c M
  if o.isRight then
    let i := skipUp f dim 0
    checkUp f (dim - 1 - i) i
  else
    let i := skipDown f (lineLen o.isRow r c) dim
    checkDown f (i - 1)

/-- One line of the last loops of `nmod_poly_mat_is_hermite`, lines 266-309. The
    lines compared are those after (`ROW_LOWER`, `COL_UPPER`) or before. -/
noncomputable def hermiteLine (o : Orient) (r c : Nat) (M : Mat K[X]) (k : Nat) : Bool :=
  let dim := lineNum o.isRow r c
  let piv := (echelonIndex o r c M k).toNat
  let deg := echelonDegree o r c M k
  decide ((line o.isRow M k piv).leadingCoeff = 1) &&
  if o.isRight then
    (List.range dim).all fun kk =>
      decide (¬ (k + 1 ≤ kk ∧ (polyLength (line o.isRow M kk piv) : Int) > deg))
  else
    (List.range k).all fun kk => decide (¬ (polyLength (line o.isRow M kk piv) : Int) > deg)

/-- `nmod_poly_mat_is_hermite(mat, orient)`, lines 240-314. -/
noncomputable def isHermite (o : Orient) (r c : Nat) (M : Mat K[X]) : Bool :=
  let dim := lineNum o.isRow r c
  if dim = 0 then true
  else if isEchelon o r c M = false then false
  else if echelonIndex o r c M 0 = -1 ∨ echelonIndex o r c M (dim - 1) = (lineLen o.isRow r c : Int)
  then false
  else (List.range dim).all (hermiteLine o r c M)

/-- `poly_mat_form_t`, nmod_poly_mat_forms.h:57-66. -/
inductive Form | none | reduced | weakPopov | ordWeakPopov | popov | echelon | hermite

/-- `nmod_poly_mat_is_form(mat, form, shift, orient)`, nmod_poly_mat_forms.h:493-515,
    as written: `HERMITE` calls the echelon test. -/
noncomputable def isForm (qs : QsortIntFn) (o : Orient) (r c : Nat) (M : Mat K[X]) (form : Form)
    (shift : Option (Nat → Int)) : Option Bool :=
  match form with
  | .none => some true
  | .reduced => some (isReduced o r c M shift)
  | .weakPopov => some (isWeakPopov qs o r c M shift)
  | .ordWeakPopov => some (isOrderedWeakPopov o r c M shift)
  | .popov => isPopov o r c M shift
  | .echelon => some (isEchelon o r c M)
  | .hermite => some (isEchelon o r c M)

end PML.Forms
