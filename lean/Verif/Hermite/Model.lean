import Verif.WeakPopov.Model
import Mathlib.Algebra.Polynomial.FieldDivision

/-!
# Model: upper row echelon forms and Hermite normal forms
(flint-extras/src/nmod_poly_mat_extra/nmod_poly_mat_hermite.c)

A matrix `mat` and the optional companion `tsf` (also called `other`) are a pair.
The loops over the columns `jj ≥ j` of `mat` are modelled for every `jj ≥ j`, the
indices at or beyond the number of columns having no meaning; columns `jj < j` of
`mat` are left as they are. `nmod_poly_xgcd` is a parameter. Exact divisions
(`nmod_poly_divides`) and `nmod_poly_divrem` are the division of polynomials.
`NULL` for `mrp` is modelled by ignoring this output.
-/

namespace PML.Hermite

open PML.MatOps PML.MatPoly PML.Forms PML.WeakPopov Polynomial

variable {K : Type} [Field K] [DecidableEq K]

/-- `mat` and `tsf`. -/
abbrev Pair (K : Type) [Field K] := Mat K[X] × Option (Mat K[X])

/-- `nmod_poly_xgcd(g, u, v, a, b)`: `(g, u, v)`. -/
abbrev XgcdFn (K : Type) [Field K] := K[X] → K[X] → K[X] × K[X] × K[X]

/-- `while (k < k0 + n && ! p(k)) k++;` from `k = k0`. -/
def findFrom (p : Nat → Bool) : Nat → Nat → Nat
  | 0, k => k
  | n + 1, k => if p k then k else findFrom p n (k + 1)

/-- `_atomic_solve_pivot_collision_uechelon_rowwise(mat, other, pi1, pi2, j)`, lines 58-97. -/
noncomputable def atomicCollision (s : Pair K) (pi1 pi2 j : Nat) : Option (Pair K) :=
  (collisionFactor s.1 pi1 pi2 j).map fun u =>
    (Function.update s.1 pi1 fun jj =>
        if jj < j then s.1 pi1 jj else s.1 pi1 jj + u * s.1 pi2 jj,
     s.2.map fun T => addRowMul T pi1 pi2 u)

/-- `_pivot_collision_xgcd_uref(mat, other, pi, ii, j, ...)`, lines 116-195. -/
noncomputable def xgcdCollision (xg : XgcdFn K) (s : Pair K) (pi ii j : Nat) : Pair K :=
  let A := s.1
  if A pi j = 1 then
    (Function.update A ii fun jj =>
        if jj < j then A ii jj else if jj = j then 0 else A ii jj - A ii j * A pi jj,
     s.2.map fun T => Function.update T ii fun jj => T ii jj - A ii j * T pi jj)
  else
    let guv := xg (A pi j) (A ii j)
    let g := guv.1
    let u := guv.2.1
    let v := guv.2.2
    let pivg := A pi j / g
    let nonzg := A ii j / g
    (Function.update
        (Function.update A pi fun jj =>
          if jj < j then A pi jj else if jj = j then g else u * A pi jj + v * A ii jj)
        ii fun jj =>
          if jj < j then A ii jj else if jj = j then 0 else pivg * A ii jj - nonzg * A pi jj,
     s.2.map fun T =>
      Function.update
        (Function.update T pi fun jj => u * T pi jj + v * T ii jj)
        ii fun jj => pivg * T ii jj - nonzg * T pi jj)

/-- `_reduce_against_pivot_uref(mat, other, i, j, ii, u, v)`, lines 210-240. -/
noncomputable def reduceAgainst (s : Pair K) (i j ii : Nat) : Pair K :=
  let A := s.1
  if polyLength (A ii j) ≥ polyLength (A i j) then
    let u := A ii j / A i j
    let v := A ii j % A i j
    let u := -u
    (Function.update A ii fun jj =>
        if jj < j then A ii jj else if jj = j then v else A ii jj + u * A i jj,
     s.2.map fun T => Function.update T ii fun jj => T ii jj + u * T i jj)
  else s

open Classical in
/-- `_normalize_pivot_uref(mat, other, i, j)`, lines 252-268. -/
noncomputable def normalizePivot (s : Pair K) (i j : Nat) : Pair K :=
  let A := s.1
  if (A i j).Monic then s
  else
    let inv := C (A i j).leadingCoeff⁻¹
    (Function.update A i fun jj => if jj < j then A i jj else inv * A i jj,
     s.2.map fun T => Function.update T i fun jj => inv * T i jj)

/-- `for (ii = 0; ii < n; ii++) _reduce_against_pivot_uref(mat, other, i, j, ii, u, v)`,
    lines 291-292, 818-819, 841-842. -/
noncomputable def reduceAbove (i j : Nat) : Nat → Pair K → Pair K
  | 0, s => s
  | n + 1, s => reduceAgainst (reduceAbove i j n s) i j n

/-- `_normalize_uref(mat, other, pivind, rk)`, lines 277-297. -/
noncomputable def normalizeUref (pivind : Nat → Nat) : Nat → Pair K → Pair K
  | 0, s => s
  | n + 1, s =>
    let s := normalizeUref pivind n s
    reduceAbove n (pivind n) n (normalizePivot s n (pivind n))

/-- Swap rows of `mat` and `tsf`. -/
def swapPair (s : Pair K) (a b : Nat) : Pair K :=
  ((swapRows s.1 none a b).1, s.2.map fun T => (swapRows T none a b).1)

/-- Rotate rows of `mat` and `tsf` downward. -/
def rotPair (s : Pair K) (i j : Nat) : Pair K :=
  ((rotateRowsDownward s.1 none i j).1, s.2.map fun T => (rotateRowsDownward T none i j).1)

/-- Rotate rows of `mat` and `tsf` upward. -/
def rotUpPair (s : Pair K) (i j : Nat) : Pair K :=
  ((rotateRowsUpward s.1 none i j).1, s.2.map fun T => (rotateRowsUpward T none i j).1)

/-! ### Maximum degree pivoting (Rosser) -/

/-- Variables of the echelon form functions, and a flag for accesses out of bounds. -/
structure UState (K : Type) [Field K] where
  pair : Pair K
  pivind : Nat → Nat
  rk : Nat
  oob : Bool

/-- One iteration of the loop of lines 391-399, on `(pi1, pi2)`. -/
noncomputable def twoLargestStep (f : Nat → K[X]) (p : Nat × Nat) (i : Nat) : Nat × Nat :=
  if polyLength (f i) > polyLength (f p.1) then (i, p.1)
  else if polyLength (f i) > polyLength (f p.2) then (p.1, i)
  else p

/-- Search of two entries of largest degrees from `pi1`, lines 379-399. -/
noncomputable def twoLargest (f : Nat → K[X]) (r pi1 : Nat) : Nat × Nat :=
  let pi2 := pi1 + 1
  let p := if polyLength (f pi1) < polyLength (f pi2) then (pi2, pi1) else (pi1, pi2)
  (List.range' (max p.1 p.2 + 1) (r - (max p.1 p.2 + 1))).foldl (twoLargestStep f) p

/-- The body of `while (collision)`, lines 365-416; the flag is `collision`. -/
noncomputable def maxdegBody (r j : Nat) (st : UState K × Bool) : UState K × Bool :=
  let s := st.1
  let found (s : UState K) (pi1 : Nat) : UState K × Bool :=
    ({ s with pair := swapPair s.pair pi1 s.rk
              pivind := Function.update s.pivind s.rk j
              rk := s.rk + 1 }, false)
  let pi1 := findFrom (fun i => decide (s.pair.1 i j ≠ 0)) (r - s.rk) s.rk
  if pi1 = r then (s, false)
  else if pi1 = r - 1 then found s pi1
  else
    let p := twoLargest (fun i => s.pair.1 i j) r pi1
    if s.pair.1 p.2 j = 0 then found s p.1
    else
      match atomicCollision s.pair p.1 p.2 j with
      | none => ({ s with oob := true }, true)
      | some q => ({ s with pair := q }, true)

/-- Column `j`: `while (collision)`. -/
noncomputable def maxdegCol (fuel r j : Nat) (s : UState K) : Option (UState K) :=
  (whileLoop (fun st : UState K × Bool => st.2 && !st.1.oob) (maxdegBody r j) fuel (s, true)).map
    fun st => st.1

/-- `for (j = 0; j < c; j++)`. -/
def colsLoop {σ : Type} (f : Nat → σ → Option σ) : Nat → σ → Option σ
  | 0, s => some s
  | n + 1, s => (colsLoop f n s).bind (f n)

/-- `nmod_poly_mat_uref_maxdeg_atomic(mat, tsf, pivind)`, lines 345-421: final state;
    the return value is `rk`. -/
noncomputable def urefMaxdegAtomic (fuel r c : Nat) (A : Mat K[X]) (T : Option (Mat K[X]))
    (piv0 : Nat → Nat) : Option (UState K) :=
  let s0 : UState K := { pair := (A, T), pivind := piv0, rk := 0, oob := false }
  if r = 0 ∨ c = 0 then some s0 else colsLoop (maxdegCol fuel r) c s0

/-! ### Reverse lexicographic pivoting (Bradley) -/

/-- As `UState`, with `perm` and `mrp`. -/
structure RState (K : Type) [Field K] where
  pair : Pair K
  pivind : Nat → Nat
  mrp : Nat → Int
  perm : Nat → Nat
  rk : Nat

/-- The loop of lines 519-527 on `(mat, tsf)` and `ii`: one iteration. -/
noncomputable def killBody (xg : XgcdFn K) (r pi j : Nat) (st : Pair K × Nat) : Pair K × Nat :=
  let ii := findFrom (fun i => decide (st.1.1 i j ≠ 0)) (r - st.2) st.2
  if ii < r then (xgcdCollision xg st.1 pi ii j, ii) else (st.1, ii)

/-- Column `j`, lines 509-540. -/
noncomputable def revlexCol (xg : XgcdFn K) (fuel r j : Nat) (s : RState K) : Option (RState K) :=
  let pi := findFrom (fun i => decide (s.pair.1 i j ≠ 0)) (r - s.rk) s.rk
  if pi < r then
    (whileLoop (fun st : Pair K × Nat => decide (st.2 < r)) (killBody xg r pi j) fuel
      (s.pair, pi + 1)).map fun st =>
      let perm := rotDown s.rk pi s.perm
      { pair := rotPair st.1 s.rk pi
        pivind := Function.update s.pivind s.rk j
        mrp := Function.update s.mrp (perm s.rk) (j : Int)
        perm := perm
        rk := s.rk + 1 }
  else some s

/-- `for (i = 0; i < r; i++) mrp[i] = -1`. -/
def mrpInit (r : Nat) (mrp0 : Nat → Int) : Nat → Int := fun i => if i < r then -1 else mrp0 i

/-- `nmod_poly_mat_uref_revlex_xgcd(mat, tsf, pivind, mrp)`, lines 468-555. -/
noncomputable def urefRevlexXgcd (xg : XgcdFn K) (fuel r c : Nat) (A : Mat K[X])
    (T : Option (Mat K[X])) (piv0 : Nat → Nat) (mrp0 : Nat → Int) : Option (RState K) :=
  let s0 : RState K :=
    { pair := (A, T), pivind := piv0, mrp := mrpInit r mrp0, perm := id, rk := 0 }
  if r = 0 ∨ c = 0 then some s0 else colsLoop (revlexCol xg fuel r) c s0

/-! ### Lexicographic pivoting -/

/-- Variables of `nmod_poly_mat_uref_lex_xgcd`. -/
structure LState (K : Type) [Field K] where
  pair : Pair K
  pivind : Nat → Nat
  mrp : Nat → Int
  prow : Nat → Int
  rk : Nat
  zr : Nat

/-- The body of `while (j < mat->c && !pivot_found)`, lines 641-678, on
    `(variables, j, pivot_found)`. -/
noncomputable def lexInnerBody (xg : XgcdFn K) (c : Nat) (st : LState K × Nat × Bool) :
    LState K × Nat × Bool :=
  let s := st.1
  let j := st.2.1
  if s.pair.1 s.rk j = 0 then (s, j + 1, false)
  else if s.prow j ≥ 0 then
    ({ s with pair := xgcdCollision xg s.pair (s.prow j).toNat s.rk j }, j + 1, false)
  else
    let i := findFrom (fun i => decide (¬ s.pivind i < j)) s.rk 0
    let pivind := Function.update s.pivind s.rk j
    ({ pair := rotPair s.pair i s.rk
       pivind := rotDown i s.rk pivind
       mrp := Function.update s.mrp (s.rk + s.zr) (j : Int)
       prow := fun jj =>
        if jj = j then (i : Int)
        else if j < jj ∧ jj < c ∧ s.prow jj ≥ 0 then s.prow jj + 1
        else s.prow jj
       rk := s.rk + 1
       zr := s.zr }, j, true)

/-- The body of `while (rk+zr < mat->r)`, lines 634-687. -/
noncomputable def lexRow (xg : XgcdFn K) (fuel r c : Nat) (s : LState K) : Option (LState K) :=
  (whileLoop (fun st : LState K × Nat × Bool => decide (st.2.1 < c) && !st.2.2)
    (lexInnerBody xg c) fuel (s, 0, false)).map fun st =>
    let s := st.1
    let j := st.2.1
    if j = c then
      { s with
        mrp := Function.update s.mrp (s.rk + s.zr) (-1)
        zr := s.zr + 1
        pair := rotUpPair s.pair s.rk (r - 1) }
    else s

/-- `while (rk+zr < mat->r)`: each pass increments `rk + zr`, so there are exactly `r`
    passes; modelled by a loop over the number of processed rows. -/
noncomputable def lexLoop (xg : XgcdFn K) (fuel r c : Nat) : Nat → LState K → Option (LState K)
  | 0, s => some s
  | n + 1, s => if s.rk + s.zr < r then (lexRow xg fuel r c s).bind (lexLoop xg fuel r c n) else some s

/-- `nmod_poly_mat_uref_lex_xgcd(mat, tsf, pivind, mrp)`, lines 597-690. `none` when
    one of the loops does not end within the bound. -/
noncomputable def urefLexXgcd (xg : XgcdFn K) (fuel r c : Nat) (A : Mat K[X])
    (T : Option (Mat K[X])) (piv0 : Nat → Nat) (mrp0 : Nat → Int) : Option (LState K) :=
  let s0 : LState K :=
    { pair := (A, T), pivind := piv0, mrp := mrp0, prow := fun _ => -1, rk := 0, zr := 0 }
  if r = 0 ∨ c = 0 then some { s0 with mrp := mrpInit r mrp0 }
  else (lexLoop xg fuel r c fuel s0).bind fun s => if s.rk + s.zr < r then none else some s

/-! ### Kannan and Bachem -/

/-- Variables of `nmod_poly_mat_hnf_ur_revlex_xgcd_delayed_zero`. -/
structure KState (K : Type) [Field K] where
  pair : Pair K
  pivind : Nat → Nat
  mrp : Nat → Int
  perm : Nat → Nat
  prow : Nat → Int
  i : Nat
  j : Nat
  ii : Nat
  oob : Bool

/-- `for (; jj < j; jj++) ...`, lines 805-820, `n = j - jj`; `none`: `pivot_row[jj]`
    is negative, and a row before the first one would be accessed. -/
noncomputable def killRow (xg : XgcdFn K) (prow : Nat → Int) (ii : Nat) : Nat → Nat → Pair K → Option (Pair K)
  | 0, _, s => some s
  | n + 1, jj, s =>
    if s.1 ii jj ≠ 0 then
      if prow jj < 0 then none
      else
        let pi := (prow jj).toNat
        killRow xg prow ii n (jj + 1) (reduceAbove pi jj pi (xgcdCollision xg s pi ii jj))
    else killRow xg prow ii n (jj + 1) s

/-- The body of the main loop, lines 783-849. -/
noncomputable def kbBody (xg : XgcdFn K) (r : Nat) (s : KState K) : KState K :=
  let first (ii : Nat) : Nat := findFrom (fun jj => decide (s.pair.1 ii jj ≠ 0)) (s.j + 1) 0
  let ii := findFrom (fun ii => decide (first ii ≠ s.j + 1)) (r - s.ii) s.ii
  if ii = r then { s with ii := s.i, j := s.j + 1 }
  else
    match killRow xg s.prow ii (s.j - first ii) (first ii) s.pair with
    | none => { s with oob := true }
    | some q =>
      if q.1 ii s.j = 0 then { s with pair := q, ii := ii + 1 }
      else
        let perm := rotDown s.i ii s.perm
        let q := rotPair q s.i ii
        let q := normalizePivot q s.i s.j
        let q := reduceAbove s.i s.j s.i q
        { pair := q
          pivind := Function.update s.pivind s.i s.j
          mrp := Function.update s.mrp (perm s.i) (s.j : Int)
          perm := perm
          prow := Function.update s.prow s.j (s.i : Int)
          i := s.i + 1
          j := s.j + 1
          ii := s.i + 1
          oob := s.oob }

/-- `nmod_poly_mat_hnf_ur_revlex_xgcd_delayed_zero(mat, tsf, pivind, mrp)`, lines
    738-868; the return value is `i`. -/
noncomputable def hnfDelayedZero (xg : XgcdFn K) (fuel r c : Nat) (A : Mat K[X])
    (T : Option (Mat K[X])) (piv0 : Nat → Nat) (mrp0 : Nat → Int) : Option (KState K) :=
  let s0 : KState K :=
    { pair := (A, T), pivind := piv0, mrp := mrpInit r mrp0, perm := id, prow := fun _ => -1,
      i := 0, j := 0, ii := 0, oob := false }
  if r = 0 ∨ c = 0 then some s0
  else whileLoop (fun s : KState K => !s.oob && decide (s.i < r ∧ s.j < c)) (kbBody xg r) fuel s0

/-! ### Mulders and Storjohann -/

/-- Variables of `nmod_poly_mat_uref_matrixgcd_iter`. -/
structure GState (K : Type) [Field K] where
  pair : Pair K
  udet : Int
  pivind : Nat → Int
  oob : Bool

/-- `for (; ii < mat->r; ii++) if (MAT(ii,j) != 0) _pivot_collision_xgcd_uref(mat, tsf, pi, ii, j, ...)`,
    lines 970-972, `n` iterations from `ii`. -/
noncomputable def killBelow (xg : XgcdFn K) (pi j : Nat) : Nat → Nat → Pair K → Pair K
  | 0, _, s => s
  | n + 1, ii, s =>
    killBelow xg pi j n (ii + 1) (if s.1 ii j ≠ 0 then xgcdCollision xg s pi ii j else s)

/-- The search of a missed pivot, lines 933-985: `(mat and tsf, rk)`. The branch on `rrp`
    prints a message and changes nothing. -/
noncomputable def missedPivot (xg : XgcdFn K) (r rk : Nat) (s : Pair K) : Pair K × Nat :=
  let pi := findFrom (fun i => decide (s.1 i rk ≠ 0)) (r - rk) rk
  if pi < r then (swapPair (killBelow xg pi rk (r - (pi + 1)) (pi + 1) s) rk pi, rk + 1)
  else (s, rk)

/-- One pass of `while (i > 0)`, lines 1018-1037, with `i+1` for `i`; `.inl`: the
    function returns `-rk`. -/
noncomputable def gcdStep (qs : PML.Sort.QsortFn) (parity : (Nat → Nat) → Nat → Bool) (fuel r : Nat)
    (perm0 rrp0 : Nat → Nat) (i : Nat) (s : GState K) : Option (GState K ⊕ GState K) :=
  (weakPopovSubmat fuel .rowUpper none s.pair.1 s.pair.2 s.udet s.pivind rrp0 (i + 1) i 2).map fun sr =>
    let w := sr.1
    let newRk := sr.2
    let oob := s.oob || w.oob
    if newRk < (i : Int) ∨ w.mat i i = 0 then
      .inl { pair := (w.mat, w.tsf), udet := w.det, pivind := w.pivind, oob := oob }
    else
      let t := PML.Sort.permuteRowsBySorting qs r w.mat i w.pivind perm0
      .inr { pair := (t.1, w.tsf.map fun T => (permuteRows r T t.2.2 none).1)
             udet := if parity t.2.2 i then -w.det else w.det
             pivind := t.2.1
             oob := oob }

/-- `while (i > 0)`, lines 1003-1038. -/
noncomputable def gcdLoop (qs : PML.Sort.QsortFn) (parity : (Nat → Nat) → Nat → Bool) (fuel r : Nat)
    (perm0 rrp0 : Nat → Nat) : Nat → GState K → Option (GState K ⊕ GState K)
  | 0, s => some (.inr s)
  | i + 1, s =>
    match gcdStep qs parity fuel r perm0 rrp0 i s with
    | none => none
    | some (.inl s') => some (.inl s')
    | some (.inr s') => gcdLoop qs parity fuel r perm0 rrp0 i s'

/-- `nmod_poly_mat_uref_matrixgcd_iter(mat, tsf, pivind, rrp, udet)`, lines 901-1045: the
    final state and the return value. `rrp`, documented as not supported, is not an
    output of the model; `NULL` for `udet` is modelled by ignoring this output. The first
    weak Popov computation may return minus its rank only when this rank is 0. -/
noncomputable def urefMatrixgcdIter (xg : XgcdFn K) (qs : PML.Sort.QsortFn)
    (parity : (Nat → Nat) → Nat → Bool) (fuel r c : Nat) (perm0 rrp0 : Nat → Nat) (A : Mat K[X])
    (T : Option (Mat K[X])) (piv0 : Nat → Int) (udet0 : Int) : Option (GState K × Int) :=
  let s0 : GState K := { pair := (A, T), udet := udet0, pivind := piv0, oob := false }
  if r = 0 ∨ c = 0 then some (s0, 0)
  else
    let mdim := min r c
    (weakPopovSubmat fuel .rowUpper none A T udet0 piv0 rrp0 r (mdim - 1) r).bind fun sr =>
      let w := sr.1
      let q := missedPivot xg r sr.2.toNat (w.mat, w.tsf)
      let rk := q.2
      let s1 : GState K :=
        { pair := q.1, udet := w.det, pivind := w.pivind, oob := w.oob || decide (sr.2 < 0) }
      if ∃ i, i < r ∧ ∃ j, j < c ∧ rk ≤ i ∧ rk ≤ j ∧ q.1.1 i j ≠ 0 then some (s1, -(rk : Int) - 1)
      else
        (gcdLoop qs parity fuel r perm0 rrp0 rk s1).map fun res =>
          match res with
          | .inl s => (s, -(rk : Int))
          | .inr s => ({ s with pivind := fun j => if j < rk then (j : Int) else s.pivind j }, (rk : Int))

/-! ### Hermite normal forms from echelon forms -/

/-- `nmod_poly_mat_hnf_ur_maxdeg_atomic`, nmod_poly_mat_forms.h:644-653. -/
noncomputable def hnfMaxdegAtomic (fuel r c : Nat) (A : Mat K[X]) (T : Option (Mat K[X]))
    (piv0 : Nat → Nat) : Option (UState K) :=
  (urefMaxdegAtomic fuel r c A T piv0).map fun s =>
    { s with pair := normalizeUref s.pivind s.rk s.pair }

/-- `nmod_poly_mat_hnf_ur_revlex_xgcd`, nmod_poly_mat_forms.h:656-666. -/
noncomputable def hnfRevlexXgcd (xg : XgcdFn K) (fuel r c : Nat) (A : Mat K[X])
    (T : Option (Mat K[X])) (piv0 : Nat → Nat) (mrp0 : Nat → Int) : Option (RState K) :=
  (urefRevlexXgcd xg fuel r c A T piv0 mrp0).map fun s =>
    { s with pair := normalizeUref s.pivind s.rk s.pair }

/-- `nmod_poly_mat_hnf_ur_lex_xgcd`, nmod_poly_mat_forms.h:669-679. -/
noncomputable def hnfLexXgcd (xg : XgcdFn K) (fuel r c : Nat) (A : Mat K[X])
    (T : Option (Mat K[X])) (piv0 : Nat → Nat) (mrp0 : Nat → Int) : Option (LState K) :=
  (urefLexXgcd xg fuel r c A T piv0 mrp0).map fun s =>
    { s with pair := normalizeUref s.pivind s.rk s.pair }

/-- `nmod_poly_mat_hnf_ur_matrixgcd_iter`, nmod_poly_mat_forms.h:696-707. The
    normalization does nothing when the returned value is negative. -/
noncomputable def hnfMatrixgcdIter (xg : XgcdFn K) (qs : PML.Sort.QsortFn)
    (parity : (Nat → Nat) → Nat → Bool) (fuel r c : Nat) (perm0 rrp0 : Nat → Nat) (A : Mat K[X])
    (T : Option (Mat K[X])) (piv0 : Nat → Int) (udet0 : Int) : Option (GState K × Int) :=
  (urefMatrixgcdIter xg qs parity fuel r c perm0 rrp0 A T piv0 udet0).map fun sr =>
    ({ sr.1 with pair := normalizeUref (fun j => (sr.1.pivind j).toNat) sr.2.toNat sr.1.pair }, sr.2)

end PML.Hermite
