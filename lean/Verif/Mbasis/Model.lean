import Verif.MatPoly.Model
import Verif.Sort.Model
import Verif.Nullspace.Model

/-!
# Model: `nmod_mat_poly_mbasis`
(flint-extras/src/nmod_mat_poly_extra/nmod_mat_poly_mbasis.c:116-378)

Parameters: `fl` is FLINT's `nmod_mat_nullspace`, `qs` the C library's `qsort`.
The shift is a vector of mathematical integers (no `slong` overflow). Profiling
and debug output are left out. The branch for FLINT >= 3.3 (lines 337-344) is
modelled for the shift of rows; `shiftRowsOld` is the other one (lines 322-335).
-/

namespace PML.Mbasis

open PML.MatOps PML.MatPoly PML.Sort PML.Nullspace

variable {K : Type} [Field K] [DecidableEq K]

/-- `for (i = 0; i < n; i++) shift[pivots[i]] += 1;` lines 266-267. -/
def bumpShift (piv : Nat → Nat) : Nat → (Nat → Int) → (Nat → Int)
  | 0, s => s
  | i + 1, s =>
    let s := bumpShift piv i s
    Function.update s (piv i) (s (piv i) + 1)

/-- Rows `rank..m-1` of one coefficient: `+= nsbas * (rows 0..rank-1)`.
    Lines 300-303. -/
def addRows (m rank : Nat) (ns A : Mat K) : Mat K := fun i j =>
  if rank ≤ i ∧ i < m then A i j + matMul rank ns A (i - rank) j else A i j

/-- The loop over the coefficients, lines 298-304. -/
def constantUpdate (m rank : Nat) (ns : Mat K) (P : MatPoly K) : MatPoly K :=
  { P with co := fun d => if d < P.len then addRows m rank ns (P.co d) else P.co d }

/-- Lines 311-317: one more (zero) coefficient when one of the first `rank` rows
    of the last coefficient is nonzero. -/
def grow (m rank : Nat) (P : MatPoly K) : MatPoly K :=
  if matIsZero rank m (P.co (P.len - 1)) then P else setLength P (P.len + 1)

/-- Lines 338-344: for `d = length-1, ..., 1` copy row `i` of coefficient `d-1`
    to coefficient `d`, then zero it in coefficient 0, for `i < rank`. -/
def shiftRows (rank : Nat) (P : MatPoly K) : MatPoly K :=
  { P with co := fun d i =>
      if i < rank then
        Function.update (shiftDownLoop 0 (P.len - 1) fun e => P.co e i) 0 (fun _ => 0) d
      else P.co d i }

/-- Lines 322-335 (FLINT < 3.3), on row pointers: the row pointers of the last
    coefficient are saved, the pointers are moved up by one coefficient, and the
    saved (zero) rows become the rows of coefficient 0. -/
def shiftRowsOld (rank : Nat) (P : MatPoly K) : MatPoly K :=
  { P with co := fun d i =>
      if i < rank then
        let save := P.co (P.len - 1) i
        Function.update (shiftDownLoop 0 (P.len - 1) fun e => P.co e i) 0 save d
      else P.co d i }

/-- FLINT `_perm_inv(res, vec, n)`: `for i: t[vec[i]] = i`. Line 354. -/
def permInv (p : Nat → Nat) : Nat → (Nat → Nat) → (Nat → Nat)
  | 0, q => q
  | i + 1, q => Function.update (permInv p i q) (p i) i

/-- State of the main loop. -/
structure State (K : Type) where
  app : MatPoly K
  shift : Nat → Int

/-- The usual case `0 < nullity < m`, lines 250-364. `ns` and `piv` come from the
    compact nullspace of the permuted residual. -/
def usualCase (m rank : Nat) (ns : Mat K) (perm piv : Nat → Nat) (s : State K) : State K :=
  let piv : Nat → Nat := fun i => if i < m then perm (piv i) else piv i
  let app := permuteRowsPoly m s.app piv
  let app := constantUpdate m rank ns app
  let app := shiftRows rank (grow m rank app)
  let inv := permInv piv m piv
  { app := permuteRowsPoly m app inv, shift := bumpShift piv rank s.shift }

/-- The residual of line 174-177 (`F` is `m × n`). -/
def residual (m : Nat) (F : MatPoly K) (s : State K) (ord : Nat) : Mat K :=
  if ord = 0 then F.co 0 else mulCoeff m s.app F ord

/-- The loop `for (ord...; ord < order; ++ord)`, lines 162-366, `steps = order - ord`.
    `perm0`: content of the arrays before they are filled. -/
def loop (fl : RightNullspaceFn K) (qs : QsortFn) (m n : Nat) (F : MatPoly K) (perm0 : Nat → Nat) :
    (steps ord : Nat) → State K → State K
  | 0, _, s => s
  | steps + 1, ord, s =>
    let res := residual m F s ord
    let perm := sortPerm qs m s.shift perm0
    let res := (permuteRows m res perm none).1
    let ker := leftNullspaceCompact fl m n res perm0
    let ns := ker.1
    let piv := ker.2.1
    let nullity := ker.2.2
    if nullity = 0 then
      { app := shiftLeftAliased s.app (steps + 1),
        shift := fun i => if i < m then s.shift i + ((steps + 1 : Nat) : Int) else s.shift i }
    else if nullity < m then
      loop fl qs m n F perm0 steps (ord + 1) (usualCase m (m - nullity) ns perm piv s)
    else loop fl qs m n F perm0 steps (ord + 1) s

/-- `nmod_mat_poly_mbasis(appbas, shift, matp, order)`; `app0` is the previous
    content of `appbas`. Lines 116-378. -/
def mbasis (fl : RightNullspaceFn K) (qs : QsortFn) (m n : Nat) (app0 : MatPoly K)
    (shift : Nat → Int) (F : MatPoly K) (order : Nat) (perm0 : Nat → Nat) : State K :=
  let app := MatPoly.one app0
  if MatPoly.isZero F then { app := app, shift := shift }
  else loop fl qs m n F perm0 order 0 { app := app, shift := shift }

end PML.Mbasis
