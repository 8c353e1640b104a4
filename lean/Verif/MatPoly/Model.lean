import Verif.MatOps.Model
import Mathlib.Algebra.Polynomial.Basic
import Mathlib.Algebra.Polynomial.Coeff
import Mathlib.Algebra.Polynomial.Degree.Defs
import Mathlib.Algebra.BigOperators.Intervals

/-!
# Model: matrix polynomials (flint-extras/src/nmod_mat_poly.h and
# flint-extras/src/nmod_mat_poly_extra/*.c)

An `nmod_mat_poly_t` is a length and an array of coefficient matrices. Entries
of the array at or beyond the length are not meaningful (uninitialised or
cleared memory); the storage discipline itself is modelled in
`Verif/MatPoly/Memory.lean`. The modulus is assumed prime: entries are in a
field `K`. FLINT's constant-matrix functions (`nmod_mat_set`, `_zero`, `_one`,
`_add`, `_mul`, `_swap`, `_is_zero`, `_is_one`, `_scalar_addmul_ui`) and
`nmod_poly_get_coeff_ui`, `nmod_poly_mat_max_length` are modelled by the
mathematical operations they document.
-/

namespace PML.MatPoly

open PML.MatOps

variable {K : Type} [Field K] [DecidableEq K]

/-- `nmod_mat_poly_struct` without allocation data. nmod_mat_poly.h:61-75. -/
structure MatPoly (K : Type) where
  len : Nat
  co : Nat → Mat K

/-- FLINT `nmod_mat_zero` / a freshly initialised matrix. -/
def matZero : Mat K := fun _ _ => 0

/-- FLINT `nmod_mat_one`: ones on the main diagonal. -/
def matOne : Mat K := fun i j => if i = j then 1 else 0

/-- FLINT `nmod_mat_is_zero` on an `r × c` matrix. -/
def matIsZero (r c : Nat) (A : Mat K) : Bool :=
  decide (∀ i, i < r → ∀ j, j < c → A i j = 0)

/-- FLINT `nmod_mat_is_one`. -/
def matIsOne (r c : Nat) (A : Mat K) : Bool :=
  decide (∀ i, i < r → ∀ j, j < c → A i j = if i = j then 1 else 0)

/-- FLINT `nmod_mat_add`. -/
def matAdd (A B : Mat K) : Mat K := fun i j => A i j + B i j

/-- FLINT `nmod_mat_mul`, inner dimension `n`. -/
def matMul (n : Nat) (A B : Mat K) : Mat K := fun i j => ∑ l ∈ Finset.range n, A i l * B l j

/-- FLINT `nmod_mat_scalar_addmul_ui(dest, X, Y, b)`: `dest = X + b * Y`. -/
def matScalarAddmul (X Y : Mat K) (b : K) : Mat K := fun i j => X i j + b * Y i j

/-- `_nmod_mat_poly_set_length(matp, length)`: new coefficients are initialised
    to zero. nmod_mat_poly.h:165-175. -/
def setLength (P : MatPoly K) (length : Nat) : MatPoly K :=
  { len := length,
    co := fun k => if P.len ≤ k ∧ k < length then matZero else P.co k }

/-- The `while` loop of `_nmod_mat_poly_normalise` on the length.
    nmod_mat_poly.h:183-187. -/
def normLen (r c : Nat) (co : Nat → Mat K) : Nat → Nat
  | 0 => 0
  | n + 1 => if matIsZero r c (co n) then normLen r c co n else n + 1

/-- `_nmod_mat_poly_normalise(matp)`. nmod_mat_poly.h:180-188. -/
def normalise (r c : Nat) (P : MatPoly K) : MatPoly K :=
  { P with len := normLen r c P.co P.len }

/-- `nmod_mat_poly_zero(matp)`. nmod_mat_poly.h:205-209. -/
def zero (P : MatPoly K) : MatPoly K := setLength P 0

/-- `nmod_mat_poly_is_zero(matp)`. nmod_mat_poly.h:214-215. -/
def isZero (P : MatPoly K) : Bool := P.len == 0

/-- `nmod_mat_poly_one(matp)`. nmod_mat_poly.h:218-224. -/
def one (P : MatPoly K) : MatPoly K :=
  let Q := setLength P 1
  { Q with co := Function.update Q.co 0 matOne }

/-- `nmod_mat_poly_is_one(matp)`. nmod_mat_poly.h:228-232. -/
def isOne (r c : Nat) (P : MatPoly K) : Bool := P.len == 1 && matIsOne r c (P.co 0)

/-- `nmod_mat_poly_degree(matp)`. nmod_mat_poly.h:272-276. -/
def degree (P : MatPoly K) : Int := (P.len : Int) - 1

/-- `nmod_mat_poly_get_coeff(coeff, matp, k)`. nmod_mat_poly.h:291-298. -/
def getCoeff (P : MatPoly K) (k : Nat) : Mat K := if k < P.len then P.co k else matZero

/-- `nmod_mat_poly_is_constant(matp)` as written. nmod_mat_poly.h:360-364. -/
def isConstant (P : MatPoly K) : Bool := P.len == 0

/-- `nmod_mat_poly_truncate(matp, order)`. nmod_mat_poly.h:369-379. -/
def truncate (r c : Nat) (P : MatPoly K) (order : Nat) : MatPoly K :=
  if P.len > order then normalise r c { P with len := order } else P

/-- `nmod_mat_poly_set(matp1, matp2)`, distinct objects.
    nmod_mat_poly_extra/nmod_mat_poly_mem.c:76-88. -/
def set (P Q : MatPoly K) : MatPoly K :=
  let R := setLength P Q.len
  { R with co := fun k => if k < Q.len then Q.co k else R.co k }

/-- The copy loop `for (i = 0; i < len; i++) set(smatp + n + i, matp + i)`.
    nmod_mat_poly_shift.c:10-11. -/
def copyLoop {α : Type} (n : Nat) (src : Nat → α) : Nat → (Nat → α) → (Nat → α)
  | 0, s => s
  | i + 1, s => Function.update (copyLoop n src i s) (n + i) (src i)

/-- The swap loop `for (i = len-1; i >= 0; i--) swap(smatp + n + i, smatp + i)`.
    nmod_mat_poly_shift.c:16-17. -/
def swapLoop {α : Type} (n : Nat) : Nat → (Nat → α) → (Nat → α)
  | 0, s => s
  | i + 1, s => swapLoop n i (swapAt (n + i) i s)

/-- `for (i = 0; i < n; i++) zero(smatp + i)`. nmod_mat_poly_shift.c:20-21. -/
def zeroLoop {α : Type} (z : α) : Nat → (Nat → α) → (Nat → α)
  | 0, s => s
  | i + 1, s => Function.update (zeroLoop z i s) i z

/-- `nmod_mat_poly_shift_left(smatp, matp, n)` with `smatp != matp`, as written:
    the number of coefficients passed on is `matp->length - n` (no coefficient
    if negative). nmod_mat_poly_shift.c:31-50 with 8-12, 20-21. -/
def shiftLeft (S P : MatPoly K) (n : Nat) : MatPoly K :=
  if n = 0 then set S P
  else if P.len = 0 then zero S
  else
    let S' := setLength S (P.len + n)
    { S' with co := zeroLoop matZero n (copyLoop n P.co (P.len - n) S'.co) }

/-- `nmod_mat_poly_shift_left(matp, matp, n)`: here `matp->length` has already
    been increased when `matp->length - n` is computed.
    nmod_mat_poly_shift.c:31-50 with 13-21. -/
def shiftLeftAliased (P : MatPoly K) (n : Nat) : MatPoly K :=
  if n = 0 then P
  else if P.len = 0 then zero P
  else
    let S' := setLength P (P.len + n)
    { S' with co := zeroLoop matZero n (swapLoop n (S'.len - n) S'.co) }

/-- The accumulation loop of `nmod_mat_poly_mul_coeff`, from `i`, `steps` times.
    nmod_mat_poly_arith.c:34-38. -/
def mulCoeffLoop (n : Nat) (A B : MatPoly K) (k : Nat) : Nat → Nat → Mat K → Mat K
  | 0, _, acc => acc
  | s + 1, i, acc =>
    mulCoeffLoop n A B k s (i + 1) (matAdd acc (matMul n (A.co i) (B.co (k - i))))

/-- `nmod_mat_poly_mul_coeff(coeff, mat1, mat2, k)`; inner dimension `n`.
    `FLINT_MAX(0, k+1 - len2)` is truncated subtraction. nmod_mat_poly_arith.c:4-41. -/
def mulCoeff (n : Nat) (A B : MatPoly K) (k : Nat) : Mat K :=
  let ubound := min (k + 1) A.len
  let lbound := k + 1 - B.len
  if lbound ≥ ubound then matZero
  else mulCoeffLoop n A B k (ubound - (lbound + 1)) (lbound + 1)
    (matMul n (A.co lbound) (B.co (k - lbound)))

/-- Horner loop: `for ( ; k >= 0; k--) eval = matp[k] + eval*pt`, from `k = n-1`.
    nmod_mat_poly_arith.c:66-67. -/
def hornerLoop (P : MatPoly K) (pt : K) : Nat → Mat K → Mat K
  | 0, e => e
  | n + 1, e => hornerLoop P pt n (matScalarAddmul (P.co n) e pt)

/-- `nmod_mat_poly_evaluate_nmod(eval, matp, pt)`. nmod_mat_poly_arith.c:43-68. -/
def evaluate (P : MatPoly K) (pt : K) : Mat K :=
  if P.len = 0 then matZero
  else if P.len = 1 ∨ pt = 0 then P.co 0
  else hornerLoop P pt (P.len - 1) (P.co (P.len - 1))

/-- `nmod_mat_poly_set_from_nmod_mat(matp, cmat)`. nmod_mat_poly_set_from.c:18-29;
    the `init_set` variant (5-16) gives the same length and coefficient. -/
def setFromMat (r c : Nat) (P : MatPoly K) (A : Mat K) : MatPoly K :=
  if matIsZero r c A then zero P
  else
    let Q := setLength P 1
    { Q with co := Function.update Q.co 0 A }

/-- FLINT `nmod_poly_length`. -/
noncomputable def polyLength (p : Polynomial K) : Nat := if p = 0 then 0 else p.natDegree + 1

/-- FLINT `nmod_poly_mat_max_length` of an `r × c` polynomial matrix. -/
noncomputable def maxLength (r c : Nat) (M : Mat (Polynomial K)) : Nat :=
  (Finset.range r).sup fun i => (Finset.range c).sup fun j => polyLength (M i j)

/-- The length change and the triple loop filling the coefficients.
    nmod_mat_poly_set_from.c:40-47. -/
noncomputable def fillFromPolyMat (r c : Nat) (P : MatPoly K) (M : Mat (Polynomial K))
    (order : Nat) : MatPoly K :=
  { len := order,
    co := fun k i j => if k < order ∧ i < r ∧ j < c then (M i j).coeff k
      else (setLength P order).co k i j }

/-- `nmod_mat_poly_set_trunc_from_poly_mat(matp, pmat, order)`.
    nmod_mat_poly_set_from.c:31-52. -/
noncomputable def setTruncFromPolyMat (r c : Nat) (P : MatPoly K) (M : Mat (Polynomial K))
    (order : Nat) : MatPoly K :=
  let len := maxLength r c M
  let order := if order > len then len else order
  if order < len then normalise r c (fillFromPolyMat r c P M order)
  else fillFromPolyMat r c P M order

/-- `nmod_poly_mat_set_trunc_from_mat_poly(pmat, matp, order)`: each entry is
    filled with its first coefficients and normalised.
    flint-extras/src/nmod_poly_mat_extra/nmod_poly_mat_utils.c:185-210. -/
noncomputable def polyMatSetTrunc (r c : Nat) (M : Mat (Polynomial K)) (P : MatPoly K)
    (order : Nat) : Mat (Polynomial K) :=
  let order := if order > P.len then P.len else order
  fun i j => if i < r ∧ j < c then
    ∑ k ∈ Finset.range order, Polynomial.monomial k (P.co k i j) else M i j

/-- `nmod_mat_poly_permute_rows(matp, perm_act, NULL)`. nmod_mat_poly.h:413-446. -/
def permuteRowsPoly (r : Nat) (P : MatPoly K) (act : Nat → Nat) : MatPoly K :=
  { P with co := fun k => if k < P.len then (permuteRows r (P.co k) act none).1 else P.co k }

end PML.MatPoly
