import Verif.MatPoly.Model
import Verif.NmodExtra.Model
import Mathlib.Data.ZMod.Basic
import Mathlib.Algebra.Field.ZMod

/-!
# Model: products and middle products of polynomial matrices
(flint-extras/src/nmod_poly_mat_extra/mul*.c, mulmid.c)

A polynomial matrix is an index function with entries in `K[X]` (FLINT's
`nmod_poly_t` is a normalised coefficient vector, hence a polynomial) and
explicit dimensions. FLINT's `nmod_mat_mul`, `nmod_poly_mat_mul` and the
arithmetic of `nmod_poly` are Mathlib's operations; `nmod_mat_inv` and the
interpolation at a geometric progression are parameters with contracts.
Loops whose iterations write distinct entries are written as one function
definition; columns `ell = u * n + v` of the evaluation matrices are written as
pairs `(u, v)`.
-/

namespace PML.PolyMul

open PML.MatOps PML.MatPoly Polynomial

/-- How the output argument is related to the inputs. -/
inductive Alias | none | first | second
  deriving DecidableEq

/-- Result of a C function: a value, or undefined behaviour / abort. -/
inductive Outcome (α : Type) where
  | ok (x : α)
  | fail
  deriving DecidableEq

/-! ### Waksman -/

/-- The accumulators of `nmod_poly_mat_mul_waksman`. -/
structure Waksman (R : Type) where
  C : Mat R
  Crow : Nat → R
  Ccol : Nat → R

variable {R : Type} [CommRing R]

/-- One iteration of the loop on `j`, mul_waksman.c:67-107, with `j2 = 2j - 1`.
    The three inner loops (row 0, column 0, the rest) update distinct entries. -/
def waksmanStep (m p : Nat) (A B : Mat R) (j2 : Nat) (s : Waksman R) : Waksman R :=
  -- lines 71-82: row 0
  let C := fun l k => if l = 0 ∧ k < p then
      s.C 0 k + (A 0 (j2 - 1) + B j2 k) * (A 0 j2 + B (j2 - 1) k) else s.C l k
  let Crow := fun k => if k < p then
      s.Crow k + (A 0 (j2 - 1) - B j2 k) * (A 0 j2 - B (j2 - 1) k) else s.Crow k
  -- lines 84-95: column 0, rows 1..m-1
  let C' := fun l k => if (1 ≤ l ∧ l < m) ∧ k = 0 then
      C l 0 + (A l (j2 - 1) + B j2 0) * (A l j2 + B (j2 - 1) 0) else C l k
  let Ccol := fun l => if 1 ≤ l ∧ l < m then
      s.Ccol l + (A l (j2 - 1) - B j2 0) * (A l j2 - B (j2 - 1) 0) else s.Ccol l
  -- lines 97-106: the rest
  let C'' := fun l k => if (1 ≤ l ∧ l < m) ∧ 1 ≤ k ∧ k < p then
      C' l k + (A l (j2 - 1) + B j2 k) * (A l j2 + B (j2 - 1) k) else C' l k
  { C := C'', Crow := Crow, Ccol := Ccol }

/-- `for (j = 1; j <= np; j++)`, lines 67-107. -/
def waksmanLoop (m p : Nat) (A B : Mat R) : Nat → Waksman R → Waksman R
  | 0, s => s
  | j + 1, s => waksmanStep m p A B (2 * (j + 1) - 1) (waksmanLoop m p A B j s)

/-- Corrections after the loop, lines 109-134. -/
def waksmanFinish (m p : Nat) (half : R) (s : Waksman R) : Mat R :=
  -- lines 109-114
  let Ccol := fun l => if 1 ≤ l ∧ l < m then (s.Ccol l + s.C l 0) * half else s.Ccol l
  let C1 := fun l k => if (1 ≤ l ∧ l < m) ∧ k = 0 then s.C l 0 - Ccol l else s.C l k
  -- lines 116-118
  let val0 := (s.Crow 0 + C1 0 0) * half
  let C2 := fun l k => if l = 0 ∧ k = 0 then C1 0 0 - val0 else C1 l k
  -- lines 120-134; column `k` depends on column `k` of `C2` only
  let val1 := fun k => (s.Crow k + C2 0 k) * half
  let crow := fun k => val1 k - val0
  fun l k => if 1 ≤ k ∧ k < p then
      (if l = 0 then C2 0 k - val1 k
       else if l < m then (C2 l k - crow k) - Ccol l else C2 l k)
    else C2 l k

/-- `nmod_poly_mat_mul_waksman(C, A, B)` for a `C` distinct from `A`, `B`.
    mul_waksman.c:17-155; `half` is `(mod+1) >> 1`; `C0` is the old content of `C`. -/
def waksman (m n p : Nat) (half : R) (C0 A B : Mat R) : Mat R :=
  if m < 1 ∨ n < 1 ∨ p < 1 then
    -- line 31: nmod_poly_mat_zero
    fun i j => if i < m ∧ j < p then 0 else C0 i j
  else
    let init : Waksman R :=
      { C := fun i j => if i < m ∧ j < p then 0 else C0 i j, Crow := fun _ => 0, Ccol := fun _ => 0 }
    let C := waksmanFinish m p half (waksmanLoop m p A B (n / 2) init)
    -- lines 136-144
    if n % 2 = 1 then
      fun l k => if l < m ∧ k < p then C l k + A l (n - 1) * B (n - 1) k else C l k
    else C

/-- The same function with aliasing (mul_waksman.c:35-43): the temporary `T` has
    `n` columns, `nmod_poly_mat_mul_waksman(T, A, B)` writes `p` columns. -/
def waksmanAlias (al : Alias) (m n p : Nat) (half : R) (C0 A B : Mat R) : Outcome (Mat R) :=
  if m < 1 ∨ n < 1 ∨ p < 1 ∨ al = Alias.none then Outcome.ok (waksman m n p half C0 A B)
  else if n < p then Outcome.fail -- writes outside T
  else
    let T := waksman m n p half (fun _ _ => 0) A B
    -- swap_entrywise(C, T): the entries of the m × p matrix C
    Outcome.ok fun i j => if i < m ∧ j < p then T i j else C0 i j

/-! ### Evaluation and interpolation with Vandermonde matrices -/

variable {K : Type} [Field K] [DecidableEq K]

/-- Set the length to `N`, fill the coefficients, normalise
    (mul_vandermonde.c:191-196, mulmid.c:117-122 and FLINT). -/
noncomputable def ofCoeffs (N : Nat) (f : Nat → K) : K[X] :=
  ∑ l ∈ Finset.range N, monomial l (f l)

/-- FLINT `nmod_mat_inv` on square matrices of size `n`. -/
abbrev MatInvFn (K : Type) := Nat → Mat K → Mat K

/-- Row `i`, column `j` of the square matrix of `vandermonde_init1`/`2`: column 0
    is one, then `entry(i,j) = entry(i,j-1) * pt`; mul_vandermonde.c:43-58, 239-255.
    (Row 0 of init1 is `1, 0, ..., 0`, lines 40-42: the point 0.) -/
def vdm (pt : Nat → K) (i : Nat) : Nat → K
  | 0 => 1
  | j + 1 => vdm pt i j * pt i

/-- `c = a b`, entry `(u, v)`, by evaluation at `N` points, pointwise product
    and interpolation. `nmod_poly_mat_mul_vandermonde1`, mul_vandermonde.c:71-209. -/
noncomputable def vandermonde1 (inv : MatInvFn K) (m n p : Nat) (c0 a b : Mat K[X]) : Mat K[X] :=
  let ellA := maxLength m n a
  let ellB := maxLength n p b
  if ellA = 0 ∨ ellB = 0 then fun i j => if i < m ∧ j < p then 0 else c0 i j
  else
    let dA := ellA - 1
    let dB := ellB - 1
    let N := dA + dB + 1
    let V := vdm fun i => (i : K)
    let iv := inv N fun i j => V i j
    -- lines 110-126: vA * tmp_mat
    let valA := fun i u v => matMul (dA + 1) (fun i k => V i k) (fun k _ => (a u v).coeff k) i 0
    -- lines 132-147
    let valB := fun i u v => matMul (dB + 1) (fun i k => V i k) (fun k _ => (b u v).coeff k) i 0
    -- lines 155-178
    let valC := fun i u v => matMul n (fun u v => valA i u v) (fun u v => valB i u v) u v
    -- lines 181-197
    fun u v => if u < m ∧ v < p then
        ofCoeffs N fun k => matMul N iv (fun i _ => valC i u v) k 0
      else c0 u v

/-- `nmod_poly_mat_mul_vandermonde2`, mul_vandermonde.c:268-503. `nmod_inv`
    aborts on a non-unit (lines 412, 444): `fail`. -/
noncomputable def vandermonde2 (inv : MatInvFn K) (m n p : Nat) (c0 a b : Mat K[X]) :
    Outcome (Mat K[X]) :=
  let ellA := maxLength m n a
  let ellB := maxLength n p b
  if ellA = 0 ∨ ellB = 0 then
    Outcome.ok fun i j => if i < m ∧ j < p then 0 else c0 i j
  else
    let dA := ellA - 1
    let dB := ellB - 1
    let N := (dA + dB) / 2 + 1
    let pt := fun i : Nat => ((i + 1 : Nat) : K)
    let V := vdm fun i => pt i * pt i
    let iv := inv N fun i j => V i j
    -- lines 311-341
    let evalA := fun i u v => matMul (dA / 2 + 1) (fun i k => V i k) (fun k _ => (a u v).coeff (2 * k)) i 0
    -- the odd part has coefficients at 2k+1 < length only; beyond, zero
    let oddA := fun i u v =>
      pt i * matMul (dA / 2 + 1) (fun i k => V i k) (fun k _ => (a u v).coeff (2 * k + 1)) i 0
    -- lines 350-388, 402-410
    let evalB := fun i u v => matMul (dB / 2 + 1) (fun i k => V i k) (fun k _ => (b u v).coeff (2 * k)) i 0
    let oddB := fun i u v =>
      pt i * matMul (dB / 2 + 1) (fun i k => V i k) (fun k _ => (b u v).coeff (2 * k + 1)) i 0
    -- lines 414-436
    let cPlus := fun i u v =>
      matMul n (fun u v => evalA i u v + oddA i u v) (fun u v => evalB i u v + oddB i u v) u v
    let cMinus := fun i u v =>
      matMul n (fun u v => evalA i u v - oddA i u v) (fun u v => evalB i u v - oddB i u v) u v
    -- lines 442-457
    if (2 : K) = 0 ∨ ∃ i < N, ((2 * (i + 1) : Nat) : K) = 0 then Outcome.fail
    else
      let cEven := fun i u v => (cPlus i u v + cMinus i u v) * (2 : K)⁻¹
      let cOdd := fun i u v => (cPlus i u v - cMinus i u v) * (((2 * (i + 1) : Nat) : K))⁻¹
      -- lines 463-484
      Outcome.ok fun u v => if u < m ∧ v < p then
          ofCoeffs (2 * N) fun k =>
            if k % 2 = 0 then matMul N iv (fun i _ => cEven i u v) (k / 2) 0
            else matMul N iv (fun i _ => cOdd i u v) (k / 2) 0
        else c0 u v

/-- The modulus stored in the entries of the output of the aliased call
    (mul_vandermonde.c:93-101, 292-300): the temporary is created by
    `nmod_poly_mat_init(T, m, n, p)`, whose last argument is the modulus, and
    `nmod_poly_mat_swap_entrywise` exchanges the whole entries. `p` is the number
    of columns of `b`, `modn` the modulus of `a`. -/
def vandermondeEntryModulus (al : Alias) (p modn : Nat) : Nat :=
  if al = Alias.none then modn else p

/-! ### Geometric progression -/

/-- `_nmod_poly_interpolate_geometric_nmod_vec_fast_precomp`: from `N` values at
    `r^(2k)`, the coefficients. -/
abbrev GeomInterpFn (K : Type) := K → Nat → (Nat → K) → (Nat → K)

/-- FLINT `_nmod_poly_evaluate_geometric_nmod_vec_fast_precomp`: values of the
    polynomial of coefficients `f 0, ..., f (len-1)` at `r^(2k)`. -/
def geomEval (r : K) (len : Nat) (f : Nat → K) (k : Nat) : K :=
  ∑ l ∈ Finset.range len, f l * (r ^ (2 * k)) ^ l

/-- `_nmod_poly_mat_mul_geometric_precomp`, mul_geometric.c:32-119, for distinct
    arguments; `r` is the root of the progression. -/
noncomputable def mulGeometricPrecomp (interp : GeomInterpFn K) (r : K) (m n p : Nat)
    (len1 len2 : Nat) (c0 a b : Mat K[X]) : Mat K[X] :=
  if len1 = 0 ∨ len2 = 0 then fun i j => if i < m ∧ j < p then 0 else c0 i j
  else
    let len := len1 + len2 - 1
    let va := fun k i j => geomEval r (polyLength (a i j)) (fun l => (a i j).coeff l) k
    let vb := fun k i j => geomEval r (polyLength (b i j)) (fun l => (b i j).coeff l) k
    let vc := fun k => matMul n (fun i j => va k i j) (fun i j => vb k i j)
    fun i j => if i < m ∧ j < p then
        ofCoeffs len fun l => interp r len (fun k => vc k i j) l
      else c0 i j

/-- `_nmod_poly_reverse(res, poly, len, n)` with `len ≤ n`: coefficient `k` is
    coefficient `n - 1 - k` of the zero-padded input. -/
def reverseCoeffs (f : Nat → K) (n : Nat) : Nat → K := fun k => if k < n then f (n - 1 - k) else 0

/-- `_nmod_poly_mat_mulmid_geometric1_precomp`, mulmid.c:54-138. -/
noncomputable def mulmidGeometric1 (interp : GeomInterpFn K) (r : K) (m n p : Nat) (nlo nhi : Nat)
    (c0 a b : Mat K[X]) : Mat K[X] :=
  let va := fun k i j => geomEval r (nlo + 1) (reverseCoeffs (fun l => (a i j).coeff l) (nlo + 1)) k
  -- lines 95-99: the first `nhi` coefficients, zero padded, interpolated as values
  let vb := fun k i j => interp r nhi (fun l => (b i j).coeff l) k
  let vc := fun k => matMul n (fun i j => va k i j) (fun i j => vb k i j)
  fun i j => if i < m ∧ j < p then
      ofCoeffs (nhi - nlo) fun t => geomEval r nhi (fun k => vc k i j) t
    else c0 i j

/-- `_nmod_poly_mat_mulmid_geometric2_precomp`, mulmid.c:145-233. -/
noncomputable def mulmidGeometric2 (interp : GeomInterpFn K) (r : K) (m n p : Nat) (nlo nhi : Nat)
    (c0 a b : Mat K[X]) : Mat K[X] :=
  let vb := fun k i j => geomEval r (nlo + 1) (reverseCoeffs (fun l => (b i j).coeff l) (nlo + 1)) k
  let va := fun k i j => interp r nhi (fun l => (a i j).coeff l) k
  let vc := fun k => matMul n (fun i j => va k i j) (fun i j => vb k i j)
  fun i j => if i < m ∧ j < p then
      ofCoeffs (nhi - nlo) fun t => geomEval r nhi (fun k => vc k i j) t
    else c0 i j

/-- FLINT `nmod_poly_mat_shift_right`: entrywise, the coefficients from `k` on. -/
noncomputable def shiftRight (m p : Nat) (c0 a : Mat K[X]) (k : Nat) : Mat K[X] :=
  fun i j => if i < m ∧ j < p then
      ofCoeffs (polyLength (a i j) - k) fun l => (a i j).coeff (l + k)
    else c0 i j

/-- FLINT `nmod_poly_mat_truncate`/`set_trunc`: entrywise, the first `k` coefficients. -/
noncomputable def truncPoly (m p : Nat) (c0 a : Mat K[X]) (k : Nat) : Mat K[X] :=
  fun i j => if i < m ∧ j < p then
      ofCoeffs (min k (polyLength (a i j))) fun l => (a i j).coeff l
    else c0 i j

/-- FLINT `nmod_poly_mat_mul` (any aliasing). -/
noncomputable def flintMul (m n p : Nat) (c0 a b : Mat K[X]) : Mat K[X] :=
  fun i j => if i < m ∧ j < p then ∑ k ∈ Finset.range n, a i k * b k j else c0 i j

end PML.PolyMul

namespace PML.PolyMul

open PML.MatOps PML.MatPoly Polynomial

/-! ### Prime fields: root search, dispatcher, middle product -/

variable {q : Nat} [Fact q.Prime]

/-- The oracles of the products over `Z/qZ`. -/
structure Oracles (q : Nat) where
  inv : MatInvFn (ZMod q)
  interp : GeomInterpFn (ZMod q)
  /-- FLINT `n_cbrt`, only used to choose the algorithm -/
  cbrt : Nat → Nat

/-- `nmod_poly_mat_mul_geometric` for distinct arguments, mul_geometric.c:121-157.
    `nmod_find_root` is modelled in Verif/NmodExtra/Model.lean. -/
noncomputable def mulGeometric (o : Oracles q) (m n p : Nat) (c0 a b : Mat (ZMod q)[X]) :
    Outcome (Mat (ZMod q)[X]) :=
  let len1 := maxLength m n a
  let len2 := maxLength n p b
  if len1 = 0 ∨ len2 = 0 then Outcome.ok fun i j => if i < m ∧ j < p then 0 else c0 i j
  else
    let len := len1 + len2 - 1
    match NmodExtra.findRoot (2 * len) (2 * len) q with
    | none => Outcome.fail
    | some w => Outcome.ok (mulGeometricPrecomp o.interp (w : ZMod q) m n p len1 len2 c0 a b)

/-- `NMOD_POLY_CAN_USE_GEOMETRIC(modn, len)`, nmod_poly_extra.h:38. -/
def canGeometric (q len : Nat) : Bool := decide (10 * len ≤ q)

/-- `NMOD_POLY_CAN_USE_VANDERMONDE2(modn, len)`, nmod_poly_mat_multiply.h:27. -/
def canVandermonde2 (q len : Nat) : Bool := decide (2 * len ≤ q)

/-- `NMOD_POLY_MAT_CAN_USE_WAKSMAN(modn)`, nmod_poly_mat_multiply.h:29. -/
def canWaksman (q : Nat) : Bool := decide (q ≠ 2)

/-- `half = (mod+1) >> 1` of mul_waksman.c:45, as the constant polynomial used by
    `nmod_poly_scalar_mul_nmod`. -/
noncomputable def halfPoly (q : Nat) : (ZMod q)[X] := C (((q + 1) / 2 : Nat) : ZMod q)

/-- `nmod_poly_mat_multiply(res, pmat1, pmat2)`, mul.c:19-97, any aliasing: with
    an alias the product is computed in a temporary of the right dimensions and
    swapped (lines 42-50); `c0` is the old content of the destination. -/
noncomputable def multiply (o : Oracles q) (m n p : Nat) (c0 a b : Mat (ZMod q)[X]) :
    Outcome (Mat (ZMod q)[X]) :=
  let len1 := maxLength m n a
  let len2 := maxLength n p b
  if len1 = 0 ∨ len2 = 0 then Outcome.ok fun i j => if i < m ∧ j < p then 0 else c0 i j
  else if m = 1 ∨ p = 1 ∨ n = 1 ∨ len1 = 1 ∨ len2 = 1 then Outcome.ok (flintMul m n p c0 a b)
  else
    let dim := o.cbrt (m * n * p)
    let len := len1 + len2 - 1
    let wak := Outcome.ok (waksman m n p (halfPoly q) c0 a b)
    let vdm2 := vandermonde2 o.inv m n p c0 a b
    let mul := Outcome.ok (flintMul m n p c0 a b)
    if dim > 12 then
      if canGeometric q len ∧ len > 300 then mulGeometric o m n p c0 a b
      else if canVandermonde2 q len then vdm2
      else mul
    else if dim > 10 then
      if canVandermonde2 q len ∧ len < 200 then vdm2
      else if canWaksman q then wak
      else mul
    else if dim > 8 then
      if canVandermonde2 q len ∧ len < 120 then vdm2
      else if canWaksman q then wak
      else mul
    else if canWaksman q then wak
    else mul

/-- `_nmod_poly_mat_mulmid_naive`, mulmid.c:28-42. -/
noncomputable def mulmidNaive (o : Oracles q) (m n p : Nat) (len1 len2 nlo nhi : Nat)
    (c0 a b : Mat (ZMod q)[X]) : Outcome (Mat (ZMod q)[X]) :=
  if len1 = 0 ∨ len2 = 0 ∨ nlo ≥ nhi then Outcome.ok fun i j => if i < m ∧ j < p then 0 else c0 i j
  else
    match multiply o m n p c0 a b with
    | Outcome.fail => Outcome.fail
    | Outcome.ok c =>
      let c := shiftRight m p c c nlo
      Outcome.ok (truncPoly m p c c (nhi - nlo))

/-- `_nmod_poly_mat_mulmid_geometric` and `..._precomp`, mulmid.c:235-297 (with an
    alias: computed in a temporary of the right dimensions, then swapped). -/
noncomputable def mulmidGeometric (o : Oracles q) (m n p : Nat) (len1 len2 nlo nhi : Nat)
    (c0 a b : Mat (ZMod q)[X]) : Outcome (Mat (ZMod q)[X]) :=
  if len1 = 0 ∨ len2 = 0 then Outcome.ok fun i j => if i < m ∧ j < p then 0 else c0 i j
  else
    match NmodExtra.findRoot (2 * nhi) (2 * nhi) q with
    | none => Outcome.fail
    | some w =>
      if len1 ≤ nlo + 1 then Outcome.ok (mulmidGeometric1 o.interp (w : ZMod q) m n p nlo nhi c0 a b)
      else Outcome.ok (mulmidGeometric2 o.interp (w : ZMod q) m n p nlo nhi c0 a b)

/-- `_nmod_poly_mat_mulmid`, mulmid.c:470-497. `geom` tells whether the geometric
    variants are compiled in (FLINT >= 3.6, line 488). -/
noncomputable def mulmidDispatch (geom : Bool) (o : Oracles q) (m n p : Nat)
    (len1 len2 nlo nhi : Nat) (c0 a b : Mat (ZMod q)[X]) : Outcome (Mat (ZMod q)[X]) :=
  if len1 = 0 ∨ len2 = 0 ∨ nlo ≥ nhi then Outcome.ok fun i j => if i < m ∧ j < p then 0 else c0 i j
  else if geom ∧ canGeometric q nhi ∧ ((m ≥ 8 ∧ p ≥ 2) ∨ (m ≥ 2 ∧ p ≥ 8)) ∧
      (len1 ≤ nlo + 1 ∨ len2 ≤ nlo + 1) then
    mulmidGeometric o m n p len1 len2 nlo nhi c0 a b
  else mulmidNaive o m n p len1 len2 nlo nhi c0 a b

/-- `nmod_poly_mat_mulmid` after both lengths have been truncated to `nhi`,
    mulmid.c:536-558. -/
noncomputable def mulmidShift (geom : Bool) (o : Oracles q) (m n p : Nat)
    (len1 len2 nlo nhi : Nat) (c0 a b : Mat (ZMod q)[X]) : Outcome (Mat (ZMod q)[X]) :=
  if len1 ≤ len2 ∧ len1 ≤ nlo then
    let b' := shiftRight n p b b (nlo - len1 + 1)
    mulmidDispatch geom o m n p len1 (len2 + len1 - nlo - 1) (len1 - 1) (nhi + len1 - nlo - 1) c0 a b'
  else if len2 ≤ nlo then
    let a' := shiftRight m n a a (nlo - len2 + 1)
    mulmidDispatch geom o m n p (len1 + len2 - nlo - 1) len2 (len2 - 1) (nhi + len2 - nlo - 1) c0 a' b
  else mulmidDispatch geom o m n p len1 len2 nlo nhi c0 a b

/-- `nmod_poly_mat_mulmid`, mulmid.c:499-559. The recursive calls of lines 516-534
    are unrolled: `fuel` bounds their number (two are enough, see `C28`). -/
noncomputable def mulmid (geom : Bool) (o : Oracles q) (m n p : Nat) (nlo : Nat)
    (c0 : Mat (ZMod q)[X]) : (fuel nhi : Nat) → (a b : Mat (ZMod q)[X]) → Outcome (Mat (ZMod q)[X])
  | 0, _, _, _ => Outcome.fail
  | fuel + 1, nhi, a, b =>
    let len1 := maxLength m n a
    let len2 := maxLength n p b
    let nhi := min nhi (len1 + len2 - 1)
    if len1 = 0 ∨ len2 = 0 ∨ nlo ≥ nhi then
      Outcome.ok fun i j => if i < m ∧ j < p then 0 else c0 i j
    else if len1 > nhi then mulmid geom o m n p nlo c0 fuel nhi (truncPoly m n a a nhi) b
    else if len2 > nhi then mulmid geom o m n p nlo c0 fuel nhi a (truncPoly n p b b nhi)
    else mulmidShift geom o m n p len1 len2 nlo nhi c0 a b

end PML.PolyMul
