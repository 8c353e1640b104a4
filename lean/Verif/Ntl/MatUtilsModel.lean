import Verif.Common.Loop
import Mathlib.Algebra.Polynomial.Degree.Lemmas
import Mathlib.Algebra.Polynomial.Coeff
import Mathlib.Algebra.Polynomial.Eval.Defs

/-!
# Model of `ntl-extras/mat_lzz_pX_extra/src/mat_lzz_pX_utils.cpp` and `mat_lzz_pX_arith.cpp`

A `Mat<T>` is a number of rows, a number of columns and an array of entries indexed by
`(row, column)`.  A `zz_pX` is a polynomial value; NTL's arithmetic on `zz_p` and `zz_pX` is the
arithmetic of the ring `R` and of `R[X]`.  Functions that take an output `x` and an input `a` get a
flag `al` telling whether `&x == &a`: then every read of `a` reads the current content of `x`.
`none` stands for an error raised by NTL or for an access outside of an array.
-/

namespace PML.Ntl.Utils

open Polynomial

/-- `Mat<T>`. -/
structure PMat (α : Type) where
  /-- `NumRows()` -/
  rows : Nat
  /-- `NumCols()` -/
  cols : Nat
  /-- the entries; outside the dimensions, storage left by earlier uses -/
  e : Nat × Nat → α

variable {R : Type} [CommRing R] {α : Type}

/-- `x.SetDims(r, c)` of NTL: same storage if the number of columns does not change, fresh zero
    entries otherwise. -/
def PMat.setDims [Zero α] (x : PMat α) (r c : Nat) : PMat α := ⟨r, c, if x.cols = c then x.e else fun _ => 0⟩

/-- `for (i = 0; i < m; ++i) for (j = 0; j < n; ++j) x[i][j] = g(i, j, x)`. -/
def loop2 (m n : Nat) (g : Nat → Nat → (Nat × Nat → α) → α) : (Nat × Nat → α) → Nat × Nat → α :=
  forN m fun i => forN n fun j => fun x => write (i, j) (g i j x) x

/-- The entry read as `a[i][j]` when `a` may be the matrix being written. -/
def rd (al : Bool) (x a : Nat × Nat → α) (i j : Nat) : α := if al then x (i, j) else a (i, j)

/-- A function `x = f(a)` that sets the dimensions of `x` to those of `a` and then writes all entries
    one by one; when `x` is `a`, `SetDims` changes nothing. -/
def entrywise [Zero α] (al : Bool) (x a : PMat α) (f : Nat → Nat → α → α) : PMat α :=
  let x' := if al then a else x.setDims a.rows a.cols
  { x' with e := loop2 a.rows a.cols (fun i j cur => f i j (rd al cur a.e i j)) x'.e }

/-- The degree of a polynomial for NTL: `-1` for zero. -/
noncomputable def pdeg (f : R[X]) : Int := if f.degree = ⊥ then -1 else f.natDegree

/-- The polynomial with coefficients `v 0, …, v (n-1)`, after `normalize()`. -/
noncomputable def ofCoeffs (n : Nat) (v : Nat → R) : R[X] := ∑ i ∈ Finset.range n, C (v i) * X ^ i

/-- `trunc(f, n)` of NTL for `n ≥ 0` (an error for `n < 0`). -/
noncomputable def ptrunc (f : R[X]) (n : Nat) : R[X] := ofCoeffs n f.coeff

/-- `LeftShift(f, n)` of NTL: product by `X^n`, or quotient by `X^(-n)` if `n < 0`. -/
noncomputable def pshift (f : R[X]) (n : Int) : R[X] :=
  if 0 ≤ n then f * X ^ n.toNat
  else ofCoeffs (f.natDegree + 1 - (-n).toNat) fun i => f.coeff (i + (-n).toNat)

/-- `reverse(f, hi)` of NTL: coefficients `hi, hi-1, …, 0`; zero if `hi < 0`. -/
noncomputable def preverse (f : R[X]) (hi : Int) : R[X] :=
  ofCoeffs (hi + 1).toNat fun i => f.coeff (hi.toNat - i)

/-! ### Zero and identity matrices, `mat_lzz_pX_utils.cpp` lines 15-152 -/

/-- `clear(pmat)`, lines 15-20. -/
def clear [Zero α] (x : PMat α) : PMat α := { x with e := loop2 x.rows x.cols (fun _ _ _ => 0) x.e }

/-- `clear(pmat, r_offset, c_offset, nrows, ncols)`, lines 26-33 (nonnegative arguments). -/
def clearWindow [Zero α] (x : PMat α) (ro co nr nc : Nat) : PMat α :=
  let rEnd := min (ro + nr) x.rows
  let cEnd := min (co + nc) x.cols
  { x with e := forN (rEnd - ro) (fun i => forN (cEnd - co) fun j => write (ro + i, co + j) 0) x.e }

/-- `ident(pmat, dim)`, lines 38-49. -/
def ident [Zero α] [One α] (x : PMat α) (dim : Nat) : PMat α :=
  let x' := x.setDims dim dim
  { x' with e := forN dim (fun i a =>
      let a := forN i (fun j => write (i, j) 0) a
      let a := write (i, i) 1 a
      forN (dim - (i + 1)) (fun j => write (i, i + 1 + j) 0) a) x'.e }

/-- A loop on all entries that returns `false` at the first entry for which `bad` holds. -/
def allEntries (m n : Nat) (bad : Nat → Nat → Bool) : Bool :=
  (List.range m).all fun i => (List.range n).all fun j => !bad i j

/-- `IsZero(pmat)`, lines 77-84. -/
def isZero [Zero α] [DecidableEq α] (x : PMat α) : Bool := allEntries x.rows x.cols fun i j => !decide (x.e (i, j) = 0)

/-- `IsIdent(pmat)`, lines 89-103. -/
def isIdent [Zero α] [One α] [DecidableEq α] (x : PMat α) : Bool :=
  if x.rows ≠ x.cols then false
  else allEntries x.rows x.rows fun i j =>
    (decide (i = j) && !decide (x.e (i, j) = 1)) || (decide (i ≠ j) && !decide (x.e (i, j) = 0))

/-- `IsIdent(pmat, dim)`, lines 108-122. -/
def isIdentDim [Zero α] [One α] [DecidableEq α] (x : PMat α) (dim : Nat) : Bool :=
  if x.rows ≠ dim ∨ x.cols ≠ dim then false
  else allEntries dim dim fun i j =>
    (decide (i = j) && !decide (x.e (i, j) = 1)) || (decide (i ≠ j) && !decide (x.e (i, j) = 0))

/-- `deg(a)`, lines 136-144. -/
noncomputable def deg (a : PMat R[X]) : Int :=
  forN a.rows (fun i => forN a.cols fun j d => if d < pdeg (a.e (i, j)) then pdeg (a.e (i, j)) else d) (-1)

/-- `IsConstant(pmat)`, lines 149-156. -/
noncomputable def isConstant (x : PMat R[X]) : Bool :=
  allEntries x.rows x.cols fun i j => decide (0 < pdeg (x.e (i, j)))

/-! ### Coefficients, transpose, truncation, shifts, reversal, lines 162-441 -/

/-- `GetCoeff(x, a, i)`, lines 162-169. -/
noncomputable def getCoeff (x : PMat R) (a : PMat R[X]) (k : Nat) : PMat R :=
  let x' := x.setDims a.rows a.cols
  { x' with e := loop2 a.rows a.cols (fun u v _ => (a.e (u, v)).coeff k) x'.e }

/-- `SetCoeff(x, i, a)`, lines 174-185. -/
noncomputable def setCoeff (x : PMat R[X]) (k : Nat) (a : PMat R) : Option (PMat R[X]) :=
  if x.rows ≠ a.rows ∨ x.cols ≠ a.cols then none
  else some { x with e := loop2 x.rows x.cols (fun u v cur => (cur (u, v)).erase k + C (a.e (u, v)) * X ^ k) x.e }

/-- `swap(x[i][j], x[j][i])`. -/
def swapT (i j : Nat) (x : Nat × Nat → α) : Nat × Nat → α := write (j, i) (x (i, j)) (write (i, j) (x (j, i)) x)

/-- `transpose(x, a)`, lines 190-217. -/
def transpose [Zero α] (al : Bool) (x a : PMat α) : PMat α :=
  let n := a.rows
  let m := a.cols
  if al then
    if n = m then { a with e := forN n (fun i => forN (n - (i + 1)) fun j => swapT i (i + 1 + j)) a.e }
    else ⟨m, n, forN n (fun i => forN m fun j => write (j, i) (a.e (i, j))) fun _ => 0⟩
  else
    let x' := x.setDims m n
    { x' with e := forN n (fun i => forN m fun j => write (j, i) (a.e (i, j))) x'.e }

/-- `trunc(x, a, n)`, lines 248-254. -/
noncomputable def trunc (al : Bool) (x a : PMat R[X]) (n : Nat) : PMat R[X] :=
  entrywise al x a fun _ _ f => ptrunc f n

/-- `truncRow(x, a, r, n)`, lines 256-261. -/
noncomputable def truncRow (al : Bool) (x a : PMat R[X]) (r n : Nat) : PMat R[X] :=
  let x' := if al then a else x.setDims a.rows a.cols
  { x' with e := forN x'.cols (fun c cur => write (r, c) (ptrunc (rd al cur a.e r c) n) cur) x'.e }

/-- `truncCol(x, a, c, n)`, lines 263-268. -/
noncomputable def truncCol (al : Bool) (x a : PMat R[X]) (c n : Nat) : PMat R[X] :=
  let x' := if al then a else x.setDims a.rows a.cols
  { x' with e := forN x'.rows (fun r cur => write (r, c) (ptrunc (rd al cur a.e r c) n) cur) x'.e }

/-- `LeftShift(x, a, n)`, lines 296-302. -/
noncomputable def leftShift (al : Bool) (x a : PMat R[X]) (n : Int) : PMat R[X] :=
  entrywise al x a fun _ _ f => pshift f n

/-- `RightShift(x, a, n)`, lines 304-310. -/
noncomputable def rightShift (al : Bool) (x a : PMat R[X]) (n : Int) : PMat R[X] :=
  entrywise al x a fun _ _ f => pshift f (-n)

/-- `LeftShiftRow(x, a, r, n)`, lines 316-331; `RightShiftRow`, lines 333-348, with `-n`.  An out of
    range `r` makes the other branch write outside of the matrix. -/
noncomputable def shiftRow (al : Bool) (x a : PMat R[X]) (r : Nat) (n : Int) : Option (PMat R[X]) :=
  if al then
    if a.rows ≤ r ∧ 0 < a.cols then none
    else some { a with e := forN a.cols (fun j cur => write (r, j) (pshift (cur (r, j)) n) cur) a.e }
  else if a.rows ≤ r then none
  else
    let x' := x.setDims a.rows a.cols
    let e := forN r (fun i => forN a.cols fun j => write (i, j) (a.e (i, j))) x'.e
    let e := forN x'.cols (fun j => write (r, j) (pshift (a.e (r, j)) n)) e
    let e := forN (x'.rows - (r + 1)) (fun i => forN a.cols fun j => write (r + 1 + i, j) (a.e (r + 1 + i, j))) e
    some { x' with e := e }

/-- `LeftShiftCol(x, a, c, n)`, lines 350-367; `RightShiftCol`, lines 369-386, with `-n`. -/
noncomputable def shiftCol (al : Bool) (x a : PMat R[X]) (c : Nat) (n : Int) : Option (PMat R[X]) :=
  if a.cols ≤ c ∧ 0 < a.rows then none
  else if al then
    some { a with e := forN a.rows (fun i cur => write (i, c) (pshift (cur (i, c)) n) cur) a.e }
  else
    let x' := x.setDims a.rows a.cols
    some { x' with e := forN x'.rows (fun i cur =>
        let cur := forN c (fun j => write (i, j) (a.e (i, j))) cur
        let cur := write (i, c) (pshift (a.e (i, c)) n) cur
        forN (x'.cols - (c + 1)) (fun j => write (i, c + 1 + j) (a.e (i, c + 1 + j))) cur) x'.e }

/-- `reverse(x, a, hi)`, lines 393-402. -/
noncomputable def reverse (al : Bool) (x a : PMat R[X]) (hi : Int) : PMat R[X] :=
  entrywise al x a fun _ _ f => preverse f hi

/-- `col_reverse(x, a, hi)`, lines 408-421. -/
noncomputable def colReverse (al : Bool) (x a : PMat R[X]) (hi : Nat → Int) : PMat R[X] :=
  entrywise al x a fun _ s f => preverse f (hi s)

/-- `row_reverse(x, a, hi)`, lines 427-440. -/
noncomputable def rowReverse (al : Bool) (x a : PMat R[X]) (hi : Nat → Int) : PMat R[X] :=
  entrywise al x a fun r _ f => preverse f (hi r)

/-! ### Evaluation, lines 446-471 -/

/-- `eval(evmat, pmat, pt)`, lines 446-452. -/
noncomputable def eval (x : PMat R) (a : PMat R[X]) (pt : R) : PMat R :=
  let x' := x.setDims a.rows a.cols
  { x' with e := loop2 a.rows a.cols (fun i j _ => (a.e (i, j)).eval pt) x'.e }

/-- `mul(evmat, evmat, pt)` and `add(evmat, evmat, m)` of NTL. -/
def hornerStep (pt : R) (m ev : PMat R) : PMat R := { ev with e := fun ij => ev.e ij * pt + m.e ij }

/-- `eval(evmat, matp, pt)`, lines 457-471: Horner's rule; `len` is `matp.length()`. -/
def evalCoeffs (len : Nat) (matp : Nat → PMat R) (pt : R) : PMat R :=
  if len = 0 then ⟨0, 0, fun _ => 0⟩
  else forN (len - 1) (fun k ev => hornerStep pt (matp (len - 2 - k)) ev) (matp (len - 1))

/-! ### Conversions, lines 540-672 -/

/-- `conv(pmat, mat)`, lines 540-546. -/
noncomputable def convConst (x : PMat R[X]) (a : PMat R) : PMat R[X] :=
  let x' := x.setDims a.rows a.cols
  { x' with e := loop2 a.rows a.cols (fun i j _ => C (a.e (i, j))) x'.e }

/-- `f[k]` of NTL: the `k`-th entry of the vector of coefficients, out of bounds above the degree. -/
noncomputable def rawCoeff (f : R[X]) (k : Nat) : Option R :=
  if (k : Int) ≤ pdeg f then some (f.coeff k) else none

/-- `CACHE_FRIENDLY_SIZE`, line 7. -/
def cacheSize : Nat := 32

/-- `MATRIX_BLOCK_SIZE`, line 8. -/
def blockSize : Nat := 8

/-- `conv(matp, pmat)`, lines 556-576: `len` and the entries `(k, (i, j))` of the coefficient matrices,
    each `none` if it was read out of bounds. -/
noncomputable def convToCoeffs (a : PMat R[X]) : Nat × (Nat × (Nat × Nat) → Option R) :=
  let len := (deg a + 1).toNat
  (len, forStep cacheSize len (fun k =>
    let kb := min cacheSize (len - k)
    forN a.rows fun i => forN a.cols fun j => forN kb fun kk => write (k + kk, (i, j)) (rawCoeff (a.e (i, j)) (k + kk)))
    fun _ => some 0)

/-- `conv(pmat, matp)`, lines 578-620.  `matp` is given by its length, the dimensions of its matrices
    and their entries. -/
noncomputable def convFromCoeffs (x : PMat R[X]) (len m n : Nat) (matp : Nat → Nat × Nat → R) : PMat R[X] :=
  if len = 0 then clear x
  else if len = 1 then convConst x ⟨m, n, matp 0⟩
  else
    let x' := x.setDims m n
    let store : (Nat × Nat) × Nat → R := forN m (fun i => forStep cacheSize n fun j =>
      let jb := min cacheSize (n - j)
      forStep blockSize len fun k =>
        let kb := min blockSize (len - k)
        forN jb fun jj => forN kb fun kk => write ((i, j + jj), k + kk) (matp (k + kk) (i, j + jj))) fun _ => 0
    { x' with e := loop2 m n (fun i j _ => ofCoeffs len fun k => store ((i, j), k)) x'.e }

/-- `conv(matp, pmat, order)`, lines 630-646. -/
noncomputable def convToCoeffsOrder (a : PMat R[X]) (order : Nat) : Nat × (Nat × (Nat × Nat) → R) :=
  (order, forN order (fun k => forN a.rows fun i => forN a.cols fun j => write (k, (i, j)) ((a.e (i, j)).coeff k))
    fun _ => 0)

/-- `conv(pmat, matp, order)`, lines 648-672. -/
noncomputable def convFromCoeffsOrder (x : PMat R[X]) (len m n : Nat) (matp : Nat → Nat × Nat → R) (order : Nat) :
    PMat R[X] :=
  let len := min order len
  if len = 0 then clear x
  else
    let x' := x.setDims m n
    { x' with e := loop2 m n (fun i j _ => ofCoeffs len fun k => matp k (i, j)) x'.e }

/-! ### Arithmetic, `mat_lzz_pX_arith.cpp` -/

/-- A function `c = op(a, b)` on matrices, entry by entry, with the dimension check; `alA` and `alB`
    tell whether `c` is `a` or `b`.  `add`, lines 22-34; `sub`, lines 125-137. -/
def zipWith [Zero α] (op : α → α → α) (alA alB : Bool) (c a b : PMat α) : Option (PMat α) :=
  let m := a.rows
  let n := a.cols
  if m ≠ b.rows ∨ n ≠ b.cols then none
  else
    let c' := if alA then a else if alB then b else c.setDims m n
    some { c' with e := loop2 m n (fun i j cur => op (rd alA cur a.e i j) (rd alB cur b.e i j)) c'.e }

/-- `add(c, a, b)` with `b` constant, lines 39-51; `sub`, lines 142-154. -/
noncomputable def zipConstRight (op : R[X] → R[X] → R[X]) (al : Bool) (c a : PMat R[X]) (b : PMat R) : Option (PMat R[X]) :=
  let m := a.rows
  let n := a.cols
  if m ≠ b.rows ∨ n ≠ b.cols then none
  else
    let c' := if al then a else c.setDims m n
    some { c' with e := loop2 m n (fun i j cur => op (rd al cur a.e i j) (C (b.e (i, j)))) c'.e }

/-- `sub(c, a, b)` with `a` constant, lines 159-171. -/
noncomputable def subConstLeft (al : Bool) (c : PMat R[X]) (a : PMat R) (b : PMat R[X]) : Option (PMat R[X]) :=
  let m := a.rows
  let n := a.cols
  if m ≠ b.rows ∨ n ≠ b.cols then none
  else
    let c' := if al then b else c.setDims m n
    some { c' with e := loop2 m n (fun i j cur => C (a.e (i, j)) - rd al cur b.e i j) c'.e }

/-- `negate(x, a)`, lines 241-250. -/
noncomputable def negate (al : Bool) (x a : PMat R[X]) : PMat R[X] := entrywise al x a fun _ _ f => -f

/-- NTL's product of constant matrices: `(s × t) (t × u)`. -/
def cmul (t : Nat) (a b : Nat × Nat → R) (ij : Nat × Nat) : R := ∑ k ∈ Finset.range t, a (ij.1, k) * b (k, ij.2)

/-- `mul(c, a, b)` with `b` constant, lines 263-296.  An aliased output goes through a fresh matrix. -/
noncomputable def mulConstRight (a : PMat R[X]) (b : PMat R) : Option (PMat R[X]) :=
  let d := deg a
  let m := a.rows
  let n := a.cols
  let p := b.cols
  if n ≠ b.rows then none
  else
    some ⟨m, p, forN (d + 1).toNat (fun i c =>
      let tmp := loop2 m n (fun u v _ => (a.e (u, v)).coeff i) fun _ => 0
      let res := cmul n tmp b.e
      loop2 m p (fun u v cur => (cur (u, v)).erase i + C (res (u, v)) * X ^ i) c) fun _ => 0⟩

/-- `mul(c, a, b)` with `a` constant, lines 301-335. -/
noncomputable def mulConstLeft (a : PMat R) (b : PMat R[X]) : Option (PMat R[X]) :=
  let d := deg b
  let m := a.rows
  let n := a.cols
  let p := b.cols
  if n ≠ b.rows then none
  else
    some ⟨m, p, forN (d + 1).toNat (fun i c =>
      let tmp := loop2 n p (fun u v _ => (b.e (u, v)).coeff i) fun _ => 0
      let res := cmul n a.e tmp
      loop2 m p (fun u v cur => (cur (u, v)).erase i + C (res (u, v)) * X ^ i) c) fun _ => 0⟩

/-- `mul(c, a, b)` with a scalar `b`, lines 352-361. -/
noncomputable def mulScalar (al : Bool) (c a : PMat R[X]) (b : R) : PMat R[X] := entrywise al c a fun _ _ f => f * C b

/-- `mul(c, a, b)` with a polynomial `b`, lines 377-386.  `b` is passed by reference: `ref` is its
    position when it is an entry of `c`. -/
noncomputable def mulPoly (al : Bool) (ref : Option (Nat × Nat)) (c a : PMat R[X]) (b : R[X]) : PMat R[X] :=
  let c' := if al then a else c.setDims a.rows a.cols
  { c' with e := loop2 a.rows a.cols (fun i j cur =>
      rd al cur a.e i j * (match ref with | none => b | some ij => cur ij)) c'.e }

end PML.Ntl.Utils
