import Verif.Ntl.StructModel

/-!
# Model of the arithmetic of `ntl-extras/lzz_pXY/src/lzz_pXY.cpp`

A `zz_pXY` is a vector of polynomials, `rep[i]` being the coefficient of `Y^i` (lzz_pXY.h:35-39).  The
coefficients `zz_p` are in a field `F`, and a normalised `zz_pX` is an element of `F[X]`.  The variables of
the program are numbered: a memory gives the vector held by each variable, so that a call in which the output
is also an operand is a call with equal numbers.  `Vec::SetLength` of NTL changes the length and leaves the
entries alone, including those beyond the length; a negative length is an error.  An access outside the length
is `ub`.  Indices and lengths are integers without overflow.
-/

namespace PML.Ntl.Bivar

open Polynomial PML.Ntl.Utils PML.Ntl.Inv PML.Ntl.Solve PML.Ntl.Struct

variable {F : Type} [Field F]

/-- `Vec<zz_pX>` (the field `rep`, lzz_pXY.h:39): its length, and its entries, including those kept beyond the
    length. -/
structure PVec (F : Type) [Field F] where
  /-- `rep.length()` -/
  len : Nat
  /-- the entries -/
  at' : Nat → F[X]

/-- The values of the variables of type `zz_pXY`. -/
abbrev Mem (F : Type) [Field F] := Nat → PVec F

/-- `v.SetLength(n)` of NTL. -/
def PVec.setLength (v : PVec F) (n : Int) : Out (PVec F) :=
  if n < 0 then .error else .ok { v with len := n.toNat }

/-- `v[i]` as a value. -/
def PVec.get (v : PVec F) (i : Int) : Out F[X] :=
  if 0 ≤ i ∧ i < v.len then .ok (v.at' i.toNat) else .ub

/-- `v[i] = x`. -/
def PVec.put (v : PVec F) (i : Int) (x : F[X]) : Out (PVec F) :=
  if 0 ≤ i ∧ i < v.len then .ok { v with at' := write i.toNat x v.at' } else .ub

/-- `x.rep.SetLength(n)` for a variable `x`. -/
def setLen (m : Mem F) (x : Nat) (n : Int) : Out (Mem F) :=
  andThen ((m x).setLength n) fun v => .ok (write x v m)

/-- `x.rep[i]` as a value. -/
def rd (m : Mem F) (x : Nat) (i : Int) : Out F[X] := (m x).get i

/-- `x.rep[i] = w`. -/
def wr (m : Mem F) (x : Nat) (i : Int) (w : F[X]) : Out (Mem F) :=
  andThen ((m x).put i w) fun v => .ok (write x v m)

/-- `for (i = lo; i <= hi; i++) s = f(i, s)`. -/
def loopI {σ : Type} (lo hi : Int) (f : Int → σ → Out σ) (s : σ) : Out σ :=
  loopOut (hi + 1 - lo).toNat (fun k => f (lo + k)) s

/-- `deg(f)` of NTL: `-1` for zero. -/
noncomputable def pdeg (f : F[X]) : Int := open Classical in if f = 0 then -1 else f.natDegree

/-- `degY()`, lines 71-74. -/
def PVec.degY (v : PVec F) : Int := (v.len : Int) - 1

/-- `is_zero()`, lines 44-47. -/
def PVec.isZero (v : PVec F) : Bool := v.len == 0

/-- `tdeg()`, lines 60-66. -/
noncomputable def PVec.tdeg (v : PVec F) : Int := forN v.len (fun i res => max res (pdeg (v.at' i) + i)) (-1)

/-- `degX()`, lines 79-85. -/
noncomputable def PVec.degX (v : PVec F) : Int := forN v.len (fun i d => max d (pdeg (v.at' i))) (-1)

/-- The loop of `normalize()`, lines 93-95: `idx + 1` at its end, when it starts with `idx + 1 = n`. -/
noncomputable def trimLen (e : Nat → F[X]) : Nat → Nat
  | 0 => 0
  | n + 1 => open Classical in if e n = 0 then trimLen e n else n + 1

/-- `normalize()`, lines 91-97. -/
noncomputable def PVec.normalize (v : PVec F) : PVec F := { v with len := trimLen v.at' v.len }

/-- `x.normalize()` for a variable `x`. -/
noncomputable def norm (m : Mem F) (x : Nat) : Mem F := write x (m x).normalize m

/-- `zero()`, lines 52-55. -/
def PVec.zero (v : PVec F) : PVec F := { v with len := 0 }

/-- The constructor from a vector, lines 24-28: `c` is copied and normalised. -/
noncomputable def ofVec (c : PVec F) : PVec F := c.normalize

/-- The constructor from a polynomial, lines 34-39. -/
noncomputable def ofPoly (c : F[X]) : PVec F := (⟨1, fun _ => c⟩ : PVec F).normalize

/-- `random_zz_pX(dx)` of NTL, `dx ≥ 0`, for the sequence of draws `u`. -/
noncomputable def randPoly (dx : Nat) (u : Nat → F) : F[X] := ofCoeffs dx u

/-- `random_zz_pXY(f, dx, dy)`, lines 110-115; `u i j` is the draw of the coefficient `j` of `f.rep[i]`. -/
noncomputable def random (u : Nat → Nat → F) (m : Mem F) (f dx : Nat) (dy : Int) : Out (Mem F) :=
  andThen (setLen m f dy) fun m =>
  loopI 0 (dy - 1) (fun i m => wr m f i (randPoly dx (u i.toNat))) m

/-- `evaluate(value, f, point)`, lines 120-126.  `SetCoeff(value, i, w)` of NTL replaces the coefficient of
    degree `i`. -/
noncomputable def evaluate (m : Mem F) (f : Nat) (point : F) : Out F[X] :=
  loopI 0 (m f).degY (fun i value => andThen (rd m f i) fun c => .ok (value.update i.toNat (c.eval point))) 0

/-- `add(c, a, b)`, lines 131-151. -/
noncomputable def add (m : Mem F) (c a b : Nat) : Out (Mem F) :=
  let dyA := (m a).degY
  let dyB := (m b).degY
  let dy := max dyA dyB
  let dy0 := min dyA dyB
  andThen (setLen m c (dy + 1)) fun m =>
  andThen (loopI 0 dy0 (fun i m => andThen (rd m a i) fun x => andThen (rd m b i) fun y => wr m c i (x + y)) m) fun m =>
  andThen (loopI (dy0 + 1) dyB (fun i m => andThen (rd m b i) fun y => wr m c i y) m) fun m =>
  andThen (loopI (dy0 + 1) dyA (fun i m => andThen (rd m a i) fun x => wr m c i x) m) fun m =>
  .ok (norm m c)

/-- `sub(c, a, b)`, lines 156-176. -/
noncomputable def sub (m : Mem F) (c a b : Nat) : Out (Mem F) :=
  let dyA := (m a).degY
  let dyB := (m b).degY
  let dy := max dyA dyB
  let dy0 := min dyA dyB
  andThen (setLen m c (dy + 1)) fun m =>
  andThen (loopI 0 dy0 (fun i m => andThen (rd m a i) fun x => andThen (rd m b i) fun y => wr m c i (x - y)) m) fun m =>
  andThen (loopI (dy0 + 1) dyB (fun i m => andThen (rd m b i) fun y => wr m c i (-y)) m) fun m =>
  andThen (loopI (dy0 + 1) dyA (fun i m => andThen (rd m a i) fun x => wr m c i x) m) fun m =>
  .ok (norm m c)

/-- `mul_naive(c, a, b)`, lines 181-199.  `c_tmp` is a fresh vector of zeros. -/
noncomputable def mulNaive (m : Mem F) (c a b : Nat) : Out (Mem F) :=
  if (m a).isZero || (m b).isZero then .ok (write c (m c).zero m)
  else
    let da := (m a).degY
    let db := (m b).degY
    andThen ((⟨0, fun _ => 0⟩ : PVec F).setLength (da + db + 1)) fun t =>
    andThen (loopI 0 da (fun i t => loopI 0 db (fun j t =>
      andThen (rd m a i) fun x => andThen (rd m b j) fun y => andThen (t.get (i + j)) fun z =>
        t.put (i + j) (z + x * y)) t) t) fun t =>
    .ok (write c t.normalize m)

/-- `mul(c, a, b)` for a constant `b`, lines 201-213.  `a.degY()` is read again at each round. -/
noncomputable def mulConst (m : Mem F) (c a : Nat) (b : F) : Out (Mem F) :=
  open Classical in
  if (m a).isZero ∨ b = 0 then .ok (write c (m c).zero m)
  else
    andThen (setLen m c ((m a).degY + 1)) fun m =>
    loopI 0 (m a).degY (fun i m => andThen (rd m a i) fun x => wr m c i (Polynomial.C b * x)) m

/-- `out_e[j] = w` in an array of `N` entries. -/
def aput (N : Nat) (e : Nat → F) (j : Int) (w : F) : Out (Nat → F) :=
  if 0 ≤ j ∧ j < N then .ok (write j.toNat w e) else .ub

/-- The entries of one coefficient, lines 231-242, written from the index `off` on: `d` is its degree. -/
noncomputable def kronBlock (N : Nat) (degX off : Int) (x : F[X]) (e : Nat → F) : Out (Nat → F) :=
  let d := pdeg x
  if 0 ≤ d then
    andThen (loopI 0 d (fun j e => aput N e (off + j) (x.coeff j.toNat)) e) fun e =>
    loopI (d + 1) degX (fun j e => aput N e (off + j) 0) e
  else loopI 0 degX (fun j e => aput N e (off + j) 0) e

/-- `to_kronecker(out, a, degX)` for a vector, lines 218-246; `e0` is the earlier content of the storage of
    `out`.  The pointer `out_e` is an offset. -/
noncomputable def toKron (e0 : Nat → F) (a : PVec F) (degX : Int) : Out F[X] :=
  if a.len = 0 then .ok 0
  else
    let dyA := (a.len : Int) - 1
    let N := (degX + 1) * (dyA + 1)
    if N < 0 then .error
    else
      andThen (loopI 0 dyA (fun i s => andThen (a.get i) fun x =>
        andThen (kronBlock N.toNat degX s.1 x s.2) fun e => .ok (s.1 + (degX + 1), e)) ((0 : Int), e0)) fun s =>
      .ok (ofCoeffs N.toNat s.2)

/-- `to_kronecker(out, a, degX)` for a bivariate polynomial, lines 279-287. -/
noncomputable def toKronXY (e0 : Nat → F) (a : PVec F) (degX : Int) : Out F[X] :=
  if a.isZero then .ok 0 else toKron e0 a degX

/-- The loop of lines 268-269, where `j` may still grow `k` times, for `deg(a) = d`: `j`, `idx` and the entries of `c[i]`. -/
noncomputable def fromCopy (a : F[X]) (d : Nat) : Nat → Nat → Nat → (Nat → F) → Nat × Nat × (Nat → F)
  | 0, j, idx, ce => (j, idx, ce)
  | k + 1, j, idx, ce =>
    if idx ≤ d then fromCopy a d k (j + 1) (idx + 1) (write j (a.coeff idx) ce) else (j, idx, ce)

/-- `from_kronecker(c, a, degX)` for a vector, lines 251-274: `old` is the earlier content of `c`, `ce0` that of the
    storage of its entries.  For `degX = -1` the integer division of line 259 is a division by zero. -/
noncomputable def fromKron (ce0 : Nat → Nat → F) (old : PVec F) (a : F[X]) (degX : Int) : Out (PVec F) :=
  open Classical in
  if a = 0 then .ok old.zero
  else if degX + 1 = 0 then .ub
  else
    let degY := (a.natDegree : Int).tdiv (degX + 1)
    andThen (old.setLength (degY + 1)) fun c =>
    andThen (loopI 0 degY (fun i s =>
      if degX + 1 < 0 then .error
      else
        let D := (degX + 1).toNat
        let r := fromCopy a a.natDegree D 0 s.1 (ce0 i.toNat)
        let ce := forN (D - r.1) (fun k => write (r.1 + k) 0) r.2.2
        andThen (s.2.put i (ofCoeffs D ce)) fun c => .ok (r.2.1, c)) (0, c)) fun s =>
    .ok s.2

/-- The product of `a` and `b` into a vector `c`, lines 309-325, when `c` is neither `a` nor `b`. -/
noncomputable def kronCore (e0 : Nat → F) (ce0 : Nat → Nat → F) (c a b : PVec F) : Out (PVec F) :=
  if a.isZero || b.isZero then .ok c.zero
  else
    let dx := a.degX + b.degX
    andThen (toKronXY e0 a dx) fun apX =>
    andThen (toKronXY e0 b dx) fun bpX =>
    fromKron ce0 c.zero (apX * bpX) dx

/-- `mul_kronecker(c, a, b)`, lines 301-326, and `mul(c, a, b)`, lzz_pXY.h:293-296.  With an operand as output the
    product is first computed in a new vector. -/
noncomputable def mulKron (e0 : Nat → F) (ce0 : Nat → Nat → F) (m : Mem F) (c a b : Nat) : Out (Mem F) :=
  if c = a ∨ c = b then andThen (kronCore e0 ce0 ⟨0, fun _ => 0⟩ (m a) (m b)) fun r => .ok (write c r m)
  else andThen (kronCore e0 ce0 (m c) (m a) (m b)) fun r => .ok (write c r m)

/-- `a >> n` of NTL, `n ≥ 0`: the quotient by `X^n`. -/
noncomputable def rshift (x : F[X]) (n : Nat) : F[X] := ofCoeffs (x.natDegree + 1 - n) fun k => x.coeff (k + n)

/-- `shift_x(b, a, i)`, lines 334-345. -/
noncomputable def shiftX (m : Mem F) (b a : Nat) (i : Int) : Out (Mem F) :=
  let dy := (m a).degY
  andThen (setLen m b (dy + 1)) fun m =>
  andThen (if 0 ≤ i then loopI 0 dy (fun j m => andThen (rd m a j) fun x => wr m b j (x * X ^ i.toNat)) m
    else loopI 0 dy (fun j m => andThen (rd m a j) fun x => wr m b j (rshift x (-i).toNat)) m) fun m =>
  .ok (norm m b)

/-- Lines 360-375 of `shift_y(b, a, i)`. -/
noncomputable def shiftYCore (m : Mem F) (b a : Nat) (i : Int) : Out (Mem F) :=
  let dy := (m a).degY
  andThen (setLen m b (dy + 1 + i)) fun m =>
  andThen (if 0 ≤ i then
      andThen (loopI 0 (i - 1) (fun j m => wr m b j 0) m) fun m =>
      loopI 0 dy (fun j m => andThen (rd m a j) fun x => wr m b (j + i) x) m
    else loopI 0 (dy + i) (fun j m => andThen (rd m a (j - i)) fun x => wr m b j x) m) fun m =>
  .ok (norm m b)

/-- `shift_y(a, i)` as a value, lzz_pXY.h:365-370: the result of lines 360-375 in a new variable. -/
noncomputable def shiftYVal (v : PVec F) (i : Int) : Out (PVec F) :=
  andThen (shiftYCore (fun x => if x = 0 then v else ⟨0, fun _ => 0⟩) 1 0 i) fun m => .ok (m 1)

/-- `shift_y(b, a, i)`, lines 353-376.  There is no `return` on line 357: when `b` is `a`, the rest of the function
    is run again on the shifted polynomial. -/
noncomputable def shiftY (m : Mem F) (b a : Nat) (i : Int) : Out (Mem F) :=
  if b = a then andThen (shiftYVal (m a) i) fun v => shiftYCore (write b v m) b a i
  else shiftYCore m b a i

/-- `trunc_x(b, a, i)`, lines 382-390.  `trunc` of NTL is an error for `i < 0`. -/
noncomputable def truncX (m : Mem F) (b a : Nat) (i : Int) : Out (Mem F) :=
  let dy := (m a).degY
  andThen (setLen m b (dy + 1)) fun m =>
  andThen (loopI 0 dy (fun j m => andThen (rd m a j) fun x => if i < 0 then .error else wr m b j (ptrunc x i.toNat)) m)
    fun m => .ok (norm m b)

/-- `trunc_y(b, a, i)`, lines 395-408. -/
noncomputable def truncY (m : Mem F) (b a : Nat) (i : Int) : Out (Mem F) :=
  let dy := (m a).degY
  if dy < i then .ok (write b (m a) m)
  else
    andThen (setLen m b i) fun m =>
    andThen (loopI 0 (i - 1) (fun j m => andThen (rd m a j) fun x => wr m b j x) m) fun m =>
    .ok (norm m b)

/-- `SetCoeff(x, i, c)`, lines 413-433. -/
noncomputable def setCoeff (m : Mem F) (x : Nat) (i : Int) (c : F[X]) : Out (Mem F) :=
  open Classical in
  if i < 0 then .error
  else
    let dm := (m x).degY
    if dm < i ∧ c = 0 then .ok m
    else
      andThen (if dm < i then
          andThen (setLen m x (i + 1)) fun m => loopI (dm + 1) (i - 1) (fun j m => wr m x j 0) m
        else .ok m) fun m =>
      andThen (wr m x i c) fun m => .ok (norm m x)

/-- `a == b`, lzz_pXY.h:327-330: equality of vectors of NTL. -/
noncomputable def eqTest (a b : PVec F) : Bool := open Classical in
  decide (a.len = b.len ∧ ∀ i, i < a.len → a.at' i = b.at' i)

end PML.Ntl.Bivar
