import Verif.Ntl.BivarModel
import Verif.Ntl.FftPointsModel
import Verif.Ntl.Fft

/-!
# Model of the structured matrices over `K[X]`

`ntl-extras/structured_lzz_pX/src/`: `lower_triangular_toeplitz_lzz_pX.cpp`, `circulant_row_lzz_pX.cpp`,
`toeplitz_like_minus_lzz_pX.cpp`, `toeplitz_like_plus_lzz_pX.cpp` and the matrix versions of the products in
`structured_lzz_pX.cpp`.  A `Vec<zz_pX>` is a `PVec`, with checked accesses; the Kronecker substitutions are those of
`lzz_pXY.cpp`.  A function with an output vector receives its earlier content; when the output is the input, the result is computed
in a new vector.  A `long` is an integer without overflow.  Local vectors and the storage of new
polynomials have the arbitrary content given by a `Junk`.
-/

namespace PML.Ntl.StructX

open Polynomial PML.Ntl.Utils PML.Ntl.Inv PML.Ntl.Solve PML.Ntl.Struct PML.Ntl.Bivar PML.Ntl.FftPoints

variable {F : Type} [Field F]

/-- The content of uninitialised or reused storage. -/
structure Junk (F : Type) [Field F] where
  /-- the coefficients of an output of `to_kronecker` -/
  e0 : Nat → F
  /-- the coefficients of the entries of an output of `from_kronecker` -/
  ce0 : Nat → Nat → F
  /-- a local vector -/
  old : PVec F

/-- The loops which compute the degrees in `x` and in `y` of a vector, lower_triangular_toeplitz_lzz_pX.cpp:40-48 and 116-124,
    circulant_row_lzz_pX.cpp:39-47, 145-153 and 243-248. -/
noncomputable def degs (v : PVec F) : Int × Int :=
  open Classical in
  forN v.len (fun i s => (if s.1 ≤ Bivar.pdeg (v.at' i) then Bivar.pdeg (v.at' i) else s.1, if v.at' i ≠ 0 then (i : Int) else s.2)) (-1, -1)

/-- `for (i = lo; i < lo + n; i++) r[i] = f(i - lo, r)`. -/
def loopPut (lo n : Nat) (f : Nat → PVec F → Out F[X]) (r : PVec F) : Out (PVec F) :=
  loopOut n (fun i r => andThen (f i r) fun x => r.put ((lo + i : Nat) : Int) x) r

/-- `r.SetLength(n); for (i = 0; i < n; i++) r[i] = 0`. -/
noncomputable def zeros (r : PVec F) (n : Nat) : Out (PVec F) := loopPut 0 n (fun _ _ => .ok 0) { r with len := n }

/-- `ell = r.length(); r.SetLength(n); for (i = ell; i < n; i++) r[i] = 0`. -/
noncomputable def fill (r : PVec F) (n : Nat) : Out (PVec F) := loopPut r.len (n - r.len) (fun _ _ => .ok 0) { r with len := n }

/-- As `fill`, with `trunc(r[i], r[i], s)` for the first `ell` entries. -/
noncomputable def truncFill (s : Nat) (r : PVec F) (n : Nat) : Out (PVec F) :=
  andThen (loopPut 0 r.len (fun i v => andThen (v.get (i : Int)) fun x => .ok (ptrunc x s)) { r with len := n }) fun v =>
  loopPut r.len (n - r.len) (fun _ _ => .ok 0) v

/-- `t.SetLength(n); for (i = 0; i < n; i++) t[i] = v[i + off]`. -/
def part (t v : PVec F) (off n : Nat) : Out (PVec F) := loopPut 0 n (fun i _ => v.get ((i + off : Nat) : Int)) { t with len := n }

/-- `t.SetLength(n); for (i = 0; i < n; i++) t[i] = v[n - 1 - i]`. -/
def rev (t v : PVec F) (n : Nat) : Out (PVec F) := loopPut 0 n (fun i _ => v.get ((n : Int) - 1 - i)) { t with len := n }

/-- `trunc(x, a, n)` of a vector, mat_lzz_pX_utils.cpp:241-246, for `n ≥ 0`. -/
noncomputable def truncV (a : PVec F) (s : Nat) : PVec F := ⟨a.len, fun i => ptrunc (a.at' i) s⟩

/-- The choice of a prepared degree: the smallest one which is at least `d`; `-1` if there is none
    (lower_triangular_toeplitz_lzz_pX.cpp:134-137). -/
def search (p : NVec Int) (d : Int) : Int :=
  forN p.len (fun i i0 => if d ≤ p.e i ∧ i0 = -1 ∨ d ≤ p.e i ∧ p.e i < p.e i0.toNat then (i : Int) else i0) (-1)

/-- `v.append(x)` of NTL. -/
def app {α : Type} (v : NVec α) (x : α) : NVec α := ⟨v.len + 1, write v.len x v.e⟩

/-- A `fftRep`: `k`, and the residue class modulo `X^(2^k) - 1`. -/
abbrev Rep (F : Type) [Field F] := Nat × F[X]

/-- `TofftRep(r, a, k)`. -/
noncomputable def toR (k : Nat) (a : F[X]) : Rep F := (k, toRepAll k a)

/-- `mul(r, a, w)` and `FromfftRep(x, r, 0, h - 1)` of NTL, where `r` is `TofftRep(a, k)`; two representations of different sizes are an error. -/
noncomputable def mulFrom (k : Nat) (a : F[X]) (w : Rep F) (h : Int) : Out F[X] :=
  if k ≠ w.1 then .error else .ok (slice (mulRep k (toRepAll k a) w.2) 0 h.toNat)

/-- `NextPowerOfTwo` of a `long`. -/
def np2 (x : Int) : Nat := nextPow2 x.toNat

/-! ### Lower triangular Toeplitz matrices -/

/-- The members of `lower_triangular_toeplitz_lzz_pX`. -/
structure Tri (F : Type) [Field F] where
  /-- the dimension -/
  n : Nat
  /-- the degree in `x` -/
  dX : Int
  /-- the index of the last nonzero entry -/
  dY : Int
  /-- the first column -/
  data : PVec F
  /-- the prepared degrees -/
  rhs : NVec Int
  /-- the first column, transformed for each prepared degree -/
  fft : NVec (Rep F)

/-- The default constructor, lower_triangular_toeplitz_lzz_pX.cpp:27-30: `dX` and `dY` are not initialised. -/
noncomputable def Tri.default (x y : Int) : Tri F := ⟨0, x, y, ⟨0, fun _ => 0⟩, ⟨0, fun _ => 0⟩, ⟨0, fun _ => (0, 0)⟩⟩

/-- The constructor, lower_triangular_toeplitz_lzz_pX.cpp:35-49. -/
noncomputable def Tri.make (input : PVec F) : Tri F :=
  ⟨input.len, (degs input).1, (degs input).2, input, ⟨0, fun _ => 0⟩, ⟨0, fun _ => (0, 0)⟩⟩

/-- `prepare_degree(d)`, lower_triangular_toeplitz_lzz_pX.cpp:54-73. -/
noncomputable def Tri.prepare (g : Junk F) (o : Tri F) (d : Int) : Out (Tri F) :=
  if o.dY = -1 ∨ d = -1 then .ok o
  else if ∃ i, i < o.rhs.len ∧ d = o.rhs.e i then .ok o
  else
    andThen (toKron g.e0 o.data (o.dX + d)) fun dataK =>
    .ok { o with rhs := app o.rhs d, fft := app o.fft (toR (np2 ((o.dY + o.n) * (o.dX + d + 1))) dataK) }

/-- `to_dense(Mdense)`, lower_triangular_toeplitz_lzz_pX.cpp:92-98; `x` is the earlier content of `Mdense`.  The index `i - j` is less than
    `n`, which is the length of `data`. -/
noncomputable def Tri.toDense (o : Tri F) (x : PMat F[X]) : PMat F[X] :=
  let y := x.setDims o.n o.n
  ⟨o.n, o.n, forN o.n (fun j e => forN (o.n - j) (fun k e => write (j + k, j) (o.data.at' (j + k - j)) e) e) y.e⟩

/-- `mul_right(res, input)`, lower_triangular_toeplitz_lzz_pX.cpp:103-176. -/
noncomputable def Tri.mulRight (g : Junk F) (o : Tri F) (res input : PVec F) : Out (PVec F) :=
  if input.len ≠ o.n then .error
  else
    let d := (degs input).1
    let e := (degs input).2
    if d = -1 ∨ o.dY = -1 then zeros res o.n
    else
      let i0 := search o.rhs d
      andThen (
        if 0 ≤ i0 then
          andThen (vget o.rhs i0.toNat) fun df =>
          andThen (toKron g.e0 input (o.dX + df)) fun inK =>
          andThen (vget o.fft i0.toNat) fun w =>
          andThen (mulFrom (np2 ((o.dY + o.n) * (o.dX + df + 1))) inK w (o.n * (o.dX + df + 1))) fun tmp =>
          fromKron g.ce0 res tmp (o.dX + df)
        else
          andThen (toKron g.e0 input (o.dX + d)) fun inK =>
          andThen (toKron g.e0 o.data (o.dX + d)) fun repK =>
          let K := np2 ((o.dY + e + 1) * (o.dX + d + 1))
          let len := min (o.dY + e + 1) o.n
          andThen (mulFrom K inK (toR K repK) (len * (o.dX + d + 1))) fun tmp =>
          fromKron g.ce0 res tmp (o.dX + d)) fun res =>
      fill res o.n

/-- `mul_right_trunc(res, input, s)`, lower_triangular_toeplitz_lzz_pX.cpp:181-219, for `s ≥ 0`. -/
noncomputable def Tri.mulRightTrunc (g : Junk F) (o : Tri F) (res input : PVec F) (s : Nat) : Out (PVec F) :=
  if input.len ≠ o.n then .error
  else
    let dt := truncV o.data s
    let it := truncV input s
    let dAx := dt.degX
    let d := it.degX
    if dAx = -1 ∨ d = -1 then zeros res o.n
    else
      andThen (toKron g.e0 it (dAx + d)) fun kin =>
      andThen (toKron g.e0 dt (dAx + d)) fun kA =>
      andThen (fromKron g.ce0 res (ptrunc (kin * kA) (o.n * (dAx + d + 1)).toNat) (dAx + d)) fun res =>
      truncFill s res o.n

/-- `mul_left(res, input)`, lower_triangular_toeplitz_lzz_pX.cpp:224-246. -/
noncomputable def Tri.mulLeft (g : Junk F) (o : Tri F) (res input : PVec F) : Out (PVec F) :=
  if input.len ≠ o.n then .error
  else
    andThen (rev g.old input o.n) fun inRev =>
    andThen (o.mulRight g g.old inRev) fun outRev =>
    rev res outRev o.n

/-- `mul_left_trunc(res, input, s)`, lower_triangular_toeplitz_lzz_pX.cpp:251-272. -/
noncomputable def Tri.mulLeftTrunc (g : Junk F) (o : Tri F) (res input : PVec F) (s : Nat) : Out (PVec F) :=
  if input.len ≠ o.n then .error
  else
    andThen (rev g.old input o.n) fun inRev =>
    andThen (o.mulRightTrunc g g.old inRev s) fun outRev =>
    rev res outRev o.n

/-! ### Circulant matrices -/

/-- The members of `circulant_row_lzz_pX`. -/
structure Circ (F : Type) [Field F] where
  /-- the number of rows -/
  n : Nat
  /-- the number of columns -/
  m : Nat
  /-- the degree in `x` -/
  dX : Int
  /-- the index of the last nonzero entry of `dataRev` -/
  dY : Int
  /-- the vector which defines the matrix -/
  data : PVec F
  /-- its rotation -/
  dataRev : PVec F
  /-- the prepared degrees -/
  rhs : NVec Int
  /-- the prepared degrees -/
  lhs : NVec Int
  /-- the transforms for `mul_right` -/
  fft : NVec (Rep F)
  /-- the transforms for the last chunk of `mul_left` -/
  fft2 : NVec (Rep F)
  /-- the transforms for the other chunks -/
  fft3 : NVec (Rep F)

/-- The default constructor, circulant_row_lzz_pX.cpp:21-24. -/
noncomputable def Circ.default (x y : Int) : Circ F := ⟨0, 0, x, y, ⟨0, fun _ => 0⟩, ⟨0, fun _ => 0⟩, ⟨0, fun _ => 0⟩, ⟨0, fun _ => 0⟩,
  ⟨0, fun _ => (0, 0)⟩, ⟨0, fun _ => (0, 0)⟩, ⟨0, fun _ => (0, 0)⟩⟩

/-- The constructor, circulant_row_lzz_pX.cpp:29-48. -/
noncomputable def Circ.make (g : Junk F) (input : PVec F) (nrows : Nat) : Out (Circ F) :=
  let m := input.len
  andThen (input.get ((m : Int) - 1)) fun last =>
  andThen (({ g.old with len := m } : PVec F).put 0 last) fun r =>
  andThen (loopPut 1 (m - 1) (fun i _ => input.get (i : Int)) r) fun r =>
  .ok ⟨nrows, m, (degs r).1, (degs r).2, input, r, ⟨0, fun _ => 0⟩, ⟨0, fun _ => 0⟩, ⟨0, fun _ => (0, 0)⟩, ⟨0, fun _ => (0, 0)⟩, ⟨0, fun _ => (0, 0)⟩⟩

/-- `to_dense(Mdense)`, circulant_row_lzz_pX.cpp:66-78.  The loop of lines 73-75 computes the remainder of `i - j - 1` by `m`. -/
noncomputable def Circ.toDense (o : Circ F) (x : PMat F[X]) : PMat F[X] :=
  let y := x.setDims o.n o.m
  ⟨o.n, o.m, forN o.n (fun i e => forN o.m (fun j e => write (i, j) (o.data.at' ((((i : Int) - j - 1) % o.m).toNat)) e) e) y.e⟩

/-- `leftover`, circulant_row_lzz_pX.cpp:111-117. -/
def Circ.leftover (o : Circ F) : Nat := if o.n % o.m = 0 then o.m else o.n % o.m

/-- `nb`, circulant_row_lzz_pX.cpp:260-265, when `n > 0`. -/
def Circ.nb (o : Circ F) : Nat := if o.n % o.m = 0 then o.n / o.m - 1 else o.n / o.m

/-- `prepare_degree(d)`, circulant_row_lzz_pX.cpp:83-127. -/
noncomputable def Circ.prepare (g : Junk F) (o : Circ F) (d : Int) : Out (Circ F) :=
  if o.dY = -1 ∨ d = -1 then .ok o
  else if ∃ i, i < o.rhs.len ∧ d = o.rhs.e i then .ok o
  else
    andThen (toKron g.e0 o.dataRev (o.dX + d)) fun dataK =>
    andThen (rev g.old o.data o.m) fun tmp =>
    andThen (toKron g.e0 tmp (o.dX + d)) fun matK =>
    if o.m = 0 then .ub
    else .ok { o with
      rhs := app o.rhs d
      lhs := app o.lhs d
      fft := app o.fft (toR (np2 ((o.dY + o.m) * (o.dX + d + 1))) dataK)
      fft2 := app o.fft2 (toR (np2 (((o.m : Int) + o.leftover - 1) * (o.dX + d + 1))) matK)
      fft3 := app o.fft3 (toR (np2 ((2 * (o.m : Int) - 1) * (o.dX + d + 1))) matK) }

/-- The loop of circulant_row_lzz_pX.cpp:215-223, for at most `fuel` rounds. -/
def copyRows (m : Nat) : Nat → Nat → Nat → PVec F → Out (PVec F)
  | 0, _, _, _ => .loops
  | fuel + 1, done, left, r =>
    let todo := min left m
    andThen (loopPut done todo (fun i r => r.get ((done + i : Nat) - (m : Int))) r) fun r =>
    if 1 ≤ left - todo then copyRows m fuel (done + todo) (left - todo) r else .ok r

/-- `res` from the entries `c` of the product, circulant_row_lzz_pX.cpp:206-224 and 438-456. -/
noncomputable def foldRows (n m : Nat) (res c : PVec F) : Out (PVec F) :=
  andThen (loopPut 0 (min n m) (fun i _ => andThen (c.get (i : Int)) fun x => andThen (c.get ((i + m : Nat) : Int)) fun y => .ok (x + y))
    { res with len := n }) fun r =>
  if m < n then copyRows m (n + 1) m (n - m) r else .ok r

/-- `mul_right(res, input)`, circulant_row_lzz_pX.cpp:132-225. -/
noncomputable def Circ.mulRight (g : Junk F) (o : Circ F) (res input : PVec F) : Out (PVec F) :=
  if input.len ≠ o.m then .error
  else
    let d := (degs input).1
    let e := (degs input).2
    if d = -1 ∨ o.dY = -1 then zeros res o.n
    else
      let i0 := search o.rhs d
      andThen (
        if 0 ≤ i0 then
          andThen (vget o.rhs i0.toNat) fun df =>
          andThen (toKron g.e0 input (o.dX + df)) fun inK =>
          andThen (vget o.fft i0.toNat) fun w =>
          andThen (mulFrom (np2 ((o.dY + o.m) * (o.dX + df + 1))) inK w ((o.dY + o.m) * (o.dX + df + 1))) fun tmp =>
          fromKron g.ce0 g.old tmp (o.dX + df)
        else
          andThen (toKron g.e0 input (o.dX + d)) fun inK =>
          andThen (toKron g.e0 o.dataRev (o.dX + d)) fun repK =>
          let K := np2 ((o.dY + e + 1) * (o.dX + d + 1))
          andThen (mulFrom K inK (toR K repK) ((o.dY + e + 1) * (o.dX + d + 1))) fun tmp =>
          fromKron g.ce0 g.old tmp (o.dX + d)) fun c =>
      andThen (fill c (2 * o.m)) fun c =>
      foldRows o.n o.m res c

/-- `mul_right_trunc(out, in, s)`, circulant_row_lzz_pX.cpp:401-457, for `s ≥ 0`.  The input is not used after the output is written. -/
noncomputable def Circ.mulRightTrunc (g : Junk F) (o : Circ F) (res input : PVec F) (s : Nat) : Out (PVec F) :=
  if input.len ≠ o.m then .error
  else
    let dt := truncV o.dataRev s
    let it := truncV input s
    let dAx := dt.degX
    let d := it.degX
    if dAx = -1 ∨ d = -1 then zeros res o.n
    else
      andThen (toKron g.e0 it (dAx + d)) fun kin =>
      andThen (toKron g.e0 dt (dAx + d)) fun kA =>
      andThen (fromKron g.ce0 g.old (kin * kA) (dAx + d)) fun c =>
      andThen (truncFill s c (o.m + o.m)) fun c =>
      foldRows o.n o.m res c

/-- The entries of the last chunk: `res[i] = out[i] + out[i+m]` for `i < lo`, `res[i] = out[i]` for the other ones
    (circulant_row_lzz_pX.cpp:299-302). -/
noncomputable def foldLast (m lo : Nat) (res c : PVec F) : Out (PVec F) :=
  andThen (loopPut 0 lo (fun i _ => andThen (c.get (i : Int)) fun x => andThen (c.get ((i + m : Nat) : Int)) fun y => .ok (x + y)) res) fun r =>
  loopPut lo (m - lo) (fun i _ => c.get ((lo + i : Nat) : Int)) r

/-- `res[i] += (out[i] + out[i+m])` for `i < m` (circulant_row_lzz_pX.cpp:325-326). -/
noncomputable def foldMore (m : Nat) (res c : PVec F) : Out (PVec F) :=
  loopPut 0 m (fun i r => andThen (r.get (i : Int)) fun z => andThen (c.get (i : Int)) fun x => andThen (c.get ((i + m : Nat) : Int)) fun y =>
    .ok (z + (x + y))) res

/-- `mul_left(res, input)`, circulant_row_lzz_pX.cpp:230-396.  The two branches are merged: they differ in the parameter `D` of the Kronecker
    substitution and in the origin of the transforms of the matrix, which are taken here once, before the loop. -/
noncomputable def Circ.mulLeft (g : Junk F) (o : Circ F) (res input : PVec F) : Out (PVec F) :=
  if input.len ≠ o.n then .error
  else
    let d := (degs input).1
    if d = -1 ∨ o.dY = -1 then zeros res o.m
    else if o.m = 0 then .ub
    else
      let i0 := search o.lhs d
      let szL : Int := (o.m : Int) + o.leftover - 1
      let szK : Int := 2 * (o.m : Int) - 1
      andThen (
        if 0 ≤ i0 then
          andThen (vget o.lhs i0.toNat) fun df =>
          andThen (vget o.fft2 i0.toNat) fun w2 =>
          andThen (vget o.fft3 i0.toNat) fun w3 => .ok (o.dX + df, w2, w3)
        else
          andThen (rev g.old o.data o.m) fun tmp =>
          andThen (toKron g.e0 tmp (o.dX + d)) fun matK =>
          .ok (o.dX + d, toR (np2 (szL * (o.dX + d + 1))) matK, toR (np2 (szK * (o.dX + d + 1))) matK)) fun t =>
      andThen (part g.old input (o.nb * o.m) o.leftover) fun tmp =>
      andThen (toKron g.e0 tmp t.1) fun inX =>
      andThen (mulFrom (np2 (szL * (t.1 + 1))) inX t.2.1 (szL * (t.1 + 1))) fun rk =>
      andThen (fromKron g.ce0 g.old rk t.1) fun c =>
      andThen (fill c (o.m + o.leftover)) fun c =>
      andThen (foldLast o.m o.leftover { res with len := o.m } c) fun res =>
      loopOut o.nb (fun r res =>
        andThen (part g.old input (r * o.m) o.m) fun tmp =>
        andThen (toKron g.e0 tmp t.1) fun inX =>
        andThen (mulFrom (np2 (szK * (t.1 + 1))) inX t.2.2 (((o.m : Int) + o.m - 1) * (t.1 + 1))) fun rk =>
        andThen (fromKron g.ce0 g.old rk t.1) fun c =>
        andThen (fill c (o.m + o.m)) fun c =>
        foldMore o.m res c) res

/-- `mul_left_trunc(out, in, s)`, circulant_row_lzz_pX.cpp:462-542, for `s ≥ 0`. -/
noncomputable def Circ.mulLeftTrunc (g : Junk F) (o : Circ F) (res input : PVec F) (s : Nat) : Out (PVec F) :=
  if input.len ≠ o.n then .error
  else
    andThen (rev g.old o.data o.data.len) fun md =>
    let dt := truncV md s
    let it := truncV input s
    let dAx := dt.degX
    let d := it.degX
    if dAx = -1 ∨ d = -1 then zeros res o.m
    else if o.m = 0 then .ub
    else
      andThen (part g.old it (o.nb * o.m) o.leftover) fun sl =>
      andThen (toKron g.e0 sl (dAx + d)) fun kin =>
      andThen (toKron g.e0 dt (dAx + d)) fun kA =>
      andThen (fromKron g.ce0 g.old (kin * kA) (dAx + d)) fun c =>
      andThen (truncFill s c (o.m + o.leftover)) fun c =>
      andThen (foldLast o.m o.leftover { res with len := o.m } c) fun res =>
      loopOut o.nb (fun r res =>
        andThen (part g.old it (r * o.m) o.m) fun sl =>
        andThen (toKron g.e0 sl (dAx + d)) fun kin =>
        andThen (fromKron g.ce0 g.old (kin * kA) (dAx + d)) fun c =>
        andThen (truncFill s c (o.m + o.m)) fun c =>
        foldMore o.m res c) res

/-! ### Toeplitz-like matrices -/

/-- `M[i][j]` as a value. -/
def mget (M : PMat F[X]) (i j : Nat) : Out F[X] := if i < M.rows ∧ j < M.cols then .ok (M.e (i, j)) else .ub

/-- The members of `toeplitz_like_minus_lzz_pX`; `G` and `H` have the same name, `toepl i` and `circ i` are `toeplitz_G[i]` and
    `circulant_H[i]`, for `i < alpha`. -/
structure Like (F : Type) [Field F] where
  /-- the number of rows -/
  m : Nat
  /-- the number of columns -/
  n : Nat
  /-- the first generator -/
  G : PMat F[X]
  /-- the second generator -/
  H : PMat F[X]
  /-- the triangular factors -/
  toepl : Nat → Tri F
  /-- the circulant factors -/
  circ : Nat → Circ F

/-- The constructor, toeplitz_like_minus_lzz_pX.cpp:33-70; `x` and `y` are the values of the members left uninitialised by the default constructors. -/
noncomputable def Like.make (g : Junk F) (x y : Int) (U V : PMat F[X]) : Out (Like F) :=
  let m := U.rows
  let n := V.rows
  if m = 0 ∨ n = 0 then .ok ⟨m, n, U, V, fun _ => Tri.default x y, fun _ => Circ.default x y⟩
  else
    andThen (loopOut U.cols (fun i (s : (Nat → Tri F) × (Nat → Circ F)) =>
      andThen (loopPut 0 m (fun j _ => andThen (mget U j i) fun z => .ok (-z)) { g.old with len := m }) fun vecG =>
      andThen (loopOut n (fun j (s : Nat × PVec F) =>
        andThen (mget V s.1 i) fun z =>
        andThen (s.2.put (j : Int) z) fun v => .ok (if s.1 = 0 then n - 1 else s.1 - 1, v))
        (if n < 2 then n + n - 2 else n - 2, { g.old with len := n })) fun s2 =>
      andThen (Circ.make g s2.2 m) fun c =>
      .ok (write i (Tri.make vecG) s.1, write i c s.2)) (fun _ => Tri.default x y, fun _ => Circ.default x y)) fun s =>
    .ok ⟨m, n, U, V, s.1, s.2⟩

/-- `output[j] += tmp[j]` for `j < k`. -/
noncomputable def accum (k : Nat) (output tmp : PVec F) : Out (PVec F) :=
  loopPut 0 k (fun j r => andThen (r.get (j : Int)) fun z => andThen (tmp.get (j : Int)) fun x => .ok (z + x)) output

/-- `mul_right(output, input)`, toeplitz_like_minus_lzz_pX.cpp:93-114. -/
noncomputable def Like.mulRight (g : Junk F) (o : Like F) (res input : PVec F) : Out (PVec F) :=
  andThen (zeros res o.m) fun r =>
  loopOut o.G.cols (fun i r =>
    andThen ((o.circ i).mulRight g g.old input) fun t1 =>
    andThen ((o.toepl i).mulRight g g.old t1) fun t2 => accum o.m r t2) r

/-- `mul_left(output, input)`, toeplitz_like_minus_lzz_pX.cpp:119-140. -/
noncomputable def Like.mulLeft (g : Junk F) (o : Like F) (res input : PVec F) : Out (PVec F) :=
  andThen (zeros res o.n) fun r =>
  loopOut o.G.cols (fun i r =>
    andThen ((o.toepl i).mulLeft g g.old input) fun t1 =>
    andThen ((o.circ i).mulLeft g g.old t1) fun t2 => accum o.n r t2) r

/-- `mul_right_trunc(output, input, d)`, toeplitz_like_minus_lzz_pX.cpp:145-166. -/
noncomputable def Like.mulRightTrunc (g : Junk F) (o : Like F) (res input : PVec F) (s : Nat) : Out (PVec F) :=
  andThen (zeros res o.m) fun r =>
  loopOut o.G.cols (fun i r =>
    andThen ((o.circ i).mulRightTrunc g g.old input s) fun t1 =>
    andThen ((o.toepl i).mulRightTrunc g g.old t1 s) fun t2 => accum o.m r t2) r

/-- `mul_left_trunc(output, input, d)`, toeplitz_like_minus_lzz_pX.cpp:171-192. -/
noncomputable def Like.mulLeftTrunc (g : Junk F) (o : Like F) (res input : PVec F) (s : Nat) : Out (PVec F) :=
  andThen (zeros res o.n) fun r =>
  loopOut o.G.cols (fun i r =>
    andThen ((o.toepl i).mulLeftTrunc g g.old input s) fun t1 =>
    andThen ((o.circ i).mulLeftTrunc g g.old t1 s) fun t2 => accum o.n r t2) r

/-- A new `Mat<zz_pX>`. -/
noncomputable def newMat : PMat F[X] := ⟨0, 0, fun _ => 0⟩

/-- The product of two matrices of NTL. -/
noncomputable def mmul (a b : PMat F[X]) : Out (PMat F[X]) :=
  if a.cols ≠ b.rows then .error
  else .ok ⟨a.rows, b.cols, fun ij => ∑ l ∈ Finset.range a.cols, a.e (ij.1, l) * b.e (l, ij.2)⟩

/-- The sum of two matrices of NTL. -/
noncomputable def madd (a b : PMat F[X]) : Out (PMat F[X]) :=
  if a.rows ≠ b.rows ∨ a.cols ≠ b.cols then .error else .ok ⟨a.rows, a.cols, fun ij => a.e ij + b.e ij⟩

/-- `to_dense(Mdense)`, toeplitz_like_minus_lzz_pX.cpp:198-205. -/
noncomputable def Like.toDense (o : Like F) (x : PMat F[X]) : Out (PMat F[X]) :=
  loopOut o.G.cols (fun i y =>
    andThen (mmul ((o.toepl i).toDense newMat) ((o.circ i).toDense newMat)) fun z => madd y z) (x.setDims o.m o.n)

/-- `Z_lzz_p(n, c)`, mat_lzz_p_extra.cpp:13-20; `res[0][n-1]` is written. -/
noncomputable def zMat (n : Nat) (c : F) : Out (PMat F) :=
  if n = 0 then .ub
  else andThen (loopOut (n - 1) (fun i e => if i + 1 < n ∧ i + 1 - 1 < n then .ok (write (i + 1, i + 1 - 1) (1 : F) e) else .ub) fun _ => 0) fun e =>
    .ok ⟨n, n, write (0, n - 1) c e⟩

/-- `Z_c A - A Z_d`: `toeplitz_lzz_pX_phi_minus`, toeplitz_like_minus_lzz_pX.cpp:210-226, for `c = 0`, `d = 1`, and `toeplitz_lzz_pX_phi_plus`,
    toeplitz_like_plus_lzz_pX.cpp:15-26, for `c = 1`, `d = 0`.  The products of a matrix over `K` and a matrix over `K[X]` are the mathematical ones. -/
noncomputable def phi (c d : F) (A : PMat F[X]) : Out (PMat F[X]) :=
  andThen (zMat A.rows c) fun z0 =>
  andThen (zMat A.cols d) fun z1 =>
  .ok ⟨A.rows, A.cols, fun ij => (∑ l ∈ Finset.range A.rows, C (z0.e (ij.1, l)) * A.e (l, ij.2)) -
    ∑ l ∈ Finset.range A.cols, A.e (ij.1, l) * C (z1.e (l, ij.2))⟩

/-! ### Products by a matrix -/

/-- `mul_right(out, in)` and `mul_right_trunc(out, in, s)` for matrices, structured_lzz_pX.cpp:11-38 and 75-102: `f` is the product by a vector, given
    the earlier content of `vec_out`. -/
noncomputable def matRight (g : Junk F) (m n : Nat) (f : PVec F → PVec F → Out (PVec F)) (out inp : PMat F[X]) : Out (PMat F[X]) :=
  if inp.rows ≠ n then .error
  else
    let y := out.setDims m inp.cols
    andThen (loopOut inp.cols (fun j (s : PVec F × PVec F × (Nat × Nat → F[X])) =>
      andThen (loopPut 0 n (fun i _ => mget inp i j) s.1) fun vin =>
      andThen (f s.2.1 vin) fun vout =>
      andThen (loopOut m (fun i e => andThen (vout.get (i : Int)) fun x => .ok (write (i, j) x e)) s.2.2) fun e =>
      .ok (vin, vout, e)) ({ g.old with len := n }, g.old, y.e)) fun s =>
    .ok ⟨m, inp.cols, s.2.2⟩

/-- `mul_left(out, in)` and `mul_left_trunc(out, in, s)` for matrices, structured_lzz_pX.cpp:43-70 and 107-134. -/
noncomputable def matLeft (g : Junk F) (m n : Nat) (f : PVec F → PVec F → Out (PVec F)) (out inp : PMat F[X]) : Out (PMat F[X]) :=
  if inp.cols ≠ m then .error
  else
    let y := out.setDims inp.rows n
    andThen (loopOut inp.rows (fun j (s : PVec F × PVec F × (Nat × Nat → F[X])) =>
      andThen (loopPut 0 m (fun i _ => mget inp j i) s.1) fun vin =>
      andThen (f s.2.1 vin) fun vout =>
      andThen (loopOut n (fun i e => andThen (vout.get (i : Int)) fun x => .ok (write (j, i) x e)) s.2.2) fun e =>
      .ok (vin, vout, e)) ({ g.old with len := m }, g.old, y.e)) fun s =>
    .ok ⟨inp.rows, n, s.2.2⟩

end PML.Ntl.StructX
