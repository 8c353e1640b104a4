import Verif.Ntl.CLikeModel
import Verif.Ntl.LikeModel
import Verif.Ntl.GeomModel
import Verif.Ntl.OrderModel

/-!
# Model of `ntl-extras/structured_lzz_p/src/mosaic_hankel_lzz_p.cpp` and `mosaic_toeplitz_lzz_p.cpp`

Block matrices whose blocks are Hankel matrices, or Toeplitz matrices.  The two files have nearly the same text, and are modelled
together; `Kind` says which class is meant.  The line ranges `H` are those of `mosaic_hankel_lzz_p.cpp`, the line ranges `T` those of
`mosaic_toeplitz_lzz_p.cpp`.  The modulus is a prime `p`.  A read or a write outside of a vector is `.ub`; a negative index is counted as
such even if a longer vector `data` has something there.  Random elements come from arbitrary functions.  `res` and `input` may be the
same object in the products: then the product is computed in a new object.
-/

namespace PML.Ntl.Mosaic

open Polynomial PML.Ntl.Utils PML.Ntl.Inv PML.Ntl.Solve PML.Ntl.Middle PML.Ntl.Struct PML.Ntl.CLike

variable {p : Nat} [Fact p.Prime]

/-- The class: `mosaic_hankel_lzz_p` or `mosaic_toeplitz_lzz_p`. -/
inductive Kind where
  | hankel
  | toeplitz

/-! ### The blocks -/

/-- `operator()(i, j)` of `hankel_lzz_p`, `structured_lzz_p.h:117-120`, and of `toeplitz_lzz_p`, `structured_lzz_p.h:178-181`. -/
def Kind.at (k : Kind) (t : Band p) (i j : Nat) : Out (ZMod p) :=
  match k with
  | .hankel => if t.m + t.n < i + j + 2 ∨ t.data.len ≤ t.m + t.n - 2 - i - j then .ub else .ok (t.data.e (t.m + t.n - 2 - i - j))
  | .toeplitz => if t.m + i < j + 1 ∨ t.data.len ≤ t.m + i - 1 - j then .ub else .ok (t.data.e (t.m + i - 1 - j))

/-- `mul_right` of a block. -/
noncomputable def Kind.right (k : Kind) (t : Band p) (red : Nat → ZMod p) (cross : Nat) (v : NVec (ZMod p)) : Out (NVec (ZMod p)) :=
  match k with
  | .hankel => t.hankelRight red cross v
  | .toeplitz => t.toeplitzRight red cross v

/-- `mul_left` of a block. -/
noncomputable def Kind.left (k : Kind) (t : Band p) (red : Nat → ZMod p) (cross : Nat) (v : NVec (ZMod p)) : Out (NVec (ZMod p)) :=
  match k with
  | .hankel => t.hankelLeft red cross v
  | .toeplitz => t.toeplitzLeft red cross v

/-! ### The class -/

/-- `Vec<Vec<hankel_lzz_p>>` or `Vec<Vec<toeplitz_lzz_p>>`. -/
structure Grid (p : Nat) where
  /-- `length()` -/
  nb : Nat
  /-- `[i].length()` -/
  len : Nat → Nat
  /-- `[i][j]` -/
  b : Nat → Nat → Band p

/-- The members of the two classes. -/
structure Mosaic (p : Nat) where
  /-- the blocks -/
  data : Grid p
  /-- number of rows -/
  n : Nat
  /-- number of columns -/
  m : Nat
  /-- number of blocks in a column -/
  nb : Nat
  /-- number of blocks in a row -/
  mb : Nat

/-- `data[i][j]`. -/
def Grid.get (g : Grid p) (i j : Nat) : Out (Band p) := if i < g.nb ∧ j < g.len i then .ok (g.b i j) else .ub

/-- The constructor, H 28-41, T 30-43. -/
def Mosaic.make (g : Grid p) : Out (Mosaic p) :=
  if g.nb = 0 then .ub
  else
    let mb := g.len 0
    andThen (loopOut g.nb (fun i n => andThen (g.get i 0) fun t => .ok (n + t.n)) 0) fun n =>
    andThen (loopOut mb (fun j m => andThen (g.get 0 j) fun t => .ok (m + t.m)) 0) fun m =>
    .ok ⟨g, n, m, g.nb, mb⟩

/-- `NumRows_of_block(i)`, H 67-70, T 69-72. -/
def Mosaic.rowsOf (M : Mosaic p) (i : Nat) : Out Nat := andThen (M.data.get i 0) fun t => .ok t.n

/-- `NumCols_of_block(i)`, H 72-75, T 74-77. -/
def Mosaic.colsOf (M : Mosaic p) (j : Nat) : Out Nat := andThen (M.data.get 0 j) fun t => .ok t.m

/-- The loops `while (i >= size(idx)) { i -= size(idx); idx++; }`, `structured_lzz_p.h:867-871, 874-878` and `1006-1010, 1013-1017`;
    `size` is undefined after the last block, so that `fuel` is never exhausted when it is the number of blocks plus one. -/
def locate (size : Nat → Out Nat) : Nat → Nat → Nat → Out (Nat × Nat)
  | 0, _, _ => .loops
  | fuel + 1, i, idx => andThen (size idx) fun s => if s ≤ i then locate size fuel (i - s) (idx + 1) else .ok (idx, i)

/-- `operator()(i, j)`, `structured_lzz_p.h:860-880` and `999-1019`. -/
def Mosaic.at (k : Kind) (M : Mosaic p) (i j : Nat) : Out (ZMod p) :=
  if M.n ≤ i ∨ M.m ≤ j then .error
  else
    andThen (locate M.rowsOf (M.nb + 1) i 0) fun r =>
    andThen (locate M.colsOf (M.mb + 1) j 0) fun c =>
    andThen (M.data.get r.1 c.1) fun t => k.at t r.2 c.2

/-- `to_dense(Mdense)`, H 81-87, T 83-90; `x` is `Mdense` before the call. -/
def Mosaic.dense (k : Kind) (M : Mosaic p) (x : PMat (ZMod p)) : Out (PMat (ZMod p)) :=
  let y := x.setDims M.n M.m
  andThen (loopOut M.n (fun i e => loopOut M.m (fun j e => andThen (M.at k i j) fun a => .ok (write (i, j) a e)) e) y.e) fun e =>
  .ok { y with e := e }

/-- The loops of `mul_right`, H 109-129 and 175-193, T 112-132 and 178-196: `inp` is the input vector, or a column of the input matrix,
    of length `len`, and `res` the output vector, or the same column of the output matrix. -/
noncomputable def Mosaic.accRight (k : Kind) (M : Mosaic p) (red : Nat → ZMod p) (cross len : Nat) (inp : Nat → ZMod p) (res : Nat → ZMod p) :
    Out (Nat → ZMod p) :=
  andThen (loopOut M.mb (fun j (s : Nat × (Nat → ZMod p)) =>
    andThen (M.colsOf j) fun ncols =>
    if len < s.1 + ncols then .ub
    else
      let tmpIn := fun l => inp (s.1 + l)
      andThen (loopOut M.nb (fun i (r : Nat × (Nat → ZMod p)) =>
        andThen (M.rowsOf i) fun nrows =>
        andThen (M.data.get i j) fun t =>
        andThen (k.right t red cross ⟨ncols, tmpIn⟩) fun out =>
        if out.len < nrows ∨ M.n < r.1 + nrows then .ub
        else .ok (r.1 + nrows, forN nrows (fun l e => write (r.1 + l) (e (r.1 + l) + out.e l) e) r.2)) (0, s.2)) fun r =>
      .ok (s.1 + ncols, r.2)) (0, res)) fun s => .ok s.2

/-- `mul_right(res, input)` on vectors, H 92-130, T 95-133. -/
noncomputable def Mosaic.right (k : Kind) (M : Mosaic p) (red : Nat → ZMod p) (cross : Nat) (input : NVec (ZMod p)) : Out (NVec (ZMod p)) :=
  if input.len ≠ M.m then .error
  else
    andThen (M.accRight k red cross input.len input.e (forN M.n (fun i => write i 0) fun _ => 0)) fun r => .ok ⟨M.n, r⟩

/-- The condition for a product of dense matrices, H 151-157 and 260-266, T 154-160 and 264-270; `lim` is 100, 1000 or 300, depending on
    `type_of_prime()`. -/
def Mosaic.useDense (M : Mosaic p) (lim q : Nat) : Prop :=
  min M.m M.n ≥ max M.m M.n / 2 ∧ q ≥ min M.m M.n / 4 ∧ min M.m M.n ≤ lim

instance (M : Mosaic p) (lim q : Nat) : Decidable (M.useDense lim q) := inferInstanceAs (Decidable (_ ∧ _))

/-- `mul_right(res, input)` on matrices, H 135-195, T 138-198; `x` is `res` before the call. -/
noncomputable def Mosaic.rightMat (k : Kind) (M : Mosaic p) (red : Nat → ZMod p) (cross lim : Nat) (x input : PMat (ZMod p)) :
    Out (PMat (ZMod p)) :=
  if input.rows ≠ M.m then .error
  else if M.useDense lim input.cols then
    andThen (M.dense k newMat) fun d => denseMul d input
  else
    let y := x.setDims M.n input.cols
    let e := loop2 M.n input.cols (fun _ _ _ => 0) y.e
    andThen (loopOut input.cols (fun r e =>
      andThen (M.accRight k red cross input.rows (fun i => input.e (i, r)) fun i => e (i, r)) fun v =>
      .ok fun ij => if ij.2 = r then v ij.1 else e ij) e) fun e =>
    .ok { y with e := e }

/-- The loops of `mul_left`, H 217-238 and 284-303, T 220-241 and 288-307. -/
noncomputable def Mosaic.accLeft (k : Kind) (M : Mosaic p) (red : Nat → ZMod p) (cross len : Nat) (inp : Nat → ZMod p) (res : Nat → ZMod p) :
    Out (Nat → ZMod p) :=
  andThen (loopOut M.nb (fun i (s : Nat × (Nat → ZMod p)) =>
    andThen (M.rowsOf i) fun nrows =>
    if len < s.1 + nrows then .ub
    else
      let tmpIn := fun l => inp (s.1 + l)
      andThen (loopOut M.mb (fun j (r : Nat × (Nat → ZMod p)) =>
        andThen (M.colsOf j) fun ncols =>
        andThen (M.data.get i j) fun t =>
        andThen (k.left t red cross ⟨nrows, tmpIn⟩) fun out =>
        if out.len < ncols ∨ M.m < r.1 + ncols then .ub
        else .ok (r.1 + ncols, forN ncols (fun l e => write (r.1 + l) (e (r.1 + l) + out.e l) e) r.2)) (0, s.2)) fun r =>
      .ok (s.1 + nrows, r.2)) (0, res)) fun s => .ok s.2

/-- `mul_left(res, input)` on vectors, H 200-239, T 203-242. -/
noncomputable def Mosaic.left (k : Kind) (M : Mosaic p) (red : Nat → ZMod p) (cross : Nat) (input : NVec (ZMod p)) : Out (NVec (ZMod p)) :=
  if input.len ≠ M.n then .error
  else
    andThen (M.accLeft k red cross input.len input.e (forN M.m (fun i => write i 0) fun _ => 0)) fun r => .ok ⟨M.m, r⟩

/-- `mul_left(res, input)` on matrices, H 244-305, T 248-309. -/
noncomputable def Mosaic.leftMat (k : Kind) (M : Mosaic p) (red : Nat → ZMod p) (cross lim : Nat) (x input : PMat (ZMod p)) :
    Out (PMat (ZMod p)) :=
  if input.cols ≠ M.n then .error
  else if M.useDense lim input.rows then
    andThen (M.dense k newMat) fun d => denseMul input d
  else
    let y := x.setDims input.rows M.m
    let e := loop2 input.rows M.m (fun _ _ _ => 0) y.e
    andThen (loopOut input.rows (fun r e =>
      andThen (M.accLeft k red cross input.cols (fun i => input.e (r, i)) fun i => e (r, i)) fun v =>
      .ok fun ij => if ij.1 = r then v ij.2 else e ij) e) fun e =>
    .ok { y with e := e }

/-! ### Rows and columns, and generators -/

/-- The loops of `first_column_of_block(res, i)` and `last_column_of_block(res, i)`: `res[ind++] = data[r][i](j, c)`, H 314-317 and
    327-331, T 319-322 and 332-336. -/
def Mosaic.colAt (k : Kind) (M : Mosaic p) (i c : Nat) : Out (Nat → ZMod p) :=
  andThen (loopOut M.nb (fun r (s : Nat × (Nat → ZMod p)) =>
    andThen (M.rowsOf r) fun nr =>
    loopOut nr (fun j s =>
      andThen (M.data.get r i) fun t =>
      andThen (k.at t j c) fun a => .ok (s.1 + 1, write s.1 a s.2)) s) (0, fun _ => 0)) fun s => .ok s.2

/-- The loops of `first_row_of_block(res, i)` and `last_row_of_block(res, i)`: `res[ind++] = data[i][r](c, j)`, H 342-345 and 355-359,
    T 347-350 and 360-364. -/
def Mosaic.rowAt (k : Kind) (M : Mosaic p) (i c : Nat) : Out (Nat → ZMod p) :=
  andThen (loopOut M.mb (fun r (s : Nat × (Nat → ZMod p)) =>
    andThen (M.colsOf r) fun nc =>
    loopOut nc (fun j s =>
      andThen (M.data.get i r) fun t =>
      andThen (k.at t c j) fun a => .ok (s.1 + 1, write s.1 a s.2)) s) (0, fun _ => 0)) fun s => .ok s.2

/-- `first_column_of_block(res, i)`, H 310-318, T 315-323; the vector has length `n`. -/
def Mosaic.firstCol (k : Kind) (M : Mosaic p) (i : Nat) : Out (Nat → ZMod p) := M.colAt k i 0

/-- `last_column_of_block(res, i)`, H 323-333, T 328-338. -/
def Mosaic.lastCol (k : Kind) (M : Mosaic p) (i : Nat) : Out (Nat → ZMod p) :=
  andThen (M.colsOf i) fun w => if w = 0 then .ub else M.colAt k i (w - 1)

/-- `first_row_of_block(res, i)`, H 338-346, T 343-351; the vector has length `m`. -/
def Mosaic.firstRow (k : Kind) (M : Mosaic p) (i : Nat) : Out (Nat → ZMod p) := M.rowAt k i 0

/-- `last_row_of_block(res, i)`, H 351-360, T 356-365. -/
def Mosaic.lastRow (k : Kind) (M : Mosaic p) (i : Nat) : Out (Nat → ZMod p) :=
  andThen (M.rowsOf i) fun w => if w = 0 then .ub else M.rowAt k i (w - 1)

/-- The column of `H` and the row where 1, or 0, is written for the block `j`, and the next index: `idx` before the update for
    `mosaic_hankel_lzz_p` (H 407-408, 425-426), `idx` after the update, starting from `-1`, for `mosaic_toeplitz_lzz_p` (T 400-403,
    429-430); `acc` is the sum of the widths of the previous blocks. -/
def Mosaic.mark (k : Kind) (M : Mosaic p) (j acc : Nat) : Out (Nat × Nat) :=
  andThen (M.colsOf j) fun w =>
  match k with
  | .hankel => if M.m ≤ acc then .ub else .ok (acc, acc + w)
  | .toeplitz => if acc + w = 0 ∨ M.m ≤ acc + w - 1 then .ub else .ok (acc + w - 1, acc + w)

/-- The first columns of `G`, H 379-392, T 382-395. -/
def Mosaic.genG1 (k : Kind) (M : Mosaic p) (G : Nat × Nat → ZMod p) : Out (Nat × Nat → ZMod p) :=
  loopOut M.mb (fun i G =>
    andThen (match k with | .hankel => M.firstCol k i | .toeplitz => M.lastCol k i) fun c =>
    if M.n = 0 then .ub
    else
      let G := write (0, i) (c (M.n - 1)) G
      let G := forN (M.n - 1) (fun j => write (j + 1, i) (c j)) G
      match k with
      | .hankel =>
        if 0 < i then andThen (M.lastCol k (i - 1)) fun c => .ok (forN M.n (fun j G => write (j, i) (G (j, i) - c j) G) G)
        else .ok G
      | .toeplitz =>
        if i + 1 < M.mb then andThen (M.firstCol k (i + 1)) fun c => .ok (forN M.n (fun j G => write (j, i) (G (j, i) - c j) G) G)
        else .ok G) G

/-- The last columns of `G`, H 393-399, T 406-413. -/
def Mosaic.genG2 (M : Mosaic p) (G : Nat × Nat → ZMod p) : Out (Nat × Nat → ZMod p) :=
  andThen (loopOut M.nb (fun i (s : Nat × (Nat × Nat → ZMod p)) =>
    let G := forN M.n (fun j => write (j, i + M.mb) 0) s.2
    if M.n ≤ s.1 then .ub
    else
      let G := write (s.1, i + M.mb) 1 G
      andThen (M.rowsOf i) fun w => .ok (s.1 + w, G)) (0, G)) fun s => .ok s.2

/-- The first columns of `H`, H 402-409, T 397-404. -/
def Mosaic.genH1 (k : Kind) (M : Mosaic p) (H : Nat × Nat → ZMod p) : Out (Nat × Nat → ZMod p) :=
  andThen (loopOut M.mb (fun i (s : Nat × (Nat × Nat → ZMod p)) =>
    andThen (M.mark k i s.1) fun t =>
    let H := forN M.m (fun j => write (j, i) 0) s.2
    .ok (t.2, write (t.1, i) 1 H)) (0, H)) fun s => .ok s.2

/-- The last columns of `H`, H 411-428, T 415-432. -/
def Mosaic.genH2 (k : Kind) (M : Mosaic p) (H : Nat × Nat → ZMod p) : Out (Nat × Nat → ZMod p) :=
  loopOut M.nb (fun i H =>
    andThen (if i = 0 then M.lastRow k (M.nb - 1) else M.lastRow k (i - 1)) fun l =>
    let H := match k with
      | .hankel => forN (M.m - 1) (fun j => write (j + 1, i + M.mb) (l (j + 1))) H
      | .toeplitz => forN M.m (fun j => write (j, i + M.mb) (l j)) H
    andThen (M.firstRow k i) fun f =>
    let H := match k with
      | .hankel => forN (M.m - 1) (fun j H => write (j + 1, i + M.mb) (H (j + 1, i + M.mb) - f j) H) H
      | .toeplitz => forN (M.m - 1) (fun j H => write (j, i + M.mb) (H (j, i + M.mb) - f (j + 1)) H) H
    andThen (loopOut M.mb (fun j (s : Nat × (Nat × Nat → ZMod p)) =>
      andThen (M.mark k j s.1) fun t => .ok (t.2, write (t.1, i + M.mb) 0 s.2)) (0, H)) fun s => .ok s.2) H

/-- `phi_plus_generators(G, H)`, H 366-429, T 370-433; `x` and `y` are `G` and `H` before the call. -/
def Mosaic.gens (k : Kind) (M : Mosaic p) (x y : PMat (ZMod p)) : Out (PMat (ZMod p) × PMat (ZMod p)) :=
  let alpha := M.nb + M.mb
  let G := x.setDims M.n alpha
  let H := y.setDims M.m alpha
  andThen (M.genG1 k G.e) fun g =>
  andThen (M.genG2 g) fun g =>
  andThen (M.genH1 k H.e) fun h =>
  andThen (M.genH2 k h) fun h =>
  .ok ({ G with e := g }, { H with e := h })

/-! ### The preconditioner -/

/-- `c` passes the tests of `find_c`, H 456-463, T 460-467; the entries of `pow_a` and `pow_inva` are the powers of `a` and of `1/a`. -/
def goodC (a : ZMod p) (n m : Nat) (c : ZMod p) : Prop := c ≠ 0 ∧ (∀ i, i < n → c ≠ a ^ i) ∧ ∀ i, i < m → c ≠ (a⁻¹) ^ i

open Classical in
/-- `find_c(c, a, n, m)`, H 436-466, T 440-470: the first random element which passes the tests. -/
noncomputable def findC (a : ZMod p) (n m : Nat) (rc : Nat → ZMod p) : Out (ZMod p) :=
  if n = 0 ∨ m = 0 then .ub
  else if a = 0 then .error
  else if h : ∃ t, goodC a n m (rc t) then .ok (rc (Nat.find h)) else .loops

/-- The sources of random elements of `to_cauchy_grp`. -/
structure Draws (p : Nat) where
  /-- for `element_of_order` -/
  ord : Nat → ZMod p
  /-- for `find_c` -/
  c : Nat → ZMod p
  /-- `e[i]` -/
  e : Nat → ZMod p
  /-- `f[i]` -/
  f : Nat → ZMod p

/-- The choices made by `zz_pX_Multipoint_Geometric`, and by the products: `middle_product`, the tests on the prime, `to_zz_p`, the
    crossover for Karatsuba. -/
structure Env (p : Nat) [Fact p.Prime] where
  /-- `middle_product` -/
  mp : (ZMod p)[X] → (ZMod p)[X] → Nat → Nat → Option (ZMod p)[X]
  /-- are FFTs possible -/
  feasible : Bool
  /-- are they used -/
  flags : Bool
  /-- reduction of an integer -/
  red : Nat → ZMod p
  /-- crossover -/
  cross : Nat

/-- A function of the class `zz_pX_Multipoint_Geometric` which may raise an error. -/
def ofOpt {α : Type} : Option α → Out α
  | some a => .ok a
  | none => .error

/-- The result of `to_cauchy_grp` with the value 1. -/
structure Pre (p : Nat) [Fact p.Prime] where
  /-- the Cauchy-like matrix -/
  CL : CLike p
  /-- `X_int` -/
  X : Geom.Obj (ZMod p)
  /-- `Y_int` -/
  Y : Geom.Obj (ZMod p)
  /-- `e` -/
  e : Nat → ZMod p
  /-- `f` -/
  f : Nat → ZMod p

/-- The values at the points of `o` of the polynomial with coefficients `g`, times `d`, in the column `j` of `X`: H 515-527, 537-550,
    555-567 and 570-583, T 527-539, 546-558, 569-581 and 585-597. -/
noncomputable def evalCol (E : Env p) (o : Geom.Obj (ZMod p)) (n : Nat) (g d : Nat → ZMod p) (j : Nat) (X : Nat × Nat → ZMod p) :
    Out (Nat × Nat → ZMod p) :=
  andThen (ofOpt (Geom.evaluate E.mp o (Series.build n g))) fun v => .ok (forN n (fun i => write (i, j) (v i * d i)) X)

/-- The index at which the rows of `H`, the last row and the results are read: reversed for `mosaic_toeplitz_lzz_p` (T 551, 574, 652, 713, 720). -/
def Kind.flip (k : Kind) (m i : Nat) : Nat :=
  match k with
  | .hankel => i
  | .toeplitz => m - 1 - i

/-- The column used for the generator `alpha + 1`: the last one of the last block column, H 537, or the first one of the first
    block column, T 584. -/
def Mosaic.edgeCol (k : Kind) (M : Mosaic p) : Out (Nat → ZMod p) :=
  match k with
  | .hankel => M.lastCol k (M.mb - 1)
  | .toeplitz => M.firstCol k 0

/-- `to_cauchy_grp(CL, X_int, Y_int, e, f, M)`, H 477-594, T 484-611: `none` for the value 0.  `zz_p::modulus()` is `p`.  The steps do
    not depend on each other, and have another order in `mosaic_toeplitz_lzz_p.cpp`. -/
noncomputable def Mosaic.toCauchy (k : Kind) (M : Mosaic p) (E : Env p) (D : Draws p) : Out (Option (Pre p)) :=
  andThen (M.gens k newMat newMat) fun GH =>
  let n := M.n
  let m := M.m
  if p / 10 < max m n then .ok none
  else
    andThen (ofOpt (Order.elementOfOrder D.ord (2 * max m n) 100 true)) fun a =>
    let b := a * a
    andThen (findC b n m D.c) fun c =>
    andThen (ofOpt (Geom.construct E.feasible E.flags a 1 n)) fun Xint =>
    andThen (ofOpt (Geom.construct E.feasible E.flags a c m)) fun Yint =>
    let alpha := GH.1.cols
    andThen (loopOut alpha (fun j X => evalCol E Xint n (fun i => GH.1.e (i, j)) D.e j X) fun _ => 0) fun X =>
    let X := forN n (fun i => write (i, alpha) (D.e i * ((b ^ i) ^ n - 1))) X
    andThen (M.edgeCol k) fun v =>
    andThen (evalCol E Xint n v D.e (alpha + 1) X) fun X =>
    andThen (loopOut alpha (fun j Y => evalCol E Yint m (fun i => GH.2.e (k.flip m i, j)) D.f j Y) fun _ => 0) fun Y =>
    andThen (M.lastRow k (M.nb - 1)) fun w =>
    andThen (evalCol E Yint m (fun i => w (k.flip m i)) D.f alpha Y) fun Y =>
    let Y := forN m (fun i => write (i, alpha + 1) (-D.f i * (c * b ^ i) ^ m)) Y
    andThen (CLike.make ⟨n, alpha + 2, X⟩ ⟨m, alpha + 2, Y⟩ 1 c b) fun CL =>
    .ok (some ⟨CL, Xint, Yint, D.e, D.f⟩)

/-! ### Systems and inversion -/

/-- `solve(x, b, thresh, thresh_alpha)`, H 603-631, T 621-655: `none` for the value 0, and `x` with the value 1.  `thresh` has no effect
    (see `CLike.invert`). -/
noncomputable def Mosaic.solve (k : Kind) (M : Mosaic p) (E : Env p) (D : Draws p) (rnd : Nat → Nat → ZMod p) (rx : Nat → ZMod p)
    (threshAlpha : Int) (b : NVec (ZMod p)) : Out (Option (NVec (ZMod p))) :=
  if M.m * M.n = 0 then .error
  else
    andThen (M.toCauchy k E D) fun o =>
    match o with
    | none => .ok none
    | some P =>
      if b.len < M.n then .ub
      else
        andThen (ofOpt (Geom.mulRight E.mp P.X b.e)) fun bp =>
        let bp := forN M.n (fun i bp => write i (bp i * P.e i) bp) bp
        andThen (P.CL.solve E.red E.cross rnd rx threshAlpha ⟨M.n, bp⟩) fun s =>
        match s with
        | none => .ok none
        | some xp =>
          if xp.len < M.m then .ub
          else
            let xp := forN M.m (fun i x => write i (x i * P.f i) x) xp.e
            andThen (ofOpt (Geom.mulLeft E.mp P.Y xp)) fun x =>
            .ok (some ⟨M.m, fun i => x (k.flip M.m i)⟩)

/-- The constructor `hankel_like_minus_lzz_p(iG, iH)` or `toeplitz_like_minus_lzz_p(iG, iH)`. -/
noncomputable def Kind.makeMinus (k : Kind) (U V : PMat (ZMod p)) : Out (Like p) :=
  match k with
  | .hankel => Like.makeHM U V
  | .toeplitz => Like.makeTM U V

/-- `inv(inv, thresh, thresh_alpha)`, H 648-724, T 664-741: `none` for the value 0, and `inv` with the value 1. -/
noncomputable def Mosaic.inv (k : Kind) (M : Mosaic p) (E : Env p) (D : Draws p) (rnd : Nat → Nat → ZMod p) (threshAlpha : Int) :
    Out (Option (Like p)) :=
  if M.m ≠ M.n then .error
  else
    andThen (M.toCauchy k E D) fun o =>
    match o with
    | none => .ok none
    | some P =>
      andThen (P.CL.invert E.red E.cross rnd threshAlpha) fun s =>
      match s with
      | none => .ok none
      | some iCL =>
        let n := M.n
        if iCL.C.m ≠ n then .ok none
        else
          andThen (M.gens k newMat newMat) fun GH =>
          let alpha := GH.1.cols
          andThen (loopOut alpha (fun j iG =>
            andThen (ofOpt (Geom.mulRight E.mp P.X fun i => GH.1.e (i, j))) fun bp =>
            let bp := forN n (fun i bp => write i (bp i * P.e i) bp) bp
            andThen (iCL.right E.red E.cross ⟨n, bp⟩) fun x =>
            if x.len < n then .ub
            else
              let x := forN n (fun i x => write i (-(x i * P.f i)) x) x.e
              andThen (ofOpt (Geom.mulLeft E.mp P.Y x)) fun b =>
              .ok (forN n (fun i => write (i, j) (b (k.flip n i))) iG)) fun _ => 0) fun iG =>
          andThen (loopOut alpha (fun j iH =>
            andThen (ofOpt (Geom.mulRight E.mp P.Y fun i => GH.2.e (k.flip n i, j))) fun bp =>
            let bp := forN n (fun i bp => write i (bp i * P.f i) bp) bp
            andThen (iCL.left E.red E.cross ⟨n, bp⟩) fun x =>
            if x.len < n then .ub
            else
              let x := forN n (fun i x => write i (x i * P.e i) x) x.e
              andThen (ofOpt (Geom.mulLeft E.mp P.X x)) fun b =>
              .ok (forN n (fun i => write (i, j) (b i)) iH)) fun _ => 0) fun iH =>
          andThen (k.makeMinus ⟨n, alpha, iG⟩ ⟨n, alpha, iH⟩) fun t => .ok (some t)

end PML.Ntl.Mosaic
