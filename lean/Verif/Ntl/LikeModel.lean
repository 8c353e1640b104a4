import Verif.Ntl.StructModel

/-!
# Model of `ntl-extras/structured_lzz_p/src`: Toeplitz-like and Hankel-like matrices

Files `toeplitz_like_plus_lzz_p.cpp`, `toeplitz_like_minus_lzz_p.cpp`, `hankel_like_plus_lzz_p.cpp` and
`hankel_like_minus_lzz_p.cpp`, and `Z_lzz_p`, `J_lzz_p` of `mat_lzz_p_extra/src/mat_lzz_p_extra.cpp`.
The vector functions test `&output == &input` and then work on a fresh result, and so do the functions `phi`.
-/

namespace PML.Ntl.Struct

open Polynomial PML.Ntl.Utils PML.Ntl.Inv PML.Ntl.Solve PML.Ntl.Middle

variable {p : Nat} [NeZero p]

/-- A new empty matrix. -/
def newMat : PMat (ZMod p) := ⟨0, 0, fun _ => 0⟩

/-- `Z_lzz_p(n, c)`, `mat_lzz_p_extra.cpp:13-20`; `res[0][n-1]` is written. -/
def zMat (n : Nat) (c : ZMod p) : Out (PMat (ZMod p)) :=
  if n = 0 then .ub
  else
    let e := forN (n - 1) (fun i => write (i + 1, i + 1 - 1) (1 : ZMod p)) fun _ => 0
    .ok ⟨n, n, write (0, n - 1) c e⟩

/-- `J_lzz_p(n)`, `mat_lzz_p_extra.cpp:30-37`. -/
def jMat (n : Nat) : PMat (ZMod p) := ⟨n, n, forN n (fun i => write (i, n - 1 - i) (1 : ZMod p)) fun _ => 0⟩

/-- `transpose` of NTL. -/
def denseT (a : PMat (ZMod p)) : PMat (ZMod p) := ⟨a.cols, a.rows, fun ij => a.e (ij.2, ij.1)⟩

/-- `a + b` of NTL; an error if the dimensions differ. -/
def denseAdd (a b : PMat (ZMod p)) : Out (PMat (ZMod p)) :=
  if a.rows ≠ b.rows ∨ a.cols ≠ b.cols then .error else .ok ⟨a.rows, a.cols, fun ij => a.e ij + b.e ij⟩

/-- `a - b` of NTL; an error if the dimensions differ. -/
def denseSub (a b : PMat (ZMod p)) : Out (PMat (ZMod p)) :=
  if a.rows ≠ b.rows ∨ a.cols ≠ b.cols then .error else .ok ⟨a.rows, a.cols, fun ij => a.e ij - b.e ij⟩

/-- The members of the four classes: dimensions, number of generators, and the factors built from them. -/
structure Like (p : Nat) where
  /-- number of rows -/
  m : Nat
  /-- number of columns -/
  n : Nat
  /-- number of generators -/
  gens : Nat
  /-- `circulant_G` or `circulant_H` -/
  circ : Nat → Circ p
  /-- `lower_triangular_toeplitz_H`, `toeplitz_G` or `lower_triangular_toeplitz_G` -/
  tri : Nat → Tri p

/-- The constructor of `lower_triangular_toeplitz_lzz_p` without argument, `lower_triangular_toeplitz_lzz_p.cpp:24-27`. -/
noncomputable def Tri.empty : Tri p := ⟨0, fun _ => 0, 0, 0⟩

/-- The loop that fills `vecG`, `toeplitz_like_plus_lzz_p.cpp:47-54` and `hankel_like_plus_lzz_p.cpp:47-54`: the index starts at
    `n % m` and goes back to 0 after `m - 1`. -/
def turnUp (m n : Nat) (g : Nat → ZMod p) : Nat → ZMod p :=
  (forN m (fun j (s : Nat × (Nat → ZMod p)) =>
    let v := write j (g s.1) s.2
    let idx := s.1 + 1
    (if idx = m then 0 else idx, v)) (n % m, fun _ => 0)).2

/-- The loop that fills `vecH`, `toeplitz_like_minus_lzz_p.cpp:57-66` and `hankel_like_minus_lzz_p.cpp:57-66`: the index goes down from
    `n - 2`, and from 0 to `n - 1`. -/
def turnDown (n : Nat) (h : Nat → ZMod p) : Nat → ZMod p :=
  let idx := if n < 2 then n + n - 2 else n - 2
  (forN n (fun j (s : Nat × (Nat → ZMod p)) =>
    let v := write j (h s.1) s.2
    (if s.1 = 0 then n - 1 else s.1 - 1, v)) (idx, fun _ => 0)).2

/-- The loop of the constructors `toeplitz_like_plus_lzz_p(U, V)`, lines 30-61, and `hankel_like_plus_lzz_p(U, V)`, lines 30-61, which
    differ by the array `vecH`, given by `vh`.  With a generator and no row, `n % m` divides by zero. -/
noncomputable def Like.makePlus (vh : Nat → Nat → ZMod p) (U V : PMat (ZMod p)) : Out (Like p) :=
  let m := U.rows
  let n := V.rows
  andThen (loopOut U.cols (fun i (s : (Nat → Circ p) × (Nat → Tri p)) =>
    if m = 0 then .ub
    else andThen (Circ.makeColumn ⟨m, turnUp m n fun k => U.e (k, i)⟩ n) fun c =>
      if 0 < n ∧ V.cols ≤ i then .ub
      else .ok (write i c s.1, write i (Tri.make ⟨n, vh i⟩) s.2)) (fun _ => Circ.empty, fun _ => Tri.empty)) fun s =>
  .ok ⟨m, n, U.cols, s.1, s.2⟩

/-- `toeplitz_like_plus_lzz_p(U, V)`, lines 30-61. -/
noncomputable def Like.makeTP (U V : PMat (ZMod p)) : Out (Like p) := Like.makePlus (fun i j => V.e (V.rows - 1 - j, i)) U V

/-- `hankel_like_plus_lzz_p(U, V)`, lines 30-61. -/
noncomputable def Like.makeHP (U V : PMat (ZMod p)) : Out (Like p) := Like.makePlus (fun i j => V.e (j, i)) U V

/-- The constructors `toeplitz_like_minus_lzz_p(U, V)`, lines 31-69, and `hankel_like_minus_lzz_p(U, V)`, lines 31-69, which differ by
    the array `vecG`, given by `vg`. -/
noncomputable def Like.makeMinus (vg : Nat → Nat → ZMod p) (U V : PMat (ZMod p)) : Out (Like p) :=
  let m := U.rows
  let n := V.rows
  if m = 0 ∨ n = 0 then .ok ⟨m, n, U.cols, fun _ => Circ.empty, fun _ => Tri.empty⟩
  else
    andThen (loopOut U.cols (fun i (s : (Nat → Circ p) × (Nat → Tri p)) =>
      if V.cols ≤ i then .ub
      else andThen (Circ.makeRow ⟨n, turnDown n fun k => V.e (k, i)⟩ m) fun c =>
        .ok (write i c s.1, write i (Tri.make ⟨m, vg i⟩) s.2)) (fun _ => Circ.empty, fun _ => Tri.empty)) fun s =>
    .ok ⟨m, n, U.cols, s.1, s.2⟩

/-- `toeplitz_like_minus_lzz_p(U, V)`, lines 31-69. -/
noncomputable def Like.makeTM (U V : PMat (ZMod p)) : Out (Like p) := Like.makeMinus (fun i j => -U.e (j, i)) U V

/-- `hankel_like_minus_lzz_p(U, V)`, lines 31-69. -/
noncomputable def Like.makeHM (U V : PMat (ZMod p)) : Out (Like p) := Like.makeMinus (fun i j => -U.e (U.rows - 1 - j, i)) U V

/-- `output[j] += tmp[g(j)]` for `j < m`. -/
def addTo (m : Nat) (g : Nat → Nat) (tmp out : Nat → ZMod p) : Nat → ZMod p := fun j => if j < m then out j + tmp (g j) else out j

/-- `toeplitz_like_plus_lzz_p::mul_right(output, input)`, lines 84-104. -/
noncomputable def Like.rightTP (t : Like p) (cross : Nat) (input : NVec (ZMod p)) : Out (NVec (ZMod p)) :=
  andThen (loopOut t.gens (fun i out =>
    andThen ((t.tri i).right cross input) fun tmp1 =>
    andThen ((t.circ i).columnRight tmp1) fun tmp2 => .ok (addTo t.m (fun j => j) tmp2.e out)) fun _ => 0) fun out =>
  .ok ⟨t.m, out⟩

/-- `toeplitz_like_minus_lzz_p::mul_right(output, input)`, lines 92-113. -/
noncomputable def Like.rightTM (t : Like p) (cross : Nat) (input : NVec (ZMod p)) : Out (NVec (ZMod p)) :=
  andThen (loopOut t.gens (fun i out =>
    andThen ((t.circ i).rowRight input) fun tmp1 =>
    andThen ((t.tri i).right cross tmp1) fun tmp2 => .ok (addTo t.m (fun j => j) tmp2.e out)) fun _ => 0) fun out =>
  .ok ⟨t.m, out⟩

/-- `hankel_like_plus_lzz_p::mul_right(output, input)`, lines 84-108; the first `n` entries of the input are read, and the
    length is not tested. -/
noncomputable def Like.rightHP (t : Like p) (cross : Nat) (input : NVec (ZMod p)) : Out (NVec (ZMod p)) :=
  if input.len < t.n then .ub
  else andThen (loopOut t.gens (fun i out =>
    andThen ((t.tri i).right cross ⟨t.n, fun i => input.e (t.n - 1 - i)⟩) fun tmp1 =>
    andThen ((t.circ i).columnRight tmp1) fun tmp2 => .ok (addTo t.m (fun j => j) tmp2.e out)) fun _ => 0) fun out =>
  .ok ⟨t.m, out⟩

/-- `hankel_like_minus_lzz_p::mul_right(output, input)`, lines 92-112. -/
noncomputable def Like.rightHM (t : Like p) (cross : Nat) (input : NVec (ZMod p)) : Out (NVec (ZMod p)) :=
  andThen (loopOut t.gens (fun i out =>
    andThen ((t.circ i).rowRight input) fun tmp1 =>
    andThen ((t.tri i).right cross tmp1) fun tmp2 => .ok (addTo t.m (fun j => t.m - 1 - j) tmp2.e out)) fun _ => 0) fun out =>
  .ok ⟨t.m, out⟩

/-- The products `mul_right(out, in)` on matrices and `mul_left(out, in)` on vectors and matrices have an empty body:
    `toeplitz_like_plus_lzz_p.cpp:106-119`, `toeplitz_like_minus_lzz_p.cpp:115-128`, `hankel_like_plus_lzz_p.cpp:110-123`,
    `hankel_like_minus_lzz_p.cpp:114-127`.  `out` is the output before the call. -/
def Like.noBody {α : Type} (_t : Like p) (out _input : α) : Out α := .ok out

/-- The loop of `to_dense` of the two classes `plus`: `toeplitz_like_plus_lzz_p.cpp:126-130`, `hankel_like_plus_lzz_p.cpp:130-134`;
    `x` is `Mdense` before the call. -/
def Like.sumPlus (t : Like p) (x : PMat (ZMod p)) : Out (PMat (ZMod p)) :=
  loopOut t.gens (fun i y => andThen (denseMul ((t.circ i).columnDense newMat) ((t.tri i).dense newMat)) fun z => denseAdd y z) (x.setDims t.m t.n)

/-- The loop of `to_dense` of the two classes `minus`: `toeplitz_like_minus_lzz_p.cpp:135-139`, `hankel_like_minus_lzz_p.cpp:134-138`. -/
def Like.sumMinus (t : Like p) (x : PMat (ZMod p)) : Out (PMat (ZMod p)) :=
  loopOut t.gens (fun i y => andThen (denseMul ((t.tri i).dense newMat) ((t.circ i).rowDense newMat)) fun z => denseAdd y z) (x.setDims t.m t.n)

/-- `toeplitz_like_plus_lzz_p::to_dense`, lines 124-131. -/
def Like.denseTP (t : Like p) (x : PMat (ZMod p)) : Out (PMat (ZMod p)) := t.sumPlus x

/-- `toeplitz_like_minus_lzz_p::to_dense`, lines 133-140. -/
def Like.denseTM (t : Like p) (x : PMat (ZMod p)) : Out (PMat (ZMod p)) := t.sumMinus x

/-- `hankel_like_plus_lzz_p::to_dense`, lines 128-136. -/
def Like.denseHP (t : Like p) (x : PMat (ZMod p)) : Out (PMat (ZMod p)) := andThen (t.sumPlus x) fun y => denseMul y (jMat t.n)

/-- `hankel_like_minus_lzz_p::to_dense`, lines 132-140. -/
def Like.denseHM (t : Like p) (x : PMat (ZMod p)) : Out (PMat (ZMod p)) := andThen (t.sumMinus x) fun y => denseMul (jMat t.m) y

/-- `z * a - a * w`, where `z` and `w` may fail. -/
def phiWith (z w : Out (PMat (ZMod p))) (a : PMat (ZMod p)) : Out (PMat (ZMod p)) :=
  andThen z fun z => andThen w fun w => andThen (denseMul z a) fun x => andThen (denseMul a w) fun y => denseSub x y

/-- `toeplitz_lzz_p_phi_plus(res, A)`, `toeplitz_like_plus_lzz_p.cpp:136-147`. -/
def phiTP (a : PMat (ZMod p)) : Out (PMat (ZMod p)) := phiWith (zMat a.rows 1) (zMat a.cols 0) a

/-- `toeplitz_lzz_p_phi_minus(res, A)`, `toeplitz_like_minus_lzz_p.cpp:145-161`. -/
def phiTM (a : PMat (ZMod p)) : Out (PMat (ZMod p)) := phiWith (zMat a.rows 0) (zMat a.cols 1) a

/-- `hankel_lzz_p_phi_plus(res, A)`, `hankel_like_plus_lzz_p.cpp:141-156`. -/
def phiHP (a : PMat (ZMod p)) : Out (PMat (ZMod p)) := phiWith (zMat a.rows 1) (andThen (zMat a.cols 0) fun z => .ok (denseT z)) a

/-- `hankel_lzz_p_phi_minus(res, A)`, `hankel_like_minus_lzz_p.cpp:145-160`. -/
def phiHM (a : PMat (ZMod p)) : Out (PMat (ZMod p)) := phiWith (andThen (zMat a.rows 0) fun z => .ok (denseT z)) (zMat a.cols 1) a

end PML.Ntl.Struct
