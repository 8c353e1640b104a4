import Verif.Ntl.StructModel
import Verif.Ntl.OrderModel

/-!
# Model of `ntl-extras/structured_lzz_p/src/cauchy_geometric_lzz_p.cpp`

Cauchy matrices on geometric progressions, and `diagonal_matrix`, `clear` of `mat_lzz_p_extra/src/mat_lzz_p_extra.cpp`.
The modulus is a prime `p`; a division by zero is an error.  The vector functions test `&output == &input` and then work on a fresh
result; `mul_left` copies its input first.
-/

namespace PML.Ntl.Struct

open Polynomial PML.Ntl.Utils PML.Ntl.Inv PML.Ntl.Solve PML.Ntl.Middle

variable {p : Nat} [Fact p.Prime]

/-- The vector of denominators, `cauchy_geometric_lzz_p.cpp:30-36`; `k` is `m + n - 1`. -/
def cauchyDen (u v rho : ZMod p) (m n : Nat) : Nat → ZMod p :=
  let k := m + n - 1
  let d := write (k - 1) (-v * rho⁻¹ ^ ((m : Int) - 1)) fun _ => 0
  let d := forN (k - 1) (fun i d =>
    let d := write (k - 1 - (i + 1)) (d (k - 1 - i) * rho) d
    write (k - 1 - i) (d (k - 1 - i) + u) d) d
  write 0 (d 0 + u) d

/-- `prepare_inverses_cauchy_reverse(inverses, u1, v1, rho, m, n)`, lines 21-38, into an empty vector. -/
def cauchyInverses (u v rho : ZMod p) (m n : Nat) : Out (NVec (ZMod p)) :=
  if rho = 0 then .error
  else if m + n - 1 = 0 then .ok ⟨0, fun _ => 0⟩
  else match PML.Ntl.Order.invVec (m + n - 1) (cauchyDen u v rho m n) fun _ => 0 with
    | none => .error
    | some w => .ok ⟨m + n - 1, w⟩

/-- The members of `cauchy_geometric_lzz_p`. -/
structure Cauchy (p : Nat) where
  /-- `u1` -/
  u : ZMod p
  /-- `v1` -/
  v : ZMod p
  /-- `rho` -/
  rho : ZMod p
  /-- number of rows -/
  m : Nat
  /-- number of columns -/
  n : Nat
  /-- `t` -/
  t : Band p
  /-- `powers_irho` -/
  pw : Nat → ZMod p

/-- The constructor, lines 54-82.  `powers_irho[0]` is written even if there is no row. -/
noncomputable def Cauchy.make (u v rho : ZMod p) (m n : Nat) : Out (Cauchy p) :=
  if m = 0 ∧ n = 0 then .ok ⟨u, v, rho, m, n, Band.empty, fun _ => 0⟩
  else andThen (cauchyInverses u v rho m n) fun w =>
    if m = 0 then .ub
    else
      let irho := rho⁻¹
      let pw := forN (m - 1) (fun i pw => write (i + 1) (irho * pw (i + 1 - 1)) pw) (write 0 1 fun _ => 0)
      andThen (Band.make w m n) fun t => .ok ⟨u, v, rho, m, n, t, pw⟩

/-- `mul_right(output, input)` on vectors, lines 100-111. -/
noncomputable def Cauchy.right (c : Cauchy p) (red : Nat → ZMod p) (cross : Nat) (input : NVec (ZMod p)) : Out (NVec (ZMod p)) :=
  andThen (c.t.toeplitzRight red cross input) fun r => .ok ⟨r.len, forN c.m (fun i e => write i (e i * c.pw i) e) r.e⟩

/-- `mul_right(output, input)` on matrices, lines 116-129; `x` is `output` before the call. -/
noncomputable def Cauchy.rightMat (c : Cauchy p) (red : Nat → ZMod p) (cross lim : Nat) (x input : PMat (ZMod p)) : Out (PMat (ZMod p)) :=
  andThen (c.t.toeplitzRightMat red cross lim x input) fun r =>
  .ok { r with e := loop2 c.m input.cols (fun i j e => e (i, j) * c.pw i) r.e }

/-- `mul_right_simple(output, input)` on vectors, lines 134-143. -/
noncomputable def Cauchy.rightSimple (c : Cauchy p) (red : Nat → ZMod p) (cross : Nat) (input : NVec (ZMod p)) : Out (NVec (ZMod p)) :=
  c.t.toeplitzRight red cross input

/-- `mul_right_simple(output, input)` on matrices, lines 148-157. -/
noncomputable def Cauchy.rightSimpleMat (c : Cauchy p) (red : Nat → ZMod p) (cross lim : Nat) (x input : PMat (ZMod p)) : Out (PMat (ZMod p)) :=
  c.t.toeplitzRightMat red cross lim x input

/-- `mul_left(output, input)` on vectors, lines 162-170; the length of the input is not tested before `m` entries of the copy are
    multiplied. -/
noncomputable def Cauchy.left (c : Cauchy p) (red : Nat → ZMod p) (cross : Nat) (input : NVec (ZMod p)) : Out (NVec (ZMod p)) :=
  if input.len < c.m then .ub
  else c.t.toeplitzLeft red cross ⟨input.len, forN c.m (fun i e => write i (e i * c.pw i) e) input.e⟩

/-- `mul_left(output, input)` on matrices, lines 175-188. -/
noncomputable def Cauchy.leftMat (c : Cauchy p) (red : Nat → ZMod p) (cross lim : Nat) (x input : PMat (ZMod p)) : Out (PMat (ZMod p)) :=
  if 0 < input.rows ∧ input.cols < c.m then .ub
  else c.t.toeplitzLeftMat red cross lim x { input with e := loop2 input.rows c.m (fun i j e => e (i, j) * c.pw j) input.e }

/-- `mul_left_simple(output, input)` on vectors, lines 193-202. -/
noncomputable def Cauchy.leftSimple (c : Cauchy p) (red : Nat → ZMod p) (cross : Nat) (input : NVec (ZMod p)) : Out (NVec (ZMod p)) :=
  c.t.toeplitzLeft red cross input

/-- `mul_left_simple(output, input)` on matrices, lines 207-216. -/
noncomputable def Cauchy.leftSimpleMat (c : Cauchy p) (red : Nat → ZMod p) (cross lim : Nat) (x input : PMat (ZMod p)) : Out (PMat (ZMod p)) :=
  c.t.toeplitzLeftMat red cross lim x input

/-- `to_dense(M)`, lines 221-227. -/
def Cauchy.dense (c : Cauchy p) (x : PMat (ZMod p)) : Out (PMat (ZMod p)) :=
  let y := x.setDims c.m c.n
  andThen (loopOut c.m (fun i e => loopOut c.n (fun j e =>
    let d := c.u * c.rho ^ i - c.v * c.rho ^ j
    if d = 0 then .error else .ok (write (i, j) d⁻¹ e)) e) y.e) fun e => .ok { y with e := e }

/-- `diagonal_matrix(d)`, `mat_lzz_p_extra.cpp:42-49`. -/
def diagonalMatrix (d : NVec (ZMod p)) : PMat (ZMod p) :=
  ⟨d.len, d.len, forN d.len (fun i => write (i, i) (d.e i)) fun _ => 0⟩

/-- `clear(mat, r_offset, c_offset, nrows, ncols)`, `mat_lzz_p_extra.cpp:55-62`, for offsets and dimensions which are not negative. -/
def clearWindow (a : PMat (ZMod p)) (r c nrows ncols : Nat) : PMat (ZMod p) :=
  let rEnd := min (r + nrows) a.rows
  let cEnd := min (c + ncols) a.cols
  { a with e := forN (rEnd - r) (fun i => forN (cEnd - c) fun j => write (r + i, c + j) 0) a.e }

end PML.Ntl.Struct
