import Verif.Ntl.MiddleModel
import Verif.Ntl.MatUtilsModel
import Verif.Ntl.SolveModel

/-!
# Model of `ntl-extras/structured_lzz_p/src`: Toeplitz, Hankel, triangular and circulant matrices

Files `toeplitz_lzz_p.cpp`, `hankel_lzz_p.cpp`, `lower_triangular_toeplitz_lzz_p.cpp`, `circulant_column_lzz_p.cpp`
and `circulant_row_lzz_p.cpp`.  Coefficients are in `ZMod p`.  A `Vec<zz_p>` is a length and an array.  The vector
functions test `&res == &input` and then work on a fresh result, so that inputs and outputs do not overlap below.
`NTL_zz_pX_MUL_CROSSOVER` is the parameter `cross`; `red` is the reduction used by the Karatsuba product (C56).
-/

namespace PML.Ntl.Struct

open Polynomial PML.Ntl.Utils PML.Ntl.Inv PML.Ntl.Solve PML.Ntl.Middle

variable {p : Nat} [NeZero p]

/-- `Vec<zz_p>`. -/
structure NVec (α : Type) where
  /-- `length()` -/
  len : Nat
  /-- the entries -/
  e : Nat → α

/-! ### Toeplitz and Hankel -/

/-- The members of `toeplitz_lzz_p` and of `hankel_lzz_p`, `structured_lzz_p.h`. -/
structure Band (p : Nat) where
  /-- number of rows -/
  n : Nat
  /-- number of columns -/
  m : Nat
  /-- `data` -/
  data : NVec (ZMod p)
  /-- `data_rev` -/
  rev : Nat → ZMod p
  /-- `fft_data` -/
  fft : (ZMod p)[X]

/-- The constructors without argument, `toeplitz_lzz_p.cpp:23-26` and `hankel_lzz_p.cpp:23-26`. -/
noncomputable def Band.empty : Band p := ⟨0, 0, ⟨0, fun _ => 0⟩, fun _ => 0, 0⟩

/-- The constructors `toeplitz_lzz_p(input, rows, cols)`, `toeplitz_lzz_p.cpp:31-49`, and `hankel_lzz_p(input, rows, cols)`,
    `hankel_lzz_p.cpp:31-49`, which have the same text.  With two zero dimensions, `SetLength(-1)` is an error. -/
noncomputable def Band.make (input : NVec (ZMod p)) (rows cols : Nat) : Out (Band p) :=
  if rows + cols = 0 then .error
  else if input.len < rows + cols - 1 then .ub
  else
    let rev := fun i => input.e (rows + cols - 2 - i)
    let dataX := ofCoeffs (rows + cols - 1) rev
    .ok ⟨rows, cols, input, rev, toRepAll (nextPow2 (rows + cols - 1)) dataX⟩

/-- `toeplitz_lzz_p::to_dense`, lines 67-73; `x` is `Mdense` before the call. -/
def Band.toeplitzDense (t : Band p) (x : PMat (ZMod p)) : Out (PMat (ZMod p)) :=
  if 0 < t.n ∧ 0 < t.m ∧ t.data.len < t.n + t.m - 1 then .ub
  else
    let y := x.setDims t.n t.m
    .ok { y with e := loop2 t.n t.m (fun i j _ => t.data.e (t.m + i - 1 - j)) y.e }

/-- `hankel_lzz_p::to_dense`, lines 67-73. -/
def Band.hankelDense (t : Band p) (x : PMat (ZMod p)) : Out (PMat (ZMod p)) :=
  if 0 < t.n ∧ 0 < t.m ∧ t.data.len < t.n + t.m - 1 then .ub
  else
    let y := x.setDims t.n t.m
    .ok { y with e := loop2 t.n t.m (fun i j _ => t.data.e (t.m + t.n - 2 - i - j)) y.e }

/-- The part which all products of a vector share, `toeplitz_lzz_p.cpp:93-115, 222-249` and
    `hankel_lzz_p.cpp:93-115, 214-236`, with the same text in the loops of the products of matrices: `kar` is the array of `sa` entries given to `tKarMul_aux`, `inX` the array of `sa` coefficients given to
    `TofftRep`, `sb` the length of the result.  `Kar_stk_size(0)` is `-1`, which `SetLength` rejects. -/
noncomputable def Band.core (t : Band p) (red : Nat → ZMod p) (cross sb sa : Nat) (kar inX : Nat → ZMod p) : Out (Nat → ZMod p) :=
  if min t.n t.m ≤ 2 * cross / 4 then
    if max t.n t.m = 0 then .error
    else ofMid (tKar red (useLong p) (t.n + t.m + 1) 0 sb kar sa t.rev (t.n + t.m - 1) (karStkSize (max t.n t.m)))
  else
    let K := nextPow2 (t.n + t.m - 1)
    let inputX := ofCoeffs sa inX
    .ok (fun i => (fromRep (sa - 1) (t.n + t.m - 2) (mulRep K (toRepAll K inputX) t.fft)).coeff i)

/-- The loop which reverses the result, `toeplitz_lzz_p.cpp:117-122`. -/
def swapLoop (n : Nat) (res : Nat → ZMod p) : Nat → ZMod p :=
  forN ((n + 1) / 2) (fun i r =>
    let ri := r i
    let r := write i (r (n - 1 - i)) r
    write (n - 1 - i) ri r) res

/-- `toeplitz_lzz_p::mul_right(res, input)` on vectors, lines 78-124. -/
noncomputable def Band.toeplitzRight (t : Band p) (red : Nat → ZMod p) (cross : Nat) (input : NVec (ZMod p)) : Out (NVec (ZMod p)) :=
  if input.len ≠ t.m then .error
  else andThen (t.core red cross t.n t.m input.e fun i => input.e (t.m - 1 - i)) fun r => .ok ⟨t.n, swapLoop t.n r⟩

/-- `toeplitz_lzz_p::mul_left(res, input)` on vectors, lines 208-250. -/
noncomputable def Band.toeplitzLeft (t : Band p) (red : Nat → ZMod p) (cross : Nat) (input : NVec (ZMod p)) : Out (NVec (ZMod p)) :=
  if input.len ≠ t.n then .error
  else andThen (t.core red cross t.m t.n (fun i => input.e (t.n - 1 - i)) input.e) fun r => .ok ⟨t.m, r⟩

/-- `hankel_lzz_p::mul_right(res, input)` on vectors, lines 78-116. -/
noncomputable def Band.hankelRight (t : Band p) (red : Nat → ZMod p) (cross : Nat) (input : NVec (ZMod p)) : Out (NVec (ZMod p)) :=
  if input.len ≠ t.m then .error
  else andThen (t.core red cross t.n t.m input.e fun i => input.e (t.m - 1 - i)) fun r => .ok ⟨t.n, r⟩

/-- `hankel_lzz_p::mul_left(res, input)` on vectors, lines 200-237. -/
noncomputable def Band.hankelLeft (t : Band p) (red : Nat → ZMod p) (cross : Nat) (input : NVec (ZMod p)) : Out (NVec (ZMod p)) :=
  if input.len ≠ t.n then .error
  else andThen (t.core red cross t.m t.n input.e fun i => input.e (t.n - 1 - i)) fun r => .ok ⟨t.m, r⟩

/-- `for (i = 0; i < k; i++) r = f(i, r)` where `f` may fail. -/
def loopOut {σ : Type} : Nat → (Nat → σ → Out σ) → σ → Out σ
  | 0, _, s => .ok s
  | k + 1, f, s => andThen (loopOut k f s) (f k)

/-- The product of two matrices of NTL; an error if the dimensions do not match. -/
def denseMul (a b : PMat (ZMod p)) : Out (PMat (ZMod p)) :=
  if a.cols ≠ b.rows then .error
  else .ok ⟨a.rows, b.cols, fun ij => ∑ l ∈ Finset.range a.cols, a.e (ij.1, l) * b.e (l, ij.2)⟩

/-- The condition for the product of dense matrices, `toeplitz_lzz_p.cpp:145-151, 270-276` and
    `hankel_lzz_p.cpp:137-143, 257-263`.  `lim` is 100, 1000 or 300, depending on `type_of_prime()`. -/
def Band.useDense (t : Band p) (lim q : Nat) : Prop :=
  min t.m t.n ≥ max t.m t.n / 2 ∧ q ≥ min t.m t.n / 4 ∧ min t.m t.n ≤ lim

instance (t : Band p) (lim q : Nat) : Decidable (t.useDense lim q) := inferInstanceAs (Decidable (_ ∧ _))

/-- `toeplitz_lzz_p::mul_right(res, input)` on matrices, lines 130-202; `x` is `res` before the call. -/
noncomputable def Band.toeplitzRightMat (t : Band p) (red : Nat → ZMod p) (cross lim : Nat) (x input : PMat (ZMod p)) : Out (PMat (ZMod p)) :=
  if input.rows ≠ t.m then .error
  else if t.useDense lim input.cols then
    andThen (t.toeplitzDense ⟨0, 0, fun _ => 0⟩) fun d => denseMul d input
  else
    let y := x.setDims t.n input.cols
    andThen (loopOut input.cols (fun i r =>
      andThen (t.core red cross t.n t.m (fun j => input.e (j, i)) fun j => input.e (t.m - 1 - j, i)) fun v =>
      .ok (forN t.n (fun j => write (t.n - 1 - j, i) (v j)) r)) y.e) fun r =>
    .ok { y with e := r }

/-- `toeplitz_lzz_p::mul_left(res, input)` on matrices, lines 255-326. -/
noncomputable def Band.toeplitzLeftMat (t : Band p) (red : Nat → ZMod p) (cross lim : Nat) (x input : PMat (ZMod p)) : Out (PMat (ZMod p)) :=
  if input.cols ≠ t.n then .error
  else if t.useDense lim input.rows then
    andThen (t.toeplitzDense ⟨0, 0, fun _ => 0⟩) fun d => denseMul input d
  else
    let y := x.setDims input.rows t.m
    andThen (loopOut input.rows (fun i r =>
      andThen (t.core red cross t.m t.n (fun j => input.e (i, t.n - 1 - j)) fun j => input.e (i, j)) fun v =>
      .ok (forN t.m (fun j => write (i, j) (v j)) r)) y.e) fun r =>
    .ok { y with e := r }

/-- `hankel_lzz_p::mul_right(res, input)` on matrices, lines 122-194. -/
noncomputable def Band.hankelRightMat (t : Band p) (red : Nat → ZMod p) (cross lim : Nat) (x input : PMat (ZMod p)) : Out (PMat (ZMod p)) :=
  if input.rows ≠ t.m then .error
  else if t.useDense lim input.cols then
    andThen (t.hankelDense ⟨0, 0, fun _ => 0⟩) fun d => denseMul d input
  else
    let y := x.setDims t.n input.cols
    andThen (loopOut input.cols (fun i r =>
      andThen (t.core red cross t.n t.m (fun j => input.e (j, i)) fun j => input.e (t.m - 1 - j, i)) fun v =>
      .ok (forN t.n (fun j => write (j, i) (v j)) r)) y.e) fun r =>
    .ok { y with e := r }

/-- `hankel_lzz_p::mul_left(res, input)` on matrices, lines 242-313. -/
noncomputable def Band.hankelLeftMat (t : Band p) (red : Nat → ZMod p) (cross lim : Nat) (x input : PMat (ZMod p)) : Out (PMat (ZMod p)) :=
  if input.cols ≠ t.n then .error
  else if t.useDense lim input.rows then
    andThen (t.hankelDense ⟨0, 0, fun _ => 0⟩) fun d => denseMul input d
  else
    let y := x.setDims input.rows t.m
    andThen (loopOut input.rows (fun i r =>
      andThen (t.core red cross t.m t.n (fun j => input.e (i, j)) fun j => input.e (i, t.n - 1 - j)) fun v =>
      .ok (forN t.m (fun j => write (i, j) (v j)) r)) y.e) fun r =>
    .ok { y with e := r }

/-! ### Lower triangular Toeplitz -/

/-- The members of `lower_triangular_toeplitz_lzz_p`. -/
structure Tri (p : Nat) where
  /-- dimension -/
  n : Nat
  /-- `data` -/
  data : Nat → ZMod p
  /-- `dataX` -/
  dataX : (ZMod p)[X]
  /-- `fft` -/
  fft : (ZMod p)[X]

/-- `lower_triangular_toeplitz_lzz_p(input)`, lines 32-44. -/
noncomputable def Tri.make (input : NVec (ZMod p)) : Tri p :=
  let dataX := ofCoeffs input.len input.e
  ⟨input.len, input.e, dataX, toRepAll (nextPow2 (input.len + input.len - 1)) dataX⟩

/-- `lower_triangular_toeplitz_lzz_p::to_dense`, lines 62-68: the entries above the diagonal are not written. -/
def Tri.dense (t : Tri p) (x : PMat (ZMod p)) : PMat (ZMod p) :=
  let y := x.setDims t.n t.n
  { y with e := forN t.n (fun j => forN (t.n - j) fun i => write (j + i, j) (t.data (j + i - j))) y.e }

/-- `lower_triangular_toeplitz_lzz_p::mul_right(res, input)` on vectors, lines 73-110. -/
noncomputable def Tri.right (t : Tri p) (cross : Nat) (input : NVec (ZMod p)) : Out (NVec (ZMod p)) :=
  if input.len ≠ t.n then .error
  else
    let inputX := ofCoeffs t.n input.e
    if t.n ≤ cross / 2 then
      let tmp := ptrunc (t.dataX * inputX) t.n
      .ok ⟨t.n, fun i => tmp.coeff i⟩
    else
      let K := nextPow2 (t.n + t.n - 1)
      .ok ⟨t.n, fun i => (fromRep 0 (t.n - 1) (mulRep K (toRepAll K inputX) t.fft)).coeff i⟩

/-- `lower_triangular_toeplitz_lzz_p::mul_left(res, input)` on vectors, lines 134-177. -/
noncomputable def Tri.left (t : Tri p) (cross : Nat) (input : NVec (ZMod p)) : Out (NVec (ZMod p)) :=
  if input.len ≠ t.n then .error
  else
    let inputX := ofCoeffs t.n fun i => input.e (t.n - 1 - i)
    if t.n ≤ cross / 2 then
      let tmp := ptrunc (t.dataX * inputX) t.n
      .ok ⟨t.n, fun i => tmp.coeff (t.n - 1 - i)⟩
    else
      let K := nextPow2 (t.n + t.n - 1)
      let tmp := fun i => (fromRep 0 (t.n - 1) (mulRep K (toRepAll K inputX) t.fft)).coeff i
      .ok ⟨t.n, fun i => tmp (t.n - 1 - i)⟩

/-- A body which stops after the tests: `ok` is the test of the dimensions, `same` tells whether `res` is `input`, and then the
    result is that of the same function on a new empty matrix; `x` is `res` before the call. -/
def unwritten (ok : Bool) (same : Bool) (x : PMat (ZMod p)) : Out (PMat (ZMod p)) :=
  if !ok then .error else if same then .ok ⟨0, 0, fun _ => 0⟩ else .ok x

/-- `lower_triangular_toeplitz_lzz_p::mul_right(res, input)` on matrices, lines 116-128. -/
def Tri.rightMat (t : Tri p) (same : Bool) (x input : PMat (ZMod p)) : Out (PMat (ZMod p)) := unwritten (input.rows == t.n) same x

/-- `lower_triangular_toeplitz_lzz_p::mul_left(res, input)` on matrices, lines 182-194. -/
def Tri.leftMat (t : Tri p) (same : Bool) (x input : PMat (ZMod p)) : Out (PMat (ZMod p)) := unwritten (input.cols == t.n) same x

/-! ### Circulant matrices -/

/-- The members of `circulant_column_lzz_p` and `circulant_row_lzz_p`. -/
structure Circ (p : Nat) where
  /-- number of rows -/
  n : Nat
  /-- number of columns -/
  m : Nat
  /-- `data` -/
  data : Nat → ZMod p
  /-- `fft1` -/
  fft1 : (ZMod p)[X]
  /-- `fft2` -/
  fft2 : (ZMod p)[X]
  /-- `fft3` -/
  fft3 : (ZMod p)[X]

/-- `circulant_column_lzz_p(input, ncols)`, lines 30-59; `input[0]` is read. -/
noncomputable def Circ.makeColumn (input : NVec (ZMod p)) (ncols : Nat) : Out (Circ p) :=
  let n := input.len
  if n = 0 then .ub
  else
    let poly1 := ofCoeffs n fun i => if i = 0 then input.e 0 else input.e (n - 1 - (i - 1))
    let K := nextPow2 (n + n - 1)
    let poly2 := ofCoeffs n input.e
    let leftover := if ncols % n = 0 then n else ncols % n
    let L := nextPow2 (n + leftover - 1)
    .ok ⟨n, ncols, input.e, toRepAll K poly1, toRepAll L poly2, toRepAll K poly2⟩

/-- `circulant_row_lzz_p(input, nrows)`, lines 30-59; `input[m-1]` is read. -/
noncomputable def Circ.makeRow (input : NVec (ZMod p)) (nrows : Nat) : Out (Circ p) :=
  let m := input.len
  if m = 0 then .ub
  else
    let poly1 := ofCoeffs m fun i => if i = 0 then input.e (m - 1) else input.e (i - 1)
    let K := nextPow2 (m + m - 1)
    let poly2 := ofCoeffs m fun i => input.e (m - 1 - i)
    let leftover := if nrows % m = 0 then m else nrows % m
    let L := nextPow2 (m + leftover - 1)
    .ok ⟨nrows, m, input.e, toRepAll K poly1, toRepAll L poly2, toRepAll K poly2⟩

/-- The constructors without argument, `circulant_column_lzz_p.cpp:22-25`, `circulant_row_lzz_p.cpp:22-25`. -/
noncomputable def Circ.empty : Circ p := ⟨0, 0, fun _ => 0, 0, 0, 0⟩

/-- `idx = i - j - 1; while (idx < 0) idx += n; idx = idx % n`, `circulant_column_lzz_p.cpp:83-86`, `circulant_row_lzz_p.cpp:83-86`. -/
def circIdx (i j n : Nat) : Nat := (((i : Int) - j - 1) % n).toNat

/-- `circulant_column_lzz_p::to_dense`, lines 77-89. -/
def Circ.columnDense (t : Circ p) (x : PMat (ZMod p)) : PMat (ZMod p) :=
  let y := x.setDims t.n t.m
  { y with e := forN t.m (fun i => forN t.n fun j => write (j, i) (t.data (t.n - 1 - circIdx i j t.n))) y.e }

/-- `circulant_row_lzz_p::to_dense`, lines 77-89. -/
def Circ.rowDense (t : Circ p) (x : PMat (ZMod p)) : PMat (ZMod p) :=
  let y := x.setDims t.n t.m
  { y with e := loop2 t.n t.m (fun i j _ => t.data (circIdx i j t.m)) y.e }

/-- The product by chunks, `circulant_column_lzz_p.cpp:107-161` and `circulant_row_lzz_p.cpp:179-233`: `d` is the length of the result,
    `q` that of the input. -/
noncomputable def chunks (fft2 fft3 : (ZMod p)[X]) (d q : Nat) (input : Nat → ZMod p) : Out (Nat → ZMod p) :=
  if d = 0 then .ub
  else
    let leftover := if q % d = 0 then d else q % d
    -- `nb` is `-1`, and the reads are before the array
    if q % d = 0 ∧ q / d = 0 then .ub
    else
      let nb := if q % d = 0 then q / d - 1 else q / d
      let L := nextPow2 (d + leftover - 1)
      let o := fromRep 0 (d + leftover - 2) (mulRep L fft2 (toRepAll L (ofCoeffs leftover fun i => input (i + nb * d))))
      let out := write (d + leftover - 1) 0 fun i => o.coeff i
      let res : Nat → ZMod p := fun i => if i < leftover then out i + out (i + d) else out i
      .ok (forN nb (fun r res =>
        let K := nextPow2 (2 * d - 1)
        let o := fromRep 0 (d + d - 2) (mulRep K fft3 (toRepAll K (ofCoeffs d fun i => input (i + r * d))))
        let out := write (d + d - 1) 0 fun i => o.coeff i
        fun i => if i < d then res i + (out i + out (i + d)) else res i) res)

/-- The `do` loop, `circulant_column_lzz_p.cpp:223-231` and `circulant_row_lzz_p.cpp:133-141`: it fills `res` from index `done` on, by
    at most `d` entries at a time.  The first argument bounds the number of rounds. -/
def repeatLoop (d : Nat) : Nat → Nat → Nat → (Nat → ZMod p) → Out (Nat → ZMod p)
  | 0, _, _, _ => .loops
  | fuel + 1, done, left, res =>
    let todo := min left d
    let res := forN todo (fun i r => write (done + i) (r (done + i - d)) r) res
    let done := done + todo
    let left := left - todo
    if left ≥ 1 then repeatLoop d fuel done left res else .ok res

/-- The product by one period, `circulant_column_lzz_p.cpp:197-232` and `circulant_row_lzz_p.cpp:107-142`: `d` is the period, the
    input has `d` entries, `slen` entries are allocated for the coefficients, the result has `q` entries. -/
noncomputable def period (fft1 : (ZMod p)[X]) (d q slen : Nat) (input : Nat → ZMod p) : Out (Nat → ZMod p) :=
  if slen < d then .ub
  else if d = 0 then .ub -- `res_all[2*d - 1]`
  else
    let K := nextPow2 (d + d - 1)
    let inputX := ofCoeffs slen fun i => if i < d then input i else 0
    let o := fromRep 0 (2 * d - 2) (mulRep K fft1 (toRepAll K inputX))
    let all := write (2 * d - 1) 0 fun i => o.coeff i
    let res : Nat → ZMod p := fun i => if i < min q d then all i + all (i + d) else 0
    if d < q then repeatLoop d q d (q - d) res else .ok res

/-- `circulant_column_lzz_p::mul_right(res, input)`, lines 94-162. -/
noncomputable def Circ.columnRight (t : Circ p) (input : NVec (ZMod p)) : Out (NVec (ZMod p)) :=
  if input.len ≠ t.m then .error else andThen (chunks t.fft2 t.fft3 t.n t.m input.e) fun r => .ok ⟨t.n, r⟩

/-- `circulant_column_lzz_p::mul_left(res, input)`, lines 184-233: `m` coefficients are allocated, `n` are written. -/
noncomputable def Circ.columnLeft (t : Circ p) (input : NVec (ZMod p)) : Out (NVec (ZMod p)) :=
  if input.len ≠ t.n then .error else andThen (period t.fft1 t.n t.m t.m input.e) fun r => .ok ⟨t.m, r⟩

/-- `circulant_row_lzz_p::mul_right(res, input)`, lines 94-143. -/
noncomputable def Circ.rowRight (t : Circ p) (input : NVec (ZMod p)) : Out (NVec (ZMod p)) :=
  if input.len ≠ t.m then .error else andThen (period t.fft1 t.m t.n t.m input.e) fun r => .ok ⟨t.n, r⟩

/-- `circulant_row_lzz_p::mul_left(res, input)`, lines 166-235. -/
noncomputable def Circ.rowLeft (t : Circ p) (input : NVec (ZMod p)) : Out (NVec (ZMod p)) :=
  if input.len ≠ t.n then .error else andThen (chunks t.fft2 t.fft3 t.m t.n input.e) fun r => .ok ⟨t.m, r⟩

/-- `circulant_column_lzz_p::mul_right(res, input)` on matrices, lines 167-179. -/
def Circ.columnRightMat (t : Circ p) (same : Bool) (x input : PMat (ZMod p)) : Out (PMat (ZMod p)) := unwritten (input.rows == t.m) same x

/-- `circulant_column_lzz_p::mul_left(res, input)` on matrices, lines 238-250. -/
def Circ.columnLeftMat (t : Circ p) (same : Bool) (x input : PMat (ZMod p)) : Out (PMat (ZMod p)) := unwritten (input.cols == t.n) same x

/-- `circulant_row_lzz_p::mul_left(res, input)` on matrices, lines 240-252. -/
def Circ.rowLeftMat (t : Circ p) (same : Bool) (x input : PMat (ZMod p)) : Out (PMat (ZMod p)) := unwritten (input.cols == t.n) same x

/-- `circulant_row_lzz_p::mul_right(res, input)` on matrices, lines 148-161: not implemented. -/
def Circ.rowRightMat (_t : Circ p) (_input : PMat (ZMod p)) : Out (PMat (ZMod p)) := .error

end PML.Ntl.Struct
