import Verif.Ntl.MatMulModel
import Verif.Ntl.Fft
import Mathlib.LinearAlgebra.Lagrange
import Mathlib.Algebra.Field.ZMod

/-!
# Model of the products of polynomial matrices by evaluation and interpolation

`ntl-extras/mat_lzz_pX_extra/src/mat_lzz_pX_multiply_evaluate_{dense,FFT,geometric}.cpp`.

When the output is one of the inputs these functions start by calling themselves with a fresh output,
or write the output only after their last read of the inputs: so the value does not depend on
aliasing, and the output is the value of the model function.  `none` is an access outside of an array
or an error of NTL.

An `fftRep` of NTL is the array of the values of a polynomial at the points used by NTL.  These points
are a parameter `pt`, and `FFTRoundUp` is a parameter `roundUp`; what is assumed of them is the
structure `FFTOk` of `MatEvalSpec`.  `TofftRep_trunc(R, P, K, len)` gives the values at the first `len`
points, `FromfftRep(P, R, lo, hi)` gives the coefficients `lo..hi` of the polynomial of degree less
than `len` that takes these values.
-/

namespace PML.Ntl.MatEval

open Polynomial PML.Ntl.Utils PML.Ntl.MatMul

/-- The FFT of NTL: `pt K r` is the `r`-th point of a transform of size `2^K`, `roundUp n K` is
    `FFTRoundUp(n, K)`. -/
structure FFT (F : Type) where
  /-- points -/
  pt : Nat → Nat → F
  /-- `FFTRoundUp` -/
  roundUp : Nat → Nat → Nat

section Field

variable {F : Type} [Field F]

/-- `FromfftRep(P, R, lo, lo + cnt - 1)` for a representation of length `len`. -/
noncomputable def fromEval (pt : Nat → F) (len lo cnt : Nat) (v : Nat → F) : F[X] :=
  slice (Lagrange.interpolate (Finset.range len) pt v) lo cnt

/-- `mul` and `add` of `fftRep`s: the values of `Σ_{j < n} x[j] y[j]`, `n ≥ 1`, as computed in lines
    213-218 of `mat_lzz_pX_multiply_evaluate_FFT.cpp`. -/
def repDot (n : Nat) (x y : Nat → Nat → F) : Nat → F :=
  forN (n - 1) (fun j tmp1 r => tmp1 r + x (j + 1) r * y (j + 1) r) fun r => x 0 r * y 0 r

/-- `multiply_evaluate_FFT_direct` after the choice of the points, lines 179-222. -/
noncomputable def fftDirect (pt : Nat → F) (len lo cnt : Nat) (a b : PMat F[X]) : Option (PMat F[X]) :=
  let m := a.rows
  let n := a.cols
  let p := b.cols
  if 0 < p ∧ b.rows < n ∨ 0 < m ∧ 0 < p ∧ n = 0 then none
  else
    let valb : Nat × Nat → Nat → F := fun x r => (b.e (x.2, x.1)).eval (pt r)
    some ⟨m, p, loop2 m p (fun i k _ =>
      let vala : Nat → Nat → F := fun j r => (a.e (i, j)).eval (pt r)
      fromEval pt len lo cnt (repDot n vala fun j => valb (k, j))) fun _ => 0⟩

/-- `CACHE_LINE_SIZE`, line 6. -/
def cacheLine : Nat := 8

/-- `MATRIX_BLOCK_SIZE`, line 7. -/
def blockSize : Nat := 16

/-- `multiply_evaluate_FFT_matmul1`, lines 233-333, after the choice of the points.  `RR[kk][r]` is the
    value of the entry that has just been transformed, and the counters `rst`, `rtu`, `jst`, `jtu` are
    written as the products they are equal to. -/
noncomputable def fftMatmul1 (pt : Nat → F) (len lo cnt : Nat) (a b : PMat F[X]) : Option (PMat F[X]) :=
  let s := a.rows
  let t := a.cols
  let u := b.cols
  if b.rows < t ∧ 0 < u then none
  else
    let st := s * t
    let tu := t * u
    let valA : Nat → F := forN s (fun i => forStep cacheLine t fun k => forN len fun r =>
      forN (min cacheLine (t - k)) fun kk => write (r * st + i * t + k + kk) ((a.e (i, k + kk)).eval (pt r))) fun _ => 0
    let valB : Nat → F := forN t (fun i => forStep cacheLine u fun k => forN len fun r =>
      forN (min cacheLine (u - k)) fun kk => write (r * tu + i * u + k + kk) ((b.e (i, k + kk)).eval (pt r))) fun _ => 0
    let valC : Nat × Nat → F := forStep cacheLine len (fun j =>
      let va : Nat → Nat × Nat → F := fun jj x => valA ((j + jj) * st + x.1 * t + x.2)
      let vb : Nat → Nat × Nat → F := fun jj x => valB ((j + jj) * tu + x.1 * u + x.2)
      let vc : Nat → Nat × Nat → F := fun jj => cmul t (va jj) (vb jj)
      forN s fun i => forStep blockSize u fun k => forN (min cacheLine (len - j)) fun jj =>
        forN (min blockSize (u - k)) fun kk => write (i * u + k + kk, j + jj) (vc jj (i, k + kk))) fun _ => 0
    some ⟨s, u, loop2 s u (fun i k _ => fromEval pt len lo cnt fun r => valC (i * u + k, r)) fun _ => 0⟩

/-- `multiply_evaluate_FFT_matmul2`, lines 344-437, after the choice of the points.  The matrices `va`,
    `vb` are refilled at each iteration; they are taken to be zero before that. -/
noncomputable def fftMatmul2 (pt : Nat → F) (len lo cnt : Nat) (a b : PMat F[X]) : Option (PMat F[X]) :=
  let s := a.rows
  let t := a.cols
  let u := b.cols
  if b.rows < t ∧ 0 < u then none
  else
    let valA : Nat → Nat → F := forN s (fun i => forN t fun k => write (i * t + k) fun r => (a.e (i, k)).eval (pt r))
      fun _ _ => 0
    let valB : Nat → Nat → F := forN t (fun i => forN u fun k => write (i * u + k) fun r => (b.e (i, k)).eval (pt r))
      fun _ _ => 0
    let valC : Nat × Nat → F := forStep cacheLine len (fun j =>
      let jjb := min cacheLine (len - j)
      let va : Nat × Nat × Nat → F := forN s (fun i => forStep blockSize t fun k => forN jjb fun jj =>
        forN (min blockSize (t - k)) fun kk => write (jj, i, k + kk) (valA (i * t + k + kk) (j + jj))) fun _ => 0
      let vb : Nat × Nat × Nat → F := forN t (fun i => forStep blockSize u fun k => forN jjb fun jj =>
        forN (min blockSize (u - k)) fun kk => write (jj, i, k + kk) (valB (i * u + k + kk) (j + jj))) fun _ => 0
      let vc : Nat → Nat × Nat → F := fun jj => cmul t (fun x => va (jj, x.1, x.2)) fun x => vb (jj, x.1, x.2)
      forN s fun i => forStep blockSize u fun k => forN (min blockSize (u - k)) fun kk =>
        forN jjb fun jj => write (i * u + k + kk, j + jj) (vc jj (i, k + kk))) fun _ => 0
    some ⟨s, u, loop2 s u (fun i k _ => fromEval pt len lo cnt fun r => valC (i * u + k, r)) fun _ => 0⟩

/-! ### `multiply_evaluate_FFT_matmul3`, lines 448-528 -/

/-- The buffers `R.tbl[0]` and `RR[kk]`, which are exchanged all along: `none` is an array that has not
    been allocated.  `ok` is false once such an array has been accessed. -/
structure M3 (F : Type) where
  /-- `R.tbl[0]` -/
  tbl : Option (Nat → F)
  /-- `RR` -/
  rr : Nat → Option (Nat → F)
  /-- all accesses were to allocated arrays -/
  ok : Bool

/-- Lines 475-480, 498-503: `R.tbl[0].SetLength(n); TofftRep_trunc(R, P, idxk, len); RR[kk].swap(R.tbl[0])`. -/
def m3Load (v : Nat → F) (kk : Nat) (s : M3 F) : M3 F :=
  { s with tbl := s.rr kk, rr := write kk (some v) s.rr }

/-- `RR[kk][r]` read. -/
def m3Get (s : M3 F) (kk r : Nat) : F := ((s.rr kk).getD fun _ => 0) r

/-- Lines 471-484 (`a`) and 494-507 (`b`): the values of the entries of a matrix, in an array indexed by
    point, row, column.  The matrices of values are separate from the buffers. -/
noncomputable def m3Eval (pt : Nat → F) (len : Nat) (a : Nat × Nat → F[X]) (m n : Nat)
    (st : M3 F × (Nat × Nat × Nat → F)) : M3 F × (Nat × Nat × Nat → F) :=
  forN m (fun i => forStep blockSize n fun k st =>
    let kb := min blockSize (n - k)
    let s := forN kb (fun kk => m3Load (fun r => (a (i, k + kk)).eval (pt r)) kk) st.1
    let s := { s with ok := s.ok && (decide (len = 0) || (List.range kb).all fun kk => (s.rr kk).isSome) }
    (s, forN len (fun r => forN kb fun kk => write (r, i, k + kk) (m3Get s kk r)) st.2)) st

/-- Lines 520-522: `RR[kk][r] = ...`. -/
def m3Put (v : F) (kk r : Nat) (s : M3 F) : M3 F :=
  match s.rr kk with
  | none => { s with ok := false }
  | some x => { s with rr := write kk (some (write r v x)) s.rr }

/-- Lines 514-527. -/
noncomputable def m3Out (pt : Nat → F) (len lo cnt : Nat) (val : Nat × Nat × Nat → F) (m n : Nat)
    (st : M3 F × (Nat × Nat → F[X])) : M3 F × (Nat × Nat → F[X]) :=
  forN m (fun i => forStep blockSize n fun k st =>
    let kb := min blockSize (n - k)
    let s := forN len (fun r => forN kb fun kk => m3Put (val (r, i, k + kk)) kk r) st.1
    forN kb (fun kk st =>
      let s := st.1
      let s := { s with tbl := s.rr kk, rr := write kk s.tbl s.rr, ok := s.ok && (s.rr kk).isSome }
      (s, write (i, k + kk) (fromEval pt len lo cnt (s.tbl.getD fun _ => 0)) st.2)) (s, st.2)) st

/-- `multiply_evaluate_FFT_matmul3`, after the choice of the points.  `fftRep R(INIT_SIZE, idxk)`
    allocates `R.tbl[0]`; the arrays `RR[kk]` are not allocated. -/
noncomputable def fftMatmul3 (pt : Nat → F) (len lo cnt : Nat) (a b : PMat F[X]) : Option (PMat F[X]) :=
  let s := a.rows
  let t := a.cols
  let u := b.cols
  if b.rows < t ∧ 0 < u then none
  else
    let st : M3 F := ⟨some fun _ => 0, fun _ => none, true⟩
    let sa := m3Eval pt len a.e s t (st, fun _ => 0)
    let sb := m3Eval pt len b.e t u (sa.1, fun _ => 0)
    let val : Nat × Nat × Nat → F := fun x =>
      cmul t (fun y => sa.2 (x.1, y.1, y.2)) (fun y => sb.2 (x.1, y.1, y.2)) (x.2.1, x.2.2)
    let out := m3Out pt len lo cnt val s u (sb.1, fun _ => 0)
    if out.1.ok then some ⟨s, u, out.2⟩ else none

/-! ### The number of points, common to the functions above (e.g. lines 185-188) -/

/-- `len_actual = deg(a) + deg(b) + 1`. -/
noncomputable def lenActual (a b : PMat F[X]) : Nat := (deg a + deg b + 1).toNat

/-- `K = NextPowerOfTwo(len_actual)`. -/
noncomputable def idxK (a b : PMat F[X]) : Nat := nextPow2 (lenActual a b)

/-- `len = FFTRoundUp(len_actual, K)`. -/
noncomputable def fftLen (T : FFT F) (a b : PMat F[X]) : Nat := T.roundUp (lenActual a b) (idxK a b)

/-- `multiply_evaluate_FFT_direct`. -/
noncomputable def mulFFTDirect (T : FFT F) (a b : PMat F[X]) : Option (PMat F[X]) :=
  fftDirect (T.pt (idxK a b)) (fftLen T a b) 0 (lenActual a b) a b

/-- `multiply_evaluate_FFT_matmul1`. -/
noncomputable def mulFFTMatmul1 (T : FFT F) (a b : PMat F[X]) : Option (PMat F[X]) :=
  fftMatmul1 (T.pt (idxK a b)) (fftLen T a b) 0 (lenActual a b) a b

/-- `multiply_evaluate_FFT_matmul2`. -/
noncomputable def mulFFTMatmul2 (T : FFT F) (a b : PMat F[X]) : Option (PMat F[X]) :=
  fftMatmul2 (T.pt (idxK a b)) (fftLen T a b) 0 (lenActual a b) a b

/-- `multiply_evaluate_FFT_matmul3`. -/
noncomputable def mulFFTMatmul3 (T : FFT F) (a b : PMat F[X]) : Option (PMat F[X]) :=
  fftMatmul3 (T.pt (idxK a b)) (fftLen T a b) 0 (lenActual a b) a b

/-! ### `multiply_evaluate_geometric`, `mat_lzz_pX_multiply_evaluate_geometric.cpp` lines 11-96 -/

open Classical in
/-- The function, given the evaluation and interpolation of the multipoint object of length `n`.
    `none` is an error of these functions. -/
noncomputable def geometric (n : Nat) (ev : F[X] → Option (Nat → F)) (ip : (Nat → F) → Option F[X]) (a b : PMat F[X]) :
    Option (PMat F[X]) :=
  let s := a.rows
  let t := a.cols
  let u := b.cols
  if deg a < 0 ∨ deg b < 0 then some ⟨s, t, fun _ => 0⟩
  else if b.rows < t ∧ 0 < u then none
  else if (∃ i k, i < s ∧ k < t ∧ ev (a.e (i, k)) = none) ∨ (∃ i k, i < t ∧ k < u ∧ ev (b.e (i, k)) = none) then none
  else
    let st := s * t
    let tu := t * u
    let valA : Nat → F := forN s (fun i => forN t fun k => forN n fun r =>
      write (r * st + i * t + k) (((ev (a.e (i, k))).getD fun _ => 0) r)) fun _ => 0
    let valB : Nat → F := forN t (fun i => forN u fun k => forN n fun r =>
      write (r * tu + i * u + k) (((ev (b.e (i, k))).getD fun _ => 0) r)) fun _ => 0
    let valC : Nat × Nat → F := forN n (fun j =>
      let vc := cmul t (fun x => valA (j * st + x.1 * t + x.2)) fun x => valB (j * tu + x.1 * u + x.2)
      forN s fun i => forN u fun k => write (i * u + k, j) (vc (i, k))) fun _ => 0
    if ∃ i k, i < s ∧ k < u ∧ ip (fun r => valC (i * u + k, r)) = none then none
    else some ⟨s, u, loop2 s u (fun i k _ => (ip fun r => valC (i * u + k, r)).getD 0) fun _ => 0⟩

/-! ### Dense evaluation, `mat_lzz_pX_multiply_evaluate_dense.cpp` -/

/-- Vandermonde matrices, lines 30-48 (points `0, 1, ...`: only the first entry of row 0 is written) and
    75-92 (points `1, 4, 9, ...`).  The rows with index at least `i0` are filled by powers of `pts i`,
    the first `i0` rows by 1 in column 0. -/
def vdmFull (i0 nb : Nat) (pts : Nat → F) : Nat × Nat → F :=
  forN nb (fun i v =>
    let v := write (i, 0) 1 v
    if i < i0 then v
    else forN (nb - 1) (fun j v => write (i, j + 1) (v (i, j) * pts i) v) v) fun _ => 0

/-- `vdm1`, `vdm2`: the copy of the columns `j < s` of `vdm`. -/
def vdmSub (i0 nb s : Nat) (vdm : Nat × Nat → F) : Nat × Nat → F :=
  forN nb (fun i v =>
    let v := write (i, 0) 1 v
    if i < i0 then v
    else forN (nb - 1) (fun j v => if j + 1 < s then write (i, j + 1) (vdm (i, j + 1)) v else v) v) fun _ => 0

/-- Lines 138-143: the columns of `tmp_mat` are the coefficients of the entries of `a`. -/
noncomputable def coeffMat (a : PMat F[X]) (t : Nat × Nat → F) : Nat × Nat → F :=
  forN a.rows (fun i => forN a.cols fun j => forN (pdeg (a.e (i, j)) + 1).toNat fun k =>
    write (k, i * a.cols + j) ((a.e (i, j)).coeff k)) t

/-- Lines 166-177: the same, clearing the entries from the degree to `lim`. -/
noncomputable def coeffMatClear (a : PMat F[X]) (n : Nat) (lim : Nat) (t : Nat × Nat → F) : Nat × Nat → F :=
  forN n (fun i => forN a.cols fun j t =>
    let d1 := (pdeg (a.e (i, j)) + 1).toNat
    let t := forN d1 (fun k => write (k, i * a.cols + j) ((a.e (i, j)).coeff k)) t
    forN (lim + 1 - d1) (fun k => write (d1 + k, i * a.cols + j) 0) t) t

/-- `tmp_mat.SetDims(r, c)` for a matrix that was allocated with `r0` rows and `c0` columns: NTL keeps the
    entries if the number of columns is unchanged, new rows are zero. -/
def setDimsReuse (r0 c0 c : Nat) (t : Nat × Nat → F) : Nat × Nat → F :=
  if c = c0 then fun x => if x.1 < r0 then t x else 0 else fun _ => 0

/-- `multiply_evaluate_dense`, lines 105-250.  `inv` is the inverse of NTL.  With a zero matrix,
    `vandermonde` writes outside of its arrays. -/
noncomputable def dense (inv : Nat → (Nat × Nat → F) → Option (Nat × Nat → F)) (a b : PMat F[X]) : Option (PMat F[X]) :=
  let m := a.rows
  let n := a.cols
  let p := b.cols
  if deg a < 0 ∨ deg b < 0 ∨ (b.rows < n ∧ 0 < p) then none
  else
    let dA := (deg a).toNat
    let dB := (deg b).toNat
    let nb := dA + dB + 1
    let vdm := vdmFull 1 nb (fun i => (i : F))
    let vA := vdmSub 1 nb (dA + 1) vdm
    let vB := vdmSub 1 nb (dB + 1) vdm
    (inv nb vdm).map fun iv =>
      let tmp := coeffMat a fun _ => 0
      let valA := cmul (dA + 1) vA tmp
      let tmp := setDimsReuse (dA + 1) (m * n) (n * p) tmp
      let tmp := coeffMatClear b n (min dA dB) tmp
      let valB := cmul (dB + 1) vB tmp
      let valC : Nat × Nat → F := forN nb (fun i =>
        let vc := cmul n (fun x => valA (i, x.1 * n + x.2)) fun x => valB (i, x.1 * p + x.2)
        forN m fun u => forN p fun v => write (i, u * p + v) (vc (u, v))) fun _ => 0
      let res := cmul nb iv valC
      ⟨m, p, loop2 m p (fun u v _ => ofCoeffs nb fun i => res (i, u * p + v)) fun _ => 0⟩

/-- Lines 294-310: even and odd parts of the entries of `a`. -/
noncomputable def evenOdd (a : PMat F[X]) (t : (Nat × Nat → F) × (Nat × Nat → F)) : (Nat × Nat → F) × (Nat × Nat → F) :=
  forN a.rows (fun i => forN a.cols fun j t =>
    let d := pdeg (a.e (i, j))
    let t := forN ((d + 1) / 2).toNat (fun k t => (write (k, i * a.cols + j) ((a.e (i, j)).coeff (2 * k)) t.1,
      write (k, i * a.cols + j) ((a.e (i, j)).coeff (2 * k + 1)) t.2)) t
    if 0 ≤ d ∧ d % 2 = 0 then (write (d.toNat / 2, i * a.cols + j) ((a.e (i, j)).coeff d.toNat) t.1, t.2) else t) t

/-- Lines 335-359: the same for `b`, clearing the other entries. -/
noncomputable def evenOddClear (b : PMat F[X]) (n sB : Nat) (t : (Nat × Nat → F) × (Nat × Nat → F)) :
    (Nat × Nat → F) × (Nat × Nat → F) :=
  forN n (fun i => forN b.cols fun j t =>
    let d := pdeg (b.e (i, j))
    let k := ((d + 1) / 2).toNat
    let t := forN k (fun k t => (write (k, i * b.cols + j) ((b.e (i, j)).coeff (2 * k)) t.1,
      write (k, i * b.cols + j) ((b.e (i, j)).coeff (2 * k + 1)) t.2)) t
    let kt := if 2 * (k : Int) = d then
        (k + 1, (write (k, i * b.cols + j) ((b.e (i, j)).coeff d.toNat) t.1, write (k, i * b.cols + j) 0 t.2))
      else (k, t)
    forN (sB - kt.1) (fun q t => (write (kt.1 + q, i * b.cols + j) 0 t.1, write (kt.1 + q, i * b.cols + j) 0 t.2)) kt.2) t

open Classical in
/-- `multiply_evaluate_dense2`, lines 259-466.  `inv2` and `invpt i` are the results of `inv(2)` and
    `inv(2(i+1))`, errors if the element is zero.  Division of `long`s rounds towards zero. -/
noncomputable def dense2 (inv : Nat → (Nat × Nat → F) → Option (Nat × Nat → F)) (a b : PMat F[X]) : Option (PMat F[X]) :=
  let m := a.rows
  let n := a.cols
  let p := b.cols
  if b.rows < n ∧ 0 < p then none
  else
    let sA := ((deg a).tdiv 2 + 1).toNat
    let sB := ((deg b).tdiv 2 + 1).toNat
    let nb := ((deg a + deg b).tdiv 2 + 1).toNat
    let vdm := vdmFull 0 nb fun i => ((i + 1 : Nat) : F) * ((i + 1 : Nat) : F)
    let vA := vdmSub 0 nb sA vdm
    let vB := vdmSub 0 nb sB vdm
    if (2 : F) = 0 ∨ ∃ i, i < nb ∧ ((2 * (i + 1) : Nat) : F) = 0 then none
    else (inv nb vdm).map fun iv =>
      let tmp := evenOdd a (fun _ => 0, fun _ => 0)
      let valAe := cmul sA vA tmp.1
      let valAo : Nat × Nat → F := fun x => ((x.1 + 1 : Nat) : F) * cmul sA vA tmp.2 x
      let tmp := (setDimsReuse sA (m * n) (n * p) tmp.1, setDimsReuse sA (m * n) (n * p) tmp.2)
      let tmp := evenOddClear b n sB tmp
      let valBe := cmul sB vB tmp.1
      let valBo : Nat × Nat → F := fun x => ((x.1 + 1 : Nat) : F) * cmul sB vB tmp.2 x
      let inv2 : F := (2 : F)⁻¹
      let valC : (Nat × Nat → F) × (Nat × Nat → F) := forN nb (fun i c =>
        let ce := cmul n (fun x => valAe (i, x.1 * n + x.2) + valAo (i, x.1 * n + x.2))
          fun x => valBe (i, x.1 * p + x.2) + valBo (i, x.1 * p + x.2)
        let co := cmul n (fun x => valAe (i, x.1 * n + x.2) - valAo (i, x.1 * n + x.2))
          fun x => valBe (i, x.1 * p + x.2) - valBo (i, x.1 * p + x.2)
        let inv2pt : F := ((2 * (i + 1) : Nat) : F)⁻¹
        let ve := forN m (fun u => forN p fun v => write (i, u * p + v) ((ce (u, v) + co (u, v)) * inv2)) c.1
        let vo := forN m (fun u => forN p fun v => write (i, u * p + v) ((ce (u, v) - co (u, v)) * inv2pt)) c.2
        (ve, vo)) (fun _ => 0, fun _ => 0)
      let re := cmul nb iv valC.1
      let ro := cmul nb iv valC.2
      ⟨m, p, loop2 m p (fun u v _ => ofCoeffs (2 * nb) fun k =>
        if k % 2 = 0 then re (k / 2, u * p + v) else ro (k / 2, u * p + v)) fun _ => 0⟩

end Field

/-! ### Direct evaluation with double-word accumulation, lines 10-39 and 48-166 -/

/-- `sp_ll_red_21(rem(hi, pr), lo, pr)` and its version for a normalized modulus: reduction of a
    two-word number. -/
def llRed (pr t : Nat) : Nat := ((t / 2 ^ 64 % pr) * 2 ^ 64 + t % 2 ^ 64) % pr

/-- `n0 = 2^(2 (NTL_BITS_PER_LONG - NTL_SP_NBITS)) - 1`, line 77, with 64 and 60 bits. -/
def n0 : Nat := 2 ^ (2 * (64 - 60)) - 1

/-- One entry `tmp[x]`, lines 104-123 (and 141-160): `f j` is the product `vala[j][x] * valb[k][j][x]`
    of two words. -/
def llDot (pr n : Nat) (f : Nat → Nat) : Nat :=
  let firstSlice := if n % n0 ≠ 0 then n % n0 else n0
  let nbSlices := if n % n0 ≠ 0 then n / n0 else n / n0 - 1
  let tmp := forN (firstSlice - 1) (fun j tmp => (tmp + f (j + 1)) % 2 ^ 128) (f 0 % 2 ^ 128)
  let tmp := forN nbSlices (fun jj tmp =>
    forN n0 (fun j tmp => (tmp + f (j + (firstSlice + jj * n0))) % 2 ^ 128) (llRed pr tmp)) tmp
  llRed pr tmp

/-- `multiply_evaluate_FFT_direct_ll_type`, lines 48-166, after the choice of the points. -/
noncomputable def fftLL {pr : Nat} [Fact pr.Prime] (pt : Nat → ZMod pr) (len lo cnt : Nat) (a b : PMat (ZMod pr)[X]) :
    Option (PMat (ZMod pr)[X]) :=
  let m := a.rows
  let n := a.cols
  let p := b.cols
  if (0 < p ∧ b.rows < n) ∨ m = 0 ∨ n = 0 then none
  else
    let valb : Nat × Nat → Nat → ZMod pr := fun x r => (b.e (x.2, x.1)).eval (pt r)
    some ⟨m, p, loop2 m p (fun i k _ =>
      let vala : Nat → Nat → ZMod pr := fun j r => (a.e (i, j)).eval (pt r)
      fromEval pt len lo cnt fun x =>
        ((llDot pr n fun j => (vala j x).val * (valb (k, j) x).val : Nat) : ZMod pr)) fun _ => 0⟩

/-- `multiply_evaluate_FFT_direct_ll_type`. -/
noncomputable def mulFFTLL {pr : Nat} [Fact pr.Prime] (T : FFT (ZMod pr)) (a b : PMat (ZMod pr)[X]) :
    Option (PMat (ZMod pr)[X]) :=
  fftLL (T.pt (idxK a b)) (fftLen T a b) 0 (lenActual a b) a b

/-- `multiply_evaluate_FFT`, lines 659-716.  `NumBits(p)` is the bit length, `SMALL_PRIME_SIZE` is 25. -/
noncomputable def mulFFT {pr : Nat} [Fact pr.Prime] (T : FFT (ZMod pr))
    (inv : Nat → (Nat × Nat → ZMod pr) → Option (Nat × Nat → ZMod pr)) (a b : PMat (ZMod pr)[X]) :
    Option (PMat (ZMod pr)[X]) :=
  let cube := a.rows * a.cols * b.cols
  let d := (deg a + deg b).tdiv 2
  if Nat.size pr < 25 then
    if cube < 4 * 4 * 4 ∨ (cube ≤ 6 * 6 * 6 ∧ d > 100) then mulFFTDirect T a b
    else if cube ≤ 8 * 8 * 8 then mulFFTLL T a b
    else if d < 32 then dense inv a b
    else if cube ≤ 16 * 16 * 16 then
      if d > 50 then mulFFTMatmul2 T a b else dense2 inv a b
    else if d > 100 ∨ (cube < 64 * 64 * 64 ∧ d > 80) then mulFFTMatmul1 T a b
    else dense2 inv a b
  else
    if cube < 4 * 4 * 4 ∨ (cube = 4 * 4 * 4 ∧ d ≥ 90) ∨ (cube ≤ 8 * 8 * 8 ∧ d ≥ 65) then mulFFTDirect T a b
    else if cube < 20 * 20 * 20 ∨ (cube < 25 * 25 * 25 ∧ d ≥ 1300) then mulFFTLL T a b
    else if cube < 25 * 25 * 25 ∨ d > 512 ∨ (cube < 48 * 48 * 48 ∧ d > 32) ∨ (cube < 128 * 128 * 128 ∧ d > 256) then
      mulFFTMatmul1 T a b
    else mulFFTMatmul3 T a b

/-! ### `multiply`, `mat_lzz_pX_multiply.cpp` -/

/-- What `multiply` depends on: thresholds, `is_FFT_ready`, `(long) cbrt(..)`, and the functions it
    calls that need more than a ring.  `max_degree_transform()`, `max_degree_waksman(sz)`,
    `max_degree_evaluate(sz)` are tables: they are arbitrary here. -/
structure Mul (R : Type) [CommRing R] where
  /-- the modulus -/
  p : Nat
  /-- `inv(to_zz_p(2))` -/
  inv2 : Option R
  /-- `max_degree_transform()` -/
  degTrs : Int
  /-- `max_degree_waksman(sz)` -/
  degWak : Nat → Int
  /-- `max_degree_evaluate(sz)` -/
  degEv : Nat → Int
  /-- `is_FFT_ready(k)` -/
  fftReady : Nat → Bool
  /-- `(long) cbrt(n)` -/
  cbrt : Nat → Nat
  /-- `multiply_evaluate_FFT` -/
  fft : PMat R[X] → PMat R[X] → Option (PMat R[X])
  /-- `multiply_evaluate_dense` -/
  dense : PMat R[X] → PMat R[X] → Option (PMat R[X])
  /-- `multiply_3_primes` -/
  three : PMat R[X] → PMat R[X] → Option (PMat R[X])

section Ring

variable {R : Type} [CommRing R]

/-- `multiply(c, a, b, is_prime)` with `c` different from `a` and `b`, lines 11-97 without 24-30. -/
noncomputable def multiplyNoAlias (M : Mul R) (isPrime : Bool) (a b : PMat R[X]) : Option (PMat R[X]) :=
  let dA := deg a
  let dB := deg b
  let dmax := max dA dB
  if dA < 0 ∨ dB < 0 then some ⟨a.rows, b.cols, fun _ => 0⟩
  else if dA = 0 then mulConstLeft (getCoeff ⟨0, 0, fun _ => 0⟩ a 0) b
  else if dB = 0 then mulConstRight a (getCoeff ⟨0, 0, fun _ => 0⟩ b 0)
  else if a.cols = 1 then naive a b
  else if dmax ≤ M.degTrs then transform (dmax + 1).toNat a b
  else
    let sz := M.cbrt (a.rows * a.cols * b.cols)
    if dmax ≤ M.degWak sz then waksman M.p M.inv2 a b
    else if M.fftReady (nextPow2 (dA + dB + 1).toNat) then M.fft a b
    else if isPrime ∧ (M.p : Int) > 2 * (dA + dB + 1) ∧ dmax ≤ M.degEv sz then M.dense a b
    else M.three a b

/-- `multiply(c, a, b, is_prime)`, lines 11-97.  `al`: `c` is `a` or `b`.  Line 27 calls `multiply` with
    the default value 1 of `is_prime` (`mat_lzz_pX_multiply.h` line 61). -/
noncomputable def multiply (M : Mul R) (al isPrime : Bool) (a b : PMat R[X]) : Option (PMat R[X]) :=
  if deg a < 0 ∨ deg b < 0 then some ⟨a.rows, b.cols, fun _ => 0⟩
  else multiplyNoAlias M (if al then true else isPrime) a b

/-- `multiply(c, a, b, is_prime)` with `b` a column vector of length `n`, lines 102-112. -/
noncomputable def multiplyCol (M : Mul R) (isPrime : Bool) (a : PMat R[X]) (n : Nat) (b : Nat → R[X]) : Option (Nat × (Nat → R[X])) :=
  let bmat : PMat R[X] := ⟨n, 1, forN n (fun i => write (i, 0) (b i)) fun _ => 0⟩
  (multiply M false isPrime a bmat).bind fun cmat =>
    if 0 < cmat.rows ∧ cmat.cols = 0 then none
    else some (cmat.rows, forN cmat.rows (fun i => write i (cmat.e (i, 0))) fun _ => 0)

/-- `multiply(c, a, b, is_prime)` with `a` a row vector of length `n`, lines 117-124.  `fix` is the
    length of `c` if this length is fixed (the row of a matrix), `none` for an ordinary vector:
    `Vec::swap` of NTL raises an error unless both vectors are of fixed and equal lengths or both are not,
    and the row `cmat[0]` has a fixed length. -/
noncomputable def multiplyRow (M : Mul R) (isPrime : Bool) (fix : Option Nat) (n : Nat) (a : Nat → R[X]) (b : PMat R[X]) :
    Option (Nat × (Nat → R[X])) :=
  (multiply M false isPrime ⟨1, n, fun x => a x.2⟩ b).bind fun cmat =>
    if cmat.rows = 0 ∨ fix ≠ some cmat.cols then none
    else some (cmat.cols, fun j => cmat.e (0, j))

end Ring

end PML.Ntl.MatEval
