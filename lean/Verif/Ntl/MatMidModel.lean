import Verif.Ntl.MatEvalModel

/-!
# Model of the middle products of polynomial matrices

`ntl-extras/mat_lzz_pX_extra/src/mat_lzz_pX_middle_product.cpp`,
`mat_lzz_pX_middle_product_evaluate_{dense,FFT}.cpp`, `mat_lzz_pX_t_multiply_evaluate.cpp`.

As for products, the output is written after the last read of the inputs or to a fresh matrix, so
aliasing does not matter; `none` is an access outside of an array or an error of NTL.  The FFT functions
are those of products (`MatEvalModel`) with all `2^K` points and the coefficients `dA, .., dA + dB` of the
result; the shift `1 << K` of an `int` is taken to be exact.
-/

namespace PML.Ntl.MatMid

open Polynomial PML.Ntl.Utils PML.Ntl.MatMul PML.Ntl.MatEval

section Field

variable {F : Type} [Field F]

/-- `NextPowerOfTwo(dA + dB + 1)`. -/
def midK (dA dB : Nat) : Nat := nextPow2 (dA + dB + 1)

/-- `middle_product_evaluate_FFT_matmul`, `mat_lzz_pX_middle_product_evaluate_FFT.cpp` lines 225-315,
    given the points.  The counters `rst`, `rtu`, `jst`, `jtu` are written as the products they are equal
    to. -/
noncomputable def fftMatmul (pt : Nat → F) (len lo cnt : Nat) (a b : PMat F[X]) : Option (PMat F[X]) :=
  let s := a.rows
  let t := a.cols
  let u := b.cols
  if b.rows < t ∧ 0 < u then none
  else
    let st := s * t
    let tu := t * u
    let valA : Nat → F := forN s (fun i => forN t fun k => forN len fun r =>
      write (r * st + i * t + k) ((a.e (i, k)).eval (pt r))) fun _ => 0
    let valC : Nat → F := forN t (fun i => forN u fun k => forN len fun r =>
      write (r * tu + i * u + k) ((b.e (i, k)).eval (pt r))) fun _ => 0
    let valB : Nat × Nat → F := forN len (fun j =>
      let vb := cmul t (fun x => valA (j * st + x.1 * t + x.2)) fun x => valC (j * tu + x.1 * u + x.2)
      forN s fun i => forN u fun k => write (i * u + k, j) (vb (i, k))) fun _ => 0
    some ⟨s, u, loop2 s u (fun i k _ => fromEval pt len lo cnt fun r => valB (i * u + k, r)) fun _ => 0⟩

/-- `middle_product_evaluate_FFT_direct`, lines 174-214. -/
noncomputable def midDirect (T : FFT F) (a c : PMat F[X]) (dA dB : Nat) : Option (PMat F[X]) :=
  fftDirect (T.pt (midK dA dB)) (2 ^ midK dA dB) dA (dB + 1) a c

/-- `middle_product_evaluate_FFT_matmul`, lines 225-315. -/
noncomputable def midMatmul (T : FFT F) (a c : PMat F[X]) (dA dB : Nat) : Option (PMat F[X]) :=
  fftMatmul (T.pt (midK dA dB)) (2 ^ midK dA dB) dA (dB + 1) a c

/-- `middle_product_evaluate_FFT_matmul1`, lines 317-417. -/
noncomputable def midMatmul1 (T : FFT F) (a c : PMat F[X]) (dA dB : Nat) : Option (PMat F[X]) :=
  fftMatmul1 (T.pt (midK dA dB)) (2 ^ midK dA dB) dA (dB + 1) a c

/-- `middle_product_evaluate_FFT_matmul2`, lines 419-508. -/
noncomputable def midMatmul2 (T : FFT F) (a c : PMat F[X]) (dA dB : Nat) : Option (PMat F[X]) :=
  fftMatmul2 (T.pt (midK dA dB)) (2 ^ midK dA dB) dA (dB + 1) a c

/-- `middle_product_evaluate_FFT_matmul3`, lines 510-585. -/
noncomputable def midMatmul3 (T : FFT F) (a c : PMat F[X]) (dA dB : Nat) : Option (PMat F[X]) :=
  fftMatmul3 (T.pt (midK dA dB)) (2 ^ midK dA dB) dA (dB + 1) a c

/-- `mat_lzz_pX_middle_product_evaluate_dense.cpp` lines 27-32: the columns of `tmp_mat` are the reversed
    coefficients of the entries of `a`, all of degree at most `dA`. -/
noncomputable def coeffMatRev (dA : Nat) (a : PMat F[X]) (t : Nat × Nat → F) : Nat × Nat → F :=
  forN a.rows (fun i => forN a.cols fun j => forN (pdeg (a.e (i, j)) + 1).toNat fun k =>
    write (dA - k, i * a.cols + j) ((a.e (i, j)).coeff k)) t

/-- `middle_product_evaluate_dense`, lines 11-88.  An entry of `a` of degree more than `dA`, or an entry of
    `c` of degree more than `dA + dB`, is written outside of `tmp_mat`.  `vandermonde` is as in `dense`. -/
noncomputable def midDense (inv : Nat → (Nat × Nat → F) → Option (Nat × Nat → F)) (a c : PMat F[X]) (dA dB : Nat) :
    Option (PMat F[X]) :=
  let m := a.rows
  let n := a.cols
  let p := c.cols
  if c.rows < n ∧ 0 < p ∨ deg a > dA ∨ deg ⟨n, p, c.e⟩ > dA + dB then none
  else
    let nb := dA + dB + 1
    let vdm := vdmFull 1 nb (fun i => (i : F))
    let vA := vdmSub 1 nb (dA + 1) vdm
    let vB := vdmSub 1 nb (dB + 1) vdm
    (inv nb vdm).map fun iv =>
      let iv : Nat × Nat → F := fun x => iv (x.2, x.1)
      let vB : Nat × Nat → F := fun x => vB (x.2, x.1)
      let tmp := coeffMatRev dA a fun _ => 0
      let valA := cmul (dA + 1) vA tmp
      let tmp := setDimsReuse (dA + 1) (m * n) (n * p) tmp
      let tmp := coeffMatClear c n (nb - 1) tmp
      let valC := cmul nb iv tmp
      let valB : Nat × Nat → F := forN nb (fun i =>
        let vb := cmul n (fun x => valA (i, x.1 * n + x.2)) fun x => valC (i, x.1 * p + x.2)
        forN m fun u => forN p fun v => write (i, u * p + v) (vb (u, v))) fun _ => 0
      let res := cmul nb vB valB
      ⟨m, p, loop2 m p (fun u v _ => ofCoeffs (dB + 1) fun i => res (i, u * p + v)) fun _ => 0⟩

open Classical in
/-- `t_multiply_evaluate_geometric`, `mat_lzz_pX_t_multiply_evaluate.cpp` lines 11-111, given the functions
    `evaluate`, `t_interpolate`, `t_evaluate` of the multipoint object of length `n = dA + dB + 1`. -/
noncomputable def tGeometric (n : Nat) (ev : F[X] → Option (Nat → F)) (tip : F[X] → Nat → F)
    (tev : (Nat → F) → Nat → Option F[X]) (a c : PMat F[X]) (dA dB : Nat) : Option (PMat F[X]) :=
  let s := a.rows
  let t := a.cols
  let u := c.cols
  if deg a > dA ∨ deg c > dA + dB then none
  else if c.rows < t ∧ 0 < u then none
  else if ∃ i k, i < s ∧ k < t ∧ ev (a.e (i, k)) = none then none
  else
    let st := s * t
    let tu := t * u
    let valA : Nat → F := forN s (fun i => forN t fun k => forN n fun r =>
      write (r * st + i * t + k) (((ev (a.e (i, k))).getD fun _ => 0) r)) fun _ => 0
    let valC : Nat → F := forN t (fun i => forN u fun k => forN n fun r =>
      write (r * tu + i * u + k) (tip (c.e (i, k)) r)) fun _ => 0
    let valB : Nat × Nat → F := forN n (fun j =>
      let vb := cmul t (fun x => valA (j * st + x.1 * t + x.2)) fun x => valC (j * tu + x.1 * u + x.2)
      forN s fun i => forN u fun k => write (i * u + k, j) (vb (i, k))) fun _ => 0
    if ∃ i k, i < s ∧ k < u ∧ tev (fun r => valB (i * u + k, r)) (dB + 1) = none then none
    else some ⟨s, u, loop2 s u (fun i k _ => (tev (fun r => valB (i * u + k, r)) (dB + 1)).getD 0) fun _ => 0⟩

end Field

section Prime

variable {pr : Nat} [Fact pr.Prime]

/-- `middle_product_evaluate_FFT_direct_ll_type`, lines 50-166. -/
noncomputable def midLL (T : FFT (ZMod pr)) (a c : PMat (ZMod pr)[X]) (dA dB : Nat) : Option (PMat (ZMod pr)[X]) :=
  fftLL (T.pt (midK dA dB)) (2 ^ midK dA dB) dA (dB + 1) a c

/-- `middle_product_evaluate_FFT`, lines 595-611. -/
noncomputable def midFFT (T : FFT (ZMod pr)) (a c : PMat (ZMod pr)[X]) (dA dB : Nat) : Option (PMat (ZMod pr)[X]) :=
  let thresh := if Nat.size pr < 30 then 20 * 20 * 20 else 45 * 45 * 45
  if a.rows * a.cols * c.cols < thresh then midDirect T a c dA dB else midMatmul T a c dA dB

/-- `middle_product_evaluate_FFT_new`, lines 613-673.  `SMALL_PRIME_SIZE` is 25. -/
noncomputable def midFFTNew (T : FFT (ZMod pr)) (inv : Nat → (Nat × Nat → ZMod pr) → Option (Nat × Nat → ZMod pr))
    (a c : PMat (ZMod pr)[X]) (dA dB : Nat) : Option (PMat (ZMod pr)[X]) :=
  let cube := a.rows * a.cols * c.cols
  let d := (dA + dB) / 2
  if Nat.size pr < 25 then
    if cube < 4 * 4 * 4 ∨ (cube ≤ 6 * 6 * 6 ∧ d > 100) then midDirect T a c dA dB
    else if cube ≤ 8 * 8 * 8 then midLL T a c dA dB
    else if d < 32 then midDense inv a c dA dB
    else if cube ≤ 16 * 16 * 16 then
      if d > 50 then midMatmul2 T a c dA dB else midDense inv a c dA dB
    else if d > 100 ∨ (cube < 64 * 64 * 64 ∧ d > 80) then midMatmul1 T a c dA dB
    else midDense inv a c dA dB
  else
    if cube < 4 * 4 * 4 ∨ (cube = 4 * 4 * 4 ∧ d ≥ 90) ∨ (cube ≤ 8 * 8 * 8 ∧ d ≥ 65) then midDirect T a c dA dB
    else if cube < 20 * 20 * 20 ∨ (cube < 25 * 25 * 25 ∧ d ≥ 1300) then midLL T a c dA dB
    else if cube < 25 * 25 * 25 ∨ d > 512 ∨ (cube < 48 * 48 * 48 ∧ d > 32) ∨ (cube < 128 * 128 * 128 ∧ d > 256) then
      midMatmul1 T a c dA dB
    else midMatmul3 T a c dA dB

end Prime

section Ring

variable {R : Type} [CommRing R]

open Classical in
/-- `middle_product_naive`, `mat_lzz_pX_middle_product.cpp` lines 63-89.  `mp` is the middle product of
    polynomials (C56). -/
noncomputable def midNaive (mp : R[X] → R[X] → Int → Nat → Option R[X]) (a c : PMat R[X]) (dA : Int) (dB : Nat) :
    Option (PMat R[X]) :=
  let u := a.rows
  let v := a.cols
  let w := c.cols
  if 0 < u ∧ 0 < w ∧ (v = 0 ∨ c.rows < v) then none
  else if ∃ i j k, i < u ∧ j < w ∧ k < v ∧ mp (a.e (i, k)) (c.e (k, j)) dA dB = none then none
  else
    let get : R[X] → R[X] → R[X] := fun x y => (mp x y dA dB).getD 0
    some ⟨u, w, loop2 u w (fun i j _ =>
      forN (v - 1) (fun k b => b + get (a.e (i, k + 1)) (c.e (k + 1, j))) (get (a.e (i, 0)) (c.e (0, j)))) fun _ => 0⟩

/-- What `middle_product` depends on: thresholds and the functions it calls.  A negative `dA` (first
    argument of the functions) is possible. -/
structure Mid (R : Type) [CommRing R] where
  /-- the modulus -/
  p : Nat
  /-- `max_degree_mp_naive(sz)` -/
  degNaive : Nat → Int
  /-- `max_degree_evaluate(sz)` -/
  degEv : Nat → Int
  /-- `is_FFT_ready(k)` -/
  fftReady : Nat → Bool
  /-- `(long) cbrt(n)` -/
  cbrt : Nat → Nat
  /-- the middle product of polynomials -/
  mp : R[X] → R[X] → Int → Nat → Option R[X]
  /-- `middle_product_evaluate_FFT` -/
  fft : PMat R[X] → PMat R[X] → Int → Nat → Option (PMat R[X])
  /-- `middle_product_evaluate_dense` -/
  dense : PMat R[X] → PMat R[X] → Int → Nat → Option (PMat R[X])
  /-- `middle_product_3_primes` -/
  three : PMat R[X] → PMat R[X] → Int → Nat → Option (PMat R[X])

/-- `middle_product`, lines 31-55: the choice of a method once `deg a ≥ dA`. -/
noncomputable def midBase (M : Mid R) (isPrime : Bool) (a c : PMat R[X]) (dA : Int) (dB : Nat) : Option (PMat R[X]) :=
  let dmax := max dA dB
  let sz := M.cbrt (a.rows * a.cols * c.cols)
  if dmax < M.degNaive sz then midNaive M.mp a c dA dB
  else if M.fftReady (nextPow2 (dA + dB + 1).toNat) then M.fft a c dA dB
  else if isPrime ∧ dmax ≤ M.degEv sz ∧ (M.p : Int) > 2 * (dA + dB + 1) then M.dense a c dA dB
  else M.three a c dA dB

/-- `middle_product`, lines 14-55.  The recursive call of line 27 has `dA = deg a`, so it goes to the
    base case. -/
noncomputable def middleProduct (M : Mid R) (isPrime : Bool) (a c : PMat R[X]) (dA : Int) (dB : Nat) : Option (PMat R[X]) :=
  if deg a < dA then midBase M isPrime a (rightShift false ⟨0, 0, fun _ => 0⟩ c (dA - deg a)) (deg a) dB
  else midBase M isPrime a c dA dB

/-- A function for `dA ≥ 0`, extended to negative `dA`: `middle_product_evaluate_FFT` then extracts the
    coefficients from `dA` on, `middle_product_evaluate_dense` writes to a matrix without columns, and
    `middle_product_3_primes` calls the first one. -/
def negFail (f : PMat R[X] → PMat R[X] → Nat → Nat → Option (PMat R[X])) (a c : PMat R[X]) (dA : Int) (dB : Nat) :
    Option (PMat R[X]) := if dA < 0 then none else f a c dA.toNat dB

end Ring

end PML.Ntl.MatMid
