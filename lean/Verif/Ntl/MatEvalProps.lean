import Verif.Ntl.MatEvalDense
import Verif.Ntl.MatMulProps
import Verif.Ntl.MatUtilsProps
import Verif.Ntl.OrderProps
import Verif.Common.Prime
import Mathlib.FieldTheory.Finite.Basic

/-!
# C67: products of polynomial matrices by evaluation and interpolation, and the general product
-/

namespace PML.Ntl.MatEval

open Polynomial PML.Ntl.Utils PML.Ntl.MatMul

variable {F : Type} [Field F]

set_option linter.unusedSectionVars false

theorem prod_zero (a b : PMat F[X]) (hab : a.cols = b.rows) (h : deg a < 0 ∨ deg b < 0) (i j : Nat) (hi : i < a.rows)
    (hj : j < b.cols) : ∑ l ∈ Finset.range a.cols, a.e (i, l) * b.e (l, j) = 0 :=
  Finset.sum_eq_zero fun l hl => by
    have hl := Finset.mem_range.1 hl
    rcases h with h | h
    · rw [entry_zero a h i l hi hl, zero_mul]
    · rw [entry_zero b h l j (by omega) hj, mul_zero]

theorem prod_coeff_len (a b : PMat F[X]) (hab : a.cols = b.rows) (i j k : Nat) (hi : i < a.rows) (hj : j < b.cols)
    (hk : lenActual a b ≤ k) : (∑ l ∈ Finset.range a.cols, a.e (i, l) * b.e (l, j)).coeff k = 0 := by
  by_cases h : deg a < 0 ∨ deg b < 0
  · rw [prod_zero a b hab h i j hi hj, coeff_zero]
  · unfold lenActual at hk
    exact prod_coeff_zero a b hab (deg a).toNat (deg b).toNat (by omega) (by omega) i j k hi hj (by omega)

/-- Interpolating the values of the product gives the product. -/
theorem evalProd_product {T : FFT F} {a b c : PMat F[X]} (hT : FFTOk T (idxK a b)) (hab : a.cols = b.rows)
    (h : EvalProd (T.pt (idxK a b)) (fftLen T a b) 0 (lenActual a b) a b c) : IsProduct a b c := by
  obtain ⟨h1, h2, h3⟩ := h
  refine ⟨h1, h2, fun i j hi hj => ?_⟩
  obtain ⟨v, hv, hc⟩ := h3 i j hi hj
  have hr := hT.round (lenActual a b) (le_nextPow2 _)
  have hlen : fftLen T a b = T.roundUp (lenActual a b) (idxK a b) := rfl
  rw [hc, fromEval_eq _ _ _ _ (fun r r' h4 h5 => hT.inj r r' (by omega) (by omega)) v
    (∑ k ∈ Finset.range a.cols, a.e (i, k) * b.e (k, j)) (fun k hk => prod_coeff_len a b hab i j k hi hj (by omega))
    (fun r h4 => by rw [hv r h4, eval_finsetSum]; exact Finset.sum_congr rfl fun k _ => eval_mul.symm)]
  ext k
  rw [slice_coeff, Nat.zero_add]
  split_ifs with hk
  · rfl
  · exact (prod_coeff_len a b hab i j k hi hj (by omega)).symm

/-- **C67 (FFT)**. If a transform of size `2^K` with `2^K ≥ deg a + deg b + 1` is available, the five
    functions `multiply_evaluate_FFT_direct`, `_matmul1`, `_matmul2`, `_matmul3` and `_direct_ll_type`
    return the product (the last one modulo a prime less than `2^60`). -/
theorem C67_fft_direct (T : FFT F) (a b : PMat F[X]) (hT : FFTOk T (idxK a b)) (hab : a.cols = b.rows) (h0 : 0 < a.cols) :
    ∃ c, mulFFTDirect T a b = some c ∧ IsProduct a b c := by
  obtain ⟨c, h, e⟩ := fftDirect_spec (T.pt (idxK a b)) (fftLen T a b) 0 (lenActual a b) a b hab h0
  exact ⟨c, h, evalProd_product hT hab e⟩

theorem C67_fft_matmul1 (T : FFT F) (a b : PMat F[X]) (hT : FFTOk T (idxK a b)) (hab : a.cols = b.rows) :
    ∃ c, mulFFTMatmul1 T a b = some c ∧ IsProduct a b c := by
  obtain ⟨c, h, e⟩ := fftMatmul1_spec (T.pt (idxK a b)) (fftLen T a b) 0 (lenActual a b) a b hab
  exact ⟨c, h, evalProd_product hT hab e⟩

theorem C67_fft_matmul2 (T : FFT F) (a b : PMat F[X]) (hT : FFTOk T (idxK a b)) (hab : a.cols = b.rows) :
    ∃ c, mulFFTMatmul2 T a b = some c ∧ IsProduct a b c := by
  obtain ⟨c, h, e⟩ := fftMatmul2_spec (T.pt (idxK a b)) (fftLen T a b) 0 (lenActual a b) a b hab
  exact ⟨c, h, evalProd_product hT hab e⟩

theorem C67_fft_matmul3 (T : FFT F) (a b : PMat F[X]) (hT : FFTOk T (idxK a b)) (hab : a.cols = b.rows) (h2 : 2 ≤ a.cols) :
    ∃ c, mulFFTMatmul3 T a b = some c ∧ IsProduct a b c := by
  obtain ⟨c, h, e⟩ := fftMatmul3_spec (T.pt (idxK a b)) (fftLen T a b) 0 (lenActual a b) a b hab h2
  exact ⟨c, h, evalProd_product hT hab e⟩

theorem C67_fft_ll {pr : Nat} [Fact pr.Prime] (hpr : pr < 2 ^ 60) (T : FFT (ZMod pr)) (a b : PMat (ZMod pr)[X])
    (hT : FFTOk T (idxK a b)) (hab : a.cols = b.rows) (h0 : 0 < a.cols) (hm : 0 < a.rows) :
    ∃ c, mulFFTLL T a b = some c ∧ IsProduct a b c := by
  obtain ⟨c, h, e⟩ := fftLL_spec hpr (T.pt (idxK a b)) (fftLen T a b) 0 (lenActual a b) a b hab h0 hm
  exact ⟨c, h, evalProd_product hT hab e⟩

theorem m3Eval_one (pt : Nat → F) (len : Nat) (a : Nat × Nat → F[X]) (v : Nat × Nat × Nat → F) (f : Nat → F) :
    let s := (m3Eval pt len a 2 1 (⟨some f, fun _ => none, true⟩, v)).1
    s.rr 1 = none ∧ (s.rr 0).isSome ∧ s.ok = true := by
  simp [m3Eval, forStep, blockSize, forN, m3Load, write]

theorem m3Eval_two (pt : Nat → F) (len : Nat) (a : Nat × Nat → F[X]) (v : Nat × Nat × Nat → F) (s0 : M3 F) (h1 : s0.rr 1 = none) :
    let s := (m3Eval pt len a 1 2 (s0, v)).1
    s.tbl = none ∧ (s.rr 0).isSome ∧ (s.rr 1).isSome := by
  simp [m3Eval, forStep, blockSize, forN, m3Load, write, h1]

theorem m3Puts_two (len : Nat) (w : Nat → Nat → F) (s : M3 F) (h : s.tbl = none ∧ (s.rr 0).isSome ∧ (s.rr 1).isSome) :
    let s := forN len (fun r x => m3Put (w r 1) 1 r (m3Put (w r 0) 0 r x)) s
    s.tbl = none ∧ (s.rr 0).isSome ∧ (s.rr 1).isSome := by
  refine forN_inv (P := fun (_ : Nat) (s : M3 F) => s.tbl = none ∧ (s.rr 0).isSome ∧ (s.rr 1).isSome) h ?_
  rintro r t _ ⟨h1, h2, h3⟩
  obtain ⟨x, hx⟩ := Option.isSome_iff_exists.1 h2
  obtain ⟨y, hy⟩ := Option.isSome_iff_exists.1 h3
  simp [forN, m3Put, hx, hy, write, h1]

theorem m3Puts_none (len : Nat) (hlen : 0 < len) (w : Nat → Nat → F) (s : M3 F) (h : s.rr 0 = none) :
    (forN len (fun r x => m3Put (w r 1) 1 r (m3Put (w r 0) 0 r x)) s).ok = false := by
  have main : (forN len (fun r x => m3Put (w r 1) 1 r (m3Put (w r 0) 0 r x)) s).rr 0 = none ∧
      (0 < len → (forN len (fun r x => m3Put (w r 1) 1 r (m3Put (w r 0) 0 r x)) s).ok = false) := by
    refine forN_inv (P := fun (R : Nat) (s : M3 F) => s.rr 0 = none ∧ (0 < R → s.ok = false)) ⟨h, by omega⟩ ?_
    rintro r t _ ⟨h1, -⟩
    cases hy : t.rr 1 <;> simp [forN, m3Put, h1, hy, write]
  exact main.2 hlen

theorem fftMatmul3_one_column (pt : Nat → F) (len lo cnt : Nat) (a b : PMat F[X]) (ha : a.rows = 2 ∧ a.cols = 1)
    (hb : b.rows = 1 ∧ b.cols = 2) (hlen : 0 < len) : fftMatmul3 pt len lo cnt a b = none := by
  unfold fftMatmul3
  dsimp only
  rw [ha.1, ha.2, hb.1, hb.2, if_neg (by omega)]
  have e1 := m3Eval_one pt len a.e (fun _ => 0) fun _ => 0
  dsimp only at e1
  generalize m3Eval pt len a.e 2 1 (⟨some fun _ => 0, fun _ => none, true⟩, fun _ => 0) = sa at e1 ⊢
  have e2 := m3Eval_two pt len b.e (fun _ => 0) sa.1 e1.1
  dsimp only at e2
  generalize m3Eval pt len b.e 1 2 (sa.1, fun _ => 0) = sb at e2 ⊢
  generalize (fun x : Nat × Nat × Nat => cmul 1 (fun y => sa.2 (x.1, y.1, y.2)) (fun y => sb.2 (x.1, y.1, y.2)) (x.2.1, x.2.2)) = val
  have key : (m3Out pt len lo cnt val 2 2 (sb.1, fun _ => 0)).1.ok = false := by
    have e3 := m3Puts_two len (fun r kk => val (r, 0, 0 * blockSize + kk)) sb.1 e2
    dsimp only at e3
    unfold m3Out
    simp only [forN, forStep, show (2 + blockSize - 1) / blockSize = 1 from rfl, show min blockSize (2 - 0 * blockSize) = 2 from rfl]
    have e4 : (write 1 ((forN len (fun r x => m3Put (val (r, 0, 0 * blockSize + 1)) 1 r
          (m3Put (val (r, 0, 0 * blockSize + 0)) 0 r x)) sb.1).rr 0) (write 0 (forN len (fun r x =>
          m3Put (val (r, 0, 0 * blockSize + 1)) 1 r (m3Put (val (r, 0, 0 * blockSize + 0)) 0 r x)) sb.1).tbl
        (forN len (fun r x => m3Put (val (r, 0, 0 * blockSize + 1)) 1 r
          (m3Put (val (r, 0, 0 * blockSize + 0)) 0 r x)) sb.1).rr)) 0 = none := by
      simp only [write, ne_eq, zero_ne_one, not_false_eq_true, Function.update_of_ne, Function.update_self]
      exact e3.1
    rw [m3Puts_none _ hlen (fun r kk => val (r, 1, 0 * blockSize + kk)) _ e4]
    rfl
  rw [if_neg (by rw [key]; decide)]

/-- **C67 (matmul3, one column)**. `multiply_evaluate_FFT_matmul3` reads an array that was not allocated:
    a `2 x 1` matrix times a `1 x 2` matrix, whatever the entries, as soon as there is a point. -/
theorem C67_fft_matmul3_one_column_fails (T : FFT F) (a b : PMat F[X]) (ha : a.rows = 2 ∧ a.cols = 1) (hb : b.rows = 1 ∧ b.cols = 2)
    (hlen : 0 < fftLen T a b) : mulFFTMatmul3 T a b = none :=
  fftMatmul3_one_column _ _ _ _ a b ha hb hlen

/-- **C67 (dense)**. `multiply_evaluate_dense`: for nonzero matrices, if `0, 1, .., deg a + deg b` are
    distinct, the output is the product. -/
theorem C67_dense {inv : Nat → (Nat × Nat → F) → Option (Nat × Nat → F)} (hinv : InvOk inv) (a b : PMat F[X])
    (hab : a.cols = b.rows) (ha : 0 ≤ deg a) (hb : 0 ≤ deg b)
    (hinj : ∀ r r' : Nat, r ≤ deg a + deg b → r' ≤ deg a + deg b → (r : F) = (r' : F) → r = r') :
    ∃ c, dense inv a b = some c ∧ IsProduct a b c :=
  dense_spec hinv a b hab ha hb hinj

/-- **C67 (dense, parity)**. `multiply_evaluate_dense2`: if 2 is not zero and `0, 1, .., 2 nb` are
    distinct, where `nb = (deg a + deg b)/2 + 1`, the output is the product. -/
theorem C67_dense2 {inv : Nat → (Nat × Nat → F) → Option (Nat × Nat → F)} (hinv : InvOk inv) (a b : PMat F[X])
    (hab : a.cols = b.rows) (h2 : (2 : F) ≠ 0)
    (hinj : ∀ r r' : Nat, r ≤ 2 * ((deg a + deg b).tdiv 2 + 1).toNat → r' ≤ 2 * ((deg a + deg b).tdiv 2 + 1).toNat →
      (r : F) = (r' : F) → r = r') :
    ∃ c, dense2 inv a b = some c ∧ IsProduct a b c :=
  dense2_spec hinv a b hab h2 hinj

/-- A transform of size `2^K` exists only if `2^K < p`. -/
theorem fft_lt {pr : Nat} [Fact pr.Prime] {T : FFT (ZMod pr)} {K : Nat} (hT : FFTOk T K) : 2 ^ K < pr := by
  have hp := (Fact.out : pr.Prime).pos
  have : NeZero pr := ⟨by omega⟩
  have h : (Finset.range (2 ^ K)).card ≤ (Finset.univ.erase (0 : ZMod pr)).card := by
    refine Finset.card_le_card_of_injOn (T.pt K) (fun r hr => ?_) fun r hr r' hr' h => ?_
    · have hr := hT.root r (by simpa using hr)
      rw [Finset.mem_coe, Finset.mem_erase]
      refine ⟨fun h0 => ?_, Finset.mem_univ _⟩
      rw [h0, zero_pow (by positivity)] at hr
      exact zero_ne_one hr
    · exact hT.inj r r' (by simpa using hr) (by simpa using hr') h
  rw [Finset.card_range, Finset.card_erase_of_mem (Finset.mem_univ _), Finset.card_univ, ZMod.card] at h
  omega

theorem cast_inj_lt {pr : Nat} {r r' : Nat} (hr : r < pr) (hr' : r' < pr) (h : (r : ZMod pr) = (r' : ZMod pr)) : r = r' := by
  have := (ZMod.natCast_eq_natCast_iff r r' pr).1 h
  exact Nat.ModEq.eq_of_lt_of_lt this hr hr'

theorem pick {α : Type} {P : α → Prop} {c : Prop} [Decidable c] {x y : α} (h1 : c → P x) (h2 : ¬c → P y) :
    P (if c then x else y) := by
  split_ifs with h
  exacts [h1 h, h2 h]

/-- **C67 (choice of a method)**. `multiply_evaluate_FFT`, whatever the sizes: with the transforms of NTL
    available for the size of the product, the output is the product. -/
theorem C67_fft {pr : Nat} [Fact pr.Prime] (hpr : pr < 2 ^ 60) (T : FFT (ZMod pr))
    {inv : Nat → (Nat × Nat → ZMod pr) → Option (Nat × Nat → ZMod pr)} (hinv : InvOk inv) (a b : PMat (ZMod pr)[X])
    (hT : FFTOk T (idxK a b)) (hab : a.cols = b.rows) (h0 : 2 ≤ a.cols) (ha : 0 ≤ deg a) (hb : 0 ≤ deg b) :
    ∃ c, mulFFT T inv a b = some c ∧ IsProduct a b c := by
  have hm : 0 < a.rows := by
    by_contra hc
    have := (deg_neg_iff a).2 fun i j hi => by omega
    omega
  have hK := fft_lt hT
  have hlK : lenActual a b ≤ 2 ^ idxK a b := le_nextPow2 _
  have h1 := C67_fft_direct T a b hT hab (by omega)
  have h2 := C67_fft_matmul1 T a b hT hab
  have h3 := C67_fft_matmul2 T a b hT hab
  have h4 := C67_fft_matmul3 T a b hT hab h0
  have h5 := C67_fft_ll hpr T a b hT hab (by omega) hm
  have hL : lenActual a b = (deg a + deg b + 1).toNat := rfl
  have h6 := C67_dense hinv a b hab ha hb fun r r' hr hr' h => cast_inj_lt (by omega) (by omega) h
  have h7 : 32 ≤ (deg a + deg b).tdiv 2 → ∃ c, dense2 inv a b = some c ∧ IsProduct a b c := by
    intro hd
    have ht : (deg a + deg b).tdiv 2 = (deg a + deg b) / 2 := Int.tdiv_eq_ediv_of_nonneg (by omega)
    obtain ⟨K, hKK⟩ : ∃ K, idxK a b = K + 1 := ⟨idxK a b - 1, by
      have : idxK a b ≠ 0 := fun h => by rw [h] at hlK; omega
      omega⟩
    rw [hKK, pow_succ] at hlK hK
    refine C67_dense2 hinv a b hab (fun h => ?_) fun r r' hr hr' h => cast_inj_lt (by omega) (by omega) h
    have := cast_inj_lt (pr := pr) (r := 2) (r' := 0) (by omega) (by omega) (by exact_mod_cast h)
    omega
  let P : Option (PMat (ZMod pr)[X]) → Prop := fun o => ∃ c, o = some c ∧ IsProduct a b c
  show P (mulFFT T inv a b)
  unfold mulFFT
  dsimp only
  refine pick (fun _ => pick (fun _ => h1) fun _ => pick (fun _ => h5) fun _ => pick (fun _ => h6) fun hd =>
      pick (fun _ => pick (fun _ => h3) fun _ => h7 (by omega)) fun _ => pick (fun _ => h2) fun _ => h7 (by omega))
    fun _ => pick (fun _ => h1) fun _ => pick (fun _ => h5) fun _ => pick (fun _ => h2) fun _ => h4

/-! ### Geometric points -/

theorem fill3 (len s t : Nat) (w : Nat → Nat → Nat → F) (x : Nat → F) (r i k : Nat) (hr : r < len) (hi : i < s) (hk : k < t) :
    forN s (fun i => forN t fun k => forN len fun r => write (r * (s * t) + i * t + k) (w i k r)) x (r * (s * t) + i * t + k) =
      w i k r := by
  have key := Fills.forN (n := s) (v := fun x => w (x % (s * t) / t) (x % (s * t) % t) (x / (s * t))) fun i hi =>
    Fills.forN (n := t) fun k hk => Fills.forN (n := len) fun r _ =>
      Fills.write (r * (s * t) + i * t + k) (w i k r) (by
        obtain ⟨h1, h2, h3⟩ := flat3 (r := r) hi hk
        rw [h1, h2, h3])
  refine ((key x _).1 ⟨i, hi, k, hk, r, hr, rfl⟩).trans ?_
  obtain ⟨h1, h2, h3⟩ := flat3 (r := r) hi hk
  dsimp only
  rw [h1, h2, h3]

theorem fill2 (len s u : Nat) (w : Nat → Nat × Nat → F) (x : Nat × Nat → F) (r i k : Nat) (hr : r < len) (hi : i < s) (hk : k < u) :
    forN len (fun j => forN s fun i => forN u fun k => write (i * u + k, j) (w j (i, k))) x (i * u + k, r) = w r (i, k) := by
  have key := Fills.forN (n := len) (v := fun x : Nat × Nat => w x.2 (x.1 / u, x.1 % u)) fun j _ =>
    Fills.forN (n := s) fun i _ => Fills.forN (n := u) fun k hk => Fills.write (i * u + k, j) (w j (i, k)) (by
      obtain ⟨h1, h2⟩ := flat2 (i := i) hk
      dsimp only
      rw [h1, h2])
  refine ((key x _).1 ⟨r, hr, i, hi, k, hk, rfl⟩).trans ?_
  obtain ⟨h1, h2⟩ := flat2 (i := i) hk
  dsimp only
  rw [h1, h2]

/-- **C67 (geometric points)**. `multiply_evaluate_geometric` on nonzero matrices: if the multipoint
    object evaluates and interpolates at `deg a + deg b + 1` distinct points, the output is the product. -/
theorem C67_geometric (n : Nat) (ev : F[X] → Option (Nat → F)) (ip : (Nat → F) → Option F[X]) (pt : Nat → F) (a b : PMat F[X])
    (hab : a.cols = b.rows) (ha : 0 ≤ deg a) (hb : 0 ≤ deg b) (hn : deg a + deg b < n)
    (hev : ∀ P : F[X], P.natDegree < n → ∃ v, ev P = some v ∧ ∀ i, i < n → v i = P.eval (pt i))
    (hip : ∀ v : Nat → F, ∃ P, ip v = some P ∧ P.natDegree < n ∧ ∀ i, i < n → P.eval (pt i) = v i)
    (hpt : ∀ r r', r < n → r' < n → pt r = pt r' → r = r') :
    ∃ c, geometric n ev ip a b = some c ∧ IsProduct a b c := by
  have hnd : ∀ P : F[X], (∀ k, n ≤ k → P.coeff k = 0) → P.natDegree < n := by
    intro P h
    by_contra hc
    have h1 := h P.natDegree (by omega)
    have h2 := leadingCoeff_eq_zero.1 h1
    rw [h2, natDegree_zero] at hc
    omega
  have hA : ∀ i k, i < a.rows → k < a.cols → ∃ v, ev (a.e (i, k)) = some v ∧ ∀ r, r < n → v r = (a.e (i, k)).eval (pt r) :=
    fun i k hi hk => hev _ (hnd _ fun d hd => (deg_lt_iff a n).1 (by omega) i k hi hk d hd)
  have hB : ∀ i k, i < a.cols → k < b.cols → ∃ v, ev (b.e (i, k)) = some v ∧ ∀ r, r < n → v r = (b.e (i, k)).eval (pt r) :=
    fun i k hi hk => hev _ (hnd _ fun d hd => (deg_lt_iff b n).1 (by omega) i k (by omega) hk d hd)
  unfold geometric
  dsimp only
  rw [if_neg (by omega), if_neg (by omega), if_neg (by
    rintro (⟨i, k, hi, hk, h⟩ | ⟨i, k, hi, hk, h⟩)
    · obtain ⟨v, hv, -⟩ := hA i k hi hk
      rw [hv] at h; cases h
    · obtain ⟨v, hv, -⟩ := hB i k hi hk
      rw [hv] at h; cases h), if_neg (by
    rintro ⟨i, k, -, -, h⟩
    obtain ⟨P, hP, -⟩ := hip (fun r => _)
    rw [hP] at h; cases h)]
  refine ⟨_, rfl, rfl, rfl, fun i j hi hj => ?_⟩
  have fA := fill3 n a.rows a.cols (fun i k => (ev (a.e (i, k))).getD fun _ => 0) (fun _ => 0)
  have fB := fill3 n a.cols b.cols (fun i k => (ev (b.e (i, k))).getD fun _ => 0) (fun _ => 0)
  generalize forN a.rows _ (fun _ : Nat => (0 : F)) = valA at fA ⊢
  generalize forN a.cols _ (fun _ : Nat => (0 : F)) = valB at fB ⊢
  dsimp only
  refine (loop2_at _ _ (fun i k => (ip fun r => _).getD 0) _ i j hi hj).trans ?_
  obtain ⟨P, hP, hd, hPe⟩ := hip fun r => forN n (fun j => forN a.rows fun i => forN b.cols fun k => write (i * b.cols + k, j)
    (cmul a.cols (fun x => valA (j * (a.rows * a.cols) + x.1 * a.cols + x.2))
      (fun x => valB (j * (a.cols * b.cols) + x.1 * b.cols + x.2)) (i, k))) (fun _ => 0) (i * b.cols + j, r)
  rw [hP, Option.getD_some]
  refine eq_of_degrees_lt_of_eval_index_eq (s := Finset.range n) (v := pt)
    (fun x hx y hy h => hpt x y (by simpa using hx) (by simpa using hy) h) ?_ ?_ fun r hr => ?_
  · rw [Finset.card_range]
    exact (degree_lt_iff_coeff_zero _ _).2 fun k hk => coeff_eq_zero_of_natDegree_lt (by omega)
  · rw [Finset.card_range, degree_lt_iff_coeff_zero]
    intro k hk
    exact prod_coeff_zero a b hab (deg a).toNat (deg b).toNat (by omega) (by omega) i j k hi hj (by omega)
  · have hr := Finset.mem_range.1 hr
    rw [hPe r hr, fill2 n a.rows b.cols (fun j => cmul a.cols (fun x => valA (j * (a.rows * a.cols) + x.1 * a.cols + x.2))
      (fun x => valB (j * (a.cols * b.cols) + x.1 * b.cols + x.2))) _ r i j hr hi hj, eval_finsetSum]
    refine Finset.sum_congr rfl fun l hl => ?_
    have hl := Finset.mem_range.1 hl
    dsimp only
    obtain ⟨v, hv, hve⟩ := hA i l hi hl
    obtain ⟨w, hw, hwe⟩ := hB l j hl hj
    rw [fA r i l hr hi hl, fB r l j hr hl hj, hv, hw, Option.getD_some, Option.getD_some, hve r hr, hwe r hr, eval_mul]

/-- **C67 (geometric points, this library)**: with the object returned by `get_geometric_points` (C62,
    C63) over a prime field. -/
theorem C67_geometric_points {p : Nat} [Fact p.Prime] (rnd : Nat → ZMod p) (nb : Nat) (a b : PMat (ZMod p)[X])
    (hab : a.cols = b.rows) (ha : 0 ≤ deg a) (hb : 0 ≤ deg b) (n : Nat) (hn : (n : Int) = deg a + deg b + 1) (r : ZMod p)
    (hr : r ≠ 0) (h : Order.elementOfOrder rnd (2 * n) nb true = some r) {mp} (hmp : Geom.MidOK mp n) (feasible flags : Bool) :
    ∃ o₀ o c, Geom.construct feasible flags r 1 n = some o₀ ∧
      Geom.calls o₀ [.prepare (deg a).toNat, .prepare (deg b).toNat] = some o ∧
      geometric n (Geom.evaluate mp o) (Geom.interpolate false o) a b = some c ∧ IsProduct a b c := by
  obtain ⟨o₀, o, h1, h2, h3⟩ := Order.C63_get_geometric_points rnd n nb (by omega) r hr h hmp feasible flags
    [.prepare (deg a).toNat, .prepare (deg b).toNat] (fun d hd => by
      simp only [List.mem_cons, Geom.Call.prepare.injEq, List.not_mem_nil, or_false] at hd
      omega)
  haveI : Fact (1 < p) := ⟨(Fact.out : p.Prime).one_lt⟩
  obtain ⟨-, ho⟩ := Order.C63_order_at_least rnd (2 * n) nb r hr h
  obtain ⟨c, h4, h5⟩ := C67_geometric n (Geom.evaluate mp o) (Geom.interpolate false o) (fun i => 1 * r ^ (2 * i)) a b hab ha hb
    (by omega) h3.eval h3.interp (fun i j hi hj e => by
      rw [one_mul, one_mul] at e
      have := pow_injOn_Iio_orderOf (show 2 * i ∈ Set.Iio (orderOf r) by rw [Set.mem_Iio]; omega)
        (show 2 * j ∈ Set.Iio (orderOf r) by rw [Set.mem_Iio]; omega) e
      omega)
  exact ⟨o₀, o, c, h1, h2, h4, h5⟩

/-- **C67 (geometric points, zero matrix)**. `multiply_evaluate_geometric` gives the wrong dimensions to
    the output if `a` or `b` is zero: the number of columns of `a` instead of that of `b`. -/
theorem C67_geometric_zero_wrong (n : Nat) (ev : F[X] → Option (Nat → F)) (ip : (Nat → F) → Option F[X]) (a b : PMat F[X])
    (h : deg a < 0 ∨ deg b < 0) (hne : a.cols ≠ b.cols) :
    ∃ c, geometric n ev ip a b = some c ∧ c.cols = a.cols ∧ ¬IsProduct a b c := by
  refine ⟨⟨a.rows, a.cols, fun _ => 0⟩, ?_, rfl, fun hp => hne hp.2.1⟩
  unfold geometric
  dsimp only
  rw [if_pos h]

/-! ### The general product -/

section Ring

variable {R : Type} [CommRing R]

/-- What is needed of the functions called by `multiply` for the product of `a` and `b`. -/
structure Mul.OK (M : Mul R) (isPrime : Bool) (a b : PMat R[X]) : Prop where
  /-- 2 is invertible unless the modulus is 2 -/
  half : M.p = 2 ∨ ∃ i, M.inv2 = some i ∧ 2 * i = 1
  /-- FFT, when `is_FFT_ready`, for at least two columns -/
  fft : 2 ≤ a.cols → M.fftReady (nextPow2 (deg a + deg b + 1).toNat) = true → ∃ c, M.fft a b = some c ∧ IsProduct a b c
  /-- dense evaluation, when there are enough points -/
  dense : isPrime = true → (M.p : Int) > 2 * (deg a + deg b + 1) → ∃ c, M.dense a b = some c ∧ IsProduct a b c
  /-- `multiply_3_primes` -/
  three : ∃ c, M.three a b = some c ∧ IsProduct a b c

theorem isProduct_zero (a b : PMat R[X]) (hab : a.cols = b.rows) (h : deg a < 0 ∨ deg b < 0) :
    IsProduct a b ⟨a.rows, b.cols, fun _ => 0⟩ := by
  refine ⟨rfl, rfl, fun i j hi hj => (Finset.sum_eq_zero fun l hl => ?_).symm⟩
  have hl := Finset.mem_range.1 hl
  have hz : ∀ x : PMat R[X], deg x < 0 → ∀ i j, i < x.rows → j < x.cols → x.e (i, j) = 0 := fun x hx => (deg_neg_iff x).1 (by
    have := (deg_spec x).1
    omega)
  rcases h with h | h
  · rw [hz a h i l hi hl, zero_mul]
  · rw [hz b h l j (by omega) hj, mul_zero]

theorem getCoeff_const (a : PMat R[X]) (h : deg a = 0) : (getCoeff ⟨0, 0, fun _ => 0⟩ a 0).rows = a.rows ∧
    (getCoeff ⟨0, 0, fun _ => 0⟩ a 0).cols = a.cols ∧ ∀ i j, i < a.rows → j < a.cols →
      C ((getCoeff ⟨0, 0, fun _ => 0⟩ a 0).e (i, j)) = a.e (i, j) := by
  refine ⟨rfl, rfl, fun i j hi hj => ?_⟩
  unfold getCoeff
  dsimp only
  rw [loop2_at _ _ (fun u v => (a.e (u, v)).coeff 0) _ i j hi hj]
  ext k
  rw [coeff_C]
  split_ifs with hk
  · rw [hk]
  · exact ((deg_lt_iff a 1).1 (by rw [h]; decide) i j hi hj k (by omega)).symm

/-- **C67 (general product)**. `multiply(c, a, b, is_prime)`, whatever the thresholds: if the functions it
    relies on are correct for `a` and `b`, so is the output.  (`is_prime` is 1 when the output is aliased,
    see `C67_multiply_alias_drops_prime`.) -/
theorem C67_multiply (M : Mul R) (al isPrime : Bool) (a b : PMat R[X]) (hab : a.cols = b.rows)
    (hM : M.OK (al || isPrime) a b) : ∃ c, multiply M al isPrime a b = some c ∧ IsProduct a b c := by
  unfold multiply
  by_cases hz : deg a < 0 ∨ deg b < 0
  · rw [if_pos hz]
    exact ⟨_, rfl, isProduct_zero a b hab hz⟩
  rw [if_neg hz, show (if al = true then true else isPrime) = (al || isPrime) by cases al <;> rfl]
  generalize (al || isPrime) = ip at hM ⊢
  unfold multiplyNoAlias
  dsimp only
  rw [if_neg hz]
  have hcols : 0 < a.cols := by
    by_contra hc
    have := (deg_neg_iff a).2 fun i j hi => by omega
    omega
  have hrows : 0 < a.rows := by
    by_contra hc
    have := (deg_neg_iff a).2 fun i j hi => by omega
    omega
  have hbc : 0 < b.cols := by
    by_contra hc
    have := (deg_neg_iff b).2 fun i j hi => by omega
    omega
  split_ifs with h1 h2 h3 h4 h5 h6 h7
  · obtain ⟨g1, g2, g3⟩ := getCoeff_const a h1
    obtain ⟨e1, e2⟩ := C66_mul_const_left (getCoeff ⟨0, 0, fun _ => 0⟩ a 0) b
    cases h : mulConstLeft (getCoeff ⟨0, 0, fun _ => 0⟩ a 0) b with
    | none => exact absurd (g2.trans hab) (e1.1 h)
    | some y =>
      obtain ⟨f1, f2, f3⟩ := e2 y h
      refine ⟨y, rfl, f1, f2, fun i j hi hj => (f3 i j hi hj).trans (Finset.sum_congr rfl fun k hk => ?_)⟩
      rw [g3 i k hi (Finset.mem_range.1 hk)]
  · obtain ⟨g1, g2, g3⟩ := getCoeff_const b h2
    obtain ⟨e1, e2⟩ := C66_mul_const_right a (getCoeff ⟨0, 0, fun _ => 0⟩ b 0)
    cases h : mulConstRight a (getCoeff ⟨0, 0, fun _ => 0⟩ b 0) with
    | none => exact absurd (hab.trans g1.symm) (e1.1 h)
    | some y =>
      obtain ⟨f1, f2, f3⟩ := e2 y h
      refine ⟨y, rfl, f1, f2, fun i j hi hj => (f3 i j hi hj).trans (Finset.sum_congr rfl fun k hk => ?_)⟩
      rw [g3 k j (by have := Finset.mem_range.1 hk; omega) hj]
  · exact C67_naive a b hab hcols
  · exact C67_transform _ a b hab (by omega) (by omega) (by omega)
  · exact C67_waksman M.p M.inv2 hM.half a b hab hcols hrows hbc
  · exact hM.fft (by omega) h6
  · exact hM.dense h7.1 h7.2.1
  · exact hM.three

/-- **C67 (aliasing)**. When `c` is `a` or `b`, the parameter `is_prime` is replaced by 1: for nonzero
    matrices, `multiply(a, a, b, 0)` does what `multiply(c, a, b, 1)` does, so that for a composite modulus
    it may call `multiply_evaluate_dense`, which the caller has excluded. -/
theorem C67_multiply_alias_drops_prime (M : Mul R) (a b : PMat R[X]) :
    multiply M true false a b = multiply M false true a b := by
  unfold multiply
  rfl

/-- **C67 (column vector)**. -/
theorem C67_multiply_col (M : Mul R) (isPrime : Bool) (a : PMat R[X]) (n : Nat) (b : Nat → R[X]) (hab : a.cols = n)
    (hM : ∀ b' : PMat R[X], (b'.rows = n ∧ b'.cols = 1 ∧ ∀ i, i < n → b'.e (i, 0) = b i) → M.OK isPrime a b') :
    ∃ c, multiplyCol M isPrime a n b = some (a.rows, c) ∧
      ∀ i, i < a.rows → c i = ∑ k ∈ Finset.range a.cols, a.e (i, k) * b k := by
  have hb : ∀ i, i < n → forN n (fun i => write (i, 0) (b i)) (fun _ : Nat × Nat => (0 : R[X])) (i, 0) = b i := by
    intro i hi
    have key := Fills.forN (n := n) (v := fun x : Nat × Nat => b x.1) fun i _ => Fills.write (i, 0) (b i) rfl
    exact (key _ (i, 0)).1 ⟨i, hi, rfl⟩
  obtain ⟨c, h1, h2, h3, h4⟩ := C67_multiply M false isPrime a
    ⟨n, 1, forN n (fun i => write (i, 0) (b i)) fun _ => 0⟩ hab (hM _ ⟨rfl, rfl, hb⟩)
  unfold multiplyCol
  dsimp only at h3 ⊢
  rw [h1, Option.bind_some, if_neg (by omega), h2]
  refine ⟨_, rfl, fun i hi => ?_⟩
  have key := Fills.forN (n := a.rows) (v := fun i : Nat => c.e (i, 0)) fun i _ => Fills.write i (c.e (i, 0)) rfl
  refine ((key _ i).1 ⟨i, hi, rfl⟩).trans ?_
  dsimp only
  rw [h4 i 0 hi (by show 0 < 1; omega)]
  exact Finset.sum_congr rfl fun k hk => by
    have hk := Finset.mem_range.1 hk
    dsimp only
    rw [hb k (by omega)]

/-- **C67 (row vector)**. The output is the product when `c` is a vector whose length is fixed and is the
    number of columns of `b`. -/
theorem C67_multiply_row_partial (M : Mul R) (isPrime : Bool) (n : Nat) (a : Nat → R[X]) (b : PMat R[X]) (hab : n = b.rows)
    (hM : M.OK isPrime ⟨1, n, fun x => a x.2⟩ b) :
    ∃ c, multiplyRow M isPrime (some b.cols) n a b = some (b.cols, c) ∧
      ∀ j, j < b.cols → c j = ∑ k ∈ Finset.range n, a k * b.e (k, j) := by
  obtain ⟨c, h1, h2, h3, h4⟩ := C67_multiply M false isPrime ⟨1, n, fun x => a x.2⟩ b hab hM
  unfold multiplyRow
  dsimp only at h2 h4 ⊢
  rw [h1, Option.bind_some, if_neg (by rw [h2, h3]; simp), h3]
  exact ⟨_, rfl, fun j hj => h4 0 j (by omega) hj⟩

/-- **C67 (row vector, error)**. With an ordinary vector `c`, the last line `c.swap(cmat[0])` always
    raises an error. -/
theorem C67_multiply_row_fails (M : Mul R) (isPrime : Bool) (n : Nat) (a : Nat → R[X]) (b : PMat R[X]) :
    multiplyRow M isPrime none n a b = none := by
  unfold multiplyRow
  cases multiply M false isPrime ⟨1, n, fun x => a x.2⟩ b with
  | none => rfl
  | some c => rw [Option.bind_some, if_pos (Or.inr (by simp))]

end Ring

/-- **C67 (general product, prime field)**: `multiply` with the functions of this library; `hT` says that
    `is_FFT_ready` is correct, `h3` that `multiply_3_primes` is. -/
theorem C67_multiply_prime {pr : Nat} [Fact pr.Prime] (hpr : pr < 2 ^ 60) (T : FFT (ZMod pr))
    {inv : Nat → (Nat × Nat → ZMod pr) → Option (Nat × Nat → ZMod pr)} (hinv : InvOk inv)
    (degTrs : Int) (degWak degEv : Nat → Int) (fftReady : Nat → Bool) (cbrt : Nat → Nat)
    (three : PMat (ZMod pr)[X] → PMat (ZMod pr)[X] → Option (PMat (ZMod pr)[X]))
    (hT : ∀ K, fftReady K = true → FFTOk T K) (al : Bool) (a b : PMat (ZMod pr)[X]) (hab : a.cols = b.rows)
    (h3 : ∃ c, three a b = some c ∧ IsProduct a b c) :
    ∃ c, multiply ⟨pr, if pr = 2 then none else some 2⁻¹, degTrs, degWak, degEv, fftReady, cbrt, mulFFT T inv, dense inv, three⟩
      al true a b = some c ∧ IsProduct a b c := by
  by_cases hz : deg a < 0 ∨ deg b < 0
  · unfold multiply
    rw [if_pos hz]
    exact ⟨_, rfl, isProduct_zero a b hab hz⟩
  refine C67_multiply _ al true a b hab ⟨?_, ?_, ?_, h3⟩
  · dsimp only
    by_cases h : pr = 2
    · exact Or.inl h
    · refine Or.inr ⟨2⁻¹, if_neg h, mul_inv_cancel₀ fun h2 => h ?_⟩
      have : ((2 : Nat) : ZMod pr) = 0 := by exact_mod_cast h2
      exact ((Nat.prime_dvd_prime_iff_eq Fact.out Nat.prime_two).1 ((ZMod.natCast_eq_zero_iff 2 pr).1 this))
  · exact fun h2 hK => C67_fft hpr T hinv a b (hT _ hK) hab h2 (by omega) (by omega)
  · intro _ hp
    dsimp only at hp
    exact C67_dense hinv a b hab (by omega) (by omega) fun r r' hr hr' h => cast_inj_lt (by omega) (by omega) h

/-! ### The hypotheses are met -/

open Classical in
/-- There is an inverse as assumed. -/
theorem invOk_exists : ∃ inv : Nat → (Nat × Nat → F) → Option (Nat × Nat → F), InvOk inv := by
  refine ⟨fun n M => if h : ∃ W : Nat × Nat → F, ∀ i j, i < n → j < n →
    ∑ k ∈ Finset.range n, W (i, k) * M (k, j) = if i = j then 1 else 0 then some h.choose else none, ⟨?_, ?_⟩⟩
  · intro n M W h
    split_ifs at h with hc
    cases h
    exact hc.choose_spec
  · intro n M h
    exact ⟨_, dif_pos h⟩

/-- A transform of size 4 modulo 5: the points are the powers of 2, for every product of degree less than 4. -/
def fft5 : FFT (ZMod 5) := ⟨fun K r => 2 ^ (r * 2 ^ (2 - K)), fun n _ => n⟩

theorem fft5_ok (K : Nat) (hK : K ≤ 2) : FFTOk fft5 K := by
  have h : K = 0 ∨ K = 1 ∨ K = 2 := by omega
  refine ⟨?_, ?_, fun n hn => ⟨le_refl _, hn⟩⟩ <;> rcases h with rfl | rfl | rfl
  · intro r r' h1 h2 _; omega
  · intro r r' h1 h2 h3
    have a1 : r = 0 ∨ r = 1 := by omega
    have a2 : r' = 0 ∨ r' = 1 := by omega
    rcases a1 with rfl | rfl <;> rcases a2 with rfl | rfl <;> first | rfl | exact absurd h3 (by decide)
  · intro r r' h1 h2 h3
    have a1 : r = 0 ∨ r = 1 ∨ r = 2 ∨ r = 3 := by omega
    have a2 : r' = 0 ∨ r' = 1 ∨ r' = 2 ∨ r' = 3 := by omega
    rcases a1 with rfl | rfl | rfl | rfl <;> rcases a2 with rfl | rfl | rfl | rfl <;> first | rfl | exact absurd h3 (by decide)
  · intro r h1
    obtain rfl : r = 0 := by omega
    decide
  · intro r h1
    have a1 : r = 0 ∨ r = 1 := by omega
    rcases a1 with rfl | rfl <;> decide
  · intro r h1
    have a1 : r = 0 ∨ r = 1 ∨ r = 2 ∨ r = 3 := by omega
    rcases a1 with rfl | rfl | rfl | rfl <;> decide

/-- `x I + (1)`, a `2 x 2` matrix of degree 1 modulo 5. -/
noncomputable def ex5 : PMat (ZMod 5)[X] := ⟨2, 2, fun x => if x.1 = x.2 then X + 1 else 1⟩

theorem ex5_deg : deg ex5 = 1 := by
  have h1 : deg ex5 < (2 : Nat) := by
    rw [deg_lt_iff]
    intro i j _ _ k hk
    show (if i = j then X + 1 else 1 : (ZMod 5)[X]).coeff k = 0
    have h1 : ¬k = 0 := by omega
    have h2 : ¬1 = k := by omega
    split_ifs <;> simp [coeff_X, coeff_one, h1, h2]
  have h2 : ¬deg ex5 < (1 : Nat) := by
    rw [deg_lt_iff]
    intro h
    have := h 0 0 (by show 0 < 2; omega) (by show 0 < 2; omega) 1 (le_refl 1)
    have h3 : (X + 1 : (ZMod 5)[X]).coeff 1 = 0 := this
    simp [coeff_X, coeff_one] at h3
  push_cast at h1 h2
  omega

/-- The hypotheses of `C67_fft` (hence those of the functions it calls) hold for the square of that
    matrix, the transform of size 4 and an inverse as assumed. -/
example : ∃ inv, InvOk (F := ZMod 5) inv ∧ FFTOk fft5 (idxK ex5 ex5) ∧ ex5.cols = ex5.rows ∧ 2 ≤ ex5.cols ∧ 0 ≤ deg ex5 := by
  obtain ⟨inv, h⟩ := invOk_exists (F := ZMod 5)
  refine ⟨inv, h, fft5_ok _ ?_, rfl, by decide, by rw [ex5_deg]; decide⟩
  unfold idxK lenActual
  rw [ex5_deg]
  decide

/-- Those of `C67_multiply`, with a choice of thresholds that leads to the FFT. -/
example : ∃ M : Mul (ZMod 5), M.OK true ex5 ex5 ∧ M.degTrs < 1 := by
  obtain ⟨inv, h⟩ := invOk_exists (F := ZMod 5)
  have hT : FFTOk fft5 (idxK ex5 ex5) := by
    refine fft5_ok _ ?_
    unfold idxK lenActual
    rw [ex5_deg]
    decide
  have h3 := C67_fft (by decide) fft5 h ex5 ex5 hT rfl (by decide) (by rw [ex5_deg]; decide) (by rw [ex5_deg]; decide)
  refine ⟨⟨5, some 3, 0, fun _ => 0, fun _ => 0, fun K => decide (K ≤ 2), fun n => n, mulFFT fft5 inv, dense inv, mulFFT fft5 inv⟩,
    ⟨Or.inr ⟨3, rfl, by decide⟩, fun _ _ => h3, fun _ hp => ?_, h3⟩, Int.zero_lt_one⟩
  rw [ex5_deg] at hp
  dsimp only at hp
  omega

/-- A zero matrix with one row and two columns, for `C67_geometric_zero_wrong`. -/
example : ∃ a b : PMat (ZMod 5)[X], a.cols = b.rows ∧ deg a < 0 ∧ a.cols ≠ b.cols :=
  ⟨⟨1, 2, fun _ => 0⟩, ⟨2, 1, fun _ => X⟩, rfl, by rw [(deg_neg_iff _).2 fun _ _ _ _ => rfl]; decide, by decide⟩

end PML.Ntl.MatEval
