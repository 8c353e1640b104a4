import Verif.Ntl.MatMidSpec
import Verif.Ntl.MatEvalProps
import Verif.Ntl.ThreeProps
import Verif.Ntl.MiddleProps
import Verif.Ntl.OrderProps

/-!
# C69: middle products of polynomial matrices
-/

namespace PML.Ntl.MatMid

open Polynomial PML.Ntl.Utils PML.Ntl.MatMul PML.Ntl.MatEval

section Ring

variable {R : Type} [CommRing R] [Nontrivial R]

/-- The coefficients of the middle product of two polynomials. -/
theorem mid_coeff (a c : R[X]) (dA j : Nat) :
    ((a %ₘ X ^ (dA + 1)) * c).coeff (dA + j) = ∑ i ∈ Finset.range (dA + 1), a.coeff (dA - i) * c.coeff (i + j) := by
  rw [coeff_mul, Finset.Nat.sum_antidiagonal_eq_sum_range_succ_mk,
    ← Finset.sum_range_add_sum_Ico _ (show dA + 1 ≤ (dA + j).succ by omega)]
  rw [Finset.sum_eq_zero (s := Finset.Ico (dA + 1) (dA + j).succ) fun i hi => by
    have := (Finset.mem_Ico.1 hi).1
    rw [coeff_mod_X_pow, if_neg (by omega), zero_mul], add_zero]
  rw [← Finset.sum_range_reflect]
  refine Finset.sum_congr rfl fun i hi => ?_
  have hi := Finset.mem_range.1 hi
  rw [coeff_mod_X_pow, if_pos (by omega)]
  congr 2 <;> omega

theorem mid_trunc (a : R[X]) (dA : Nat) (h : ∀ k, dA + 1 ≤ k → a.coeff k = 0) : a %ₘ X ^ (dA + 1) = a := by
  ext k
  rw [coeff_mod_X_pow]
  split_ifs with hk
  · rfl
  · rw [h k (by omega)]

theorem isMiddle_iff (a c b : PMat R[X]) (dA dB : Nat) : IsMiddle a c dA dB b ↔ b.rows = a.rows ∧ b.cols = c.cols ∧
    ∀ i j, i < a.rows → j < c.cols → ∀ k, (b.e (i, j)).coeff k =
      if k ≤ dB then ∑ l ∈ Finset.range a.cols, ∑ r ∈ Finset.range (dA + 1), (a.e (i, l)).coeff (dA - r) * (c.e (l, j)).coeff (r + k) else 0 := by
  unfold IsMiddle
  simp only [finsetSum_coeff, mid_coeff]

end Ring

section Field

variable {F : Type} [Field F]

set_option linter.unusedSectionVars false

/-- The middle product is read off the product modulo `X^(2^K) - 1`. -/
theorem evalProd_middle {T : FFT F} {a c b : PMat F[X]} {dA dB : Nat} (hT : FFTOk T (midK dA dB)) (hac : a.cols = c.rows)
    (ha : deg a ≤ dA) (hc : deg c ≤ dA + dB)
    (h : EvalProd (T.pt (midK dA dB)) (2 ^ midK dA dB) dA (dB + 1) a c b) : IsMiddle a c dA dB b := by
  obtain ⟨h1, h2, h3⟩ := h
  refine ⟨h1, h2, fun i j hi hj k => ?_⟩
  obtain ⟨v, hv, hb⟩ := h3 i j hi hj
  have hN : dA + dB + 1 ≤ 2 ^ midK dA dB := le_nextPow2 _
  have hN0 : 0 < 2 ^ midK dA dB := by omega
  generalize hNN : 2 ^ midK dA dB = N at *
  have hm := monic_cyc (R := F) N hN0
  set Q := ∑ k ∈ Finset.range a.cols, a.e (i, k) * c.e (k, j) with hQ
  have hev : ∀ r, r < N → v r = (Q %ₘ (X ^ N - 1)).eval (T.pt (midK dA dB) r) := fun r hr => by
    rw [hv r hr]
    have e1 : Q.eval (T.pt (midK dA dB) r) = ∑ k ∈ Finset.range a.cols, (a.e (i, k)).eval (T.pt (midK dA dB) r) *
        (c.e (k, j)).eval (T.pt (midK dA dB) r) := by
      rw [hQ, eval_finsetSum]; exact Finset.sum_congr rfl fun k _ => eval_mul
    rw [← e1]
    conv_lhs => rw [← modByMonic_add_div Q (X ^ N - 1)]
    have hroot := hT.root r (by rw [hNN]; exact hr)
    rw [hNN] at hroot
    rw [eval_add, eval_mul, eval_sub, eval_pow, eval_X, eval_one, hroot, sub_self, zero_mul, add_zero]
  rw [hb, fromEval_eq _ N dA (dB + 1) (fun r r' h4 h5 => hT.inj r r' (by rw [hNN]; exact h4) (by rw [hNN]; exact h5)) v
    (Q %ₘ (X ^ N - 1)) (fun k hk => cyc_coeff_high hN0 Q hk) hev, slice_coeff]
  by_cases hk : k ≤ dB
  · rw [if_pos (by omega), if_pos hk, cyc_coeff_eq (by omega) fun n hn => ?_]
    · rw [hQ]
      congr 1
      refine Finset.sum_congr rfl fun l hl => ?_
      have hl := Finset.mem_range.1 hl
      rw [mid_trunc _ dA fun k hk => (deg_lt_iff a (dA + 1)).1 (by omega) i l hi hl k hk]
    · exact prod_coeff_zero a c hac dA (dA + dB) ha (by exact_mod_cast hc) i j n hi hj (by omega)
  · rw [if_neg (by omega), if_neg hk]

theorem fftMatmul_spec (pt : Nat → F) (len lo cnt : Nat) (a b : PMat F[X]) (hab : a.cols = b.rows) :
    ∃ c, fftMatmul pt len lo cnt a b = some c ∧ EvalProd pt len lo cnt a b c := by
  unfold fftMatmul
  dsimp only
  rw [if_neg (by omega)]
  refine ⟨_, rfl, rfl, rfl, fun i j hi hj => ?_⟩
  have fA := fill3 len a.rows a.cols (fun i k r => (a.e (i, k)).eval (pt r)) (fun _ => 0)
  have fB := fill3 len a.cols b.cols (fun i k r => (b.e (i, k)).eval (pt r)) (fun _ => 0)
  generalize forN a.rows _ (fun _ : Nat => (0 : F)) = valA at fA ⊢
  generalize forN a.cols _ (fun _ : Nat => (0 : F)) = valB at fB ⊢
  dsimp only
  rw [loop2_at _ _ (fun i k => fromEval pt len lo cnt fun r => _) _ i j hi hj]
  refine ⟨_, fun r hr => ?_, rfl⟩
  rw [fill2 len a.rows b.cols (fun j => cmul a.cols (fun x => valA (j * (a.rows * a.cols) + x.1 * a.cols + x.2))
      (fun x => valB (j * (a.cols * b.cols) + x.1 * b.cols + x.2))) _ r i j hr hi hj]
  refine Finset.sum_congr rfl fun l hl => ?_
  have hl := Finset.mem_range.1 hl
  dsimp only
  rw [fA r i l hr hi hl, fB r l j hr hl hj]

/-- **C69 (FFT)**. With `deg a ≤ dA`, `deg c ≤ dA + dB` and a transform of size `2^K ≥ dA + dB + 1`, the
    functions `middle_product_evaluate_FFT_direct`, `_matmul`, `_matmul1`, `_matmul2`, `_matmul3` and
    `_direct_ll_type` return the middle product, although the transform is shorter than the product. -/
theorem C69_fft_direct (T : FFT F) (a c : PMat F[X]) (dA dB : Nat) (hT : FFTOk T (midK dA dB)) (hac : a.cols = c.rows)
    (h0 : 0 < a.cols) (ha : deg a ≤ dA) (hc : deg c ≤ dA + dB) : ∃ b, midDirect T a c dA dB = some b ∧ IsMiddle a c dA dB b := by
  obtain ⟨b, h, e⟩ := fftDirect_spec (T.pt (midK dA dB)) (2 ^ midK dA dB) dA (dB + 1) a c hac h0
  exact ⟨b, h, evalProd_middle hT hac ha hc e⟩

theorem C69_fft_matmul (T : FFT F) (a c : PMat F[X]) (dA dB : Nat) (hT : FFTOk T (midK dA dB)) (hac : a.cols = c.rows)
    (ha : deg a ≤ dA) (hc : deg c ≤ dA + dB) : ∃ b, midMatmul T a c dA dB = some b ∧ IsMiddle a c dA dB b := by
  obtain ⟨b, h, e⟩ := fftMatmul_spec (T.pt (midK dA dB)) (2 ^ midK dA dB) dA (dB + 1) a c hac
  exact ⟨b, h, evalProd_middle hT hac ha hc e⟩

theorem C69_fft_matmul1 (T : FFT F) (a c : PMat F[X]) (dA dB : Nat) (hT : FFTOk T (midK dA dB)) (hac : a.cols = c.rows)
    (ha : deg a ≤ dA) (hc : deg c ≤ dA + dB) : ∃ b, midMatmul1 T a c dA dB = some b ∧ IsMiddle a c dA dB b := by
  obtain ⟨b, h, e⟩ := fftMatmul1_spec (T.pt (midK dA dB)) (2 ^ midK dA dB) dA (dB + 1) a c hac
  exact ⟨b, h, evalProd_middle hT hac ha hc e⟩

theorem C69_fft_matmul2 (T : FFT F) (a c : PMat F[X]) (dA dB : Nat) (hT : FFTOk T (midK dA dB)) (hac : a.cols = c.rows)
    (ha : deg a ≤ dA) (hc : deg c ≤ dA + dB) : ∃ b, midMatmul2 T a c dA dB = some b ∧ IsMiddle a c dA dB b := by
  obtain ⟨b, h, e⟩ := fftMatmul2_spec (T.pt (midK dA dB)) (2 ^ midK dA dB) dA (dB + 1) a c hac
  exact ⟨b, h, evalProd_middle hT hac ha hc e⟩

theorem C69_fft_matmul3 (T : FFT F) (a c : PMat F[X]) (dA dB : Nat) (hT : FFTOk T (midK dA dB)) (hac : a.cols = c.rows)
    (h2 : 2 ≤ a.cols) (ha : deg a ≤ dA) (hc : deg c ≤ dA + dB) :
    ∃ b, midMatmul3 T a c dA dB = some b ∧ IsMiddle a c dA dB b := by
  obtain ⟨b, h, e⟩ := fftMatmul3_spec (T.pt (midK dA dB)) (2 ^ midK dA dB) dA (dB + 1) a c hac h2
  exact ⟨b, h, evalProd_middle hT hac ha hc e⟩

/-- **C69 (matmul3, one column)**. `middle_product_evaluate_FFT_matmul3` reads an array that was not
    allocated, for a `2 x 1` matrix and a `1 x 2` matrix. -/
theorem C69_fft_matmul3_one_column_fails (T : FFT F) (a c : PMat F[X]) (dA dB : Nat) (ha : a.rows = 2 ∧ a.cols = 1)
    (hc : c.rows = 1 ∧ c.cols = 2) : midMatmul3 T a c dA dB = none :=
  fftMatmul3_one_column _ _ _ _ a c ha hc (by positivity)

theorem C69_fft_ll {pr : Nat} [Fact pr.Prime] (hpr : pr < 2 ^ 60) (T : FFT (ZMod pr)) (a c : PMat (ZMod pr)[X]) (dA dB : Nat)
    (hT : FFTOk T (midK dA dB)) (hac : a.cols = c.rows) (h0 : 0 < a.cols) (hm : 0 < a.rows) (ha : deg a ≤ dA)
    (hc : deg c ≤ dA + dB) : ∃ b, midLL T a c dA dB = some b ∧ IsMiddle a c dA dB b := by
  obtain ⟨b, h, e⟩ := fftLL_spec hpr (T.pt (midK dA dB)) (2 ^ midK dA dB) dA (dB + 1) a c hac h0 hm
  exact ⟨b, h, evalProd_middle hT hac ha hc e⟩

/-- **C69 (choice of an FFT method)**: `middle_product_evaluate_FFT`. -/
theorem C69_fft {pr : Nat} [Fact pr.Prime] (T : FFT (ZMod pr)) (a c : PMat (ZMod pr)[X]) (dA dB : Nat)
    (hT : FFTOk T (midK dA dB)) (hac : a.cols = c.rows) (h0 : 0 < a.cols) (ha : deg a ≤ dA) (hc : deg c ≤ dA + dB) :
    ∃ b, midFFT T a c dA dB = some b ∧ IsMiddle a c dA dB b := by
  unfold midFFT
  dsimp only
  split_ifs
  · exact C69_fft_direct T a c dA dB hT hac h0 ha hc
  · exact C69_fft_matmul T a c dA dB hT hac ha hc
  · exact C69_fft_direct T a c dA dB hT hac h0 ha hc
  · exact C69_fft_matmul T a c dA dB hT hac ha hc

/-! ### Dense evaluation -/

theorem coeffMatRev_spec (dA : Nat) (a : PMat F[X]) (ha : deg a ≤ dA) (k i j : Nat) (hk : k ≤ dA) (hi : i < a.rows) (hj : j < a.cols) :
    coeffMatRev dA a (fun _ => 0) (k, i * a.cols + j) = (a.e (i, j)).coeff (dA - k) := by
  have hz : ∀ i j, i < a.rows → j < a.cols → ∀ k, dA < k → (a.e (i, j)).coeff k = 0 := fun i j hi hj k hk =>
    (deg_lt_iff a (dA + 1)).1 (by omega) i j hi hj k hk
  have key := Fills.forN (n := a.rows) (v := fun x : Nat × Nat => (a.e (x.2 / a.cols, x.2 % a.cols)).coeff (dA - x.1)) fun i hi =>
    Fills.forN (n := a.cols) fun j hj => Fills.forN (n := (pdeg (a.e (i, j)) + 1).toNat) fun k hk =>
      Fills.write (dA - k, i * a.cols + j) ((a.e (i, j)).coeff k) (by
        dsimp only
        obtain ⟨h1, h2⟩ := flat2 (i := i) hj
        rw [h1, h2]
        congr 1
        by_contra hne
        have hlt : dA < k := by omega
        have h3 : pdeg (a.e (i, j)) ≤ deg a := (deg_spec a).2.1 i j hi hj
        omega)
  by_cases hc : (dA - k : Int) < (pdeg (a.e (i, j)) + 1)
  · refine ((key (fun _ => 0) _).1 ⟨i, hi, j, hj, dA - k, by omega, by
      rw [Set.mem_singleton_iff, Nat.sub_sub_self hk]⟩).trans ?_
    obtain ⟨h1, h2⟩ := flat2 (i := i) hj
    dsimp only
    rw [h1, h2]
  · refine ((key (fun _ => 0) _).2 ?_).trans ?_
    · rintro ⟨i', hi', j', hj', k', hk', hx⟩
      obtain ⟨h1, h2, h3⟩ := flat_mem hj hj' hx
      subst h2; subst h3
      have h4 : pdeg (a.e (i, j)) ≤ deg a := (deg_spec a).2.1 i j hi hj
      omega
    · rw [coeff_gt_pdeg]
      omega

/-- Transposition principle for evaluation and interpolation. -/
theorem transpose_sum {nb n dA i : Nat} {pts : Nat → F} {α : Nat → Nat → F} {γ w : Nat → Nat → F}
    (hw : ∀ l, l < n → ∀ m, m < nb → ∑ r ∈ Finset.range nb, w l r * pts r ^ m = γ l m) (hi : i + dA < nb) :
    ∑ r ∈ Finset.range nb, pts r ^ i * ∑ l ∈ Finset.range n, (∑ k ∈ Finset.range (dA + 1), pts r ^ k * α l k) * w l r =
      ∑ l ∈ Finset.range n, ∑ k ∈ Finset.range (dA + 1), α l k * γ l (k + i) := by
  simp only [Finset.mul_sum, Finset.sum_mul]
  rw [Finset.sum_comm]
  refine Finset.sum_congr rfl fun l hl => ?_
  rw [Finset.sum_comm]
  refine Finset.sum_congr rfl fun k hk => ?_
  have hk := Finset.mem_range.1 hk
  rw [← hw l (Finset.mem_range.1 hl) (k + i) (by omega), Finset.mul_sum]
  exact Finset.sum_congr rfl fun r _ => by rw [pow_add]; ring

/-- **C69 (dense)**. `middle_product_evaluate_dense`: with `deg a ≤ dA`, `deg c ≤ dA + dB` and
    `0, 1, .., dA + dB` distinct, the output is the middle product. -/
theorem C69_dense {inv : Nat → (Nat × Nat → F) → Option (Nat × Nat → F)} (hinv : InvOk inv) (a c : PMat F[X]) (dA dB : Nat)
    (hac : a.cols = c.rows) (ha : deg a ≤ dA) (hc : deg c ≤ dA + dB)
    (hinj : ∀ r r' : Nat, r ≤ dA + dB → r' ≤ dA + dB → (r : F) = (r' : F) → r = r') :
    ∃ b, midDense inv a c dA dB = some b ∧ IsMiddle a c dA dB b := by
  unfold midDense
  dsimp only
  rw [if_neg (by
    have : (⟨a.cols, c.cols, c.e⟩ : PMat F[X]) = c := by rw [hac]
    rw [this]; omega)]
  have hvdm := vdmFull_spec 1 (dA + dB + 1) (fun i => (i : F)) (fun i hi => by rw [Nat.lt_one_iff.1 hi, Nat.cast_zero])
  have hvsub := fun s (hs : s ≤ dA + dB + 1) => vdmSub_spec 1 (dA + dB + 1) s (vdmFull 1 (dA + dB + 1) fun i => (i : F)) hs
    (fun i hi => by rw [hvdm i 0 hi (by omega), pow_zero]) (fun i j hi h0 hj => by
      rw [hvdm i j (by omega) hj, Nat.lt_one_iff.1 hi, Nat.cast_zero, zero_pow (by omega)])
  generalize vdmFull 1 (dA + dB + 1) (fun i => (i : F)) = vdm at hvdm hvsub ⊢
  have hsA := hvsub (dA + 1) (by omega)
  have hsB := hvsub (dB + 1) (by omega)
  generalize vdmSub 1 (dA + dB + 1) (dA + 1) vdm = vA at hsA ⊢
  generalize vdmSub 1 (dA + dB + 1) (dB + 1) vdm = vB at hsB ⊢
  obtain ⟨W, hW, -⟩ := vdm_inv hinv (dA + dB + 1) (fun i => (i : F)) (fun r r' hr hr' h => hinj r r' (by omega) (by omega) h) vdm hvdm
  have hWs := hinv.sound _ _ _ hW
  rw [hW]
  refine ⟨_, rfl, ?_⟩
  rw [isMiddle_iff]
  refine ⟨rfl, rfl, fun i j hi hj k => ?_⟩
  have htA := coeffMatRev_spec dA a ha
  generalize coeffMatRev dA a (fun _ => 0) = tA at htA ⊢
  have htB : ∀ k l j, k < dA + dB + 1 → l < a.cols → j < c.cols → coeffMatClear c a.cols (dA + dB + 1 - 1)
      (setDimsReuse (dA + 1) (a.rows * a.cols) (a.cols * c.cols) tA) (k, l * c.cols + j) = (c.e (l, j)).coeff k := by
    intro k l j hk hl hj
    exact coeffMatClear_spec c a.cols (dA + dB + 1 - 1) _ k l j hl hj fun h1 _ => absurd h1 (by omega)
  generalize coeffMatClear c a.cols (dA + dB + 1 - 1) (setDimsReuse (dA + 1) (a.rows * a.cols) (a.cols * c.cols) tA) = tB at htB ⊢
  dsimp only
  refine (congrArg (fun P : F[X] => P.coeff k) (loop2_at _ _ (fun u v => ofCoeffs (dB + 1) fun i =>
    cmul (dA + dB + 1) _ _ (i, u * c.cols + v)) _ i j hi hj)).trans ?_
  rw [ofCoeffs_coeff]
  by_cases hk : k ≤ dB
  · rw [if_pos (by omega), if_pos hk]
    refine Eq.trans ?_ (transpose_sum (nb := dA + dB + 1) (n := a.cols) (dA := dA) (i := k) (pts := fun i => (i : F))
      (α := fun l k => (a.e (i, l)).coeff (dA - k)) (γ := fun l k => (c.e (l, j)).coeff k)
      (w := fun l r => ∑ q ∈ Finset.range (dA + dB + 1), W (q, r) * (c.e (l, j)).coeff q) (fun l hl m hm => ?_) (by omega))
    · unfold cmul
      refine Finset.sum_congr rfl fun r hr => ?_
      have hr := Finset.mem_range.1 hr
      dsimp only
      rw [hsB r k hr (by omega), hvdm r k hr (by omega)]
      congr 1
      refine (valC_fill (dA + dB + 1) a.rows c.cols (fun i x => ∑ k ∈ Finset.range a.cols,
        (∑ q ∈ Finset.range (dA + 1), vA (i, q) * tA (q, x.1 * a.cols + k)) *
          ∑ q ∈ Finset.range (dA + dB + 1), W (q, i) * tB (q, k * c.cols + x.2)) (fun _ => 0) r i j hr hi hj).trans ?_
      refine Finset.sum_congr rfl fun l hl => ?_
      have hl := Finset.mem_range.1 hl
      congr 1
      · refine Finset.sum_congr rfl fun q hq => ?_
        have hq := Finset.mem_range.1 hq
        rw [hsA r q hr hq, hvdm r q hr (by omega), htA q i l (by omega) hi hl]
      · exact Finset.sum_congr rfl fun q hq => by rw [htB q l j (Finset.mem_range.1 hq) hl hj]
    · simp only [Finset.sum_mul]
      rw [Finset.sum_comm]
      have : ∀ q ∈ Finset.range (dA + dB + 1), ∑ r ∈ Finset.range (dA + dB + 1), W (q, r) * (c.e (l, j)).coeff q * (r : F) ^ m =
          if m = q then (c.e (l, j)).coeff q else 0 := by
        intro q hq
        have hs := hWs q m (Finset.mem_range.1 hq) hm
        have : ∑ r ∈ Finset.range (dA + dB + 1), W (q, r) * (c.e (l, j)).coeff q * (r : F) ^ m =
            (c.e (l, j)).coeff q * ∑ r ∈ Finset.range (dA + dB + 1), W (q, r) * vdm (r, m) := by
          rw [Finset.mul_sum]
          refine Finset.sum_congr rfl fun r hr => ?_
          rw [hvdm r m (Finset.mem_range.1 hr) hm]
          ring
        rw [this, hs]
        simp only [mul_ite, mul_one, mul_zero]
        exact if_congr ⟨Eq.symm, Eq.symm⟩ rfl rfl
      rw [Finset.sum_congr rfl this, Finset.sum_ite_eq, if_pos (Finset.mem_range.2 hm)]
  · rw [if_neg (by omega), if_neg hk]

/-- An entry of too large degree is written out of the matrices of values. -/
theorem C69_dense_reject (inv : Nat → (Nat × Nat → F) → Option (Nat × Nat → F)) (a c : PMat F[X]) (dA dB : Nat)
    (h : deg a > dA) : midDense inv a c dA dB = none := by
  unfold midDense
  dsimp only
  rw [if_pos (Or.inr (Or.inl h))]

/-! ### Transposed product at geometric points -/

theorem tmul_coeff (a c : F[X]) (dA j : Nat) :
    (preverse a dA * c).coeff (dA + j) = ∑ i ∈ Finset.range (dA + 1), a.coeff i * c.coeff (i + j) := by
  rw [← mid_trunc (preverse a dA) dA fun k hk => by rw [preverse_coeff, if_neg (by omega)], mid_coeff]
  refine Finset.sum_congr rfl fun i hi => ?_
  have hi := Finset.mem_range.1 hi
  rw [preverse_coeff, if_pos (by omega)]
  congr 2
  omega

/-- **C69 (transposed product)**. `t_multiply_evaluate_geometric`, for `deg a ≤ dA` and `deg c ≤ dA + dB`,
    with an object of multipoint evaluation of length `dA + dB + 1` as returned by `get_geometric_points`
    (C63): the output is the transposed product, whatever the points. -/
theorem C69_t_multiply [DecidableEq F] {mp : F[X] → F[X] → Nat → Nat → Option F[X]} {o : Geom.Obj F} {pt : Nat → F}
    (a c : PMat F[X]) (dA dB : Nat) (ho : Geom.MultipointSpec mp o (dA + dB + 1) pt) (hac : a.cols = c.rows)
    (ha : deg a ≤ dA) (hc : deg c ≤ dA + dB) :
    ∃ b, tGeometric (dA + dB + 1) (Geom.evaluate mp o) (Geom.tInterpolate o) (fun v n => Geom.tEvaluate mp false o v (some n))
      a c dA dB = some b ∧ IsTMul a c dA dB b := by
  have hza : ∀ i j, i < a.rows → j < a.cols → ∀ k, dA + 1 ≤ k → (a.e (i, j)).coeff k = 0 := fun i j hi hj k hk =>
    (deg_lt_iff a (dA + 1)).1 (by omega) i j hi hj k hk
  have hev : ∀ i k, i < a.rows → k < a.cols → ∃ v, Geom.evaluate mp o (a.e (i, k)) = some v ∧
      ∀ r, r < dA + dB + 1 → v r = (a.e (i, k)).eval (pt r) := fun i k hi hk =>
    ho.eval _ (lt_of_le_of_lt (natDegree_le_iff_coeff_eq_zero.2 fun n hn => hza i k hi hk n hn) (by omega : dA < dA + dB + 1))
  have htev : ∀ val, ∃ P, Geom.tEvaluate mp false o val (some (dB + 1)) = some P ∧
      ∀ j, P.coeff j = if j < dB + 1 then ∑ i ∈ Finset.range (dA + dB + 1), val i * pt i ^ j else 0 := fun val =>
    ho.t_eval val (some (dB + 1)) (show dB + 1 ≤ _ by omega)
  unfold tGeometric
  dsimp only
  rw [if_neg (by omega), if_neg (by omega), if_neg (by
    rintro ⟨i, k, hi, hk, e⟩
    obtain ⟨v, e', -⟩ := hev i k hi hk
    rw [e] at e'; exact absurd e' (by simp)), if_neg (by
    rintro ⟨i, k, hi, hk, e⟩
    obtain ⟨v, e', -⟩ := htev _
    rw [e] at e'; exact absurd e' (by simp))]
  refine ⟨_, rfl, rfl, rfl, fun i j hi hj k => ?_⟩
  have fA := fill3 (dA + dB + 1) a.rows a.cols (fun i k r => ((Geom.evaluate mp o (a.e (i, k))).getD fun _ => 0) r) (fun _ => 0)
  have fC := fill3 (dA + dB + 1) a.cols c.cols (fun i k r => Geom.tInterpolate o (c.e (i, k)) r) (fun _ => 0)
  generalize forN a.rows _ (fun _ : Nat => (0 : F)) = valA at fA ⊢
  generalize forN a.cols _ (fun _ : Nat => (0 : F)) = valC at fC ⊢
  dsimp only
  have fB := fill2 (dA + dB + 1) a.rows c.cols (fun j => cmul a.cols (fun x => valA (j * (a.rows * a.cols) + x.1 * a.cols + x.2))
      (fun x => valC (j * (a.cols * c.cols) + x.1 * c.cols + x.2))) (fun _ => 0)
  generalize forN (dA + dB + 1) _ (fun _ : Nat × Nat => (0 : F)) = valB at fB ⊢
  rw [loop2_at _ _ (fun i k => (Geom.tEvaluate mp false o (fun r => valB (i * c.cols + k, r)) (some (dB + 1))).getD 0) _ i j hi hj]
  obtain ⟨P, hP, hc'⟩ := htev fun r => valB (i * c.cols + j, r)
  rw [hP, Option.getD_some, hc']
  by_cases hk : k ≤ dB
  · rw [if_pos (by omega), if_pos hk, finsetSum_coeff]
    simp only [tmul_coeff]
    rw [← transpose_sum (nb := dA + dB + 1) (n := a.cols) (dA := dA) (i := k) (pts := pt) (α := fun l k => (a.e (i, l)).coeff k)
      (γ := fun l m => (c.e (l, j)).coeff m) (w := fun l r => Geom.tInterpolate o (c.e (l, j)) r)
      (fun l _ m hm => ho.t_interp _ m hm) (by omega)]
    refine Finset.sum_congr rfl fun r hr => ?_
    have hr := Finset.mem_range.1 hr
    rw [mul_comm]
    congr 1
    refine (fB r i j hr hi hj).trans ?_
    refine Finset.sum_congr rfl fun l hl => ?_
    have hl := Finset.mem_range.1 hl
    dsimp only
    rw [fA r i l hr hi hl, fC r l j hr hl hj]
    obtain ⟨v, e, hv⟩ := hev i l hi hl
    rw [e, Option.getD_some, hv r hr, eval_eq_sum_range' (n := dA + 1)
      (lt_of_le_of_lt (natDegree_le_iff_coeff_eq_zero.2 fun n hn => hza i l hi hl n hn) (by omega : dA < dA + 1))]
    congr 1
    exact Finset.sum_congr rfl fun q _ => mul_comm _ _
  · rw [if_neg (by omega), if_neg hk]

end Field

/-! ### Naive -/

section Naive

variable {R : Type} [CommRing R] [Nontrivial R]

/-- **C69 (naive)**. `middle_product_naive` needs no bound on the degrees. -/
theorem C69_naive {mp : R[X] → R[X] → Int → Nat → Option R[X]} (a c : PMat R[X]) (dA dB : Nat) (h : MpOk mp dA dB)
    (hac : a.cols = c.rows) (h0 : 0 < a.cols) : ∃ b, midNaive mp a c dA dB = some b ∧ IsMiddle a c dA dB b := by
  unfold midNaive
  dsimp only
  rw [if_neg (by omega), if_neg (by
    rintro ⟨i, j, k, -, -, -, e⟩
    obtain ⟨b, hb, -⟩ := h.val (a.e (i, k)) (c.e (k, j)) (by omega)
    rw [e] at hb; exact absurd hb (by simp))]
  refine ⟨_, rfl, rfl, rfl, fun i j hi hj k => ?_⟩
  dsimp only
  rw [loop2_at _ _ (fun i j => forN (a.cols - 1) (fun k b => b + (mp (a.e (i, k + 1)) (c.e (k + 1, j)) dA dB).getD 0)
    ((mp (a.e (i, 0)) (c.e (0, j)) dA dB).getD 0)) _ i j hi hj]
  have hg : ∀ l, ((mp (a.e (i, l)) (c.e (l, j)) dA dB).getD 0).coeff k =
      if k ≤ dB then ((a.e (i, l) %ₘ X ^ (dA + 1)) * c.e (l, j)).coeff (dA + k) else 0 := fun l => by
    obtain ⟨b, hb, hv⟩ := h.val (a.e (i, l)) (c.e (l, j)) (by omega)
    rw [hb, Option.getD_some, hv]
    rfl
  have key := forN_inv (n := a.cols - 1) (P := fun (m : Nat) (t : R[X]) => t.coeff k = ∑ l ∈ Finset.range (m + 1),
      if k ≤ dB then ((a.e (i, l) %ₘ X ^ (dA + 1)) * c.e (l, j)).coeff (dA + k) else 0)
    (f := fun k b => b + (mp (a.e (i, k + 1)) (c.e (k + 1, j)) dA dB).getD 0)
    (s := (mp (a.e (i, 0)) (c.e (0, j)) dA dB).getD 0)
    (by rw [hg, Finset.sum_range_one]) (fun m t _ ht => by rw [coeff_add, ht, hg, Finset.sum_range_succ _ (m + 1)])
  rw [key, Nat.sub_add_cancel h0]
  split_ifs
  · rw [finsetSum_coeff]
  · exact Finset.sum_const_zero

/-- A matrix with no column: `a[i][0]` does not exist. -/
theorem C69_naive_no_column_fails (mp : R[X] → R[X] → Int → Nat → Option R[X]) (a c : PMat R[X]) (dA : Int) (dB : Nat)
    (hr : 0 < a.rows) (hc : 0 < c.cols) (h0 : a.cols = 0) : midNaive mp a c dA dB = none := by
  unfold midNaive
  dsimp only
  rw [if_pos ⟨hr, hc, Or.inl h0⟩]

/-- Dropping the low coefficients of `c` when `deg a < dA` does not change the middle product. -/
theorem shift_middle (a c b : PMat R[X]) (dA dB d : Nat) (hac : a.cols = c.rows) (hd : deg a ≤ d) (hdA : d ≤ dA)
    (h : IsMiddle a (rightShift false ⟨0, 0, fun _ => 0⟩ c (dA - d)) d dB b) : IsMiddle a c dA dB b := by
  obtain ⟨-, -, e4, e5⟩ := C65_shift false ⟨0, 0, fun _ => 0⟩ c (dA - d)
  rw [isMiddle_iff] at h ⊢
  obtain ⟨h1, h2, h3⟩ := h
  rw [e4] at h2 h3
  refine ⟨h1, h2, fun i j hi hj k => ?_⟩
  rw [h3 i j hi hj]
  split_ifs with hk
  · refine Finset.sum_congr rfl fun l hl => ?_
    have hl := Finset.mem_range.1 hl
    obtain ⟨t, rfl⟩ : ∃ t, dA = t + d := ⟨dA - d, by omega⟩
    rw [show t + d + 1 = t + (d + 1) by omega, Finset.sum_range_add _ t (d + 1)]
    rw [Finset.sum_eq_zero (s := Finset.range t) fun r hr => by
      have hr := Finset.mem_range.1 hr
      rw [(deg_lt_iff a (d + 1)).1 (by omega) i l hi hl _ (by omega), zero_mul], zero_add]
    refine Finset.sum_congr rfl fun r hr => ?_
    have hr := Finset.mem_range.1 hr
    rw [e5 l j (by omega) hj, if_pos (by omega)]
    congr 2 <;> omega
  · rfl

theorem deg_shift (c : PMat R[X]) (dA dB d : Nat) (hdA : d ≤ dA) (h : deg c ≤ dA + dB) :
    deg (rightShift false ⟨0, 0, fun _ => 0⟩ c (dA - d)) ≤ d + dB := by
  obtain ⟨-, e3, e4, e5⟩ := C65_shift false ⟨0, 0, fun _ => 0⟩ c (dA - d)
  have : deg (rightShift false ⟨0, 0, fun _ => 0⟩ c (dA - d)) < (d + dB + 1 : Nat) := (deg_lt_iff _ _).2 fun i j hi hj k hk => by
    rw [e3] at hi
    rw [e4] at hj
    rw [e5 i j hi hj, if_pos (by omega)]
    exact (deg_lt_iff c (dA + dB + 1)).1 (by omega) i j hi hj _ (by omega)
  push_cast at this
  omega

end Naive

/-! ### Three primes -/

section Primes

open PML.Ntl.Three

/-- The integers whose images are computed. -/
noncomputable def midX {p : Nat} (a c : PMat (ZMod p)[X]) (dA dB : Nat) (i j k : Nat) : Nat :=
  if k ≤ dB then ∑ l ∈ Finset.range a.cols, ∑ r ∈ Finset.range (dA + 1), ((a.e (i, l)).coeff (dA - r)).val * ((c.e (l, j)).coeff (r + k)).val
  else 0

theorem mid_img_aux {p q : Nat} [NeZero p] [Fact q.Prime] (T : FFT (ZMod q)) (a c : PMat (ZMod p)[X]) (dA dB : Nat)
    (hT : FFTOk T (midK dA dB)) (hac : a.cols = c.rows) (h0 : 0 < a.cols) (ha : deg a ≤ dA) (hc : deg c ≤ dA + dB) (x y : PMat ℕ[X])
    (hxd : x.rows = a.rows ∧ x.cols = a.cols) (hyd : y.rows = c.rows ∧ y.cols = c.cols)
    (hx : ∀ i j, i < a.rows → j < a.cols → ∀ k, (x.e (i, j)).coeff k ≡ ((a.e (i, j)).coeff k).val [MOD q])
    (hy : ∀ i j, i < c.rows → j < c.cols → ∀ k, (y.e (i, j)).coeff k ≡ ((c.e (i, j)).coeff k).val [MOD q]) :
    ∃ z, (midFFT T (ofRep q x) (ofRep q y) dA dB).map rep = some z ∧ Img a.rows c.cols q z (midX a c dA dB) := by
  have : NeZero q := ⟨(Fact.out : q.Prime).ne_zero⟩
  have hx' : ∀ i j, i < a.rows → j < a.cols → ∀ k, ((ofRep q x).e (i, j)).coeff k = (((a.e (i, j)).coeff k).val : ZMod q) :=
    fun i j hi hj k => by rw [ofRep_coeff]; exact (ZMod.natCast_eq_natCast_iff _ _ _).2 (hx i j hi hj k)
  have hy' : ∀ i j, i < c.rows → j < c.cols → ∀ k, ((ofRep q y).e (i, j)).coeff k = (((c.e (i, j)).coeff k).val : ZMod q) :=
    fun i j hi hj k => by rw [ofRep_coeff]; exact (ZMod.natCast_eq_natCast_iff _ _ _).2 (hy i j hi hj k)
  have d1 : deg (ofRep q x) < (dA + 1 : Nat) := (deg_lt_iff _ _).2 fun i j hi hj k hk => by
    have hi : i < x.rows := hi
    have hj : j < x.cols := hj
    rw [hx' i j (by omega) (by omega), (deg_lt_iff a (dA + 1)).1 (by omega) i j (by omega) (by omega) k hk, ZMod.val_zero, Nat.cast_zero]
  have d2 : deg (ofRep q y) < (dA + dB + 1 : Nat) := (deg_lt_iff _ _).2 fun i j hi hj k hk => by
    have hi : i < y.rows := hi
    have hj : j < y.cols := hj
    rw [hy' i j (by omega) (by omega), (deg_lt_iff c (dA + dB + 1)).1 (by omega) i j (by omega) (by omega) k hk, ZMod.val_zero, Nat.cast_zero]
  obtain ⟨z, e, hz⟩ := C69_fft T (ofRep q x) (ofRep q y) dA dB hT (show x.cols = y.rows by omega) (show 0 < x.cols by omega)
    (by push_cast at d1; omega) (by push_cast at d2; omega)
  rw [isMiddle_iff] at hz
  obtain ⟨z1, z2, z3⟩ := hz
  have z1 : z.rows = x.rows := z1
  have z2 : z.cols = y.cols := z2
  have key : ∀ i j k, i < a.rows → j < c.cols → ((z.e (i, j)).coeff k) = (midX a c dA dB i j k : ZMod q) := fun i j k hi hj => by
    rw [z3 i j (show i < x.rows by omega) (show j < y.cols by omega) k]
    unfold midX
    split_ifs
    · rw [Nat.cast_sum, show (ofRep q x).cols = a.cols from hxd.2]
      refine Finset.sum_congr rfl fun l hl => ?_
      have hl := Finset.mem_range.1 hl
      rw [Nat.cast_sum]
      refine Finset.sum_congr rfl fun r _ => ?_
      rw [hx' i l hi hl, hy' l j (by omega) hj, Nat.cast_mul]
    · rw [Nat.cast_zero]
  refine ⟨rep z, by rw [e]; rfl, show z.rows = _ by omega, show z.cols = _ by omega, fun i j k hi hj => ?_, fun i j k hi hj => ?_⟩
  · rw [rep_coeff]
    exact ZMod.val_lt _
  · rw [rep_coeff, key i j k hi hj, ZMod.val_natCast]
    exact Nat.mod_modEq _ _

/-- `middle_product_modulo_FFT_prime` computes the image of these integers modulo the FFT prime. -/
theorem mid_img {p q : Nat} [NeZero p] [Fact q.Prime] (T : FFT (ZMod q)) (a c : PMat (ZMod p)[X]) (dA dB : Nat)
    (hT : FFTOk T (midK dA dB)) (hac : a.cols = c.rows) (h0 : 0 < a.cols) (ha : deg a ≤ dA) (hc : deg c ≤ dA + dB) :
    ∃ z, moduloFFTPrime (fun x y => (midFFT T (ofRep q x) (ofRep q y) dA dB).map rep) p q (rep a) (rep c) = some z ∧
      Img a.rows c.cols q z (midX a c dA dB) := by
  unfold moduloFFTPrime
  split_ifs
  · exact mid_img_aux T a c dA dB hT hac h0 ha hc _ _ ⟨rfl, rfl⟩ ⟨rfl, rfl⟩
      (fun i j hi hj k => by rw [reduce_coeff q (rep a) i j k hi hj, rep_coeff]; exact Nat.mod_modEq _ _)
      (fun i j hi hj k => by rw [reduce_coeff q (rep c) i j k hi hj, rep_coeff]; exact Nat.mod_modEq _ _)
  · exact mid_img_aux T a c dA dB hT hac h0 ha hc _ _ ⟨rfl, rfl⟩ ⟨rfl, rfl⟩
      (fun i j hi hj k => by rw [rep_coeff]) (fun i j hi hj k => by rw [rep_coeff])

/-- `middle_product_3_primes`, `mat_lzz_pX_multiply_3_primes.cpp` lines 333-352, with
    `middle_product_evaluate_FFT` modulo each prime. -/
noncomputable def mid3 {q : Nat → Nat} [∀ i, Fact (q i).Prime] (T : ∀ i, FFT (ZMod (q i))) {p : Nat} (a c : PMat (ZMod p)[X])
    (dA dB : Nat) : Option (PMat (ZMod p)[X]) :=
  (threePrimes (fun i x y => (midFFT (T i) (ofRep (q i) x) (ofRep (q i) y) dA dB).map rep) p q dA dB (rep a) (rep c)).map (ofRep p)

theorem midX_le {p : Nat} [NeZero p] (a c : PMat (ZMod p)[X]) (dA dB i j k : Nat) :
    midX a c dA dB i j k ≤ a.cols * ((dA + 1) * ((p - 1) * (p - 1))) := by
  have hv : ∀ x : ZMod p, x.val ≤ p - 1 := fun x => by have := ZMod.val_lt x; omega
  unfold midX
  split_ifs
  · refine (Finset.sum_le_sum fun l _ => Finset.sum_le_sum fun r _ => Nat.mul_le_mul (hv _) (hv _)).trans (le_of_eq ?_)
    simp only [Finset.sum_const, Finset.card_range, smul_eq_mul]
  · exact Nat.zero_le _

theorem midX_cast {p : Nat} [NeZero p] (a c : PMat (ZMod p)[X]) (dA dB i j k : Nat) :
    (midX a c dA dB i j k : ZMod p) = if k ≤ dB then ∑ l ∈ Finset.range a.cols, ∑ r ∈ Finset.range (dA + 1),
      (a.e (i, l)).coeff (dA - r) * (c.e (l, j)).coeff (r + k) else 0 := by
  unfold midX
  split_ifs
  · simp only [Nat.cast_sum, Nat.cast_mul, ZMod.natCast_val, ZMod.cast_id', id_eq]
  · rw [Nat.cast_zero]

/-- **C69 (three primes)**. `middle_product_3_primes` returns the middle product if `dA ≤ dB`.  Missing: the
    case `dA > dB`, where the number of primes is computed from `min(dA, dB) + 1`, although `dA + 1`
    products are added. -/
theorem C69_three_primes_partial {p : Nat} [Fact (1 < p)] {q : Nat → Nat} [∀ i, Fact (q i).Prime]
    (hq : ∀ i j, i < 3 → j < 3 → i ≠ j → q i ≠ q j) (T : ∀ i, FFT (ZMod (q i))) (a c : PMat (ZMod p)[X]) (dA dB : Nat)
    (hd : dA ≤ dB) (hac : a.cols = c.rows) (h0 : 0 < a.cols) (ha : deg a ≤ dA) (hc : deg c ≤ dA + dB)
    (hT : ∀ i, i < 3 → FFTOk (T i) (midK dA dB)) (hnb : (nbPrimes p q a.cols dA dB).isSome) :
    ∃ b, mid3 T a c dA dB = some b ∧ IsMiddle a c dA dB b := by
  have hp : 1 < p := Fact.out
  have : NeZero p := ⟨by omega⟩
  obtain ⟨nb, hnb⟩ := Option.isSome_iff_exists.1 hnb
  have h3 := (nbPrimes_spec hnb ⟨by omega, by omega⟩ (by omega : 0 < p)).1
  obtain ⟨b, e, hb⟩ := threePrimes_spec (p := p) (m := a.rows) (u := c.cols) (a := rep a) (b := rep c) (x := midX a c dA dB)
    (f := fun i x y => (midFFT (T i) (ofRep (q i) x) (ofRep (q i) y) dA dB).map rep)
    ⟨fun i _ => Fact.out, hq⟩ (by omega : 0 < p) ⟨by omega, by omega⟩ hnb (fun i j k _ _ => by
      have h1 := midX_le a c dA dB i j k
      have h2 : min ((dA : Int) + 1) (dB + 1) = (dA + 1 : Nat) := by push_cast; omega
      have h4 : ((p : Int) - 1) = (p - 1 : Nat) := by omega
      rw [h2, h4, show (rep a).cols = a.cols from rfl]
      have : (midX a c dA dB i j k : Int) ≤ (a.cols * ((dA + 1) * ((p - 1) * (p - 1))) : Nat) := by exact_mod_cast h1
      refine this.trans (le_of_eq ?_)
      simp only [Nat.cast_mul]
      ring) (fun i hi => mid_img (T i) a c dA dB (hT i (by omega)) hac h0 ha hc)
  refine ⟨ofRep p b, by unfold mid3; rw [e]; rfl, ?_⟩
  rw [isMiddle_iff]
  refine ⟨hb.rows, hb.cols, fun i j hi hj k => ?_⟩
  rw [ofRep_coeff, hb.val i j k hi hj, ZMod.natCast_mod, midX_cast]

/-- **C69 (three primes, negation)**. For `dA > dB`, too few primes are used.  If `(p-1)^2` is less than the
    first FFT prime `q` but `n (p-1)^2` is not, the middle product of `(p-1)(1 + x + .. + x^(n-1))` by itself
    with `dA = n - 1`, `dB = 0` is wrong. -/
theorem C69_three_primes_wrong {p : Nat} [Fact p.Prime] {q : Nat → Nat} [∀ i, Fact (q i).Prime] (T : ∀ i, FFT (ZMod (q i)))
    (n : Nat) (hT : FFTOk (T 0) (midK (n - 1) 0)) (hpq : p ≠ q 0) (h1 : (p - 1) * (p - 1) < q 0) (h2 : q 0 ≤ n * ((p - 1) * (p - 1)))
    (h3 : n * ((p - 1) * (p - 1)) < 2 * q 0) :
    ∃ a c b : PMat (ZMod p)[X], a.rows = 1 ∧ a.cols = 1 ∧ c.rows = 1 ∧ c.cols = 1 ∧ deg a ≤ (n - 1 : Nat) ∧ deg c ≤ (n - 1 : Nat) + (0 : Nat) ∧
      mid3 T a c (n - 1) 0 = some b ∧ ¬ IsMiddle a c (n - 1) 0 b := by
  have hp : 1 < p := (Fact.out : p.Prime).one_lt
  have : NeZero p := ⟨by omega⟩
  have hn : 0 < n := by
    rcases Nat.eq_zero_or_pos n with rfl | h
    · have := (Fact.out : (q 0).Prime).pos; omega
    · exact h
  set f : (ZMod p)[X] := ofCoeffs n fun _ => ((p - 1 : Nat) : ZMod p) with hf
  have hfc : ∀ k, (f.coeff k).val = if k < n then p - 1 else 0 := fun k => by
    rw [hf, ofCoeffs_coeff]
    split_ifs
    · exact ZMod.val_cast_of_lt (by omega)
    · exact ZMod.val_zero
  set a : PMat (ZMod p)[X] := ⟨1, 1, fun _ => f⟩ with ha
  have hda : deg a < n := (deg_lt_iff _ _).2 fun i j _ _ k hk => by
    show f.coeff k = 0
    rw [hf, ofCoeffs_coeff, if_neg (by omega)]
  have hx : midX a a (n - 1) 0 0 0 0 = n * ((p - 1) * (p - 1)) := by
    unfold midX
    rw [if_pos (le_refl _), show a.cols = 1 from rfl, Finset.sum_range_one, Nat.sub_add_cancel hn]
    rw [Finset.sum_congr rfl fun r hr => show _ = (p - 1) * (p - 1) by
      have hr := Finset.mem_range.1 hr
      show (f.coeff _).val * (f.coeff _).val = _
      rw [hfc, hfc, if_pos (by omega), if_pos (by omega)], Finset.sum_const, Finset.card_range, smul_eq_mul]
  obtain ⟨z, e, hz⟩ := mid_img (T 0) a a (n - 1) 0 hT rfl (show 0 < 1 by omega) (by omega) (by omega)
  have hnb : nbPrimes p q (rep a).cols (n - 1 : Nat) (0 : Nat) = some 1 := by
    unfold nbPrimes
    dsimp only
    rw [if_pos]
    have h4 : ((p : Int) - 1) = (p - 1 : Nat) := by omega
    have h5 : min (((n - 1 : Nat) : Int) + 1) (((0 : Nat) : Int) + 1) = 1 := by omega
    rw [h4, h5, show (rep a).cols = 1 from rfl, Nat.cast_one, one_mul, one_mul]
    exact_mod_cast h1
  refine ⟨a, a, ofRep p (reduce p z), rfl, rfl, rfl, rfl, by omega, by omega, ?_, fun h => ?_⟩
  · unfold mid3 threePrimes
    rw [hnb, Option.bind_some, if_pos rfl, e]
    rfl
  · rw [isMiddle_iff] at h
    have h := h.2.2 0 0 (show 0 < 1 by omega) (show 0 < 1 by omega) 0
    rw [← midX_cast a a (n - 1) 0 0 0 0, hx, ofRep_coeff, reduce_coeff p z 0 0 0 (by rw [hz.rows]; exact Nat.one_pos) (by rw [hz.cols]; exact Nat.one_pos),
      ZMod.natCast_mod] at h
    have hm := hz.mod 0 0 0 Nat.one_pos Nat.one_pos
    have hl := hz.lt 0 0 0 Nat.one_pos Nat.one_pos
    rw [hx] at hm
    have hv : (z.e (0, 0)).coeff 0 + q 0 = n * ((p - 1) * (p - 1)) := by
      have e1 : (n * ((p - 1) * (p - 1)) - q 0) ≡ n * ((p - 1) * (p - 1)) [MOD q 0] := by
        conv_rhs => rw [← Nat.sub_add_cancel h2]
        exact (Nat.ModEq.symm (by rw [Nat.ModEq, Nat.add_mod_right]))
      have := Nat.ModEq.eq_of_lt_of_lt (hm.trans e1.symm) hl (by omega)
      omega
    rw [← hv, Nat.cast_add, left_eq_add, ZMod.natCast_eq_zero_iff] at h
    exact hpq ((Nat.prime_dvd_prime_iff_eq Fact.out Fact.out).1 h)

end Primes

/-! ### The general function -/

section General

open PML.Ntl.Three

variable {p : Nat} [Fact p.Prime]

/-- **C69 (choice of a method, new version)**: `middle_product_evaluate_FFT_new`. -/
theorem C69_fft_new (hpr : p < 2 ^ 60) (T : FFT (ZMod p)) {inv : Nat → (Nat × Nat → ZMod p) → Option (Nat × Nat → ZMod p)}
    (hinv : InvOk inv) (a c : PMat (ZMod p)[X]) (dA dB : Nat) (hT : FFTOk T (midK dA dB)) (hp : dA + dB < p) (hac : a.cols = c.rows)
    (h0 : 2 ≤ a.cols) (hm : 0 < a.rows) (ha : deg a ≤ dA) (hc : deg c ≤ dA + dB) :
    ∃ b, midFFTNew T inv a c dA dB = some b ∧ IsMiddle a c dA dB b := by
  have h1 := C69_fft_direct T a c dA dB hT hac (by omega) ha hc
  have h2 := C69_fft_ll hpr T a c dA dB hT hac (by omega) hm ha hc
  have h3 := C69_dense hinv a c dA dB hac ha hc (fun r r' hr hr' => cast_inj_lt (by omega) (by omega))
  have h4 := C69_fft_matmul1 T a c dA dB hT hac ha hc
  have h5 := C69_fft_matmul2 T a c dA dB hT hac ha hc
  have h6 := C69_fft_matmul3 T a c dA dB hT hac h0 ha hc
  let P : Option (PMat (ZMod p)[X]) → Prop := fun o => ∃ b, o = some b ∧ IsMiddle a c dA dB b
  show P _
  unfold midFFTNew
  dsimp only
  exact pick (fun _ => pick (fun _ => h1) fun _ => pick (fun _ => h2) fun _ => pick (fun _ => h3) fun _ =>
    pick (fun _ => pick (fun _ => h5) fun _ => h3) fun _ => pick (fun _ => h4) fun _ => h3)
    fun _ => pick (fun _ => h1) fun _ => pick (fun _ => h2) fun _ => pick (fun _ => h4) fun _ => h6

/-- **C69 (transposed product, with the points of this library)**: `t_multiply_evaluate_geometric`, when
    `get_geometric_points` finds an element of order at least `2(dA + dB + 1)`. -/
theorem C69_t_multiply_geometric (rnd : Nat → ZMod p) (a c : PMat (ZMod p)[X]) (dA dB nb : Nat) (r : ZMod p) (hr : r ≠ 0)
    (h : Order.elementOfOrder rnd (2 * (dA + dB + 1)) nb true = some r) {mp} (hmp : Geom.MidOK mp (dA + dB + 1)) (feasible flags : Bool)
    (hac : a.cols = c.rows) (ha : deg a ≤ dA) (hc : deg c ≤ dA + dB) :
    ∃ o₀ o b, Geom.construct feasible flags r 1 (dA + dB + 1) = some o₀ ∧ Geom.calls o₀ [.prepare dA, .prepare dB] = some o ∧
      tGeometric (dA + dB + 1) (Geom.evaluate mp o) (Geom.tInterpolate o) (fun v n => Geom.tEvaluate mp false o v (some n)) a c dA dB = some b ∧
      IsTMul a c dA dB b := by
  obtain ⟨o₀, o, h1, h2, h3⟩ := Order.C63_get_geometric_points rnd (dA + dB + 1) nb (by omega) r hr h hmp feasible flags [.prepare dA, .prepare dB]
    (by
      intro d hd
      simp only [List.mem_cons, Geom.Call.prepare.injEq, List.not_mem_nil, or_false] at hd
      omega)
  obtain ⟨b, e, hb⟩ := C69_t_multiply a c dA dB h3 hac ha hc
  exact ⟨o₀, o, b, h1, h2, e, hb⟩

/-- The functions called by `middle_product`. -/
noncomputable def midStd (degNaive degEv : Nat → Int) (fftReady : Nat → Bool) (cbrt : Nat → Nat)
    (mp : (ZMod p)[X] → (ZMod p)[X] → Int → Nat → Option (ZMod p)[X]) (T0 : FFT (ZMod p))
    (inv : Nat → (Nat × Nat → ZMod p) → Option (Nat × Nat → ZMod p)) {q : Nat → Nat} [∀ i, Fact (q i).Prime] (T : ∀ i, FFT (ZMod (q i))) :
    Mid (ZMod p) :=
  ⟨p, degNaive, degEv, fftReady, cbrt, mp, negFail (midFFT T0), negFail (midDense inv), negFail (mid3 T)⟩

theorem midBase_spec (degNaive degEv : Nat → Int) (fftReady : Nat → Bool) (cbrt : Nat → Nat)
    {mp : (ZMod p)[X] → (ZMod p)[X] → Int → Nat → Option (ZMod p)[X]} (T0 : FFT (ZMod p))
    (hT0 : ∀ K, fftReady K = true → FFTOk T0 K)
    {inv : Nat → (Nat × Nat → ZMod p) → Option (Nat × Nat → ZMod p)} (hinv : InvOk inv) {q : Nat → Nat} [∀ i, Fact (q i).Prime]
    (hq : ∀ i j, i < 3 → j < 3 → i ≠ j → q i ≠ q j) (T : ∀ i, FFT (ZMod (q i)))
    (isPrime : Bool) (a c : PMat (ZMod p)[X]) (dA dB : Nat) (hmp : MpOk mp dA dB) (hd : dA ≤ dB) (hac : a.cols = c.rows)
    (h0 : 0 < a.cols) (ha : deg a ≤ dA) (hc : deg c ≤ dA + dB) (hT : ∀ i, i < 3 → FFTOk (T i) (midK dA dB))
    (hnb : (nbPrimes p q a.cols dA dB).isSome) :
    ∃ b, midBase (midStd degNaive degEv fftReady cbrt mp T0 inv T) isPrime a c dA dB = some b ∧ IsMiddle a c dA dB b := by
  have : Fact (1 < p) := ⟨(Fact.out : p.Prime).one_lt⟩
  have e : ((dA : Int) + dB + 1).toNat = dA + dB + 1 := by omega
  unfold midBase midStd negFail
  dsimp only
  simp only [Int.toNat_natCast, if_neg (show ¬ (dA : Int) < 0 by omega), e]
  split_ifs with h1 h2 h3
  · exact C69_naive a c dA dB hmp hac h0
  · exact C69_fft T0 a c dA dB (hT0 _ h2) hac h0 ha hc
  · exact C69_dense hinv a c dA dB hac ha hc (fun r r' hr hr' => cast_inj_lt (by omega) (by omega))
  · exact C69_three_primes_partial hq T a c dA dB hd hac h0 ha hc hT hnb

/-- **C69 (general middle product)**: `middle_product`, for a nonzero matrix `a` and `dA ≤ dB`, under the
    bounds on the degrees of the methods it calls.  Missing, because false: the zero matrix
    (`C69_zero_matrix_fails`), degrees larger than the bounds (`C69_degree_a_wrong`, `C69_degree_c_wrong`),
    and `deg a > dB` in `middle_product_3_primes` (`C69_three_primes_wrong`). -/
theorem C69_middle_product_partial (degNaive degEv : Nat → Int) (fftReady : Nat → Bool) (cbrt : Nat → Nat)
    {mp : (ZMod p)[X] → (ZMod p)[X] → Int → Nat → Option (ZMod p)[X]} (T0 : FFT (ZMod p))
    (hT0 : ∀ K, fftReady K = true → FFTOk T0 K)
    {inv : Nat → (Nat × Nat → ZMod p) → Option (Nat × Nat → ZMod p)} (hinv : InvOk inv) {q : Nat → Nat} [∀ i, Fact (q i).Prime]
    (hq : ∀ i j, i < 3 → j < 3 → i ≠ j → q i ≠ q j) (T : ∀ i, FFT (ZMod (q i)))
    (isPrime : Bool) (a c : PMat (ZMod p)[X]) (dA dB : Nat) (hmp : ∀ d, d ≤ dA → MpOk mp d dB) (hd : deg a ≤ dB) (hac : a.cols = c.rows)
    (h0 : 0 < a.cols) (ha0 : 0 ≤ deg a) (ha : deg a ≤ dA) (hc : deg c ≤ dA + dB)
    (hT : ∀ i, i < 3 → ∀ K, K ≤ midK dA dB → FFTOk (T i) K) (hnb : ∀ d : Nat, d ≤ dA → (nbPrimes p q a.cols d dB).isSome) :
    ∃ b, middleProduct (midStd degNaive degEv fftReady cbrt mp T0 inv T) isPrime a c dA dB = some b ∧ IsMiddle a c dA dB b := by
  unfold middleProduct
  split_ifs with h1
  · obtain ⟨d, hd1⟩ : ∃ d : Nat, deg a = d := ⟨(deg a).toNat, by omega⟩
    rw [hd1]
    obtain ⟨-, e3⟩ := C65_shift false ⟨0, 0, fun _ => 0⟩ c ((dA : Int) - d)
    obtain ⟨b, e, hb⟩ := midBase_spec degNaive degEv fftReady cbrt T0 hT0 hinv hq T isPrime a
      (rightShift false ⟨0, 0, fun _ => 0⟩ c ((dA : Int) - d)) d dB (hmp d (by omega)) (by omega) (by rw [e3.1]; exact hac) h0 (by omega)
      (deg_shift c dA dB d (by omega) hc) (fun i hi => hT i hi _ (Nat.clog_mono_right 2 (by omega))) (hnb d (by omega))
    exact ⟨b, e, shift_middle a c b dA dB d hac (by omega) (by omega) hb⟩
  · exact midBase_spec degNaive degEv fftReady cbrt T0 hT0 hinv hq T isPrime a c dA dB (hmp dA (le_refl _)) (by omega) hac h0 ha hc
      (fun i hi => hT i hi _ (le_refl _)) (hnb dA (le_refl _))

/-- **C69 (zero matrix)**. If `a` is the zero matrix and `dB` is not below the threshold of the naive
    algorithm, the recursive call has `dA = -1`: every other method then accesses coefficients out of range. -/
theorem C69_zero_matrix_fails (degNaive degEv : Nat → Int) (fftReady : Nat → Bool) (cbrt : Nat → Nat)
    (mp : (ZMod p)[X] → (ZMod p)[X] → Int → Nat → Option (ZMod p)[X]) (T0 : FFT (ZMod p))
    (inv : Nat → (Nat × Nat → ZMod p) → Option (Nat × Nat → ZMod p)) {q : Nat → Nat} [∀ i, Fact (q i).Prime] (T : ∀ i, FFT (ZMod (q i)))
    (isPrime : Bool) (a c : PMat (ZMod p)[X]) (dA dB : Nat) (ha : deg a < 0) (hdeg : degNaive (cbrt (a.rows * a.cols * c.cols)) ≤ dB) :
    middleProduct (midStd degNaive degEv fftReady cbrt mp T0 inv T) isPrime a c dA dB = none := by
  have h1 : deg a = -1 := by have := (deg_spec a).1; omega
  obtain ⟨-, e3⟩ := C65_shift false ⟨0, 0, fun _ => 0⟩ c ((dA : Int) - -1)
  unfold middleProduct
  rw [if_pos (by omega), h1]
  unfold midBase midStd negFail
  dsimp only
  rw [e3.2.1, if_neg (by omega)]
  simp only [show (-1 : Int) < 0 by omega, if_true, ite_self]

theorem mono_eval {T : FFT (ZMod p)} {K : Nat} (hT : FFTOk T K) (r n : Nat) (hr : r < 2 ^ K) :
    (T.pt K r) ^ (2 ^ K + n) = (T.pt K r) ^ n := by rw [pow_add, hT.root r hr, one_mul]

/-- What the FFT returns for `1 x 1` matrices `x^s` and `x^t` with `s + t = 2^K + dA`. -/
theorem fft_wrap (T : FFT (ZMod p)) (dA dB s t : Nat) (hT : FFTOk T (midK dA dB)) (h : s + t = 2 ^ midK dA dB + dA) :
    ∃ b, midFFT T ⟨1, 1, fun _ => X ^ s⟩ ⟨1, 1, fun _ => X ^ t⟩ dA dB = some b ∧ (b.e (0, 0)).coeff 0 = 1 := by
  have hcube : midFFT T ⟨1, 1, fun _ => X ^ s⟩ ⟨1, 1, fun _ => X ^ t⟩ dA dB = midDirect T ⟨1, 1, fun _ => X ^ s⟩ ⟨1, 1, fun _ => X ^ t⟩ dA dB := by
    unfold midFFT
    dsimp only
    rw [if_pos (by split_ifs <;> decide)]
  obtain ⟨b, e, -, -, hb⟩ := fftDirect_spec (T.pt (midK dA dB)) (2 ^ midK dA dB) dA (dB + 1)
    (⟨1, 1, fun _ => X ^ s⟩ : PMat (ZMod p)[X]) ⟨1, 1, fun _ => X ^ t⟩ rfl (show 0 < 1 by omega)
  refine ⟨b, hcube.trans e, ?_⟩
  obtain ⟨v, hv, hb⟩ := hb 0 0 (show 0 < 1 by omega) (show 0 < 1 by omega)
  have hN : dA + dB + 1 ≤ 2 ^ midK dA dB := le_nextPow2 _
  rw [hb, fromEval_eq _ _ dA (dB + 1) hT.inj v (X ^ dA) (fun k hk => by rw [coeff_X_pow, if_neg (by omega)]) (fun r hr => by
    rw [hv r hr, Finset.sum_range_one, eval_pow, eval_pow, eval_pow, eval_X, ← pow_add, h, mono_eval hT r dA hr]), slice_coeff,
    if_pos (by omega), Nat.add_zero, coeff_X_pow, if_pos rfl]

theorem deg_mono (s : Nat) : deg (⟨1, 1, fun _ => X ^ s⟩ : PMat (ZMod p)[X]) = s := by
  obtain ⟨h1, h2, h3⟩ := deg_spec (⟨1, 1, fun _ => X ^ s⟩ : PMat (ZMod p)[X])
  have e : pdeg (X ^ s : (ZMod p)[X]) = s := by
    have : (X ^ s : (ZMod p)[X]).degree ≠ ⊥ := by rw [degree_X_pow]; exact WithBot.coe_ne_bot
    unfold pdeg
    rw [if_neg this, natDegree_X_pow]
  have := h2 0 0 (show 0 < 1 by omega) (show 0 < 1 by omega)
  rcases h3 with h | ⟨i, j, -, -, h⟩
  · dsimp only at this; rw [e] at this; omega
  · rw [h]; exact e

/-- **C69 (degree of `a`)**. The documentation of `middle_product` truncates `a`; the FFT does not: as soon
    as it is used for `dA`, `dB`, there is a `1 x 1` matrix `a` of larger degree for which the output is wrong. -/
theorem C69_degree_a_wrong (degNaive degEv : Nat → Int) (fftReady : Nat → Bool) (cbrt : Nat → Nat)
    (mp : (ZMod p)[X] → (ZMod p)[X] → Int → Nat → Option (ZMod p)[X]) (T0 : FFT (ZMod p))
    (hT0 : ∀ K, fftReady K = true → FFTOk T0 K)
    (inv : Nat → (Nat × Nat → ZMod p) → Option (Nat × Nat → ZMod p)) {q : Nat → Nat} [∀ i, Fact (q i).Prime] (T : ∀ i, FFT (ZMod (q i)))
    (isPrime : Bool) (dA dB : Nat) (hn : degNaive (cbrt 1) ≤ max (dA : Int) dB) (hr : fftReady (midK dA dB) = true) :
    ∃ a c b : PMat (ZMod p)[X], a.rows = 1 ∧ a.cols = 1 ∧ c.rows = 1 ∧ c.cols = 1 ∧ deg c ≤ dA + dB ∧
      middleProduct (midStd degNaive degEv fftReady cbrt mp T0 inv T) isPrime a c dA dB = some b ∧ ¬ IsMiddle a c dA dB b := by
  have hN : dA + dB + 1 ≤ 2 ^ midK dA dB := le_nextPow2 _
  obtain ⟨b, e, hb⟩ := fft_wrap T0 dA dB (2 ^ midK dA dB) dA (hT0 _ hr) rfl
  refine ⟨⟨1, 1, fun _ => X ^ 2 ^ midK dA dB⟩, ⟨1, 1, fun _ => X ^ dA⟩, b, rfl, rfl, rfl, rfl, by rw [deg_mono]; omega, ?_, fun h => ?_⟩
  · have e' : ((dA : Int) + dB + 1).toNat = dA + dB + 1 := by omega
    unfold middleProduct
    rw [if_neg (by rw [deg_mono]; push_cast; have : (dA : Int) ≤ (2 ^ midK dA dB : Nat) := by exact_mod_cast (by omega : dA ≤ 2 ^ midK dA dB)
                   push_cast at this; omega)]
    unfold midBase midStd negFail
    dsimp only
    rw [Nat.mul_one, Nat.mul_one, if_neg (by omega), e', if_pos (show fftReady (nextPow2 (dA + dB + 1)) = true from hr), if_neg (by omega), Int.toNat_natCast]
    exact e
  · have h := h.2.2 0 0 (show 0 < 1 by omega) (show 0 < 1 by omega) 0
    rw [hb, if_pos (Nat.zero_le _), Finset.sum_range_one] at h
    have : (X ^ 2 ^ midK dA dB : (ZMod p)[X]) %ₘ X ^ (dA + 1) = 0 := by
      ext k
      rw [coeff_mod_X_pow, coeff_X_pow, coeff_zero]
      split_ifs <;> first | rfl | omega
    dsimp only at h
    rw [this, zero_mul, coeff_zero] at h
    exact one_ne_zero h

/-- **C69 (degree of `c`)**. The same for a matrix `c` of degree more than `dA + dB`, with `deg a = dA`. -/
theorem C69_degree_c_wrong (degNaive degEv : Nat → Int) (fftReady : Nat → Bool) (cbrt : Nat → Nat)
    (mp : (ZMod p)[X] → (ZMod p)[X] → Int → Nat → Option (ZMod p)[X]) (T0 : FFT (ZMod p))
    (hT0 : ∀ K, fftReady K = true → FFTOk T0 K)
    (inv : Nat → (Nat × Nat → ZMod p) → Option (Nat × Nat → ZMod p)) {q : Nat → Nat} [∀ i, Fact (q i).Prime] (T : ∀ i, FFT (ZMod (q i)))
    (isPrime : Bool) (dA dB : Nat) (hn : degNaive (cbrt 1) ≤ max (dA : Int) dB) (hr : fftReady (midK dA dB) = true) :
    ∃ a c b : PMat (ZMod p)[X], a.rows = 1 ∧ a.cols = 1 ∧ c.rows = 1 ∧ c.cols = 1 ∧ deg a = dA ∧
      middleProduct (midStd degNaive degEv fftReady cbrt mp T0 inv T) isPrime a c dA dB = some b ∧ ¬ IsMiddle a c dA dB b := by
  have hN : dA + dB + 1 ≤ 2 ^ midK dA dB := le_nextPow2 _
  obtain ⟨b, e, hb⟩ := fft_wrap T0 dA dB dA (2 ^ midK dA dB) (hT0 _ hr) (Nat.add_comm _ _)
  refine ⟨⟨1, 1, fun _ => X ^ dA⟩, ⟨1, 1, fun _ => X ^ 2 ^ midK dA dB⟩, b, rfl, rfl, rfl, rfl, deg_mono _, ?_, fun h => ?_⟩
  · have e' : ((dA : Int) + dB + 1).toNat = dA + dB + 1 := by omega
    unfold middleProduct
    rw [if_neg (by rw [deg_mono]; omega)]
    unfold midBase midStd negFail
    dsimp only
    rw [Nat.mul_one, Nat.mul_one, if_neg (by omega), e', if_pos (show fftReady (nextPow2 (dA + dB + 1)) = true from hr), if_neg (by omega), Int.toNat_natCast]
    exact e
  · have h := h.2.2 0 0 (show 0 < 1 by omega) (show 0 < 1 by omega) 0
    rw [hb, if_pos (Nat.zero_le _), Finset.sum_range_one] at h
    dsimp only at h
    rw [mid_trunc _ dA fun k hk => by rw [coeff_X_pow, if_neg (by omega)], ← pow_add, coeff_X_pow, if_neg (by omega)] at h
    exact one_ne_zero h

/-! ### The hypotheses are met -/

/-- The middle product of polynomials of this library (C56), extended to negative `dA`: only zero polynomials
    are then accepted. -/
noncomputable def mpStd (red : Nat → ZMod p) (cross : Nat) (a c : (ZMod p)[X]) (dA : Int) (dB : Nat) : Option (ZMod p)[X] :=
  open Classical in
  if dA < 0 then if a = 0 ∨ c = 0 then some 0 else none else Middle.middleProduct red cross a c dA.toNat dB

/-- The assumption on the middle product of polynomials is C56. -/
theorem mpStd_ok {red : Nat → ZMod p} (hred : Middle.RedOK red) (cross dA dB : Nat)
    (hsafe : Middle.useLong p = false ∨ (dA + 1) * (p - 1) ^ 2 < Middle.SP_BOUND ∨ (cross < dA ∧ cross < dB)) :
    MpOk (mpStd red cross) dA dB where
  val a c h := by
    have : Fact (1 < p) := ⟨(Fact.out : p.Prime).one_lt⟩
    unfold mpStd
    rw [if_neg (by omega), Int.toNat_natCast]
    exact Middle.C56_middle_product_partial hred cross a c dA dB hsafe
  zero c := by
    unfold mpStd
    rw [if_neg (by omega)]
    unfold Middle.middleProduct
    rw [if_pos (Or.inr rfl)]

end General

/-- Three small primes that are 1 modulo 4. -/
def q17 : Nat → Nat := fun i => if i = 0 then 17 else if i = 1 then 13 else 5

instance (i : Nat) : Fact (q17 i).Prime := ⟨by unfold q17; split_ifs <;> norm_num⟩

/-- Powers of a square root of -1. -/
def fft17 (i : Nat) : FFT (ZMod (q17 i)) :=
  ⟨fun K r => ((if i = 0 then 4 else if i = 1 then 5 else 2 : Nat) : ZMod (q17 i)) ^ (r * 2 ^ (2 - K)), fun n _ => n⟩

theorem fft17_ok (i : Nat) (hi : i < 3) (K : Nat) (hK : K ≤ 2) : FFTOk (fft17 i) K := by
  have h1 : ∀ i < 3, ∀ K ≤ 2, ∀ r < 2 ^ K, ∀ r' < 2 ^ K, (fft17 i).pt K r = (fft17 i).pt K r' → r = r' := by
    intro i hi K hK
    have : K = 0 ∨ K = 1 ∨ K = 2 := by omega
    have : i = 0 ∨ i = 1 ∨ i = 2 := by omega
    rcases this with rfl | rfl | rfl <;> rcases ‹K = 0 ∨ K = 1 ∨ K = 2› with rfl | rfl | rfl <;> decide
  have h2 : ∀ i < 3, ∀ K ≤ 2, ∀ r < 2 ^ K, (fft17 i).pt K r ^ 2 ^ K = 1 := by
    intro i hi K hK
    have : K = 0 ∨ K = 1 ∨ K = 2 := by omega
    have : i = 0 ∨ i = 1 ∨ i = 2 := by omega
    rcases this with rfl | rfl | rfl <;> rcases ‹K = 0 ∨ K = 1 ∨ K = 2› with rfl | rfl | rfl <;> decide
  exact ⟨fun r r' a b => h1 i hi K hK r a r' b, h2 i hi K hK, fun n hn => ⟨le_refl _, hn⟩⟩

/-- The hypotheses of `C69_middle_product_partial`, hence of the functions it calls, hold for a `2 x 2` matrix of
    degree 1 modulo 5, `dA = dB = 1`, with a naive threshold of 0; without FFT modulo 5 all three primes are used. -/
example (ready : Bool) : ∃ inv b, InvOk (F := ZMod 5) inv ∧ Three.nbPrimes 5 q17 2 1 1 = some 2 ∧
    middleProduct (midStd (fun _ => 0) (fun _ => 0) (fun K => ready && decide (K ≤ 2)) (fun n => n) (mpStd (fun n => n) 10) fft5 inv fft17)
      true ex5 ex5 1 1 = some b ∧ IsMiddle ex5 ex5 1 1 b := by
  obtain ⟨inv, h⟩ := invOk_exists (F := ZMod 5)
  obtain ⟨b, e, hb⟩ := C69_middle_product_partial (p := 5) (fun _ => 0) (fun _ => 0) (fun K => ready && decide (K ≤ 2)) (fun n => n) fft5
    (mp := mpStd (fun n => n) 10)
    (fun K hK => fft5_ok K (by simp at hK; exact hK.2)) h (q := q17) (by
      intro i j hi hj hij
      unfold q17
      split_ifs <;> omega) fft17 true ex5 ex5 1 1
    (fun d hd => mpStd_ok (fun _ _ => rfl) 10 d 1 (Or.inr (Or.inl (by unfold Middle.SP_BOUND; omega)))) (by rw [ex5_deg]; decide) rfl (by decide)
    (by rw [ex5_deg]; decide) (by rw [ex5_deg]; decide) (by rw [ex5_deg]; decide) (fun i hi K hK => fft17_ok i hi K (hK.trans (by decide)))
    (fun d hd => by
      have : d = 0 ∨ d = 1 := by omega
      rcases this with rfl | rfl <;> decide)
  exact ⟨inv, b, h, by decide, e, hb⟩

/-- Those of `C69_three_primes_wrong`: `p = 5`, first prime 17, `n = 2`. -/
example : ∃ a c b : PMat (ZMod 5)[X], deg a ≤ 1 ∧ deg c ≤ 1 ∧ mid3 fft17 a c 1 0 = some b ∧ ¬ IsMiddle a c 1 0 b := by
  obtain ⟨a, c, b, -, -, -, -, h1, h2, h3, h4⟩ := C69_three_primes_wrong (p := 5) fft17 2 (fft17_ok 0 (by omega) _ (by decide)) (by decide) (by decide)
    (by decide) (by decide)
  exact ⟨a, c, b, h1, h2, h3, h4⟩

/-- The sizes in `C69_three_primes_wrong` are usual: a modulus of 30 bits, a prime of 60 bits and `n = 2`. -/
example : (1073741789 - 1) * (1073741789 - 1) < 1152921504606846883 ∧ 1152921504606846883 ≤ 2 * ((1073741789 - 1) * (1073741789 - 1)) ∧
    2 * ((1073741789 - 1) * (1073741789 - 1)) < 2 * 1152921504606846883 := by omega

/-- The hypotheses of the theorems on degrees: an FFT of size 4 modulo 5. -/
example (inv : Nat → (Nat × Nat → ZMod 5) → Option (Nat × Nat → ZMod 5)) : ∃ a c b : PMat (ZMod 5)[X], deg c ≤ 2 ∧
    middleProduct (midStd (fun _ => 1) (fun _ => 0) (fun K => decide (K ≤ 2)) (fun n => n) (mpStd (fun n => n) 10) fft5 inv fft17)
      true a c 1 1 = some b ∧ ¬ IsMiddle a c 1 1 b := by
  obtain ⟨a, c, b, -, -, -, -, h1, h2, h3⟩ := C69_degree_a_wrong (fun _ => 1) (fun _ => 0) (fun K => decide (K ≤ 2)) (fun n => n)
    (mpStd (fun n => n) 10) fft5 (fun K hK => fft5_ok K (by simpa using hK)) inv fft17 true 1 1 (by decide) (by decide)
  exact ⟨a, c, b, h1, h2, h3⟩

instance : Fact (Nat.Prime 7) := ⟨by norm_num⟩

/-- Those of `C69_t_multiply_geometric`: 3 has order 6 modulo 7. -/
example : ∃ mp, Geom.MidOK (K := ZMod 7) mp (1 + 1 + 1) ∧ Order.elementOfOrder (m := 7) (fun _ => 3) (2 * (1 + 1 + 1)) 1 true = some 3 ∧
    ∃ a c : PMat (ZMod 7)[X], a.rows = 1 ∧ c.cols = 1 ∧ a.cols = c.rows ∧ deg a ≤ (1 : Nat) ∧ deg c ≤ (1 : Nat) + (1 : Nat) := by
  obtain ⟨mp, h⟩ := Geom.exists_midOK (K := ZMod 7) (1 + 1 + 1)
  exact ⟨mp, h, by decide, ⟨1, 1, fun _ => X ^ 1⟩, ⟨1, 1, fun _ => X ^ 1⟩, rfl, rfl, rfl, by rw [deg_mono], by rw [deg_mono]; decide⟩

end PML.Ntl.MatMid
