import Verif.Ntl.LMulSpec
import Verif.Ntl.MatEvalProps
import Verif.Ntl.ThreeProps

/-!
# C70: left multiplication with precomputation
-/

namespace PML.Ntl.LMul

open Polynomial PML.Ntl.Utils PML.Ntl.MatMul PML.Ntl.MatEval

section Field

variable {F : Type} [Field F]

theorem evalProd_gen {pt : Nat → F} {len : Nat} {a b c : PMat F[X]} (hab : a.cols = b.rows)
    (hinj : ∀ r r', r < len → r' < len → pt r = pt r' → r = r') (hlen : lenActual a b ≤ len)
    (h : EvalProd pt len 0 (lenActual a b) a b c) : IsProduct a b c := by
  obtain ⟨h1, h2, h3⟩ := h
  refine ⟨h1, h2, fun i j hi hj => ?_⟩
  obtain ⟨v, hv, hc⟩ := h3 i j hi hj
  rw [hc, fromEval_eq _ _ _ _ hinj v
    (∑ k ∈ Finset.range a.cols, a.e (i, k) * b.e (k, j)) (fun k hk => prod_coeff_len a b hab i j k hi hj (by omega))
    (fun r h4 => by rw [hv r h4, eval_finsetSum]; exact Finset.sum_congr rfl fun k _ => eval_mul.symm)]
  ext k
  rw [slice_coeff, Nat.zero_add]
  split_ifs with hk
  · rfl
  · exact (prod_coeff_len a b hab i j k hi hj (by omega)).symm

theorem cnt_le (a b : PMat F[X]) (dB : Nat) (hb : deg b ≤ dB) : lenActual a b ≤ (deg a + dB + 1).toNat := by
  unfold lenActual
  omega

theorem multiplyDirect_spec (T : FFT F) (a b : PMat F[X]) (dB : Nat) (hT : FFTOk T (nextPow2 (deg a + dB + 1).toNat))
    (hab : a.cols = b.rows) (h0 : 0 < a.cols) (hb : deg b ≤ dB) :
    ∃ c, (mkDirect T a dB).multiplyDirect T b = .ok c ∧ IsProduct a b c := by
  have hc := cnt_le a b dB hb
  have hN := le_nextPow2 (deg a + dB + 1).toNat
  have r1 := hT.round _ hN
  have r2 := hT.round _ (hc.trans hN)
  refine ⟨_, if_neg (by dsimp only [mkDirect]; omega), evalProd_gen hab (pt := T.pt (nextPow2 (deg a + dB + 1).toNat))
    (len := min (T.roundUp (lenActual a b) (nextPow2 (deg a + dB + 1).toNat))
      (T.roundUp (deg a + dB + 1).toNat (nextPow2 (deg a + dB + 1).toNat))) ?_ ?_ ⟨rfl, rfl, fun i j hi hj => ?_⟩⟩
  · exact fun r r' h1 h2 => hT.inj r r' (by omega) (by omega)
  · omega
  · refine ⟨_, fun r hr => ?_, loop2_at _ _ _ _ i j hi hj⟩
    rw [repDot_eq]
    · exact Finset.sum_congr rfl fun k _ => mul_comm _ _
    · exact h0

theorem multiplyLL_spec {pr : Nat} [Fact pr.Prime] (hpr : pr < 2 ^ 60) (T : FFT (ZMod pr)) (a b : PMat (ZMod pr)[X]) (dB : Nat)
    (hT : FFTReady T (nextPow2 (deg a + dB + 1).toNat)) (hab : a.cols = b.rows) (h0 : 0 < a.cols) (hu : 0 < b.cols) (hb : deg b ≤ dB) :
    ∃ c, (mkDirect T a dB).multiplyLL T b = .ok c ∧ IsProduct a b c := by
  have hp := (Fact.out : pr.Prime).pos
  have : NeZero pr := ⟨by omega⟩
  have hc := cnt_le a b dB hb
  have hN := le_nextPow2 (deg a + dB + 1).toNat
  have r1 := hT.ok.round _ hN
  have r2 := hT.ok.round _ (hc.trans hN)
  have r3 := hT.mono _ _ hc hN
  refine ⟨_, if_neg ?_, evalProd_gen hab (pt := T.pt (nextPow2 (deg a + dB + 1).toNat))
    (len := T.roundUp (lenActual a b) (nextPow2 (deg a + dB + 1).toNat)) ?_ ?_ ⟨rfl, rfl, fun i j hi hj => ?_⟩⟩
  · have e : T.roundUp ((mkDirect T a dB).cnt b) (mkDirect T a dB).K = T.roundUp (lenActual a b) (nextPow2 (deg a + dB + 1).toNat) := rfl
    rw [e]
    dsimp only [mkDirect]
    omega
  · exact fun r r' h1 h2 => hT.ok.inj r r' (by omega) (by omega)
  · omega
  · refine ⟨_, fun r hr => ?_, loop2_at _ _ _ _ i j hi hj⟩
    dsimp only [mkDirect]
    rw [llDot_eq pr a.cols _ hp (by omega) h0 (fun k _ => Nat.mul_le_mul
      (by have := ZMod.val_lt ((b.e (k, j)).eval (T.pt (nextPow2 (deg a + dB + 1).toNat) r)); omega)
      (by have := ZMod.val_lt ((a.e (i, k)).eval (T.pt (nextPow2 (deg a + dB + 1).toNat) r)); omega)),
      ZMod.natCast_mod, Nat.cast_sum]
    refine Finset.sum_congr rfl fun k _ => ?_
    rw [Nat.cast_mul, ZMod.natCast_zmod_val, ZMod.natCast_zmod_val, mul_comm]

/-- **C70 (FFT, direct)**. The object built by `mat_lzz_pX_lmultiplier_FFT_direct(a, dB)` multiplies `a` by
    every matrix of degree at most `dB`, by both methods, and reports a larger degree. -/
theorem C70_fft_direct {pr : Nat} [Fact pr.Prime] (hpr : pr < 2 ^ 60) (T : FFT (ZMod pr)) (a : PMat (ZMod pr)[X]) (dB : Nat)
    (hT : FFTReady T (nextPow2 (deg a + dB + 1).toNat)) (h0 : 0 < a.cols) :
    Multiplies a dB ((mkDirect T a dB).multiply T) ∧ Rejects a dB ((mkDirect T a dB).multiply T) := by
  refine ⟨fun b hab hb => ?_, fun b _ hb => if_pos hb⟩
  let P : Res (PMat (ZMod pr)[X]) → Prop := fun o => ∃ c, o = .ok c ∧ IsProduct a b c
  have h1 : P _ := multiplyDirect_spec T a b dB hT.ok hab h0 hb
  have h2 : ¬a.rows * a.cols * b.cols < 4 * 4 * 4 → P _ := fun h => multiplyLL_spec hpr T a b dB hT hab h0
    (Nat.pos_of_ne_zero fun h' => h (by rw [h', Nat.mul_zero]; decide)) hb
  show P _
  unfold Direct.multiply
  rw [if_neg (by show ¬deg b > dB; omega)]
  have e : (mkDirect T a dB).s * (mkDirect T a dB).t * b.cols = a.rows * a.cols * b.cols := rfl
  dsimp only
  rw [e]
  exact pick (fun _ => pick (fun _ => h1) fun h => h2 fun h' => h (Or.inl h'))
    fun _ => pick (fun _ => h1) fun h => h2 fun h' => h (Or.inl h')

/-- **C70 (FFT, matrix multiplication)**. The object built by `mat_lzz_pX_lmultiplier_FFT_matmul(a, dB)`
    multiplies `a` by every matrix of degree at most `dB`, and reports a larger degree. -/
theorem C70_fft_matmul (T : FFT F) (a : PMat F[X]) (dB : Nat) (hT : FFTReady T (nextPow2 (deg a + dB + 1).toNat)) :
    Multiplies a dB ((mkMatmul T a dB).multiply T) ∧ Rejects a dB ((mkMatmul T a dB).multiply T) := by
  refine ⟨fun b hab hb => ?_, fun b _ hb => if_pos hb⟩
  have hc := cnt_le a b dB hb
  have hN := le_nextPow2 (deg a + dB + 1).toNat
  have r1 := hT.ok.round _ hN
  have r2 := hT.ok.round _ (hc.trans hN)
  have r3 := hT.mono _ _ hc hN
  have hva := blockV_fill MatEval.blockSize (by decide) (T.roundUp (deg a + dB + 1).toNat (nextPow2 (deg a + dB + 1).toNat)) a.rows a.cols
    (fun r i k => (a.e (i, k)).eval (T.pt (nextPow2 (deg a + dB + 1).toNat) r))
    (fun i k kk r => (a.e (i, k + kk)).eval (T.pt (nextPow2 (deg a + dB + 1).toNat) r)) (fun _ _ _ _ _ _ _ => rfl) (fun _ => 0)
  unfold mkMatmul
  dsimp only
  generalize forN a.rows _ (fun _ : Nat × Nat × Nat => (0 : F)) = va at hva ⊢
  unfold Matmul.multiply
  dsimp only
  rw [if_neg (by omega)]
  have e : T.roundUp (deg a + deg b + 1).toNat (nextPow2 (deg a + dB + 1).toNat) =
    T.roundUp (lenActual a b) (nextPow2 (deg a + dB + 1).toNat) := rfl
  rw [e, if_neg (by omega)]
  have hB := flat_fill cacheLine (by decide) (T.roundUp (lenActual a b) (nextPow2 (deg a + dB + 1).toNat)) a.cols b.cols
    (fun r i k => (b.e (i, k)).eval (T.pt (nextPow2 (deg a + dB + 1).toNat) r)) (fun _ => 0)
  generalize forN a.cols _ (fun _ : Nat => (0 : F)) = valB at hB ⊢
  refine ⟨_, rfl, evalProd_gen hab (pt := T.pt (nextPow2 (deg a + dB + 1).toNat))
    (len := T.roundUp (lenActual a b) (nextPow2 (deg a + dB + 1).toNat))
    (fun r r' h1 h2 => hT.ok.inj r r' (by omega) (by omega)) (by omega) ⟨rfl, rfl, fun i j hi hj => ?_⟩⟩
  refine ⟨_, fun r hr => ?_, loop2_at _ _ _ _ i j hi hj⟩
  refine (blockC_fill cacheLine MatEval.blockSize (by decide) (by decide) _ a.rows b.cols (fun r i j => cmul a.cols
    (fun x => va (r, x.1, x.2)) (fun x => valB (r * (a.cols * b.cols) + x.1 * b.cols + x.2)) (i, j))
    (fun j jj => cmul a.cols (fun x => va (j + jj, x.1, x.2))
      (fun x => valB ((j + jj) * (a.cols * b.cols) + x.1 * b.cols + x.2))) (fun _ _ _ _ _ _ _ => rfl) _ r i j hr hi hj).trans ?_
  unfold cmul
  refine Finset.sum_congr rfl fun k hk => ?_
  have hk := Finset.mem_range.1 hk
  dsimp only
  rw [hva r i k (by omega) hi hk, hB r k j hr hk hj]

theorem entries_fill (len s t : Nat) (w : Nat → Nat → Nat → F) (x : Nat × Nat × Nat → F) (r i k : Nat) (hr : r < len) (hi : i < s) (hk : k < t) :
    forN s (fun i => forN t fun k => forN len fun r => write (r, i, k) (w r i k)) x (r, i, k) = w r i k :=
  (Fills.forN (n := s) (v := fun x : Nat × Nat × Nat => w x.1 x.2.1 x.2.2) (fun i _ =>
    Fills.forN (n := t) fun k _ => Fills.forN (n := len) fun r _ => Fills.write (r, i, k) (w r i k) rfl) x (r, i, k)).1
      ⟨i, hi, k, hk, r, hr, rfl⟩

theorem entries_fill' (len s t : Nat) (w : Nat → Nat → Nat → F) (x : Nat × Nat × Nat → F) (r i k : Nat) (hr : r < len) (hi : i < s) (hk : k < t) :
    forN len (fun r => forN s fun i => forN t fun k => write (r, i, k) (w r i k)) x (r, i, k) = w r i k :=
  (Fills.forN (n := len) (v := fun x : Nat × Nat × Nat => w x.1 x.2.1 x.2.2) (fun r _ =>
    Fills.forN (n := s) fun i _ => Fills.forN (n := t) fun k _ => Fills.write (r, i, k) (w r i k) rfl) x (r, i, k)).1
      ⟨r, hr, i, hi, k, hk, rfl⟩

theorem natDegree_lt {P : F[X]} {n : Nat} (hn : 0 < n) (h : ∀ k, n ≤ k → P.coeff k = 0) : P.natDegree < n := by
  by_contra hc
  have h1 := h P.natDegree (by omega)
  have h2 := leadingCoeff_eq_zero.1 h1
  rw [h2, natDegree_zero] at hc
  omega

/-- **C70 (geometric points)**. For a nonzero matrix `a`: if there is a multipoint object of length
    `deg a + dB + 1`, the object built by `mat_lzz_pX_lmultiplier_geometric(a, dB)` multiplies `a` by every
    matrix of degree at most `dB`, and reports a larger degree. -/
theorem C70_geometric (a : PMat F[X]) (dB n : Nat) (ha : 0 ≤ deg a) (hn : (n : Int) = deg a + dB + 1)
    (ev : F[X] → Option (Nat → F)) (ip : (Nat → F) → Option F[X]) (h : PointsOk n ev ip) :
    ∃ o, mkGeometric n ev ip a dB = some o ∧ Multiplies a dB o.multiply ∧ Rejects a dB o.multiply := by
  obtain ⟨pt, hev, hip, hpt⟩ := h
  have hA : ∀ i k, i < a.rows → k < a.cols → ∃ v, ev (a.e (i, k)) = some v ∧ ∀ r, r < n → v r = (a.e (i, k)).eval (pt r) :=
    fun i k hi hk => hev _ (natDegree_lt (by omega) fun d hd => (deg_lt_iff a n).1 (by omega) i k hi hk d hd)
  unfold mkGeometric
  dsimp only
  rw [if_neg (by
    rintro ⟨i, k, hi, hk, h⟩
    obtain ⟨v, hv, -⟩ := hA i k hi hk
    rw [hv] at h; cases h)]
  refine ⟨_, rfl, fun b hab hb => ?_, fun b _ hb => if_pos hb⟩
  have fA := entries_fill n a.rows a.cols (fun r i k => ((ev (a.e (i, k))).getD fun _ => 0) r) (fun _ => 0)
  generalize forN a.rows _ (fun _ : Nat × Nat × Nat => (0 : F)) = va at fA ⊢
  have hB : ∀ i k, i < a.cols → k < b.cols → ∃ v, ev (b.e (i, k)) = some v ∧ ∀ r, r < n → v r = (b.e (i, k)).eval (pt r) :=
    fun i k hi hk => hev _ (natDegree_lt (by omega) fun d hd => (deg_lt_iff b n).1 (by omega) i k (by omega) hk d hd)
  unfold Geometric.multiply
  dsimp only
  rw [if_neg (by omega), if_neg (by omega), if_neg (by
    rintro ⟨i, k, hi, hk, h⟩
    obtain ⟨v, hv, -⟩ := hB i k hi hk
    rw [hv] at h; cases h), if_neg (by
    rintro ⟨i, k, -, -, h⟩
    obtain ⟨P, hP, -⟩ := hip (fun r => _)
    rw [hP] at h; cases h)]
  refine ⟨_, rfl, rfl, rfl, fun i j hi hj => ?_⟩
  have fB := fill3 n a.cols b.cols (fun i k => (ev (b.e (i, k))).getD fun _ => 0) (fun _ => 0)
  generalize forN a.cols _ (fun _ : Nat => (0 : F)) = valB at fB ⊢
  dsimp only
  refine (loop2_at _ _ (fun i k => (ip fun r => _).getD 0) _ i j hi hj).trans ?_
  obtain ⟨P, hP, hd, hPe⟩ := hip fun r => forN n (fun j => forN a.rows fun i => forN b.cols fun k => write (i * b.cols + k, j)
    (cmul a.cols (fun x => va (j, x.1, x.2)) (fun x => valB (j * (a.cols * b.cols) + x.1 * b.cols + x.2)) (i, k)))
    (fun _ => 0) (i * b.cols + j, r)
  rw [hP, Option.getD_some]
  refine eq_of_degrees_lt_of_eval_index_eq (s := Finset.range n) (v := pt)
    (fun x hx y hy h => hpt x y (by simpa using hx) (by simpa using hy) h) ?_ ?_ fun r hr => ?_
  · rw [Finset.card_range]
    exact (degree_lt_iff_coeff_zero _ _).2 fun k hk => coeff_eq_zero_of_natDegree_lt (by omega)
  · rw [Finset.card_range, degree_lt_iff_coeff_zero]
    intro k hk
    exact prod_coeff_zero a b hab (deg a).toNat dB (by omega) (by omega) i j k hi hj (by omega)
  · have hr := Finset.mem_range.1 hr
    rw [hPe r hr, fill2 n a.rows b.cols (fun j => cmul a.cols (fun x => va (j, x.1, x.2))
      (fun x => valB (j * (a.cols * b.cols) + x.1 * b.cols + x.2))) _ r i j hr hi hj, eval_finsetSum]
    refine Finset.sum_congr rfl fun l hl => ?_
    have hl := Finset.mem_range.1 hl
    dsimp only
    obtain ⟨v, hv, hve⟩ := hA i l hi hl
    obtain ⟨w, hw, hwe⟩ := hB l j hl hj
    rw [fA r i l hr hi hl, fB r l j hr hl hj, hv, hw, Option.getD_some, Option.getD_some, hve r hr, hwe r hr, eval_mul]

/-- **C70 (Vandermonde matrices)**. For a nonzero matrix `a`, and a field with more than `deg a + dB` points:
    the object built by `mat_lzz_pX_lmultiplier_dense(a, dB)` multiplies `a` by every matrix of degree at
    most `dB`. -/
theorem C70_dense {inv : Nat → (Nat × Nat → F) → Option (Nat × Nat → F)} (hinv : InvOk inv) (a : PMat F[X]) (dB : Nat)
    (ha : 0 ≤ deg a) (hinj : ∀ r r' : Nat, r ≤ deg a + dB → r' ≤ deg a + dB → (r : F) = (r' : F) → r = r') :
    ∃ o, mkDense inv a dB = .ok o ∧ Multiplies a dB o.multiply := by
  obtain ⟨dA, hdA⟩ := Int.eq_ofNat_of_zero_le ha
  unfold mkDense
  dsimp only
  rw [if_neg (by omega), hdA, Int.toNat_natCast]
  have hvdm := vdmFull_spec 1 (dA + dB + 1) (fun i => (i : F)) (fun i hi => by rw [Nat.lt_one_iff.1 hi, Nat.cast_zero])
  have hvsub := fun s (hs : s ≤ dA + dB + 1) => vdmSub_spec 1 (dA + dB + 1) s (vdmFull 1 (dA + dB + 1) fun i => (i : F)) hs
    (fun i hi => by rw [hvdm i 0 hi (by omega), pow_zero]) (fun i j hi h0 hj => by
      rw [hvdm i j (by omega) hj, Nat.lt_one_iff.1 hi, Nat.cast_zero, zero_pow (by omega)])
  generalize vdmFull 1 (dA + dB + 1) (fun i => (i : F)) = vdm at hvdm hvsub ⊢
  have hsA := hvsub (dA + 1) (by omega)
  have hsB := hvsub (dB + 1) (by omega)
  generalize vdmSub 1 (dA + dB + 1) (dA + 1) vdm = vA at hsA ⊢
  generalize vdmSub 1 (dA + dB + 1) (dB + 1) vdm = vB at hsB ⊢
  obtain ⟨W, hW, hWs⟩ := vdm_inv hinv (dA + dB + 1) (fun i => (i : F)) (fun r r' hr hr' h => hinj r r' (by omega) (by omega) h) vdm hvdm
  rw [hW]
  have htA := coeffMat_spec a
  generalize coeffMat a (fun _ => 0) = tA at htA ⊢
  have fA := entries_fill' (dA + dB + 1) a.rows a.cols (fun r i k => cmul (dA + 1) vA tA (r, i * a.cols + k)) (fun _ => 0)
  dsimp only
  generalize forN (dA + dB + 1) _ (fun _ : Nat × Nat × Nat => (0 : F)) = valAp at fA ⊢
  refine ⟨_, rfl, fun b hab hb => ?_⟩
  have hbe : (⟨a.cols, b.cols, b.e⟩ : PMat F[X]) = b := by rw [hab]
  unfold Dense.multiply
  dsimp only
  rw [hbe, if_neg (by omega)]
  refine ⟨_, rfl, rfl, rfl, fun i j hi hj => ?_⟩
  have htB := coeffMat_spec b
  generalize coeffMat b (fun _ => 0) = tB at htB ⊢
  dsimp only
  refine (loop2_at _ _ (fun u v => ofCoeffs (dA + dB + 1) fun i => cmul (dA + dB + 1) W _ (i, u * b.cols + v)) _ i j hi hj).trans ?_
  ext k
  rw [ofCoeffs_coeff]
  by_cases hk : k < dA + dB + 1
  · rw [if_pos hk]
    rw [← hWs (fun k => (∑ l ∈ Finset.range a.cols, a.e (i, l) * b.e (l, j)).coeff k) k hk]
    unfold cmul
    refine Finset.sum_congr rfl fun r hr => ?_
    have hr := Finset.mem_range.1 hr
    dsimp only
    congr 1
    rw [← eval_sum_lt _ _ _ fun k hk => prod_coeff_zero a b hab dA dB (by omega) (by omega) i j k hi hj (by omega)]
    refine (valC_fill (dA + dB + 1) a.rows b.cols (fun i x => ∑ k ∈ Finset.range a.cols, valAp (i, x.1, k) *
        ∑ q ∈ Finset.range (dB + 1), vB (i, q) * tB (q, k * b.cols + x.2)) (fun _ => 0) r i j hr hi hj).trans ?_
    rw [eval_finsetSum]
    refine Finset.sum_congr rfl fun l hl => ?_
    have hl := Finset.mem_range.1 hl
    rw [eval_mul]
    congr 1
    · rw [eval_sum_lt _ _ (dA + 1) fun k hk => (deg_lt_iff a (dA + 1)).1 (by omega) i l hi hl k hk]
      dsimp only
      rw [fA r i l hr hi hl]
      refine Finset.sum_congr rfl fun q hq => ?_
      have hq := Finset.mem_range.1 hq
      rw [hsA r q hr hq, hvdm r q hr (by omega), htA q i l hi hl, mul_comm]
    · rw [eval_sum_lt _ _ (dB + 1) fun k hk => (deg_lt_iff b (dB + 1)).1 (by omega) l j (by omega) hj k hk]
      refine Finset.sum_congr rfl fun q hq => ?_
      have hq := Finset.mem_range.1 hq
      rw [hsB r q hr hq, hvdm r q hr (by omega), htB q l j (by omega) hj, mul_comm]
  · rw [if_neg hk, prod_coeff_zero a b hab dA dB (by omega) (by omega) i j k hi hj (by omega)]

/-- **C70 (Vandermonde matrices, larger degree)**. Unlike the other classes, `mat_lzz_pX_lmultiplier_dense`
    does not report a matrix of degree more than `dB`: coefficients are written outside of an array. -/
theorem C70_dense_large_degree_out_of_bounds {inv : Nat → (Nat × Nat → F) → Option (Nat × Nat → F)} (a : PMat F[X]) (dB : Nat)
    (o : Dense F) (ho : mkDense inv a dB = .ok o) (b : PMat F[X]) (hab : a.cols = b.rows) (hb : (dB : Int) < deg b) :
    o.multiply b = .ub := by
  have h : o.t = a.cols ∧ o.dB = dB := by
    unfold mkDense at ho
    split_ifs at ho with h0
    dsimp only at ho
    cases hi : inv ((deg a).toNat + dB + 1) (vdmFull 1 ((deg a).toNat + dB + 1) fun i => (i : F)) with
    | none => rw [hi] at ho; cases ho
    | some iv =>
      rw [hi] at ho
      cases ho
      exact ⟨rfl, rfl⟩
  refine if_pos (Or.inr ?_)
  rw [h.1, h.2, hab]
  exact hb

/-- **C70 (Vandermonde matrices, zero matrix)**. With `a = 0`, the constructor of
    `mat_lzz_pX_lmultiplier_dense` writes outside of its arrays. -/
theorem C70_dense_zero_out_of_bounds (inv : Nat → (Nat × Nat → F) → Option (Nat × Nat → F)) (a : PMat F[X]) (dB : Nat)
    (ha : deg a < 0) : mkDense inv a dB = .ub := if_pos ha

/-- **C70 (Vandermonde matrices, small field)**. If two of the points `0, .., deg a + dB` are equal in the
    field, the constructor of `mat_lzz_pX_lmultiplier_dense` reports an error. -/
theorem C70_dense_small_field_error {inv : Nat → (Nat × Nat → F) → Option (Nat × Nat → F)} (hinv : InvOk inv) (a : PMat F[X])
    (dB : Nat) (ha : 0 ≤ deg a) (r r' : Nat) (hr : r ≤ deg a + dB) (hr' : r' ≤ deg a + dB) (hne : r ≠ r') (h : (r : F) = (r' : F)) :
    mkDense inv a dB = .error := by
  obtain ⟨dA, hdA⟩ := Int.eq_ofNat_of_zero_le ha
  unfold mkDense
  dsimp only
  rw [if_neg (by omega), hdA, Int.toNat_natCast]
  have hvdm := vdmFull_spec 1 (dA + dB + 1) (fun i => (i : F)) (fun i hi => by rw [Nat.lt_one_iff.1 hi, Nat.cast_zero])
  generalize vdmFull 1 (dA + dB + 1) (fun i => (i : F)) = vdm at hvdm ⊢
  cases hi : inv (dA + dB + 1) vdm with
  | none => rfl
  | some W =>
    exfalso
    have hs := hinv.sound _ _ _ hi
    let A : Matrix (Fin (dA + dB + 1)) (Fin (dA + dB + 1)) F := fun i j => W (i, j)
    let B : Matrix (Fin (dA + dB + 1)) (Fin (dA + dB + 1)) F := fun i j => vdm (i, j)
    have h1 : A * B = 1 := by
      ext i j
      rw [Matrix.mul_apply, Matrix.one_apply]
      refine (Fin.sum_univ_eq_sum_range (fun k => W (i, k) * vdm (k, j)) _).trans ((hs i j i.2 j.2).trans ?_)
      simp only [Fin.ext_iff]
    have h2 : B * A = 1 := mul_eq_one_comm.1 h1
    have h3 : ∀ x : Fin (dA + dB + 1), B ⟨r, by omega⟩ x = B ⟨r', by omega⟩ x := fun x => by
      show vdm (r, x) = vdm (r', x)
      rw [hvdm r x (by omega) x.2, hvdm r' x (by omega) x.2, h]
    have h4 : (B * A) ⟨r, by omega⟩ ⟨r, by omega⟩ = (B * A) ⟨r', by omega⟩ ⟨r, by omega⟩ := by
      rw [Matrix.mul_apply, Matrix.mul_apply]
      exact Finset.sum_congr rfl fun x _ => by rw [h3 x]
    rw [h2, Matrix.one_apply, Matrix.one_apply, if_pos rfl, if_neg (by simpa using fun h => hne h.symm)] at h4
    exact one_ne_zero h4

end Field

/-! ### Three primes -/

theorem fftMul_spec {pr : Nat} [Fact pr.Prime] (hpr : pr < 2 ^ 60) (T : FFT (ZMod pr)) (a : PMat (ZMod pr)[X]) (dB : Nat)
    (hT : FFTReady T (nextPow2 (deg a + dB + 1).toNat)) (h0 : 0 < a.cols) :
    Multiplies a dB (fftMul T a dB) ∧ Rejects a dB (fftMul T a dB) := by
  unfold fftMul
  split_ifs
  · exact C70_fft_direct hpr T a dB hT h0
  · exact C70_fft_matmul T a dB hT

open Three

/-- The `i`-th multiplier on representatives, for a matrix `b` that represents `b₀` modulo the prime. -/
theorem muls_spec {q : Nat → Nat} [∀ i, Fact (q i).Prime] (T : ∀ i, FFT (ZMod (q i))) {p : Nat} {a : PMat ℕ[X]} {dB : Nat}
    {o : ThreeP} (ho : mkThree T p a dB = some o) (i : Nat) (hq : q i < 2 ^ 60)
    (hT : ∀ K, K ≤ nextPow2 (rdeg a + dB + 1).toNat → FFTReady (T i) K) (h0 : 0 < a.cols) (b : PMat ℕ[X]) (hab : a.cols = b.rows) :
    (deg (ofRep (q i) b) ≤ dB → ∃ c, o.muls i b = .ok c ∧ IsProdMod (q i) a b c) ∧
      ((dB : Int) < deg (ofRep (q i) b) → o.muls i b = .error) := by
  have hpr : (q i).Prime := Fact.out
  have : NeZero (q i) := ⟨hpr.ne_zero⟩
  have hd : deg (ofRep (q i) (reduce (q i) a)) ≤ rdeg a := (deg_ofRep_le _ _).trans (rdeg_reduce _ _)
  obtain ⟨h1, h2⟩ := fftMul_spec hq (T i) (ofRep (q i) (reduce (q i) a)) dB (hT _ (Nat.clog_mono_right 2 (by omega))) h0
  unfold mkThree at ho
  rw [Option.map_eq_some_iff] at ho
  obtain ⟨nb, -, rfl⟩ := ho
  refine ⟨fun hb => ?_, fun hb => ?_⟩
  · obtain ⟨c, hc, hp⟩ := h1 (ofRep (q i) b) hab hb
    refine ⟨rep c, by dsimp only; rw [hc], ?_⟩
    obtain ⟨e1, e2, e3, e4⟩ := prodMod_of_product hp
    refine ⟨e1, e2, e3, fun i' j k hi hj => (e4 i' j k hi hj).trans (sum_coeff_modEq (fun l hl k => ?_) fun l hl k => rfl)⟩
    rw [reduce_coeff _ a i' l k hi hl]
    exact Nat.mod_modEq _ _
  · dsimp only
    rw [h2 (ofRep (q i) b) hab hb]

/-- The matrix that is given to the `i`-th multiplier. -/
noncomputable def arg (p q : Nat) (b : PMat ℕ[X]) : PMat ℕ[X] := if p < q then b else reduce q b

theorem arg_spec (p q : Nat) (b : PMat ℕ[X]) : (arg p q b).rows = b.rows ∧ (arg p q b).cols = b.cols ∧ rdeg (arg p q b) ≤ rdeg b ∧
    ∀ i j k, i < b.rows → j < b.cols → ((arg p q b).e (i, j)).coeff k ≡ (b.e (i, j)).coeff k [MOD q] := by
  unfold arg
  split_ifs
  · exact ⟨rfl, rfl, le_refl _, fun _ _ _ _ _ => rfl⟩
  · exact ⟨rfl, rfl, rdeg_reduce _ _, fun i j k hi hj => by rw [reduce_coeff q b i j k hi hj]; exact Nat.mod_modEq _ _⟩

theorem cs_eq (o : ThreeP) (p : Nat) (q : Nat → Nat) (b : PMat ℕ[X]) (i : Nat) :
    (if p < q i then o.muls i b else o.muls i (reduce (q i) b)) = o.muls i (arg p (q i) b) := by
  unfold arg
  split_ifs <;> rfl

/-- All the images are computed: reconstruction. -/
theorem multiply_of_ok {o : ThreeP} {p : Nat} {q : Nat → Nat} {b : PMat ℕ[X]} {cs : Nat → PMat ℕ[X]}
    (h : ∀ i, i < o.nb → o.muls i (arg p (q i) b) = .ok (cs i)) (hnb : 1 ≤ o.nb) (c : PMat ℕ[X])
    (hc : ∀ cs', (∀ i, i < o.nb → cs' i = cs i) → reconstruct p q o.nb cs' = some c) : o.multiply p q b = .ok c := by
  unfold ThreeP.multiply
  dsimp only
  simp only [cs_eq]
  have hf : (List.range o.nb).find? (fun i => !(o.muls i (arg p (q i) b)).isOk) = none := by
    rw [List.find?_eq_none]
    intro i hi
    rw [h i (List.mem_range.1 hi)]
    exact Bool.false_ne_true
  rw [hf]
  dsimp only
  have := hc (fun i => (o.muls i (arg p (q i) b)).getD ⟨0, 0, fun _ => 0⟩) fun i hi => by
    rw [h i hi]
    rfl
  split_ifs with h1
  · rw [h1] at this
    cases this
    rfl
  · rw [this]

/-- One of the images is not computed, and an error is reported. -/
theorem multiply_of_error {o : ThreeP} {p : Nat} {q : Nat → Nat} {b : PMat ℕ[X]}
    (h : ∀ i, i < o.nb → o.muls i (arg p (q i) b) ≠ .ub) (i : Nat) (hi : i < o.nb) (he : o.muls i (arg p (q i) b) = .error) :
    o.multiply p q b = .error := by
  unfold ThreeP.multiply
  dsimp only
  simp only [cs_eq]
  cases hf : (List.range o.nb).find? (fun i => !(o.muls i (arg p (q i) b)).isOk) with
  | none =>
    rw [List.find?_eq_none] at hf
    have := hf i (List.mem_range.2 hi)
    rw [he] at this
    exact absurd rfl this
  | some j =>
    have h1 := List.find?_some hf
    have h2 := h j (List.mem_range.1 (List.mem_of_find?_eq_some hf))
    dsimp only
    revert h1 h2
    cases o.muls j (arg p (q j) b) with
    | ok c => intro h1; exact absurd h1 Bool.false_ne_true
    | error => exact fun _ _ => rfl
    | ub => exact fun _ h2 => absurd rfl h2

/-- **C70 (three primes)**. For any modulus `p`: the object built by `mat_lzz_pX_lmultiplier_3_primes(a, dB)`,
    if there are enough FFT primes for the sizes, multiplies `a` by every matrix of degree at most `dB`. -/
theorem C70_three_primes {p : Nat} [NeZero p] {q : Nat → Nat} [∀ i, Fact (q i).Prime] (T : ∀ i, FFT (ZMod (q i)))
    (hq : ∀ i j, i < 3 → j < 3 → i ≠ j → q i ≠ q j) (hq2 : ∀ i, i < 3 → q i < 2 ^ 60) (a : PMat (ZMod p)[X]) (dB : Nat)
    (hT : ∀ i, i < 3 → ∀ K, K ≤ nextPow2 (deg a + dB + 1).toNat → FFTReady (T i) K) (h0 : 0 < a.cols)
    (o : ThreeP) (ho : mkThree T p (rep a) dB = some o) (b : PMat (ZMod p)[X]) (hab : a.cols = b.rows) (hb : deg b ≤ dB) :
    ∃ c, o.multiply p q (rep b) = .ok c ∧ IsProduct a b (ofRep p c) := by
  have hp : 0 < p := NeZero.pos p
  have hQ : Primes q := ⟨fun i _ => Fact.out, hq⟩
  have hnb : nbPrimes p q (rep a).cols (rdeg (rep a)) dB = some o.nb := by
    unfold mkThree at ho
    rw [Option.map_eq_some_iff] at ho
    obtain ⟨nb, h1, rfl⟩ := ho
    exact h1
  have hdB : -1 ≤ (dB : Int) := by omega
  obtain ⟨h3, hM⟩ := nbPrimes_spec hnb ⟨rdeg_ge _, hdB⟩ hp
  have hm : ∀ i, i < o.nb → ∃ c, o.muls i (arg p (q i) (rep b)) = .ok c ∧
      Img a.rows b.cols (q i) c fun i j k => (∑ l ∈ Finset.range a.cols, (rep a).e (i, l) * (rep b).e (l, j)).coeff k := by
    intro i hi
    obtain ⟨a1, a2, a3, a4⟩ := arg_spec p (q i) (rep b)
    obtain ⟨c, hc, e1, e2, e3, e4⟩ := (muls_spec T ho i (hq2 i (by omega)) (by rw [rdeg_rep]; exact hT i (by omega)) h0
      (arg p (q i) (rep b)) (hab.trans a1.symm)).1 (by
        have := deg_ofRep_le (q i) (arg p (q i) (rep b))
        rw [rdeg_rep] at a3
        omega)
    refine ⟨c, hc, e1, e2.trans a2, fun i' j k hi hj => e3 i' j k (by rw [e1]; exact hi) (by rw [e2, a2]; exact hj),
      fun i' j k hi hj => (e4 i' j k hi (by rw [a2]; exact hj)).trans (sum_coeff_modEq (fun l hl k => rfl) fun l hl k => ?_)⟩
    exact a4 l j k (by show l < b.rows; rw [← hab]; exact hl) hj
  have : Nonempty (PMat ℕ[X]) := ⟨⟨0, 0, fun _ => 0⟩⟩
  choose! cs hcs himg using hm
  have hx : ∀ i j k, i < a.rows → j < b.cols →
      (∑ l ∈ Finset.range a.cols, (rep a).e (i, l) * (rep b).e (l, j)).coeff k < ∏ t ∈ Finset.range o.nb, q t := fun i j k hi hj => by
    have h1 := prod_coeff_le hp (a := rep a) (b := rep b) hab (rep_reduced a) (rep_reduced b) i j k hi hj
    have h2 : ((rep a).cols : Int) * min (rdeg (rep a) + 1) (rdeg (rep b) + 1) * (p - 1) * (p - 1) ≤
        (rep a).cols * min (rdeg (rep a) + 1) (dB + 1) * (p - 1) * (p - 1) := by
      have : (0 : Int) ≤ p - 1 := by omega
      rw [rdeg_rep b]
      gcongr
    exact_mod_cast lt_of_le_of_lt (h1.trans h2) hM
  have hrec : ∀ cs', (∀ i, i < o.nb → cs' i = cs i) → reconstruct p q o.nb cs' = reconstruct p q o.nb cs := by
    intro cs' h
    have : o.nb = 1 ∨ o.nb = 2 ∨ o.nb = 3 := by omega
    rcases this with e | e | e <;> rw [e] at h ⊢
    · show some (Three.reduce p (cs' 0)) = some (Three.reduce p (cs 0))
      rw [h 0 (by omega)]
    · show reconstruct2 p (cs' 0) (q 0) (cs' 1) (q 1) = reconstruct2 p (cs 0) (q 0) (cs 1) (q 1)
      rw [h 0 (by omega), h 1 (by omega)]
    · unfold reconstruct
      rw [h 0 (by omega), h 1 (by omega), h 2 (by omega)]
  obtain ⟨c, e, h1, h2, h⟩ := C68_reconstruct hQ hp h3 himg hx
  refine ⟨c, multiply_of_ok hcs h3.1 c fun cs' h => (hrec cs' h).trans e, product_of_prodMod ⟨h1, h2, fun i j k hi hj => ?_,
    fun i j k hi hj => ?_⟩⟩
  · rw [h i j k (by rw [← h1]; exact hi) (by rw [← h2]; exact hj)]
    exact Nat.mod_lt _ hp
  · rw [h i j k hi hj]
    exact Nat.mod_modEq _ _

/-- **C70 (three primes, larger degree)**. For a nonzero matrix `a`, the object reports a matrix of degree more
    than `dB`: the leading coefficients cannot vanish modulo all the FFT primes. -/
theorem C70_three_primes_reject {p : Nat} [Fact (1 < p)] {q : Nat → Nat} [∀ i, Fact (q i).Prime] (T : ∀ i, FFT (ZMod (q i)))
    (hq : ∀ i j, i < 3 → j < 3 → i ≠ j → q i ≠ q j) (hq2 : ∀ i, i < 3 → q i < 2 ^ 60) (a : PMat (ZMod p)[X]) (dB : Nat) (ha : 0 ≤ deg a)
    (hT : ∀ i, i < 3 → ∀ K, K ≤ nextPow2 (deg a + dB + 1).toNat → FFTReady (T i) K) (h0 : 0 < a.cols)
    (o : ThreeP) (ho : mkThree T p (rep a) dB = some o) (b : PMat (ZMod p)[X]) (hab : a.cols = b.rows) (hb : (dB : Int) < deg b) :
    o.multiply p q (rep b) = .error := by
  have hp1 : 1 < p := Fact.out
  have : NeZero p := ⟨by omega⟩
  have hp : 0 < p := by omega
  have hQ : Primes q := ⟨fun i _ => Fact.out, hq⟩
  have hnb : nbPrimes p q (rep a).cols (rdeg (rep a)) dB = some o.nb := by
    unfold mkThree at ho
    rw [Option.map_eq_some_iff] at ho
    obtain ⟨nb, h1, rfl⟩ := ho
    exact h1
  have hdB : -1 ≤ (dB : Int) := by omega
  obtain ⟨h3, hM⟩ := nbPrimes_spec hnb ⟨rdeg_ge _, hdB⟩ hp
  have hspec := fun i (hi : i < o.nb) => muls_spec T ho i (hq2 i (by omega)) (by rw [rdeg_rep]; exact hT i (by omega)) h0
      (arg p (q i) (rep b)) (hab.trans (arg_spec p (q i) (rep b)).1.symm)
  -- some coefficient of `b` of degree more than `dB` is nonzero
  obtain ⟨i, j, k, hi, hj, hk, hne⟩ : ∃ i j k, i < b.rows ∧ j < b.cols ∧ dB + 1 ≤ k ∧ (b.e (i, j)).coeff k ≠ 0 := by
    by_contra hcon
    push Not at hcon
    have := (deg_lt_iff b (dB + 1)).2 fun i j hi hj k hk => hcon i j k hi hj hk
    push_cast at this
    omega
  have hval : 0 < ((b.e (i, j)).coeff k).val ∧ ((b.e (i, j)).coeff k).val < p :=
    ⟨Nat.pos_of_ne_zero fun h => hne ((ZMod.val_eq_zero _).1 h), ZMod.val_lt _⟩
  -- it is nonzero modulo some prime
  obtain ⟨t, ht, hqt⟩ : ∃ t, t < o.nb ∧ ¬q t ∣ ((b.e (i, j)).coeff k).val := by
    by_contra hcon
    push Not at hcon
    have hdvd : ∏ t ∈ Finset.range o.nb, q t ∣ ((b.e (i, j)).coeff k).val := by
      refine Finset.prod_dvd_of_isRelPrime (fun x hx y hy hxy => ?_) fun x hx => hcon x (Finset.mem_range.1 hx)
      have hx := Finset.mem_range.1 (Finset.mem_coe.1 hx)
      have hy := Finset.mem_range.1 (Finset.mem_coe.1 hy)
      exact Nat.coprime_iff_isRelPrime.1 (hQ.coprime (by omega) (by omega) hxy)
    have hle := Nat.le_of_dvd hval.1 hdvd
    rw [rdeg_rep] at hM
    have h4 : (1 : Int) ≤ (rep a).cols := by exact_mod_cast h0
    have h5 : (1 : Int) ≤ min (deg a + 1) (dB + 1) := by omega
    have h6 : (1 : Int) ≤ p - 1 := by omega
    have h7 : (1 : Int) * 1 * 1 * (p - 1) ≤ (rep a).cols * min (deg a + 1) (dB + 1) * (p - 1) * (p - 1) := by gcongr
    have h8 : (p : Int) - 1 < (∏ t ∈ Finset.range o.nb, q t : Nat) := by
      refine lt_of_le_of_lt ?_ hM
      linarith
    have h9 : ((∏ t ∈ Finset.range o.nb, q t : Nat) : Int) ≤ p - 1 := by
      have := hval.2
      omega
    omega
  refine multiply_of_error (fun i hi => ?_) t ht ?_
  · by_cases hd : deg (ofRep (q i) (arg p (q i) (rep b))) ≤ dB
    · obtain ⟨c, hc, -⟩ := (hspec i hi).1 hd
      rw [hc]
      exact fun h => nomatch h
    · rw [(hspec i hi).2 (by omega)]
      exact fun h => nomatch h
  · refine (hspec t ht).2 ?_
    by_contra hd
    have h4 := (deg_lt_iff (ofRep (q t) (arg p (q t) (rep b))) (dB + 1)).1 (by push_cast; omega) i j
      (by show i < (arg p (q t) (rep b)).rows; rw [(arg_spec p (q t) (rep b)).1]; exact hi)
      (by show j < (arg p (q t) (rep b)).cols; rw [(arg_spec p (q t) (rep b)).2.1]; exact hj) k hk
    rw [ofRep_coeff, ZMod.natCast_eq_zero_iff] at h4
    have h5 := (arg_spec p (q t) (rep b)).2.2.2 i j k hi hj
    rw [rep_coeff] at h5
    exact hqt ((Nat.ModEq.dvd_iff h5 (dvd_refl _)).1 h4)

/-! ### `get_lmultiplier` -/

/-- **C70**. Whatever class is chosen by `get_lmultiplier(a, dB)` over a prime field: if an object is built, it
    multiplies `a` by every matrix of degree at most `dB`, as many times as needed.  Missing: a matrix of degree
    more than `dB` is not always reported (`C70_dense_large_degree_out_of_bounds`), and objects are not built
    for zero matrices and for small fields (`C70_zero_out_of_bounds`, `C70_small_field_error`). -/
theorem C70_get_lmultiplier_partial {p : Nat} [Fact p.Prime] (hpr : p < 2 ^ 60) {q : Nat → Nat} [∀ i, Fact (q i).Prime]
    (E : Env p q) (a : PMat (ZMod p)[X]) (dB : Nat) (hE : E.Ok a dB) (h0 : 0 < a.cols)
    (f : PMat (ZMod p)[X] → Res (PMat (ZMod p)[X])) (hf : getLMultiplier E a dB = .ok f) : Multiplies a dB f := by
  have hp : p.Prime := Fact.out
  have : NeZero p := ⟨hp.ne_zero⟩
  have hfalse : ∀ k, kind E.fft (Nat.size p) a.rows (deg a) = k → k = .three ∨ k = .geometric → E.fft = false := by
    intro k hk hk'
    by_contra hc
    rw [Bool.not_eq_false] at hc
    rw [hc] at hk
    unfold kind at hk
    rw [if_pos rfl] at hk
    split_ifs at hk <;> subst hk <;> simp at hk'
  have htrue : ∀ k, kind E.fft (Nat.size p) a.rows (deg a) = k → k = .direct ∨ k = .matmul → E.fft = true := by
    intro k hk hk'
    by_contra hc
    rw [Bool.not_eq_true] at hc
    rw [hc] at hk
    unfold kind at hk
    rw [if_neg (by decide)] at hk
    split_ifs at hk <;> subst hk <;> simp at hk'
  unfold getLMultiplier at hf
  cases hk : kind E.fft (Nat.size p) a.rows (deg a) with
  | direct =>
    rw [hk] at hf
    cases hf
    exact (C70_fft_direct hpr E.T a dB (hE.fft (htrue _ hk (Or.inl rfl))) h0).1
  | matmul =>
    rw [hk] at hf
    cases hf
    exact (C70_fft_matmul E.T a dB (hE.fft (htrue _ hk (Or.inr rfl)))).1
  | dense =>
    rw [hk] at hf
    dsimp only at hf
    have ha : 0 ≤ deg a := by
      by_contra hc
      rw [C70_dense_zero_out_of_bounds E.inv a dB (by omega)] at hf
      cases hf
    by_cases hinj : ∀ r r' : Nat, r ≤ deg a + dB → r' ≤ deg a + dB → (r : ZMod p) = (r' : ZMod p) → r = r'
    · obtain ⟨o, ho, hm⟩ := C70_dense hE.inv a dB ha hinj
      rw [ho] at hf
      cases hf
      exact hm
    · push Not at hinj
      obtain ⟨r, r', h1, h2, h3, h4⟩ := hinj
      rw [C70_dense_small_field_error hE.inv a dB ha r r' h1 h2 h4 h3] at hf
      cases hf
  | three =>
    rw [hk] at hf
    dsimp only at hf
    cases ho : mkThree E.Tq p (rep a) dB with
    | none => rw [ho] at hf; cases hf
    | some o =>
      rw [ho] at hf
      cases hf
      intro b hab hb
      obtain ⟨c, hc, h⟩ := C70_three_primes E.Tq hE.ne hE.lt a dB (hE.fftq (hfalse _ hk (Or.inl rfl))) h0 o ho b hab hb
      exact ⟨ofRep p c, by dsimp only; rw [hc], h⟩
  | geometric =>
    rw [hk] at hf
    dsimp only at hf
    have ha : 150 < deg a := by
      unfold kind at hk
      split_ifs at hk
      omega
    cases hg : E.geom (deg a + dB + 1).toNat with
    | none => rw [hg] at hf; cases hf
    | some ei =>
      rw [hg] at hf
      obtain ⟨o, ho, hm, -⟩ := C70_geometric a dB (deg a + dB + 1).toNat (by omega) (by omega) ei.1 ei.2 (hE.geom _ _ _ hg)
      dsimp only at hf
      rw [ho] at hf
      cases hf
      exact hm

/-- **C70 (larger degree)**. The classes other than the one that uses Vandermonde matrices report a matrix of
    degree more than `dB`, for a nonzero matrix `a`. -/
theorem C70_get_lmultiplier_reject_partial {p : Nat} [Fact p.Prime] (hpr : p < 2 ^ 60) {q : Nat → Nat} [∀ i, Fact (q i).Prime]
    (E : Env p q) (a : PMat (ZMod p)[X]) (dB : Nat) (hE : E.Ok a dB) (h0 : 0 < a.cols) (ha : 0 ≤ deg a)
    (hk : kind E.fft (Nat.size p) a.rows (deg a) ≠ .dense)
    (f : PMat (ZMod p)[X] → Res (PMat (ZMod p)[X])) (hf : getLMultiplier E a dB = .ok f) : Rejects a dB f := by
  have hp : p.Prime := Fact.out
  have : NeZero p := ⟨hp.ne_zero⟩
  have : Fact (1 < p) := ⟨hp.one_lt⟩
  unfold getLMultiplier at hf
  by_cases hfft : E.fft = true
  · unfold kind at hf
    rw [if_pos hfft] at hf
    split_ifs at hf
    · cases hf
      exact (C70_fft_direct hpr E.T a dB (hE.fft hfft) h0).2
    · cases hf
      exact (C70_fft_matmul E.T a dB (hE.fft hfft)).2
  · cases hk' : kind E.fft (Nat.size p) a.rows (deg a) with
    | direct => exact absurd hk' (by unfold kind; rw [if_neg hfft]; split_ifs <;> simp)
    | matmul => exact absurd hk' (by unfold kind; rw [if_neg hfft]; split_ifs <;> simp)
    | dense => exact absurd hk' hk
    | three =>
      rw [hk'] at hf
      dsimp only at hf
      cases ho : mkThree E.Tq p (rep a) dB with
      | none => rw [ho] at hf; cases hf
      | some o =>
        rw [ho] at hf
        cases hf
        intro b hab hb
        dsimp only
        rw [C70_three_primes_reject E.Tq hE.ne hE.lt a dB ha (hE.fftq (by simpa using hfft)) h0 o ho b hab hb]
    | geometric =>
      rw [hk'] at hf
      dsimp only at hf
      cases hg : E.geom (deg a + dB + 1).toNat with
      | none => rw [hg] at hf; cases hf
      | some ei =>
        rw [hg] at hf
        obtain ⟨o, ho, -, hr⟩ := C70_geometric a dB (deg a + dB + 1).toNat ha (by omega) ei.1 ei.2 (hE.geom _ _ _ hg)
        dsimp only at hf
        rw [ho] at hf
        cases hf
        exact hr

/-- **C70 (an object is built)** for an FFT prime; otherwise, for a nonzero matrix, if the modulus is more than
    `deg a + dB` and there are three 60-bit FFT primes and geometric points for the sizes. -/
theorem C70_get_lmultiplier_built {p : Nat} [Fact p.Prime] (hpr : p < 2 ^ 60) {q : Nat → Nat} [∀ i, Fact (q i).Prime]
    (E : Env p q) (a : PMat (ZMod p)[X]) (dB : Nat) (hE : E.Ok a dB)
    (h : E.fft = true ∨ (0 ≤ deg a ∧ deg a + dB < p ∧ (∀ i, i < 3 → 2 ^ 59 ≤ q i) ∧ a.cols * (deg a + 1) ≤ 2 ^ 55 ∧
      (E.geom (deg a + dB + 1).toNat).isSome)) : ∃ f, getLMultiplier E a dB = .ok f := by
  have hp : p.Prime := Fact.out
  have : NeZero p := ⟨hp.ne_zero⟩
  unfold getLMultiplier
  rcases h with h | ⟨ha, h1, h2, h3, h4⟩
  · unfold kind
    rw [if_pos h]
    split_ifs
    · exact ⟨_, rfl⟩
    · exact ⟨_, rfl⟩
  · cases kind E.fft (Nat.size p) a.rows (deg a) with
    | direct => exact ⟨_, rfl⟩
    | matmul => exact ⟨_, rfl⟩
    | dense =>
      obtain ⟨o, ho, -⟩ := C70_dense hE.inv a dB ha fun r r' hr hr' h => cast_inj_lt (by omega) (by omega) h
      dsimp only
      rw [ho]
      exact ⟨_, rfl⟩
    | three =>
      have hs := C68_sizes (p := p) ⟨NeZero.pos p, hpr.le⟩ h2 a.cols (deg a) dB ⟨by omega, by omega⟩
        (le_trans (mul_le_mul_of_nonneg_left (min_le_left _ _) (Int.natCast_nonneg _)) h3)
      obtain ⟨nb, hnb⟩ := Option.isSome_iff_exists.1 hs
      have : ∃ o, mkThree E.Tq p (rep a) dB = some o := by
        unfold mkThree
        rw [rdeg_rep]
        have e : (rep a).cols = a.cols := rfl
        rw [e, hnb]
        exact ⟨_, rfl⟩
      obtain ⟨o, ho⟩ := this
      dsimp only
      rw [ho]
      exact ⟨_, rfl⟩
    | geometric =>
      obtain ⟨ei, hg⟩ := Option.isSome_iff_exists.1 h4
      obtain ⟨o, ho, -⟩ := C70_geometric a dB (deg a + dB + 1).toNat ha (by omega) ei.1 ei.2 (hE.geom _ _ _ hg)
      dsimp only
      rw [hg]
      dsimp only
      rw [ho]
      exact ⟨_, rfl⟩

/-- **C70 (zero matrix)**. If the modulus is not an FFT prime, `get_lmultiplier(0, dB)` writes outside of its
    arrays. -/
theorem C70_zero_out_of_bounds {p : Nat} [Fact p.Prime] {q : Nat → Nat} [∀ i, Fact (q i).Prime] (E : Env p q)
    (a : PMat (ZMod p)[X]) (dB : Nat) (ha : deg a < 0) (h : E.fft = false) : getLMultiplier E a dB = .ub := by
  unfold getLMultiplier kind
  rw [h, if_neg (by decide)]
  have hd : (a.rows ≤ 20 ∧ deg a ≤ 30) ∨ (a.rows ≤ 40 ∧ deg a ≤ 90) ∨ deg a ≤ 150 := by omega
  rw [if_pos hd, if_pos hd, ite_self]
  dsimp only
  rw [C70_dense_zero_out_of_bounds E.inv a dB ha]

/-- **C70 (small field)**. If the modulus is not an FFT prime and is at most `deg a + dB`, with
    `deg a ≤ 150`, `get_lmultiplier(a, dB)` reports an error, although `multiply` would compute the products. -/
theorem C70_small_field_error {p : Nat} [Fact p.Prime] {q : Nat → Nat} [∀ i, Fact (q i).Prime] (E : Env p q) (hinv : InvOk E.inv)
    (a : PMat (ZMod p)[X]) (dB : Nat) (ha : 0 ≤ deg a ∧ deg a ≤ 150) (hp : (p : Int) ≤ deg a + dB) (h : E.fft = false) :
    getLMultiplier E a dB = .error := by
  unfold getLMultiplier kind
  rw [h, if_neg (by decide)]
  have hd : (a.rows ≤ 20 ∧ deg a ≤ 30) ∨ (a.rows ≤ 40 ∧ deg a ≤ 90) ∨ deg a ≤ 150 := by omega
  rw [if_pos hd, if_pos hd, ite_self]
  dsimp only
  rw [C70_dense_small_field_error hinv a dB ha.1 0 p (by omega) hp (Fact.out : p.Prime).pos.ne (by simp)]

/-! ### The hypotheses are met -/

theorem fft5_ready (K : Nat) (hK : K ≤ 2) : FFTReady fft5 K := ⟨fft5_ok K hK, fun _ _ h _ => h⟩

/-- `C70_get_lmultiplier_partial` applies modulo 5, an FFT prime for size 4: a matrix of degree 1 times
    matrices of degree at most 2. -/
example : ∃ (E : Env 5 q3) (f : _), E.Ok ex5 2 ∧ getLMultiplier E ex5 2 = .ok f ∧ Multiplies ex5 2 f ∧ Rejects ex5 2 f := by
  obtain ⟨inv, hinv⟩ := invOk_exists (F := ZMod 5)
  have hE : (⟨true, fft5, fun i => fft2 (q3 i), inv, fun _ => none⟩ : Env 5 q3).Ok ex5 2 := by
    refine ⟨fun _ => fft5_ready _ ?_, hinv, ?_, ?_, (fun h => nomatch h), fun _ _ _ h => nomatch h⟩
    · rw [ex5_deg]; decide
    · intro i j hi hj hij
      unfold q3
      split_ifs <;> omega
    · intro i _
      unfold q3
      split_ifs <;> omega
  obtain ⟨f, hf⟩ := C70_get_lmultiplier_built (by norm_num) _ ex5 2 hE (Or.inl rfl)
  exact ⟨_, f, hE, hf, C70_get_lmultiplier_partial (by norm_num) _ ex5 2 hE (by decide) f hf,
    C70_get_lmultiplier_reject_partial (by norm_num) _ ex5 2 hE (by decide) (by rw [ex5_deg]; decide)
      (by unfold kind; rw [if_pos rfl]; split_ifs <;> simp) f hf⟩

/-- `C70_dense` applies modulo 5, with 3 points. -/
example : ∃ (inv : _) (o : Dense (ZMod 5)), mkDense inv ex5 1 = .ok o ∧ Multiplies ex5 1 o.multiply := by
  obtain ⟨inv, hinv⟩ := invOk_exists (F := ZMod 5)
  obtain ⟨o, h⟩ := C70_dense hinv ex5 1 (by rw [ex5_deg]; decide) fun r r' hr hr' h => by
    rw [ex5_deg] at hr hr'
    exact cast_inj_lt (pr := 5) (by omega) (by omega) h
  exact ⟨inv, o, h⟩

/-- The failures of `C70_zero_out_of_bounds` and `C70_small_field_error` occur modulo 5. -/
example : ∃ E : Env 5 q3, getLMultiplier E ⟨2, 2, fun _ => 0⟩ 1 = .ub ∧ getLMultiplier E ex5 4 = .error := by
  obtain ⟨inv, hinv⟩ := invOk_exists (F := ZMod 5)
  refine ⟨⟨false, fft5, fun i => fft2 (q3 i), inv, fun _ => none⟩, C70_zero_out_of_bounds _ _ 1 ?_ rfl,
    C70_small_field_error _ hinv ex5 4 (by rw [ex5_deg]; decide) (by rw [ex5_deg]; decide) rfl⟩
  exact (deg_lt_iff _ 0).2 fun i j _ _ k _ => coeff_zero k

/-- `C70_three_primes` applies to a matrix of degree 1 modulo 5 and matrices of degree 0. -/
example : ∃ o, mkThree (fun i => fft2 (q3 i)) 5 (rep ex5) 0 = some o ∧
    ∀ b : PMat (ZMod 5)[X], b.rows = 2 → deg b ≤ 0 → ∃ c, o.multiply 5 q3 (rep b) = .ok c ∧ IsProduct ex5 b (ofRep 5 c) := by
  obtain ⟨o, ho⟩ : ∃ o, mkThree (fun i => fft2 (q3 i)) 5 (rep ex5) 0 = some o := by
    unfold mkThree nbPrimes
    rw [rdeg_rep, ex5_deg]
    dsimp only
    rw [if_pos (by decide)]
    exact ⟨_, rfl⟩
  refine ⟨o, ho, fun b hb hd => C70_three_primes (fun i => fft2 (q3 i)) ?_ ?_ ex5 0 ?_ (by decide) o ho b hb.symm hd⟩
  · intro i j hi hj hij
    unfold q3
    split_ifs <;> omega
  · intro i _
    unfold q3
    split_ifs <;> omega
  · intro i _ K hK
    rw [ex5_deg] at hK
    have : nextPow2 ((1 : Int) + (0 : Nat) + 1).toNat = 1 := by decide
    rw [this] at hK
    exact ⟨fft2_ok i K hK, fun _ _ h _ => h⟩

end PML.Ntl.LMul
