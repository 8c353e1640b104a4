import Verif.Ntl.BlockSeqTheory

/-!
# Lemmas for C108: `mul_special`
-/

namespace PML.Ntl.BlockSeq

open Polynomial PML.Ntl.Utils PML.Ntl.Inv PML.Ntl.Solve PML.Ntl.MatEval PML.Ntl.MatMul
open PML.Ntl.Struct (loopOut NVec)

variable {F : Type} [Field F]

/-- Interpolation of the values in `w`. -/
theorem interp {nb m p : Nat} {W : Nat × Nat → F}
    (hW : ∀ f : Nat → F, ∀ k, k < nb → ∑ r ∈ Finset.range nb, W (k, r) * ∑ q ∈ Finset.range nb, f q * (r : F) ^ q = f k)
    (w : Nat → Nat × Nat → F) (P : Nat → Nat → F[X]) (hP : ∀ i j, i < m → j < p → ∀ k, nb ≤ k → (P i j).coeff k = 0)
    (hw : ∀ r i j, r < nb → i < m → j < p → w r (i, j) = (P i j).eval (r : F)) (i j : Nat) (hi : i < m) (hj : j < p) :
    (ofCoeffs nb fun k => cmul nb W (forN nb (fun i => forN m fun u => forN p fun v => write (i, u * p + v) (w i (u, v))) fun _ => 0) (k, i * p + j)) = P i j := by
  ext k
  rw [ofCoeffs_coeff]
  by_cases hk : k < nb
  · rw [if_pos hk, ← hW (fun k => (P i j).coeff k) k hk]
    unfold cmul
    refine Finset.sum_congr rfl fun r hr => ?_
    have hr := Finset.mem_range.1 hr
    dsimp only
    congr 1
    rw [valC_fill nb m p w (fun _ => 0) r i j hr hi hj, hw r i j hr hi hj, eval_sum_lt _ _ nb (hP i j hi hj)]
  · rw [if_neg hk, hP i j hi hj k (by omega)]

/-- The matrix `b` with its rows moved up by one. -/
noncomputable def up1 (b : PMat F[X]) : PMat F[X] := ⟨b.rows, b.cols, fun x => if x.1 + 1 < b.rows then b.e (x.1 + 1, x.2) else 0⟩

theorem deg_up1 (b : PMat F[X]) (d : Nat) (h : deg b ≤ d) : deg (up1 b) ≤ d := by
  have := (deg_lt_iff (up1 b) (d + 1)).2 fun i j hi hj k hk => by
    show (if i + 1 < b.rows then b.e (i + 1, j) else 0).coeff k = 0
    split_ifs with h1
    · exact (deg_lt_iff b (d + 1)).1 (by omega) (i + 1) j h1 hj k hk
    · exact coeff_zero _
  push_cast at this
  omega

theorem mulSpecial_spec {inv : Nat → (Nat × Nat → F) → Option (Nat × Nat → F)} (hinv : InvOk inv) (a b : PMat F[X])
    (hab : a.cols = b.rows) (ha : 0 ≤ deg a) (hb : 0 ≤ deg b)
    (hinj : ∀ r r' : Nat, r ≤ deg a + deg b → r' ≤ deg a + deg b → (r : F) = (r' : F) → r = r') :
    ∃ r, mulSpecial inv a b = .ok r ∧ IsProduct a b r.1 ∧ IsProduct a (up1 b) r.2 := by
  obtain ⟨dA, hdA⟩ := Int.eq_ofNat_of_zero_le ha
  obtain ⟨dB, hdB⟩ := Int.eq_ofNat_of_zero_le hb
  unfold mulSpecial
  dsimp only
  rw [if_neg (by omega), if_neg (by omega), hdA, hdB, Int.toNat_natCast, Int.toNat_natCast]
  have hvdm := vdmFull_spec 1 (dA + dB + 1) (fun i => (i : F)) (fun i hi => by rw [Nat.lt_one_iff.1 hi, Nat.cast_zero])
  have hvsub := fun s (hs : s ≤ dA + dB + 1) => vdmSub_spec 1 (dA + dB + 1) s (vdmFull 1 (dA + dB + 1) fun i => (i : F)) hs
    (fun i hi => by rw [hvdm i 0 hi (by omega), pow_zero]) (fun i j hi h0 hj => by
      rw [hvdm i j (by omega) hj, Nat.lt_one_iff.1 hi, Nat.cast_zero, zero_pow (by omega)])
  generalize vdmFull 1 (dA + dB + 1) (fun i => (i : F)) = vdm at hvdm hvsub ⊢
  have hsA := hvsub (dA + 1) (by omega)
  have hsB := hvsub (dB + 1) (by omega)
  generalize vdmSub 1 (dA + dB + 1) (dA + 1) vdm = vA at hsA ⊢
  generalize vdmSub 1 (dA + dB + 1) (dB + 1) vdm = vB at hsB ⊢
  obtain ⟨W, hW, hWs⟩ := vdm_inv hinv (dA + dB + 1) (fun i => (i : F)) (fun r r' hr hr' h => hinj r r' (by omega) (by omega) h) vdm hvdm
  rw [hW]
  dsimp only
  have htA : ∀ k i l, k < dA + 1 → i < a.rows → l < a.cols → coeffMatClear a a.rows dA (fun _ => 0) (k, i * a.cols + l) = (a.e (i, l)).coeff k :=
    fun k i l _ hi hl => coeffMatClear_spec a a.rows dA _ k i l hi hl fun _ _ => rfl
  generalize coeffMatClear a a.rows dA (fun _ => 0) = tA at htA ⊢
  have htB : ∀ k l j, k < dB + 1 → l < a.cols → j < b.cols → coeffMatClear b a.cols dB
      (setDimsReuse (dA + 1) (a.rows * a.cols) (a.cols * b.cols) tA) (k, l * b.cols + j) = (b.e (l, j)).coeff k :=
    fun k l j hk hl hj => coeffMatClear_spec b a.cols dB _ k l j hl hj fun h1 _ => absurd h1 (by omega)
  generalize coeffMatClear b a.cols dB (setDimsReuse (dA + 1) (a.rows * a.cols) (a.cols * b.cols) tA) = tB at htB ⊢
  have hA : ∀ r i l, r < dA + dB + 1 → i < a.rows → l < a.cols → cmul (dA + 1) vA tA (r, i * a.cols + l) = (a.e (i, l)).eval (r : F) := by
    intro r i l hr hi hl
    rw [eval_sum_lt _ _ (dA + 1) fun k hk => (deg_lt_iff a (dA + 1)).1 (by omega) i l hi hl k hk]
    unfold cmul
    refine Finset.sum_congr rfl fun q hq => ?_
    have hq := Finset.mem_range.1 hq
    dsimp only
    rw [hsA r q hr hq, hvdm r q hr (by omega), htA q i l hq hi hl, mul_comm]
  have hB : ∀ r l j, r < dA + dB + 1 → l < a.cols → j < b.cols → cmul (dB + 1) vB tB (r, l * b.cols + j) = (b.e (l, j)).eval (r : F) := by
    intro r l j hr hl hj
    rw [eval_sum_lt _ _ (dB + 1) fun k hk => (deg_lt_iff b (dB + 1)).1 (by omega) l j (by omega) hj k hk]
    unfold cmul
    refine Finset.sum_congr rfl fun q hq => ?_
    have hq := Finset.mem_range.1 hq
    dsimp only
    rw [hsB r q hr hq, hvdm r q hr (by omega), htB q l j hq hl hj, mul_comm]
  generalize cmul (dA + 1) vA tA = valA at hA ⊢
  generalize cmul (dB + 1) vB tB = valB at hB ⊢
  refine ⟨_, rfl, ⟨rfl, rfl, fun i j hi hj => ?_⟩, ⟨rfl, rfl, fun i j hi hj => ?_⟩⟩
  · refine (loop2_at _ _ (fun u v => ofCoeffs (dA + dB + 1) fun i => cmul (dA + dB + 1) W _ (i, u * b.cols + v)) _ i j hi hj).trans ?_
    refine interp hWs (fun i => cmul a.cols (fun x => valA (i, x.1 * a.cols + x.2)) fun x => valB (i, x.1 * b.cols + x.2))
      (fun i j => ∑ l ∈ Finset.range a.cols, a.e (i, l) * b.e (l, j)) (fun i j hi hj k hk => prod_coeff_zero a b hab dA dB (by omega) (by omega) i j k hi hj (by omega))
      (fun r i j hr hi hj => ?_) i j hi hj
    rw [eval_finsetSum]
    unfold cmul
    refine Finset.sum_congr rfl fun l hl => ?_
    have hl := Finset.mem_range.1 hl
    dsimp only
    rw [eval_mul, hA r i l hr hi hl, hB r l j hr hl hj]
  · refine (loop2_at _ _ (fun u v => ofCoeffs (dA + dB + 1) fun i => cmul (dA + dB + 1) W _ (i, u * b.cols + v)) _ i j hi hj).trans ?_
    refine interp hWs (fun i => cmul a.cols (fun x => valA (i, x.1 * a.cols + x.2)) fun x => if x.1 < a.cols - 1 then valB (i, x.1 * b.cols + x.2 + b.cols) else 0)
      (fun i j => ∑ l ∈ Finset.range a.cols, a.e (i, l) * (up1 b).e (l, j))
      (fun i j hi hj k hk => prod_coeff_zero a (up1 b) hab dA dB (by omega) (deg_up1 b dB (by omega)) i j k hi hj (by omega))
      (fun r i j hr hi hj => ?_) i j hi hj
    rw [eval_finsetSum]
    unfold cmul
    refine Finset.sum_congr rfl fun l hl => ?_
    have hl := Finset.mem_range.1 hl
    dsimp only [up1]
    rw [eval_mul, hA r i l hr hi hl]
    congr 1
    by_cases h : l + 1 < b.rows
    · rw [if_pos (by omega), if_pos h, show l * b.cols + j + b.cols = (l + 1) * b.cols + j by ring, hB r (l + 1) j hr (by omega) hj]
    · rw [if_neg (by omega), if_neg h, eval_zero]

end PML.Ntl.BlockSeq
