import Verif.Ntl.BlockSeqProps
import Verif.Ntl.MatEvalProps

/-!
# C108: a family that meets the hypotheses for every crossover, and a family for which the sequence is wrong
-/

namespace PML.Ntl.BlockSeq

open Polynomial PML.Ntl.Utils PML.Ntl.Inv PML.Ntl.Solve PML.Ntl.MatEval PML.Ntl.MatMul

variable {F : Type} [Field F]

theorem natDegree_cyc (n : Nat) : (X ^ n - 1 : F[X]).natDegree = n := by
  have := natDegree_X_pow_sub_C (R := F) (n := n) (r := 1)
  rwa [C_1] at this

theorem xpow_mod {n : Nat} (hn : 0 < n) (k : Nat) : (X ^ k % (X ^ n - 1) : F[X]) = X ^ (k % n) := by
  have h : (X ^ n - 1 : F[X]) ∣ X ^ k - X ^ (k % n) := by
    have h1 : (X ^ k : F[X]) = X ^ (k % n) * (X ^ n) ^ (k / n) := by rw [← pow_mul, ← pow_add, Nat.mod_add_div]
    have h2 : (X ^ k - X ^ (k % n) : F[X]) = X ^ (k % n) * ((X ^ n) ^ (k / n) - 1 ^ (k / n)) := by rw [one_pow, mul_sub, mul_one, ← h1]
    rw [h2]
    exact dvd_mul_of_dvd_right (sub_dvd_pow_sub_pow _ _ _) _
  rw [Polynomial.mod_eq_of_dvd_sub h]
  refine mod_small ?_
  rw [natDegree_cyc, natDegree_X_pow]
  exact Nat.mod_lt _ hn

/-- The degree of the modulus in both families. -/
def dg (c : Nat) : Nat := 2 * (c + 3) * (c + 2) + 1

theorem dg_big (c : Nat) : 4 * (c + 3) < dg c + 1 := by
  unfold dg; nlinarith

theorem ceilSqrt_dg (c : Nat) : ceilSqrt (count (dg c) 1) = 2 * (c + 3) := by
  have hs : (count (dg c) 1).sqrt = 2 * c + 5 := by
    refine (Nat.eq_sqrt'.2 ?_).symm
    unfold count dg
    simp only [Nat.add_sub_cancel, Nat.div_one]
    constructor <;> nlinarith
  unfold ceilSqrt
  rw [hs, if_neg]
  · ring
  · unfold count dg
    simp only [Nat.add_sub_cancel, Nat.div_one]
    intro h
    nlinarith

theorem points (h2 : (2 : F) ≠ 0) (r r' : Nat) (hr : r ≤ 4 * 1 - 2) (hr' : r' ≤ 4 * 1 - 2) (h : (r : F) = (r' : F)) : r = r' := by
  have h2' : (1 : F) + 1 ≠ 0 := by rwa [one_add_one_eq_two]
  interval_cases r <;> interval_cases r' <;> first | rfl | (exfalso; simp at h)
  all_goals first
    | exact h2 h
    | exact h2 h.symm
    | (apply h2'; linear_combination h)
    | (exact one_ne_zero (α := F) (by linear_combination h))
    | (exact one_ne_zero (α := F) (by linear_combination -h))

/-- For every crossover, `a = x` modulo `x^n - 1` meets the hypotheses of `C108_sequence_partial`, with `n = dg cross` and `m = 1`. -/
example (cross : Nat) : ∃ (inv : Nat → (Nat × Nat → ℚ) → Option (Nat × Nat → ℚ)) (mats : _),
    genSequence true cross inv X (X ^ dg cross - 1) 1 = .ok mats ∧ IsSequence X (X ^ dg cross - 1) 1 mats := by
  obtain ⟨inv, hinv⟩ := invOk_exists (F := ℚ)
  have hb := dg_big cross
  have hn : 0 < dg cross := by omega
  have hd := natDegree_cyc (F := ℚ) (dg cross)
  have hw := ceilSqrt_dg cross
  refine ⟨inv, C108_sequence_partial hinv cross Nat.one_pos ?_ ?_ ?_ (points (by norm_num)) (2 * (cross + 3)) ?_ (fun v hv => ?_) ?_⟩
  · rw [hd]; omega
  · rw [hd, natDegree_X]; omega
  · rw [coeff_sub, coeff_X_pow, if_neg (by omega), coeff_one_zero]; norm_num
  · rw [hd, hw]
  · rw [xpow_mod hn, natDegree_X_pow]
    by_cases h : cross < 2 * (cross + 3) * v % dg cross
    · exact Or.inl h
    · refine Or.inr fun u hu => ?_
      rw [Nat.sub_self, pow_zero, one_mul, xpow_mod hn, Nat.mod_eq_of_lt (show u < dg cross by omega), ← pow_add, natDegree_X_pow, hd]
      omega
  · refine ⟨1, by omega, ?_⟩
    rw [xpow_mod hn, natDegree_X_pow, Nat.mul_one, Nat.mod_eq_of_lt (by omega)]
    omega

/-- For every crossover from 1 on there are valid inputs for which a sequence is returned and is wrong: one of the powers
    `a^(w v) mod g` is small, `MulMod_local` gives zero for its upper product, and the products by this power are not reduced. -/
theorem C108_crossover_wrong (cross : Nat) (hc : 1 ≤ cross) {inv : Nat → (Nat × Nat → F) → Option (Nat × Nat → F)} (hinv : InvOk inv) (h2 : (2 : F) ≠ 0) :
    ∃ a g : F[X], a.natDegree < g.natDegree ∧ g.coeff 0 ≠ 0 ∧ 2 < g.natDegree ∧
      ∃ mats, genSequence true cross inv a g 1 = .ok mats ∧ ¬IsSequence a g 1 mats := by
  have hb := dg_big cross
  have hn : 0 < dg cross := by omega
  have hd := natDegree_cyc (F := F) (dg cross)
  have hw := ceilSqrt_dg cross
  have g0 : (X ^ dg cross - 1 : F[X]).coeff 0 ≠ 0 := by
    rw [coeff_sub, coeff_X_pow, if_neg (by omega), coeff_one_zero, zero_sub]
    exact neg_ne_zero.2 one_ne_zero
  have ha : (X ^ (dg cross - 1) : F[X]).natDegree < (X ^ dg cross - 1 : F[X]).natDegree := by rw [hd, natDegree_X_pow]; omega
  -- the power of index 1 is large
  have hbig : (dg cross - 1) * (2 * (cross + 3) * 1) % dg cross = dg cross - 2 * (cross + 3) := by
    have : (dg cross - 1) * (2 * (cross + 3) * 1) = dg cross * (2 * (cross + 3) - 1) + (dg cross - 2 * (cross + 3)) := by
      obtain ⟨e, he⟩ : ∃ e, dg cross = 2 * (cross + 3) + e := ⟨dg cross - 2 * (cross + 3), by omega⟩
      rw [he, show 2 * (cross + 3) + e - 1 = 2 * cross + 5 + e by omega, show 2 * (cross + 3) - 1 = 2 * cross + 5 by omega, Nat.add_sub_cancel_left]
      ring
    rw [this, Nat.mul_add_mod, Nat.mod_eq_of_lt (by omega)]
  -- the power of index cross + 2 is x
  have hsm : (dg cross - 1) * (2 * (cross + 3) * (cross + 2)) % dg cross = 1 := by
    have h1 : 2 * (cross + 3) * (cross + 2) = dg cross - 1 := rfl
    have : (dg cross - 1) * (dg cross - 1) = dg cross * (dg cross - 2) + 1 := by
      obtain ⟨e, he⟩ : ∃ e, dg cross = e + 2 := ⟨dg cross - 2, by omega⟩
      rw [he, show e + 2 - 1 = e + 1 by omega, Nat.add_sub_cancel]
      ring
    rw [h1, this, Nat.mul_add_mod, Nat.mod_eq_of_lt (by omega)]
  refine ⟨X ^ (dg cross - 1), X ^ dg cross - 1, ha, g0, by rw [hd]; omega, ?_⟩
  obtain ⟨res, e, hres⟩ := genRow_spec (t := X ^ (1 - 1)) hinv cross Nat.one_pos (show 2 * 1 < (X ^ dg cross - 1 : F[X]).natDegree by rw [hd]; omega)
    (by rw [hd, natDegree_X_pow]; omega) ha (points h2) (Or.inr (pow_zero X)) ⟨1, by rw [hd, hw]; omega, by
      rw [hd, hw, ← pow_mul, xpow_mod hn, natDegree_X_pow, hbig]; omega⟩
  rw [hd, hw] at hres
  have hcnt : 2 * ceilDiv (dg cross) 1 + 1 = 2 * dg cross + 1 := by unfold ceilDiv; rw [Nat.add_sub_cancel, Nat.div_one]
  have hw' : ceilSqrt (2 * dg cross + 1) = 2 * (cross + 3) := by rw [← hcnt]; exact hw
  unfold genSequence
  dsimp only
  rw [e]
  simp only [andThen]
  rw [if_neg g0, hd, hcnt]
  refine ⟨_, rfl, fun hseq => ?_⟩
  obtain ⟨M, hM⟩ : ∃ M, (format (nextRows (X ^ dg cross - 1) res) (2 * dg cross + 1) 1)[dg cross]? = some M :=
    ⟨_, List.getElem?_eq_getElem (by rw [format_length]; omega)⟩
  have hs := (hseq.2 _ _ hM).2.2 0 0 Nat.one_pos Nat.one_pos
  obtain ⟨-, -, -, f3⟩ := format_spec _ _ _ _ _ hM
  rw [f3 0 0 Nat.one_pos Nat.one_pos, hw', show 2 * dg cross + 1 - 1 - dg cross = dg cross by omega] at hs
  have hmod : dg cross % (2 * (cross + 3)) = 1 := by
    unfold dg; rw [Nat.mul_add_mod, Nat.mod_eq_of_lt (by omega)]
  have hdiv : dg cross / (2 * (cross + 3)) = cross + 2 := by
    unfold dg; rw [Nat.mul_add_div (by omega), Nat.div_eq_of_lt (by omega), Nat.add_zero]
  rw [hmod, hdiv] at hs
  change res 1 (cross + 2) 0 = _ at hs
  rw [hres 1 (cross + 2) 0 (by omega) (by omega) (by omega), ← pow_mul, xpow_mod hn, hsm, natDegree_X_pow, if_neg (by omega), Nat.sub_self, pow_zero,
    one_mul, pow_one, xpow_mod hn, Nat.mod_eq_of_lt (show dg cross - 1 < dg cross by omega), ← pow_add, coeff_X_pow, if_neg (by omega), one_mul,
    hd, ← pow_mul, xpow_mod hn, show count (dg cross) 1 - 1 - dg cross = dg cross by
      unfold count; rw [Nat.add_sub_cancel, Nat.div_one]; omega, Nat.mul_mod_left, pow_zero, coeff_one_zero] at hs
  exact zero_ne_one hs

/-- The hypotheses of `C108_crossover_wrong` are met. -/
example : ∃ (inv : Nat → (Nat × Nat → ℚ) → Option (Nat × Nat → ℚ)) (a g : ℚ[X]), a.natDegree < g.natDegree ∧ g.coeff 0 ≠ 0 ∧ 2 < g.natDegree ∧
    ∃ mats, genSequence true 45 inv a g 1 = .ok mats ∧ ¬IsSequence a g 1 mats := by
  obtain ⟨inv, hinv⟩ := invOk_exists (F := ℚ)
  exact ⟨inv, C108_crossover_wrong 45 (by norm_num) hinv (by norm_num)⟩

/-- The hypotheses of `C108_small_fails` and `C108_short_modulus` are met. -/
example (inv : Nat → (Nat × Nat → ℚ) → Option (Nat × Nat → ℚ)) (mats) : genSequence false 45 inv X (X ^ 20 - 1) 2 ≠ .ok mats ∧
    genSequence true 45 inv X (X ^ 200 - 1) 100 ≠ .ok mats :=
  ⟨C108_small_fails _ _ _ (by omega) (by rw [natDegree_cyc]; omega) (by rw [natDegree_cyc, natDegree_X]; omega) (fun _ _ => Or.inl rfl) _,
    C108_short_modulus _ _ _ (by omega) (by rw [natDegree_cyc]; omega) (by rw [natDegree_cyc]) (by rw [natDegree_cyc, natDegree_X]; omega) _⟩

/-- The hypotheses of `C108_pows` are met, and both cases of `C108_naive` occur. -/
example : (∃ r, genPows true 45 ⟨0, fun _ => 0⟩ X (X ^ 2 : ℚ[X]) 3 (X ^ 5 - 1) 4 true = .ok r ∧ r.1.len = 4 ∧
      ∀ i, i < 4 → r.1.e i = X * (X ^ 2) ^ (3 * i) % (X ^ 5 - 1)) ∧
    (X : ℚ[X]).natDegree < (X ^ 5 - 1 : ℚ[X]).natDegree ∧ ¬(X ^ 5 : ℚ[X]).natDegree < (X ^ 5 - 1 : ℚ[X]).natDegree :=
  ⟨C108_pows _ _ _ _ (by rw [natDegree_cyc, natDegree_X]; omega) (by rw [natDegree_cyc, natDegree_X_pow]; omega) (by omega),
    by rw [natDegree_cyc, natDegree_X]; omega, by rw [natDegree_cyc, natDegree_X_pow]; omega⟩

end PML.Ntl.BlockSeq
