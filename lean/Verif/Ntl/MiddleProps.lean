import Verif.Ntl.MiddleLemmas

/-!
# The middle product of `ntl-extras`
-/

namespace PML.Ntl.Middle

open Polynomial

variable {p : Nat} [NeZero p]

/-- A coefficient of a truncated product. -/
theorem trunc_mul_coeff [Fact (1 < p)] (a c : (ZMod p)[X]) (dA j : Nat) :
    ((a %ₘ X ^ (dA + 1)) * c).coeff (dA + j) = ∑ i ∈ Finset.range (dA + 1), a.coeff (dA - i) * c.coeff (i + j) := by
  rw [coeff_mul, Finset.Nat.sum_antidiagonal_eq_sum_range_succ_mk,
    ← Finset.sum_range_add_sum_Ico _ (show dA + 1 ≤ (dA + j).succ by omega)]
  rw [Finset.sum_eq_zero (s := Finset.Ico (dA + 1) (dA + j).succ) fun i hi => by
    have := (Finset.mem_Ico.1 hi).1
    rw [coeff_mod_X_pow, if_neg (by omega), zero_mul], add_zero]
  rw [← Finset.sum_range_reflect]
  refine Finset.sum_congr rfl fun i hi => ?_
  have hi := Finset.mem_range.1 hi
  rw [coeff_mod_X_pow, if_pos (by omega)]
  congr 2 <;> omega

/-- **C56 (partial)**. `middle_product(b, a, c, dA, dB)` computes
    `trunc(trunc(a, dA+1) * c div x^dA, dB+1)`, without reading or writing beyond the arrays it
    allocates, provided that the delayed reductions cannot overflow.  Missing: the case of delayed
    reductions with `(dA + 1) (p - 1)^2 ≥ 2^60`, for which the claim is false, see below. -/
theorem C56_middle_product_partial [Fact (1 < p)] {red : Nat → ZMod p} (hred : RedOK red) (cross : Nat)
    (a c : (ZMod p)[X]) (dA dB : Nat)
    (hsafe : useLong p = false ∨ (dA + 1) * (p - 1) ^ 2 < SP_BOUND ∨ (cross < dA ∧ cross < dB)) :
    ∃ b, middleProduct red cross a c dA dB = some b ∧
      ∀ j, b.coeff j = if j ≤ dB then ((a %ₘ X ^ (dA + 1)) * c).coeff (dA + j) else 0 := by
  unfold middleProduct
  by_cases h0 : c = 0 ∨ a = 0
  · rw [if_pos h0]
    refine ⟨0, rfl, fun j => ?_⟩
    rcases h0 with rfl | rfl
    · simp
    · rw [zero_modByMonic]; simp
  · rw [if_neg h0]
    by_cases hF : cross < dA ∧ cross < dB
    · rw [if_pos hF]
      refine ⟨_, rfl, fun j => ?_⟩
      unfold middleFFT
      dsimp only
      have hN := le_nextPow2 (dA + dB + 1)
      generalize nextPow2 (dA + dB + 1) = k at hN
      have hN0 : 0 < 2 ^ k := by omega
      unfold fromRep mulRep toRep
      rw [slice_coeff, cyc_mul hN0]
      by_cases hj : j ≤ dB
      · rw [if_pos (by omega), if_pos hj, cyc_coeff_eq (by omega), ← slice_mod, Nat.sub_zero, trunc_mul_coeff]
        · rw [← slice_mod, Nat.sub_zero, trunc_mul_coeff]
          refine Finset.sum_congr rfl fun i hi => ?_
          have hi := Finset.mem_range.1 hi
          rw [coeff_mod_X_pow, if_pos (by omega)]
        · intro n hn
          rw [coeff_mul]
          refine Finset.sum_eq_zero fun x hx => ?_
          have hx := Finset.mem_antidiagonal.1 hx
          rw [slice_coeff, slice_coeff]
          by_cases h1 : x.1 < dA + 1 - 0
          · rw [if_neg (show ¬ x.2 < dA + dB + 1 - 0 by omega), mul_zero]
          · rw [if_neg h1, zero_mul]
      · rw [if_neg (by omega), if_neg hj]
    · rw [if_neg hF]
      have hs : Safe (useLong p) p (dA + 1) := by
        intro hu
        rcases hsafe with h | h | h
        · rw [h] at hu; exact absurd hu (by simp)
        · exact h
        · exact absurd h hF
      dsimp only
      have hap : ∀ i, i < dA + 1 → (if i < dA - a.natDegree then 0 else a.coeff (dA - i)) = a.coeff (dA - i) := by
        intro i hi
        by_cases h : i < dA - a.natDegree
        · rw [if_pos h, coeff_eq_zero_of_natDegree_lt (by omega)]
        · rw [if_neg h]
      have hcp : ∀ i, (if i < c.natDegree + 1 then c.coeff i else 0) = c.coeff i := by
        intro i
        by_cases h : i < c.natDegree + 1
        · rw [if_pos h]
        · rw [if_neg h, coeff_eq_zero_of_natDegree_lt (by omega)]
      generalize hA : (fun i => if i < dA - a.natDegree then 0 else a.coeff (dA - i)) = ap
      generalize hC : (fun i => if i < c.natDegree + 1 then c.coeff i else 0) = cp
      have hconv : ∀ j, conv ap cp (dA + 1) j = ((a %ₘ X ^ (dA + 1)) * c).coeff (dA + j) := by
        intro j
        rw [trunc_mul_coeff]
        refine Finset.sum_congr rfl fun i hi => ?_
        rw [← hA, ← hC]
        show (if i < dA - a.natDegree then 0 else a.coeff (dA - i)) *
          (if i + j < c.natDegree + 1 then c.coeff (i + j) else 0) = _
        rw [hap i (Finset.mem_range.1 hi), hcp]
      obtain ⟨bp, e, sp⟩ : ∃ bp, (if min dA dB < KARX then
          tPlainMul2 red 0 (dB + 1) ap (dA + 1) cp (dA + dB + 1) (useLong p)
          else tKar red (useLong p) (dA + dB + 2) 0 (dB + 1) ap (dA + 1) cp (dA + dB + 1)
            (karStkSize (1 + max dA dB))) = some bp ∧ ∀ j, bp j = if j < dB + 1 then conv ap cp (dA + 1) j else 0 := by
        by_cases hk : min dA dB < KARX
        · rw [if_pos hk]
          exact tPlainMul2_spec hred 0 ap cp (dA + 1) (dB + 1) (dA + dB + 1) _ (fun i j hi hj => by omega) hs
        · rw [if_neg hk]
          refine tKar_spec hred _ _ 0 (dB + 1) ap (dA + 1) cp (dA + dB + 1) _ (by omega) (by omega) (by omega) (by omega)
            ?_ hs
          rw [show max (dA + 1) (dB + 1) = 1 + max dA dB by omega]
          exact need_le _
      rw [e]
      refine ⟨_, rfl, fun j => ?_⟩
      rw [finsetSum_coeff]
      simp only [coeff_C_mul, coeff_X_pow, mul_ite, mul_one, mul_zero]
      rw [Finset.sum_ite_eq (Finset.range (dB + 1)) j]
      simp only [Finset.mem_range]
      by_cases hj : j ≤ dB
      · rw [if_pos (by omega), if_pos hj, sp, if_pos (by omega), hconv]
      · rw [if_neg (by omega), if_neg hj]

/-! ### Delayed reductions overflow -/

theorem val_neg_one' [Fact (1 < p)] : (-1 : ZMod p).val = p - 1 := by
  have h1 : 1 < p := Fact.out
  obtain ⟨n, rfl⟩ : ∃ n, p = n + 1 := ⟨p - 1, by omega⟩
  rw [ZMod.val_neg_one]; rfl

theorem accLoop_neg_one [Fact (1 < p)] (a c : Nat → ZMod p) (sc j n : Nat) (ha : ∀ i, i < n → a i = -1)
    (hc : ∀ i, i < n → c (i + j) = -1) :
    accLoop a c sc j n = none ∨ (accLoop a c sc j n = some (n * (p - 1) ^ 2) ∧ (n = 0 ∨ n * (p - 1) ^ 2 < LONG_BOUND)) := by
  induction n with
  | zero => exact Or.inr ⟨by simp [accLoop], Or.inl rfl⟩
  | succ n ih =>
    have hstep : accLoop a c sc j (n + 1) = match accLoop a c sc j n with
      | none => none
      | some s => if sc ≤ n + j then none
          else if LONG_BOUND ≤ s + (c (n + j)).val * (a n).val then none
          else some (s + (c (n + j)).val * (a n).val) := rfl
    rcases ih (fun i hi => ha i (by omega)) (fun i hi => hc i (by omega)) with h | ⟨h, -⟩
    · left; rw [hstep, h]
    · rw [hstep, h]
      dsimp only
      rw [ha n (by omega), hc n (by omega), val_neg_one']
      have e : n * (p - 1) ^ 2 + (p - 1) * (p - 1) = (n + 1) * (p - 1) ^ 2 := by ring
      rw [e]
      by_cases h1 : sc ≤ n + j
      · left; rw [if_pos h1]
      · rw [if_neg h1]
        by_cases h2 : LONG_BOUND ≤ (n + 1) * (p - 1) ^ 2
        · left; rw [if_pos h2]
        · right; rw [if_neg h2]; exact ⟨rfl, Or.inr (by omega)⟩

/-- The polynomial with all coefficients `-1` and length `n`. -/
noncomputable def allNeg (p n : Nat) : (ZMod p)[X] := ∑ i ∈ Finset.range n, C (-1) * X ^ i

theorem allNeg_coeff (n j : Nat) : (allNeg p n).coeff j = if j < n then -1 else 0 := by
  unfold allNeg
  rw [finsetSum_coeff]
  simp only [coeff_C_mul, coeff_X_pow, mul_ite, mul_one, mul_zero]
  rw [Finset.sum_ite_eq (Finset.range n) j]
  simp only [Finset.mem_range]

theorem allNeg_natDegree [Fact (1 < p)] (n : Nat) : (allNeg p (n + 1)).natDegree = n := by
  refine le_antisymm ?_ (le_natDegree_of_ne_zero ?_)
  · rw [natDegree_le_iff_coeff_eq_zero]
    intro N hN
    rw [allNeg_coeff, if_neg (by omega)]
  · rw [allNeg_coeff, if_pos (by omega)]
    exact neg_ne_zero.2 one_ne_zero

/-- **C56, negative part**. For every modulus for which reductions are delayed, there are inputs with
    a signed overflow as soon as `(dA + 1) (p - 1)^2 ≥ 2^63`: the test that chooses delayed
    reductions bounds sums of `KARX` products, but sums of `dA + 1` products are formed. -/
theorem C56_middle_product_overflow [Fact (1 < p)] (red : Nat → ZMod p) (cross dA : Nat) (hu : useLong p = true)
    (h : LONG_BOUND ≤ (dA + 1) * (p - 1) ^ 2) :
    ∃ a c : (ZMod p)[X], a.natDegree = dA ∧ c.natDegree = dA ∧ middleProduct red cross a c dA 0 = none := by
  refine ⟨allNeg p (dA + 1), allNeg p (dA + 1), allNeg_natDegree dA, allNeg_natDegree dA, ?_⟩
  have hne : allNeg p (dA + 1) ≠ 0 := by
    intro e
    have := allNeg_coeff (p := p) (dA + 1) 0
    rw [e, coeff_zero, if_pos (by omega)] at this
    exact neg_ne_zero.2 one_ne_zero this.symm
  unfold middleProduct
  rw [if_neg (by rintro (e | e) <;> exact hne e), if_neg (by omega)]
  dsimp only
  rw [if_pos (by simp [KARX]), allNeg_natDegree]
  unfold tPlainMul2
  rw [hu, if_pos rfl]
  have hacc := accLoop_neg_one (fun i => if i < dA - dA then 0 else (allNeg p (dA + 1)).coeff (dA - i))
    (fun i => if i < dA + 1 then (allNeg p (dA + 1)).coeff i else 0) (dA + 0 + 1) 0 (dA + 1)
    (fun i hi => by
      show (if i < dA - dA then 0 else (allNeg p (dA + 1)).coeff (dA - i)) = -1
      rw [if_neg (by omega), allNeg_coeff, if_pos (by omega)])
    (fun i hi => by
      show (if i + 0 < dA + 1 then (allNeg p (dA + 1)).coeff (i + 0) else 0) = -1
      rw [if_pos (by omega), allNeg_coeff, if_pos (by omega)])
  rcases hacc with e | ⟨-, e⟩
  · have hrow : ∀ a c : Nat → ZMod p, accLoop a c (dA + 0 + 1) 0 (dA + 1) = none →
        accRows red 0 a c (dA + 1) (dA + 0 + 1) (0 + 1) = none := by
      intro a c h
      show (match accLoop a c (dA + 0 + 1) 0 (dA + 1) with
        | none => none
        | some s => some (Function.update (0 : Nat → ZMod p) 0 (red s))) = none
      rw [h]
    rw [hrow _ _ e]
  · omega

/-- The situation of the previous theorem occurs, for the modulus `2^27` and degree 512. -/
example : useLong (2 ^ 27) = true ∧ LONG_BOUND ≤ (512 + 1) * (2 ^ 27 - 1) ^ 2 := by
  constructor
  · unfold useLong; norm_num
  · norm_num

/-- The contract of `reduce` is satisfiable. -/
example : ∃ red : Nat → ZMod 97, RedOK red := ⟨fun n => n, fun _ _ => rfl⟩

/-- The safe situation is the usual one: a 60-bit modulus is never delayed, and a 20-bit modulus is
    safe up to degree about one million. -/
example : useLong (2 ^ 59) = false ∧ (2 ^ 20 - 1 + 1) * (2 ^ 20 - 1) ^ 2 < SP_BOUND := by
  constructor
  · unfold useLong; norm_num
  · norm_num

end PML.Ntl.Middle
