import Verif.MatPoly.Lemmas
import Verif.Pluq.Spec
import Verif.Common.Prime

/-!
# C17-C20: matrix polynomials
-/

namespace PML.MatPoly

open PML.MatOps Polynomial Spec PML.Pluq.Spec

variable {K : Type} [Field K] [DecidableEq K]

set_option linter.unusedSectionVars false

/-! ### C17 -/

/-- C17, in place: `nmod_mat_poly_shift_left(a, a, n)` turns `a` into `X^n * a`,
    for every matrix polynomial and every `n`. Missing from C17: the call with
    distinct arguments, which is wrong (`C17_shift_left_not_correct`). -/
theorem C17_shift_left_aliased_partial (r c : Nat) (P : MatPoly K) (n : Nat) :
    valueMatrix r c (shiftLeftAliased P n) = (X ^ n : K[X]) • valueMatrix r c P := by
  ext i j k
  simp only [valueMatrix, Matrix.of_apply, Matrix.smul_apply, smul_eq_mul]
  rw [mul_comm, coeff_mul_X_pow']
  unfold shiftLeftAliased
  by_cases h0 : n = 0
  · subst h0; simp
  · rw [if_neg h0]
    by_cases hl : P.len = 0
    · rw [if_pos hl]; simp [zero, setLength, hl, value]
    · rw [if_neg hl]
      simp only [setLength, coeff_value_mk, coeff_value P, zeroLoop_apply]
      by_cases hk : k < n
      · simp [hk, matZero]
      · rw [if_neg hk, swapLoop_apply n (by omega) _ _ k (by omega)]
        rw [Nat.add_sub_cancel]
        by_cases h2 : k < P.len + n
        · rw [if_pos h2, if_pos (by omega : k < n + P.len), if_pos (by omega : n ≤ k),
            if_neg (by omega), if_pos (by omega)]
        · rw [if_neg h2, if_pos (by omega), if_neg (by omega)]

/-- C17, in place: a normalised object stays normalised. -/
theorem C17_shift_left_aliased_normalised (r c : Nat) (P : MatPoly K) (n : Nat)
    (h : Normalised r c P) : Normalised r c (shiftLeftAliased P n) := by
  unfold shiftLeftAliased
  by_cases h0 : n = 0
  · rw [if_pos h0]; exact h
  · rw [if_neg h0]
    by_cases hl : P.len = 0
    · rw [if_pos hl]; left; rfl
    · rw [if_neg hl]
      rcases h with h | ⟨i, hi, j, hj, hne⟩
      · exact absurd h hl
      · right
        refine ⟨i, hi, j, hj, ?_⟩
        simp only [setLength, zeroLoop_apply]
        rw [if_neg (by omega), swapLoop_apply n (by omega) _ _ _ (by omega), if_pos (by omega),
          if_neg (by omega)]
        have : P.len + n - 1 - n = P.len - 1 := by omega
        rw [this]; exact hne

/-- C17, distinct arguments: what the code computes. The coefficients of degree
    below `length(a)` are those of `X^n * a`; into an empty destination the result
    is `X^n * (a mod X^(length(a) - n))`: the `n` top coefficients are lost.
    The full C17 (result = `X^n * a`) fails, see below. -/
theorem C17_shift_left_distinct_partial (r c : Nat) (S P : MatPoly K) (n : Nat) (hn : 0 < n) :
    (∀ i j, i < r → j < c → ∀ k, k < P.len →
      (value (shiftLeft S P n) i j).coeff k = (X ^ n * value P i j).coeff k) ∧
    (S.len = 0 → ∀ i j, i < r → j < c → ∀ q, IsTrunc (P.len - n) (value P i j) q →
      value (shiftLeft S P n) i j = X ^ n * q) := by
  have hn0 : n ≠ 0 := by omega
  constructor
  · intro i j _ _ k hk
    rw [mul_comm, coeff_mul_X_pow']
    unfold shiftLeft
    rw [if_neg hn0, if_neg (by omega : ¬ P.len = 0)]
    simp only [setLength, coeff_value_mk, coeff_value P, zeroLoop_apply, copyLoop_apply]
    by_cases h1 : k < n
    · simp [h1, matZero]
    · rw [if_pos (by omega), if_neg h1, if_pos (by omega), if_pos (by omega), if_pos (by omega)]
  · intro hS i j _ _ q hq
    ext k
    rw [mul_comm, coeff_mul_X_pow']
    unfold shiftLeft
    rw [if_neg hn0]
    by_cases hl : P.len = 0
    · rw [if_pos hl, hq]; simp [zero, setLength, hl, value]
    rw [if_neg hl, hq]
    simp only [setLength, coeff_value_mk, coeff_value P, zeroLoop_apply, copyLoop_apply]
    by_cases h1 : k < n
    · simp [h1, matZero]
    · rw [if_neg h1, if_pos (by omega : n ≤ k)]
      by_cases h2 : k < P.len
      · rw [if_pos (by omega), if_pos (by omega), if_pos (by omega), if_pos (by omega)]
      · rw [if_neg (by omega : ¬ (n ≤ k ∧ k < n + (P.len - n))), if_neg (by omega : ¬ k - n < P.len - n)]
        by_cases h3 : k < P.len + n
        · rw [if_pos h3, if_pos (by omega)]; rfl
        · rw [if_neg h3]

/-- C17 fails for distinct arguments: over GF(5), shifting the `1 × 1` constant 1
    by one into an empty object gives 0, not `X`. -/
theorem C17_shift_left_not_correct :
    ∃ (S P : MatPoly (ZMod 5)) (n : Nat), Normalised 1 1 S ∧ Normalised 1 1 P ∧
      value (shiftLeft S P n) 0 0 ≠ X ^ n * value P 0 0 := by
  refine ⟨⟨0, fun _ _ _ => 0⟩, ⟨1, fun _ _ _ => 1⟩, 1, Or.inl rfl,
    Or.inr ⟨0, by omega, 0, by omega, by decide⟩, ?_⟩
  intro h
  have h1 : (value (shiftLeft (K := ZMod 5) ⟨0, fun _ _ _ => 0⟩ ⟨1, fun _ _ _ => 1⟩ 1) 0 0).coeff 1 =
      (X ^ 1 * value (K := ZMod 5) ⟨1, fun _ _ _ => 1⟩ 0 0).coeff 1 := by rw [h]
  rw [mul_comm, coeff_mul_X_pow', coeff_value, coeff_value] at h1
  revert h1
  decide

/-- `C17_shift_left_aliased_partial` on a nonzero case: 1 + 2X shifted by 3. -/
example : let P : MatPoly (ZMod 5) := ⟨2, fun k _ _ => k + 1⟩
    Normalised 1 1 P ∧ (shiftLeftAliased P 3).len = 5 ∧
    (List.range 5).map (fun k => (shiftLeftAliased P 3).co k 0 0) = [0, 0, 0, 1, 2] := by
  refine ⟨Or.inr ⟨0, by omega, 0, by omega, by decide⟩, by decide, by decide⟩

/-! ### C18 -/

/-- C18: `nmod_mat_poly_mul_coeff` is the coefficient of degree `k` of the product. -/
theorem C18_mul_coeff (r n c : Nat) (A B : MatPoly K) (k : Nat) (i : Fin r) (j : Fin c) :
    mulCoeff n A B k i j = ((valueMatrix r n A * valueMatrix n c B) i j).coeff k := by
  simp only [Matrix.mul_apply, valueMatrix, Matrix.of_apply]
  rw [finsetSum_coeff]
  simp only [coeff_mul, Finset.Nat.sum_antidiagonal_eq_sum_range_succ_mk, coeff_value]
  rw [Finset.sum_comm, ← Finset.sum_subset (s₁ := Finset.Ico (k + 1 - B.len) (min (k + 1) A.len))]
  rotate_left
  · intro x; simp only [Finset.mem_Ico, Finset.mem_range]; omega
  · intro x hx hx'
    simp only [Finset.mem_Ico, Finset.mem_range] at hx hx'
    apply Finset.sum_eq_zero
    intro l _
    by_cases h1 : x < A.len
    · rw [if_neg (by omega : ¬ k - x < B.len), mul_zero]
    · rw [if_neg h1, zero_mul]
  have hterm : ∀ x ∈ Finset.Ico (k + 1 - B.len) (min (k + 1) A.len),
      (∑ l : Fin n, (if x < A.len then A.co x i l else 0) *
        (if k - x < B.len then B.co (k - x) l j else 0)) = matMul n (A.co x) (B.co (k - x)) i j := by
    intro x hx
    rw [Finset.mem_Ico] at hx
    unfold matMul
    rw [Finset.sum_range]
    refine Finset.sum_congr rfl fun l _ => ?_
    rw [if_pos (by omega), if_pos (by omega)]
  rw [Finset.sum_congr rfl hterm]
  unfold mulCoeff
  split_ifs with h
  · rw [Finset.Ico_eq_empty (by omega)]; rfl
  · rw [mulCoeffLoop_apply, ← Finset.sum_Ioo_add_eq_sum_Ico (by omega : k + 1 - B.len < min (k + 1) A.len),
      add_comm]
    congr 1
    refine Finset.sum_congr ?_ fun _ _ => rfl
    ext x; simp only [Finset.mem_Ioo, Finset.mem_Ico]; omega

/-- C18: `nmod_mat_poly_evaluate_nmod` is the value at the point. -/
theorem C18_evaluate (r c : Nat) (P : MatPoly K) (pt : K) :
    toMatrix r c (evaluate P pt) = (valueMatrix r c P).map (Polynomial.eval pt) := by
  ext i j
  simp only [toMatrix, Matrix.of_apply, Matrix.map_apply, valueMatrix, value, eval_finsetSum,
    eval_monomial]
  unfold evaluate
  split_ifs with h0 h1
  · simp [h0, matZero]
  · rcases h1 with h1 | h1
    · simp [h1]
    · rw [Finset.sum_eq_single 0]
      · simp
      · intro b _ hb; rw [h1, zero_pow hb, mul_zero]
      · intro h; exact absurd (Finset.mem_range.2 (Nat.pos_of_ne_zero h0)) h
  · rw [hornerLoop_apply, ← Finset.sum_range_succ (fun k => P.co k i j * pt ^ k)]
    congr 2; omega

/-- A 1 × 1 case: `(1 + 2X)(3 + X)` has coefficient 7 = 2 of degree 1 over GF(5). -/
example : mulCoeff 1 (⟨2, fun k _ _ => if k = 0 then 1 else 2⟩ : MatPoly (ZMod 5))
    ⟨2, fun k _ _ => if k = 0 then 3 else 1⟩ 1 0 0 = 2 := by decide +kernel

/-! ### C19 -/

theorem fill_co (r c : Nat) (P : MatPoly K) (M : Mat K[X]) (order : Nat) {k i j : Nat}
    (hk : k < order) (hi : i < r) (hj : j < c) :
    (fillFromPolyMat r c P M order).co k i j = (M i j).coeff k := by
  unfold fillFromPolyMat
  exact if_pos ⟨hk, hi, hj⟩

theorem fill_value (r c : Nat) (P : MatPoly K) (M : Mat K[X]) (order : Nat) {i j : Nat}
    (hi : i < r) (hj : j < c) :
    IsTrunc order (M i j) (value (fillFromPolyMat r c P M order) i j) := by
  intro k
  rw [coeff_value]
  by_cases hk : k < order
  · rw [if_pos hk, ← fill_co r c P M order hk hi hj]
    exact if_pos hk
  · rw [if_neg hk]
    exact if_neg hk

/-- C19: converting to a matrix polynomial truncates at `order` and normalises. -/
theorem C19_set_trunc_from_poly_mat (r c : Nat) (P : MatPoly K) (M : Mat K[X]) (order : Nat) :
    Normalised r c (setTruncFromPolyMat r c P M order) ∧
    ∀ i j, i < r → j < c →
      IsTrunc order (M i j) (value (setTruncFromPolyMat r c P M order) i j) := by
  have hmax := (maxLength_le_iff r c M (maxLength r c M)).1 (Nat.le_refl _)
  have hnorm : Normalised r c (fillFromPolyMat r c P M (maxLength r c M)) := by
    by_cases h0 : maxLength r c M = 0
    · left; exact h0
    · right
      by_contra hc
      have hle : maxLength r c M ≤ maxLength r c M - 1 := by
        rw [maxLength_le_iff r c M (maxLength r c M - 1)]
        intro i hi j hj k hk
        by_cases e : k = maxLength r c M - 1
        · by_contra hne
          refine hc ⟨i, hi, j, hj, ?_⟩
          show (fillFromPolyMat r c P M (maxLength r c M)).co (maxLength r c M - 1) i j ≠ 0
          rw [fill_co r c P M _ (by omega) hi hj, ← e]; exact hne
        · exact hmax i hi j hj k (by omega)
      omega
  unfold setTruncFromPolyMat
  simp only
  generalize maxLength r c M = L at *
  by_cases ho : order > L
  · rw [if_pos ho, if_neg (Nat.lt_irrefl L)]
    refine ⟨hnorm, fun i j hi hj k => ?_⟩
    rw [fill_value r c P M L hi hj k]
    split_ifs with h1 h2 h2
    · rfl
    · omega
    · exact (hmax i hi j hj k (by omega)).symm
    · rfl
  · rw [if_neg ho]
    by_cases h2 : order < L
    · rw [if_pos h2]
      refine ⟨normalised_normalise _ _ _, fun i j hi hj => ?_⟩
      rw [value_normalise r c _ i j hi hj]
      exact fill_value r c P M order hi hj
    · rw [if_neg h2]
      have e : order = L := by omega
      rw [e]
      exact ⟨hnorm, fun i j hi hj => fill_value r c P M L hi hj⟩

/-- C19: converting back truncates at `order`. -/
theorem C19_poly_mat_set_trunc (r c : Nat) (M : Mat K[X]) (P : MatPoly K) (order : Nat) :
    ∀ i j, i < r → j < c →
      IsTrunc order (value P i j) (polyMatSetTrunc r c M P order i j) := by
  intro i j hi hj k
  unfold polyMatSetTrunc
  rw [if_pos ⟨hi, hj⟩]
  have h : ∀ o, (∑ k ∈ Finset.range o, monomial k (P.co k i j)) = value ⟨o, P.co⟩ i j :=
    fun o => rfl
  rw [h, coeff_value_mk, coeff_value]
  split_ifs <;> first | rfl | (exfalso; omega)

/-- C19, round trip: with an order at least the length of every entry, the
    polynomial matrix is recovered. -/
theorem C19_round_trip (r c : Nat) (P : MatPoly K) (M N : Mat K[X]) (order order' : Nat)
    (h : order ≤ order') :
    ∀ i j, i < r → j < c →
      IsTrunc order (M i j)
        (polyMatSetTrunc r c N (setTruncFromPolyMat r c P M order) order' i j) ∧
      ((∀ k, order ≤ k → (M i j).coeff k = 0) →
        polyMatSetTrunc r c N (setTruncFromPolyMat r c P M order) order' i j = M i j) := by
  intro i j hi hj
  have h1 : IsTrunc order (M i j)
      (polyMatSetTrunc r c N (setTruncFromPolyMat r c P M order) order' i j) := by
    intro k
    rw [C19_poly_mat_set_trunc r c N _ order' i j hi hj k,
      (C19_set_trunc_from_poly_mat r c P M order).2 i j hi hj k]
    split_ifs <;> first | rfl | (exfalso; omega)
  refine ⟨h1, fun hM => ?_⟩
  ext k
  rw [h1 k]
  split_ifs with hk
  · rfl
  · exact (hM k (by omega)).symm

/-- C19: the conversion from a constant matrix. -/
theorem C19_set_from_nmod_mat (r c : Nat) (P : MatPoly K) (A : Mat K) :
    Normalised r c (setFromMat r c P A) ∧
    ∀ i j, i < r → j < c → value (setFromMat r c P A) i j = Polynomial.C (A i j) := by
  unfold setFromMat
  split_ifs with h
  · rw [matIsZero_iff] at h
    refine ⟨Or.inl rfl, fun i j hi hj => ?_⟩
    rw [h i hi j hj]; simp [value, zero, setLength]
  · rw [matIsZero_iff] at h
    push Not at h
    obtain ⟨i, hi, j, hj, hne⟩ := h
    refine ⟨Or.inr ⟨i, hi, j, hj, by simpa [setLength] using hne⟩, fun i j hi hj => ?_⟩
    simp [value, setLength]

/-- Truncating `X + X^3` at order 3 gives a matrix polynomial of length 2. -/
example (P : MatPoly (ZMod 5)) :
    let M : Mat (ZMod 5)[X] := fun _ _ => X + X ^ 3
    (value (setTruncFromPolyMat 1 1 P M 3) 0 0).coeff 1 = 1 ∧
    (value (setTruncFromPolyMat 1 1 P M 3) 0 0).coeff 3 = 0 := by
  intro M
  have h := (C19_set_trunc_from_poly_mat 1 1 P M 3).2 0 0 (by omega) (by omega)
  constructor
  · rw [h 1]; simp [M, coeff_X]
  · rw [h 3]; simp

/-! ### C20 -/

/-- C20: `is_zero` answers whether the represented matrix is zero. -/
theorem C20_is_zero (r c : Nat) (P : MatPoly K) (h : Normalised r c P) :
    isZero P = true ↔ valueMatrix r c P = 0 := by
  simp only [isZero, beq_iff_eq]
  constructor
  · intro hl; ext i j k; simp [valueMatrix, coeff_value, hl]
  · intro hv
    by_contra hl
    rcases h with h | ⟨i, hi, j, hj, hne⟩
    · exact hl h
    · have := congrArg (fun p => p.coeff (P.len - 1)) (congrFun (congrFun hv ⟨i, hi⟩) ⟨j, hj⟩)
      simp only [valueMatrix, Matrix.of_apply, coeff_value, Matrix.zero_apply, coeff_zero] at this
      rw [if_pos (by omega)] at this
      exact hne this

/-- C20: `is_one` for any dimensions: one coefficient, with ones on the diagonal and zeros elsewhere. -/
theorem C20_is_one_rect (r c : Nat) (P : MatPoly K) :
    isOne r c P = true ↔ P.len = 1 ∧ ∀ i, i < r → ∀ j, j < c → P.co 0 i j = if i = j then 1 else 0 := by
  simp only [isOne, Bool.and_eq_true, beq_iff_eq, matIsOne_iff]

/-- C20: on nonempty square dimensions, `is_one` answers whether the represented
    matrix is the identity. -/
theorem C20_is_one (r : Nat) (hr : 0 < r) (P : MatPoly K) (h : Normalised r r P) :
    isOne r r P = true ↔ valueMatrix r r P = 1 := by
  simp only [isOne, Bool.and_eq_true, beq_iff_eq, matIsOne_iff]
  constructor
  · rintro ⟨hl, h1⟩
    ext i j k
    simp only [valueMatrix, Matrix.of_apply, coeff_value, hl, Matrix.one_apply]
    by_cases hk : k = 0
    · subst hk
      rw [if_pos (by omega), h1 i i.2 j j.2]
      by_cases e : i = j
      · subst e; simp
      · rw [if_neg e, if_neg (fun h => e (Fin.ext h))]; simp
    · rw [if_neg (by omega)]
      by_cases e : i = j
      · rw [if_pos e, coeff_one, if_neg hk]
      · rw [if_neg e]; simp
  · intro hv
    have hc : ∀ i, i < r → ∀ j, j < r → ∀ k, (if k < P.len then P.co k i j else 0) =
        if k = 0 ∧ i = j then (1 : K) else 0 := by
      intro i hi j hj k
      have := congrArg (fun p => p.coeff k) (congrFun (congrFun hv ⟨i, hi⟩) ⟨j, hj⟩)
      simp only [valueMatrix, Matrix.of_apply, coeff_value, Matrix.one_apply] at this
      rw [this]
      by_cases e : i = j
      · subst e; simp [coeff_one]
      · rw [if_neg (fun h => e (by simpa using h)), if_neg (fun h => e h.2)]; simp
    have hl : P.len = 1 := by
      have h00 := hc 0 hr 0 hr 0
      simp only [and_self, if_true] at h00
      have hpos : 0 < P.len := by
        by_contra hc'; rw [if_neg hc'] at h00; exact zero_ne_one h00
      rcases h with h | ⟨i, hi, j, hj, hne⟩
      · omega
      · have := hc i hi j hj (P.len - 1)
        rw [if_pos (by omega)] at this
        rw [this] at hne
        by_contra hne1
        exact hne (if_neg (by omega))
    refine ⟨hl, fun i hi j hj => ?_⟩
    have := hc i hi j hj 0
    rw [if_pos (by omega)] at this
    rw [this]; simp

/-- C20: `truncate` keeps exactly the coefficients of degree below `order`, and
    the object stays normalised. -/
theorem C20_truncate (r c : Nat) (P : MatPoly K) (order : Nat) :
    (Normalised r c P → Normalised r c (truncate r c P order)) ∧
    ∀ i j, i < r → j < c → IsTrunc order (value P i j) (value (truncate r c P order) i j) := by
  unfold truncate
  split_ifs with h
  · refine ⟨fun _ => normalised_normalise _ _ _, fun i j hi hj k => ?_⟩
    rw [value_normalise r c _ i j hi hj, coeff_value_mk, coeff_value]
    split_ifs <;> first | rfl | (exfalso; omega)
  · refine ⟨fun h => h, fun i j hi hj k => ?_⟩
    rw [coeff_value]
    split_ifs <;> first | rfl | (exfalso; omega)

/-- C20: `normalise` changes no value and normalises. -/
theorem C20_normalise (r c : Nat) (P : MatPoly K) :
    Normalised r c (normalise r c P) ∧
    valueMatrix r c (normalise r c P) = valueMatrix r c P :=
  ⟨normalised_normalise r c P, by
    ext i j k; simp only [valueMatrix, Matrix.of_apply]; rw [value_normalise r c P i j i.2 j.2]⟩

/-- C20: `set_length` keeps the coefficients below the new length and adds zeros. -/
theorem C20_set_length (r c : Nat) (P : MatPoly K) (n : Nat) :
    ∀ i j, i < r → j < c → IsTrunc n (value P i j) (value (setLength P n) i j) := by
  intro i j _ _ k
  simp only [coeff_value P, setLength, coeff_value_mk]
  split_ifs <;> first | rfl | (exfalso; omega)

/-- C20: `zero`, `one`, `set` and `get_coeff`. -/
theorem C20_zero_one_set (r c : Nat) (P Q : MatPoly K) :
    valueMatrix r c (zero P) = 0 ∧ valueMatrix r r (one P) = 1 ∧
    valueMatrix r c (set P Q) = valueMatrix r c Q ∧
    ∀ i j k, getCoeff P k i j = (value P i j).coeff k := by
  refine ⟨?_, ?_, ?_, ?_⟩
  · ext i j k; simp [valueMatrix, zero, setLength, value]
  · ext i j k
    simp only [valueMatrix, Matrix.of_apply, one, setLength, coeff_value_mk, Matrix.one_apply]
    by_cases hk : k = 0
    · subst hk
      by_cases e : i = j
      · subst e; simp [matOne]
      · simp [matOne, e, Fin.val_inj]
    · rw [if_neg (by omega)]
      by_cases e : i = j
      · rw [if_pos e, coeff_one, if_neg hk]
      · rw [if_neg e]; simp
  · ext i j k
    simp only [valueMatrix, Matrix.of_apply, coeff_value Q, set, setLength, coeff_value_mk]
    split_ifs <;> rfl
  · intro i j k
    rw [coeff_value]; unfold getCoeff; split_ifs <;> rfl

/-- C20: `degree` is the largest degree of an entry, and -1 for zero. -/
theorem C20_degree (r c : Nat) (P : MatPoly K) (h : Normalised r c P) :
    (degree P = -1 ↔ valueMatrix r c P = 0) ∧
    (∀ i j, i < r → j < c → ∀ k : Nat, (value P i j).coeff k ≠ 0 → (k : Int) ≤ degree P) ∧
    (valueMatrix r c P ≠ 0 → ∃ i j, i < r ∧ j < c ∧
      ∃ k : Nat, (k : Int) = degree P ∧ (value P i j).coeff k ≠ 0) := by
  refine ⟨?_, ?_, ?_⟩
  · rw [← C20_is_zero r c P h]; simp only [degree, isZero, beq_iff_eq]; omega
  · intro i j _ _ k hk
    rw [coeff_value] at hk
    unfold degree
    by_contra hc
    exact hk (if_neg (by omega))
  · intro hv
    rw [Ne, ← C20_is_zero r c P h] at hv
    simp only [isZero, beq_iff_eq] at hv
    rcases h with h | ⟨i, hi, j, hj, hne⟩
    · exact absurd h hv
    · refine ⟨i, j, hi, hj, P.len - 1, by unfold degree; omega, ?_⟩
      rw [coeff_value, if_pos (by omega)]; exact hne

/-- C20, `is_constant` as written: it answers whether the matrix is zero. Missing
    from C20: it should answer whether all coefficients of positive degree vanish
    (false, see `C20_is_constant_not_correct`). -/
theorem C20_is_constant_partial (r c : Nat) (P : MatPoly K) (h : Normalised r c P) :
    isConstant P = true ↔ valueMatrix r c P = 0 := C20_is_zero r c P h

/-- C20 fails for `is_constant`: the `1 × 1` identity is constant, and the
    function answers no. -/
theorem C20_is_constant_not_correct :
    ∃ P : MatPoly (ZMod 5), Normalised 1 1 P ∧
      (∀ i j, i < 1 → j < 1 → ∀ k, 0 < k → (value P i j).coeff k = 0) ∧
      isConstant P = false := by
  refine ⟨⟨1, fun _ _ _ => 1⟩, Or.inr ⟨0, by omega, 0, by omega, by decide⟩, ?_, rfl⟩
  intro i j _ _ k hk
  rw [coeff_value_mk, if_neg (by omega)]

/-- Normalised nonzero objects exist, also after truncation exposes zeros. -/
example : let P : MatPoly (ZMod 5) := ⟨4, fun k _ _ => if k = 0 ∨ k = 3 then 1 else 0⟩
    Normalised 1 1 P ∧ (truncate 1 1 P 3).len = 1 := by
  refine ⟨Or.inr ⟨0, by omega, 0, by omega, by decide⟩, by decide +kernel⟩

end PML.MatPoly
