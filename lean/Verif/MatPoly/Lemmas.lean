import Verif.MatPoly.Spec
import Mathlib.Algebra.Polynomial.BigOperators
import Mathlib.Algebra.Polynomial.Eval.Coeff
import Mathlib.Algebra.Polynomial.Degree.Lemmas
import Mathlib.Tactic.Ring

namespace PML.MatPoly

open PML.MatOps Polynomial Spec

variable {K : Type} [Field K] [DecidableEq K]

omit [DecidableEq K] in
theorem coeff_value (P : MatPoly K) (i j k : Nat) :
    (value P i j).coeff k = if k < P.len then P.co k i j else 0 := by
  unfold value
  rw [finsetSum_coeff]
  simp only [coeff_monomial]
  by_cases h : k < P.len
  · rw [if_pos h, Finset.sum_eq_single k]
    · rw [if_pos rfl]
    · intro b _ hb; rw [if_neg hb]
    · intro hk; exact absurd (Finset.mem_range.2 h) hk
  · rw [if_neg h]
    apply Finset.sum_eq_zero
    intro b hb
    rw [if_neg]
    rw [Finset.mem_range] at hb
    omega

omit [DecidableEq K] in
theorem coeff_value_mk (len : Nat) (co : Nat → Mat K) (i j k : Nat) :
    (value ⟨len, co⟩ i j).coeff k = if k < len then co k i j else 0 := coeff_value _ _ _ _

theorem swapLoop_apply {α : Type} (n : Nat) (hn : 0 < n) : ∀ (len : Nat) (s : Nat → α) (k : Nat),
    n ≤ k → swapLoop n len s k = if k < n + len then s (k - n) else s k := by
  intro len
  induction len with
  | zero => intro s k hk; simp [swapLoop]; intro h; omega
  | succ l ih =>
    intro s k hk
    rw [swapLoop, ih _ k hk]
    have hne : n + l ≠ l := by omega
    by_cases h1 : k < n + l
    · rw [if_pos h1, if_pos (by omega)]
      unfold swapAt
      rw [if_pos hne]
      rw [Function.update_of_ne (by omega), Function.update_of_ne (by omega)]
    · rw [if_neg h1]
      unfold swapAt
      rw [if_pos hne]
      by_cases h2 : k = n + l
      · subst h2
        rw [Function.update_self, if_pos (by omega)]
        congr 1; omega
      · rw [Function.update_of_ne h2, if_neg (by omega)]
        rw [Function.update_of_ne (by omega)]

theorem copyLoop_apply {α : Type} (n : Nat) (src : Nat → α) : ∀ (len : Nat) (s : Nat → α) (k : Nat),
    copyLoop n src len s k = if n ≤ k ∧ k < n + len then src (k - n) else s k := by
  intro len
  induction len with
  | zero => intro s k; simp [copyLoop]
  | succ l ih =>
    intro s k
    rw [copyLoop]
    by_cases h : k = n + l
    · subst h
      rw [Function.update_self, if_pos (by omega)]
      congr 1; omega
    · rw [Function.update_of_ne h, ih]
      split_ifs <;> first | rfl | (exfalso; omega)

theorem zeroLoop_apply {α : Type} (z : α) : ∀ (n : Nat) (s : Nat → α) (k : Nat),
    zeroLoop z n s k = if k < n then z else s k := by
  intro n
  induction n with
  | zero => intro s k; simp [zeroLoop]
  | succ l ih =>
    intro s k
    rw [zeroLoop]
    by_cases h : k = l
    · subst h; rw [Function.update_self, if_pos (by omega)]
    · rw [Function.update_of_ne h, ih]
      split_ifs <;> first | rfl | (exfalso; omega)

theorem matIsZero_iff (r c : Nat) (A : Mat K) :
    matIsZero r c A = true ↔ ∀ i, i < r → ∀ j, j < c → A i j = 0 := by
  simp [matIsZero]

theorem matIsOne_iff (r c : Nat) (A : Mat K) :
    matIsOne r c A = true ↔ ∀ i, i < r → ∀ j, j < c → A i j = if i = j then 1 else 0 := by
  simp [matIsOne]

theorem normLen_le (r c : Nat) (co : Nat → Mat K) (n : Nat) : normLen r c co n ≤ n := by
  induction n with
  | zero => simp [normLen]
  | succ n ih => rw [normLen]; split_ifs <;> omega

theorem normLen_spec (r c : Nat) (co : Nat → Mat K) (n : Nat) :
    (∀ k, normLen r c co n ≤ k → k < n → ∀ i, i < r → ∀ j, j < c → co k i j = 0) ∧
    (normLen r c co n = 0 ∨
      ∃ i, i < r ∧ ∃ j, j < c ∧ co (normLen r c co n - 1) i j ≠ 0) := by
  induction n with
  | zero => exact ⟨fun k _ h => absurd h (by omega), Or.inl rfl⟩
  | succ n ih =>
    rw [normLen]
    split_ifs with h
    · refine ⟨fun k hk hkn => ?_, ih.2⟩
      by_cases e : k = n
      · subst e; exact (matIsZero_iff r c _).1 h
      · exact ih.1 k hk (by omega)
    · refine ⟨fun k hk hkn => absurd hk (by omega), Or.inr ?_⟩
      rw [matIsZero_iff] at h
      push Not at h
      obtain ⟨i, hi, j, hj, hne⟩ := h
      exact ⟨i, hi, j, hj, by simpa using hne⟩

theorem value_normalise (r c : Nat) (P : MatPoly K) (i j : Nat) (hi : i < r) (hj : j < c) :
    value (normalise r c P) i j = value P i j := by
  ext k
  rw [normalise, coeff_value_mk, coeff_value]
  have h1 := normLen_le r c P.co P.len
  have h2 := (normLen_spec r c P.co P.len).1
  by_cases ha : k < normLen r c P.co P.len
  · rw [if_pos ha, if_pos (by omega)]
  · rw [if_neg ha]
    by_cases hb : k < P.len
    · rw [if_pos hb]; exact (h2 k (by omega) hb i hi j hj).symm
    · rw [if_neg hb]

theorem normalised_normalise (r c : Nat) (P : MatPoly K) : Normalised r c (normalise r c P) :=
  (normLen_spec r c P.co P.len).2

omit [DecidableEq K] in
theorem mulCoeffLoop_apply (n : Nat) (A B : MatPoly K) (k : Nat) : ∀ (s i : Nat) (acc : Mat K) (a b : Nat),
    mulCoeffLoop n A B k s i acc a b =
      acc a b + ∑ t ∈ Finset.Ico i (i + s), matMul n (A.co t) (B.co (k - t)) a b := by
  intro s
  induction s with
  | zero => intro i acc a b; simp [mulCoeffLoop]
  | succ s ih =>
    intro i acc a b
    rw [mulCoeffLoop, ih, ← Finset.sum_Ioo_add_eq_sum_Ico (by omega : i < i + (s + 1))]
    have : Finset.Ioo i (i + (s + 1)) = Finset.Ico (i + 1) (i + 1 + s) := by
      ext x; simp [Finset.mem_Ioo, Finset.mem_Ico]; omega
    rw [this]
    simp only [matAdd]
    ring

omit [DecidableEq K] in
theorem hornerLoop_apply (P : MatPoly K) (pt : K) : ∀ (n : Nat) (e : Mat K) (i j : Nat),
    hornerLoop P pt n e i j =
      ∑ k ∈ Finset.range n, P.co k i j * pt ^ k + e i j * pt ^ n := by
  intro n
  induction n with
  | zero => intro e i j; simp [hornerLoop]
  | succ n ih =>
    intro e i j
    rw [hornerLoop, ih, Finset.sum_range_succ]
    simp only [matScalarAddmul]
    ring

theorem polyLength_le_iff (p : K[X]) (n : Nat) :
    polyLength p ≤ n ↔ ∀ k, n ≤ k → p.coeff k = 0 := by
  unfold polyLength
  split_ifs with h
  · simp [h]
  · constructor
    · intro hn k hk; exact coeff_eq_zero_of_natDegree_lt (by omega)
    · intro hk
      by_contra hc
      have := hk p.natDegree (by omega)
      exact h (leadingCoeff_eq_zero.1 this)

theorem maxLength_le_iff (r c : Nat) (M : Mat K[X]) (n : Nat) :
    maxLength r c M ≤ n ↔ ∀ i, i < r → ∀ j, j < c → ∀ k, n ≤ k → (M i j).coeff k = 0 := by
  unfold maxLength
  simp only [Finset.sup_le_iff, Finset.mem_range, polyLength_le_iff]

end PML.MatPoly
