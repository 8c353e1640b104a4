import Verif.Hermite.Model
import Verif.Hermite.Spec
import Verif.WeakPopov.Lemmas
import Mathlib.Tactic.LinearCombination

/-! # Row operations of the Hermite form algorithms -/

namespace PML.Hermite

open PML.MatOps PML.MatOps.Spec PML.MatPoly PML.Forms PML.Forms.Spec PML.RowOps PML.RowOps.Spec
open PML.WeakPopov PML.Hermite.Spec PML.PolyMul.Spec Polynomial

set_option linter.unusedSectionVars false

variable {K : Type} [Field K] [DecidableEq K]

/-- One transformation of determinant `σ` on both matrices of the pair. -/
def Tr (m : Nat) (σ : K[X]) (s s' : Pair K) : Prop :=
  s'.2.isSome = s.2.isSome ∧ Transformed m σ (beside s.1 s.2) (beside s'.1 s'.2)

theorem Tr.refl (m : Nat) (s : Pair K) : Tr m 1 s s := ⟨rfl, Transformed.refl m _⟩

theorem Tr.trans {m : Nat} {σ τ : K[X]} {s s' s'' : Pair K} (h : Tr m σ s s') (h' : Tr m τ s' s'') :
    Tr m (τ * σ) s s'' := ⟨h'.1.trans h.1, h.2.trans h'.2⟩

theorem Tr.trans_one {m : Nat} {σ : K[X]} {s s' s'' : Pair K} (h : Tr m σ s s') (h' : Tr m 1 s' s'') :
    Tr m σ s s'' := by simpa using h.trans h'

theorem Tr.cols {m : Nat} {σ : K[X]} {s s' : Pair K} (h : Tr m σ s s') (c : Nat) :
    Transformed m σ (firstCols c s.1) (firstCols c s'.1) :=
  h.2.cols fun j : Fin c => Sum.inl (j : Nat)

theorem Tr.rank {m : Nat} {σ : K[X]} {s s' : Pair K} (h : Tr m σ s s') (hσ : IsUnit σ) (c : Nat) :
    rankOf m c s'.1 = rankOf m c s.1 :=
  rankOf_congr ((h.cols c).rowSpan_eq hσ)

/-- Up to a unit. -/
def TrU (m : Nat) (s s' : Pair K) : Prop := ∃ σ : K[X], IsUnit σ ∧ Tr m σ s s'

/-- Up to a sign. -/
def TrS (m : Nat) (s s' : Pair K) : Prop := ∃ σ : K[X], (σ = 1 ∨ σ = -1) ∧ Tr m σ s s'

theorem TrS.refl (m : Nat) (s : Pair K) : TrS m s s := ⟨1, Or.inl rfl, Tr.refl m s⟩

theorem TrS.trans {m : Nat} {s s' s'' : Pair K} (h : TrS m s s') (h' : TrS m s' s'') : TrS m s s'' := by
  obtain ⟨σ, h1, h2⟩ := h
  obtain ⟨τ, k1, k2⟩ := h'
  refine ⟨_, ?_, h2.trans k2⟩
  rcases h1 with rfl | rfl <;> rcases k1 with rfl | rfl <;> simp

theorem Tr.toS {m : Nat} {s s' : Pair K} (h : Tr m 1 s s') : TrS m s s' := ⟨1, Or.inl rfl, h⟩

theorem TrS.toU {m : Nat} {s s' : Pair K} (h : TrS m s s') : TrU m s s' := by
  obtain ⟨σ, h1, h2⟩ := h
  refine ⟨σ, ?_, h2⟩
  rcases h1 with rfl | rfl <;> simp

theorem TrU.trans {m : Nat} {s s' s'' : Pair K} (h : TrU m s s') (h' : TrU m s' s'') : TrU m s s'' := by
  obtain ⟨σ, h1, h2⟩ := h
  obtain ⟨τ, k1, k2⟩ := h'
  exact ⟨_, k1.mul h1, h2.trans k2⟩

theorem TrU.rank {m : Nat} {s s' : Pair K} (h : TrU m s s') (c : Nat) :
    rankOf m c s'.1 = rankOf m c s.1 := by
  obtain ⟨σ, h1, h2⟩ := h
  exact h2.rank h1 c

theorem TrU.left {r : Nat} {s s' : Pair K} (h : TrU r s s') : LeftEquivalent r s.1 s.2 s'.1 s'.2 := by
  obtain ⟨σ, h1, h2⟩ := h
  exact ⟨h2.1, σ, h1, h2.2⟩

theorem TrS.sign {r : Nat} {s s' : Pair K} (h : TrS r s s') : SignEquivalent r s.1 s.2 s'.1 s'.2 := by
  obtain ⟨σ, h1, h2⟩ := h
  exact ⟨h2.1, σ, h1, h2.2⟩

theorem TrS.of_pow {m n : Nat} {s s' : Pair K} (h : Tr m ((-1) ^ n) s s') : TrS m s s' :=
  ⟨_, neg_one_pow_eq_or _ n, h⟩

/-! ### Searching -/

theorem findFrom_spec (p : Nat → Bool) : ∀ n k,
    k ≤ findFrom p n k ∧ findFrom p n k ≤ k + n ∧ (∀ i, k ≤ i → i < findFrom p n k → p i = false) ∧
    (findFrom p n k < k + n → p (findFrom p n k) = true) := by
  intro n
  induction n with
  | zero => intro k; simp only [findFrom]; exact ⟨le_rfl, by omega, fun i h1 h2 => by omega, fun h => by omega⟩
  | succ n ih =>
    intro k
    simp only [findFrom]
    by_cases hp : p k = true
    · rw [if_pos hp]
      exact ⟨le_rfl, by omega, fun i h1 h2 => by omega, fun _ => hp⟩
    · rw [if_neg hp]
      obtain ⟨h1, h2, h3, h4⟩ := ih (k + 1)
      refine ⟨by omega, by omega, fun i hi hi' => ?_, fun h => h4 (by omega)⟩
      by_cases hik : i = k
      · subst hik; simpa using hp
      · exact h3 i (by omega) hi'

theorem polyLength_zero_iff {p : K[X]} : polyLength p = 0 ↔ p = 0 := by
  by_cases h : p = 0
  · simp [polyLength, h]
  · simp [polyLength_of_ne h, h]

/-! ### Row operations -/

theorem atomicCollision_spec {m pi1 pi2 j : Nat} {s : Pair K} (h1 : pi1 < m) (h2 : pi2 < m)
    (h12 : pi1 ≠ pi2) (hz : ∀ jj, jj < j → s.1 pi2 jj = 0) (hne : s.1 pi2 j ≠ 0)
    (hle : polyLength (s.1 pi2 j) ≤ polyLength (s.1 pi1 j)) :
    ∃ s', atomicCollision s pi1 pi2 j = some s' ∧ Tr m 1 s s' ∧
      (∀ k, k ≠ pi1 → s'.1 k = s.1 k) ∧ (∀ k jj, jj < j → s'.1 k jj = s.1 k jj) ∧
      polyLength (s'.1 pi1 j) < polyLength (s.1 pi1 j) := by
  obtain ⟨A, T⟩ := s
  simp only at hz hne hle ⊢
  have hf : collisionFactor A pi1 pi2 j = some (C (-((A pi1 j).leadingCoeff * (A pi2 j).leadingCoeff⁻¹)) *
      X ^ (polyLength (A pi1 j) - polyLength (A pi2 j))) := by
    unfold collisionFactor
    rw [if_neg (by omega)]
  refine ⟨_, by unfold atomicCollision; simp only [hf, Option.map_some]; rfl, ⟨by simp, ?_⟩, ?_, ?_, ?_⟩
  · refine Transformed.addRow h1 h2 h12 (C (-((A pi1 j).leadingCoeff * (A pi2 j).leadingCoeff⁻¹)) *
      X ^ (polyLength (A pi1 j) - polyLength (A pi2 j))) (fun l => ?_) (fun i hi => ?_)
    · cases l with
      | inl l =>
        simp only [beside, Function.update_self]
        by_cases hl : l < j
        · rw [if_pos hl, hz l hl, mul_zero, add_zero]
        · rw [if_neg hl]
      | inr l =>
        cases T with
        | none => simp [beside]
        | some T => simp [beside, addRowMul]
    · funext l
      cases l with
      | inl l => simp [beside, Function.update_of_ne hi]
      | inr l =>
        cases T with
        | none => simp [beside]
        | some T => simp [beside, addRowMul, Function.update_of_ne hi]
  · intro k hk
    simp only [Function.update_of_ne hk]
  · intro k jj hjj
    by_cases hk : k = pi1
    · subst hk; simp [hjj]
    · simp only [Function.update_of_ne hk]
  · have hp1 : A pi1 j ≠ 0 := by
      intro e
      rw [e] at hle
      have : polyLength (A pi2 j) = 0 := by
        have : polyLength (0 : K[X]) = 0 := polyLength_zero_iff.2 rfl
        omega
      exact hne (polyLength_zero_iff.1 this)
    simp only [Function.update_self, lt_irrefl, if_false]
    generalize hP : A pi1 j = P at *
    generalize hQ : A pi2 j = Q at *
    rw [polyLength_of_ne hne, polyLength_of_ne hp1] at *
    by_cases he : P + C (-(P.leadingCoeff * Q.leadingCoeff⁻¹)) * X ^ (P.natDegree + 1 - (Q.natDegree + 1)) * Q = 0
    · rw [he, polyLength_zero_iff.2 rfl]; omega
    · rw [polyLength_of_ne he]
      have hlQ : Q.leadingCoeff ≠ 0 := leadingCoeff_ne_zero.2 hne
      have hlP : P.leadingCoeff ≠ 0 := leadingCoeff_ne_zero.2 hp1
      have hc : -(P.leadingCoeff * Q.leadingCoeff⁻¹) ≠ 0 := neg_ne_zero.2 (mul_ne_zero hlP (inv_ne_zero hlQ))
      have hd : (P + C (-(P.leadingCoeff * Q.leadingCoeff⁻¹)) * X ^ (P.natDegree + 1 - (Q.natDegree + 1)) * Q).degree <
          P.degree := by
        have e2 : P + C (-(P.leadingCoeff * Q.leadingCoeff⁻¹)) * X ^ (P.natDegree + 1 - (Q.natDegree + 1)) * Q =
          P - C (P.leadingCoeff * Q.leadingCoeff⁻¹) * X ^ (P.natDegree + 1 - (Q.natDegree + 1)) * Q := by
          rw [C_neg]; ring
        rw [e2]
        refine degree_sub_lt ?_ hp1 ?_
        · rw [degree_mul, degree_mul, degree_C (mul_ne_zero hlP (inv_ne_zero hlQ)), degree_X_pow, zero_add,
            degree_eq_natDegree hp1, degree_eq_natDegree hne]
          norm_cast
          omega
        · rw [leadingCoeff_mul, leadingCoeff_mul, leadingCoeff_C, leadingCoeff_X_pow, mul_one, mul_assoc,
            inv_mul_cancel₀ hlQ, mul_one]
      have := natDegree_lt_natDegree he hd
      omega

theorem xgcdCollision_spec {xg : XgcdFn K} (hx : XgcdContract xg) {m pi ii j : Nat} {s : Pair K}
    (h1 : pi < m) (h2 : ii < m) (h12 : pi ≠ ii) (hz1 : ∀ jj, jj < j → s.1 pi jj = 0)
    (hz2 : ∀ jj, jj < j → s.1 ii jj = 0) (hne : s.1 pi j ≠ 0) :
    Tr m 1 s (xgcdCollision xg s pi ii j) ∧
      (∀ k, k ≠ pi → k ≠ ii → (xgcdCollision xg s pi ii j).1 k = s.1 k) ∧
      (∀ k jj, jj < j → (xgcdCollision xg s pi ii j).1 k jj = s.1 k jj) ∧
      (xgcdCollision xg s pi ii j).1 ii j = 0 ∧ ((xgcdCollision xg s pi ii j).1 pi j).Monic ∧
      (xgcdCollision xg s pi ii j).1 pi j ∣ s.1 pi j ∧
      (s.1 pi j = 1 → (xgcdCollision xg s pi ii j).1 pi = s.1 pi) := by
  obtain ⟨A, T⟩ := s
  simp only at hz1 hz2 hne ⊢
  unfold xgcdCollision
  simp only
  by_cases hone : A pi j = 1
  · rw [if_pos hone]
    refine ⟨⟨by simp, ?_⟩, ?_, ?_, ?_, ?_, ?_, ?_⟩
    · refine Transformed.addRow h2 h1 (Ne.symm h12) (-A ii j) (fun l => ?_) (fun i hi => ?_)
      · cases l with
        | inl l =>
          simp only [beside, Function.update_self]
          by_cases hl : l < j
          · rw [if_pos hl, hz1 l hl, mul_zero, add_zero]
          · rw [if_neg hl]
            by_cases hl' : l = j
            · subst hl'; rw [if_pos rfl, hone]; ring
            · rw [if_neg hl']; ring
        | inr l =>
          cases T with
          | none => simp [beside]
          | some T =>
            simp only [beside, Option.map_some, Option.getD_some, Function.update_self]; ring
      · funext l
        cases l with
        | inl l => simp [beside, Function.update_of_ne hi]
        | inr l =>
          cases T with
          | none => simp [beside]
          | some T => simp [beside, Function.update_of_ne hi]
    · intro k _ hk
      simp only [Function.update_of_ne hk]
    · intro k jj hjj
      by_cases hk : k = ii
      · subst hk; simp [hjj]
      · simp only [Function.update_of_ne hk]
    · simp
    · simp only [Function.update_of_ne h12, hone]; exact monic_one
    · simp only [Function.update_of_ne h12]; exact dvd_rfl
    · intro _; simp only [Function.update_of_ne h12]
  · rw [if_neg hone]
    obtain ⟨hm, hd1, hd2, heq⟩ := hx (A pi j) (A ii j) (Or.inl hne)
    generalize (xg (A pi j) (A ii j)).1 = g at *
    generalize (xg (A pi j) (A ii j)).2.1 = u at *
    generalize (xg (A pi j) (A ii j)).2.2 = v at *
    have hg0 : g ≠ 0 := hm.ne_zero
    have e1 : A pi j = g * (A pi j / g) := (EuclideanDomain.mul_div_cancel' hg0 hd1).symm
    have e2 : A ii j = g * (A ii j / g) := (EuclideanDomain.mul_div_cancel' hg0 hd2).symm
    generalize A pi j / g = pivg at *
    generalize A ii j / g = nonzg at *
    have hdet : u * pivg - v * (-nonzg) = 1 := by
      apply mul_left_cancel₀ hg0
      have : g = u * (g * pivg) + v * (g * nonzg) := by rw [← e1, ← e2]; exact heq
      linear_combination -this
    refine ⟨⟨by simp, ?_⟩, ?_, ?_, ?_, ?_, ?_, ?_⟩
    · rw [← hdet]
      refine Transformed.pair h1 h2 h12 u v (-nonzg) pivg (fun l => ?_) (fun l => ?_) (fun i hi hi' => ?_)
      · cases l with
        | inl l =>
          simp only [beside, Function.update_of_ne h12, Function.update_self]
          by_cases hl : l < j
          · rw [if_pos hl, hz1 l hl, hz2 l hl, mul_zero, mul_zero, add_zero]
          · rw [if_neg hl]
            by_cases hl' : l = j
            · subst hl'; rw [if_pos rfl]; exact heq
            · rw [if_neg hl']
        | inr l =>
          cases T with
          | none => simp [beside]
          | some T =>
            simp only [beside, Option.map_some, Option.getD_some, Function.update_of_ne h12, Function.update_self]
      · cases l with
        | inl l =>
          simp only [beside, Function.update_self]
          by_cases hl : l < j
          · rw [if_pos hl, hz1 l hl, hz2 l hl, mul_zero, mul_zero, add_zero]
          · rw [if_neg hl]
            by_cases hl' : l = j
            · subst hl'; rw [if_pos rfl, e1, e2]; ring
            · rw [if_neg hl']; ring
        | inr l =>
          cases T with
          | none => simp [beside]
          | some T =>
            simp only [beside, Option.map_some, Option.getD_some, Function.update_self]; ring
      · funext l
        cases l with
        | inl l => simp [beside, Function.update_of_ne hi, Function.update_of_ne hi']
        | inr l =>
          cases T with
          | none => simp [beside]
          | some T => simp [beside, Function.update_of_ne hi, Function.update_of_ne hi']
    · intro k hk hk'
      simp only [Function.update_of_ne hk, Function.update_of_ne hk']
    · intro k jj hjj
      by_cases hk : k = ii
      · subst hk; simp [hjj]
      · by_cases hk' : k = pi
        · subst hk'; simp [hjj, Function.update_of_ne h12]
        · simp only [Function.update_of_ne hk, Function.update_of_ne hk']
    · simp
    · simp only [Function.update_of_ne h12, Function.update_self, lt_irrefl, if_false, if_true]
      exact hm
    · simp only [Function.update_of_ne h12, Function.update_self, lt_irrefl, if_false, if_true]
      exact hd1
    · intro h; exact absurd h hone

theorem reduceAgainst_spec {m i j ii : Nat} {s : Pair K} (h1 : i < m) (h2 : ii < m) (h12 : i ≠ ii)
    (hz : ∀ jj, jj < j → s.1 i jj = 0) (hne : s.1 i j ≠ 0) :
    Tr m 1 s (reduceAgainst s i j ii) ∧ (∀ k, k ≠ ii → (reduceAgainst s i j ii).1 k = s.1 k) ∧
      (∀ k jj, jj < j → (reduceAgainst s i j ii).1 k jj = s.1 k jj) ∧
      ((reduceAgainst s i j ii).1 ii j).degree < (s.1 i j).degree := by
  obtain ⟨A, T⟩ := s
  simp only at hz hne ⊢
  unfold reduceAgainst
  simp only
  by_cases hl : polyLength (A ii j) ≥ polyLength (A i j)
  · rw [if_pos hl]
    have hdm : A ii j % A i j = A ii j + -(A ii j / A i j) * A i j := by
      have := EuclideanDomain.div_add_mod (A ii j) (A i j)
      linear_combination this
    refine ⟨⟨by simp, ?_⟩, ?_, ?_, ?_⟩
    · refine Transformed.addRow h2 h1 (Ne.symm h12) (-(A ii j / A i j)) (fun l => ?_) (fun k hk => ?_)
      · cases l with
        | inl l =>
          simp only [beside, Function.update_self]
          by_cases hl : l < j
          · rw [if_pos hl, hz l hl, mul_zero, add_zero]
          · rw [if_neg hl]
            by_cases hl' : l = j
            · subst hl'; rw [if_pos rfl]; exact hdm
            · rw [if_neg hl']
        | inr l =>
          cases T with
          | none => simp [beside]
          | some T =>
            simp only [beside, Option.map_some, Option.getD_some, Function.update_self]
      · funext l
        cases l with
        | inl l => simp [beside, Function.update_of_ne hk]
        | inr l =>
          cases T with
          | none => simp [beside]
          | some T => simp [beside, Function.update_of_ne hk]
    · intro k hk
      simp only [Function.update_of_ne hk]
    · intro k jj hjj
      by_cases hk : k = ii
      · subst hk; simp [hjj]
      · simp only [Function.update_of_ne hk]
    · simp only [Function.update_self, lt_irrefl, if_false, if_true]
      exact EuclideanDomain.mod_lt _ hne
  · rw [if_neg hl]
    refine ⟨Tr.refl m _, fun _ _ => rfl, fun _ _ _ => rfl, ?_⟩
    by_cases h0 : A ii j = 0
    · simp only [h0, degree_zero]
      exact bot_lt_iff_ne_bot.2 (by simpa using hne)
    · rw [polyLength_of_ne h0, polyLength_of_ne hne] at hl
      exact degree_lt_degree (by show (A ii j).natDegree < (A i j).natDegree; omega)

theorem normalizePivot_spec {m i j : Nat} {s : Pair K} (h1 : i < m)
    (hz : ∀ jj, jj < j → s.1 i jj = 0) (hne : s.1 i j ≠ 0) :
    TrU m s (normalizePivot s i j) ∧ (∀ k, k ≠ i → (normalizePivot s i j).1 k = s.1 k) ∧
      (∀ k jj, jj < j → (normalizePivot s i j).1 k jj = s.1 k jj) ∧
      ((normalizePivot s i j).1 i j).Monic ∧
      ∃ a : K, a ≠ 0 ∧ ∀ jj, (normalizePivot s i j).1 i jj = C a * s.1 i jj := by
  obtain ⟨A, T⟩ := s
  simp only at hz hne ⊢
  unfold normalizePivot
  simp only
  by_cases hm : (A i j).Monic
  · rw [if_pos hm]
    exact ⟨⟨1, isUnit_one, Tr.refl m _⟩, fun _ _ => rfl, fun _ _ _ => rfl, hm, 1, one_ne_zero, fun jj => by simp⟩
  · rw [if_neg hm]
    have hlc : (A i j).leadingCoeff ≠ 0 := leadingCoeff_ne_zero.2 hne
    refine ⟨⟨C (A i j).leadingCoeff⁻¹, isUnit_C.2 (isUnit_iff_ne_zero.2 (inv_ne_zero hlc)), by simp, ?_⟩, ?_, ?_, ?_, ?_⟩
    · refine Transformed.scaleRow h1 _ (fun l => ?_) (fun k hk => ?_)
      · cases l with
        | inl l =>
          simp only [beside, Function.update_self]
          by_cases hl : l < j
          · rw [if_pos hl, hz l hl, mul_zero]
          · rw [if_neg hl]
        | inr l =>
          cases T with
          | none => simp [beside]
          | some T =>
            simp only [beside, Option.map_some, Option.getD_some, Function.update_self]
      · funext l
        cases l with
        | inl l => simp [beside, Function.update_of_ne hk]
        | inr l =>
          cases T with
          | none => simp [beside]
          | some T => simp [beside, Function.update_of_ne hk]
    · intro k hk
      simp only [Function.update_of_ne hk]
    · intro k jj hjj
      by_cases hk : k = i
      · subst hk; simp [hjj]
      · simp only [Function.update_of_ne hk]
    · simp only [Function.update_self, lt_irrefl, if_false]
      rw [mul_comm]
      exact monic_mul_leadingCoeff_inv hne
    · refine ⟨(A i j).leadingCoeff⁻¹, inv_ne_zero hlc, fun jj => ?_⟩
      simp only [Function.update_self]
      by_cases hl : jj < j
      · rw [if_pos hl, hz jj hl, mul_zero]
      · rw [if_neg hl]

theorem swapPair_tr {m a b : Nat} (ha : a < m) (hb : b < m) (s : Pair K) : TrS m s (swapPair s a b) := by
  by_cases hab : a = b
  · subst hab
    have : swapPair s a a = s := by
      obtain ⟨A, T⟩ := s
      simp [swapPair, swapRows, swapAt]
    rw [this]; exact TrS.refl m s
  · refine ⟨-1, Or.inr rfl, by simp [swapPair], ?_⟩
    have := Transformed.swap (R := K[X]) ha hb hab (beside s.1 s.2)
    rw [← beside_swap] at this
    exact this

theorem beside_rotDown (A : Mat K[X]) (T : Option (Mat K[X])) (i j : Nat) (hij : i ≤ j) :
    beside (rotDown i j A) (T.map fun T => rotDown i j T) = rotDown i j (beside A T) := by
  funext k l
  rw [rotDown_apply hij]
  cases l with
  | inl l =>
    simp only [beside]
    rw [rotDown_apply hij]
    split_ifs <;> rfl
  | inr l =>
    cases T with
    | none => simp only [beside, Option.map_none]; split_ifs <;> rfl
    | some T =>
      simp only [beside, Option.map_some, Option.getD_some]
      rw [rotDown_apply hij]
      split_ifs <;> rfl

theorem transformed_rotDown {ι : Type} {m i j : Nat} (hij : i ≤ j) (hj : j < m) (A : Nat → ι → K[X]) :
    Transformed m ((-1) ^ (j - i)) A (rotDown i j A) := by
  have h := Transformed.rotUp (R := K[X]) hij hj (rotDown i j A)
  rw [rotUp_rotDown hij] at h
  refine h.symm ?_
  rw [← mul_pow]; simp

theorem rotPair_tr {m i j : Nat} (hij : i ≤ j) (hj : j < m) (s : Pair K) : TrS m s (rotPair s i j) := by
  refine TrS.of_pow (n := j - i) ⟨by simp [rotPair], ?_⟩
  have := transformed_rotDown hij hj (beside s.1 s.2)
  rw [← beside_rotDown _ _ _ _ hij] at this
  exact this

theorem rotUpPair_tr {m i j : Nat} (hij : i ≤ j) (hj : j < m) (s : Pair K) : TrS m s (rotUpPair s i j) := by
  refine TrS.of_pow (n := j - i) ⟨by simp [rotUpPair], ?_⟩
  have := Transformed.rotUp (R := K[X]) hij hj (beside s.1 s.2)
  rw [← beside_rot _ _ _ _ hij] at this
  exact this

end PML.Hermite
