import Verif.Ntl.GeomModel
import Mathlib.Algebra.BigOperators.Intervals
import Mathlib.Tactic.FieldSimp
import Mathlib.Data.Nat.Choose.Basic

/-!
# The q-binomial identities behind interpolation at a geometric progression
-/

namespace PML.Ntl.Geom

open Polynomial Finset

variable {K : Type} [Field K]

/-- `(q - 1) (q^2 - 1) ⋯ (q^i - 1)`. -/
def qfac (q : K) (i : Nat) : K := ∏ j ∈ range i, (q ^ (j + 1) - 1)

theorem qfac_zero (q : K) : qfac q 0 = 1 := rfl

theorem qfac_succ (q : K) (i : Nat) : qfac q (i + 1) = qfac q i * (q ^ (i + 1) - 1) := prod_range_succ _ _

theorem qfac_ne {q : K} {N : Nat} (h : qfac q N ≠ 0) {i : Nat} (hi : i ≤ N) : qfac q i ≠ 0 := by
  intro e
  apply h
  unfold qfac at *
  rw [prod_eq_zero_iff] at e ⊢
  obtain ⟨j, hj, e⟩ := e
  exact ⟨j, mem_range.2 (lt_of_lt_of_le (mem_range.1 hj) hi), e⟩

theorem qfac_ne_iff {q : K} {N : Nat} : qfac q N ≠ 0 ↔ ∀ i, 1 ≤ i → i ≤ N → q ^ i ≠ 1 := by
  unfold qfac
  rw [prod_ne_zero_iff]
  constructor
  · intro h i h1 h2 e
    refine h (i - 1) (mem_range.2 (by omega)) ?_
    rw [show i - 1 + 1 = i by omega, e, sub_self]
  · intro h i hi e
    exact h (i + 1) (by omega) (by have := mem_range.1 hi; omega) (sub_eq_zero.1 e)

theorem choose2_succ (l : Nat) : (l + 1).choose 2 = l.choose 2 + l := by
  rw [Nat.choose_succ_succ' l 1, Nat.choose_one_right, Nat.add_comm]

/-- The finite q-binomial theorem. -/
theorem qbinomial (q x : K) : ∀ N, qfac q N ≠ 0 →
    ∑ l ∈ range (N + 1), qfac q N * (qfac q l)⁻¹ * (qfac q (N - l))⁻¹ * q ^ l.choose 2 * (-x) ^ l
      = ∏ k ∈ range N, (1 - q ^ k * x) := by
  intro N
  induction N with
  | zero => intro _; simp [qfac_zero]
  | succ N ih =>
    intro hN
    have hN' := qfac_ne hN (i := N) (by omega)
    rw [prod_range_succ, ← ih hN', mul_sub, mul_one, sum_range_succ', sum_range_succ]
    conv_rhs => rw [sum_mul]
    conv_rhs => enter [1]; rw [sum_range_succ']
    conv_rhs => enter [2]; rw [sum_range_succ]
    have hterm : ∀ l ∈ range N,
        qfac q (N + 1) * (qfac q (l + 1))⁻¹ * (qfac q (N + 1 - (l + 1)))⁻¹ * q ^ (l + 1).choose 2 * (-x) ^ (l + 1)
        = qfac q N * (qfac q (l + 1))⁻¹ * (qfac q (N - (l + 1)))⁻¹ * q ^ (l + 1).choose 2 * (-x) ^ (l + 1)
          - qfac q N * (qfac q l)⁻¹ * (qfac q (N - l))⁻¹ * q ^ l.choose 2 * (-x) ^ l * (q ^ N * x) := by
      intro l hl
      have hl := mem_range.1 hl
      have hb : N - l = (N - (l + 1)) + 1 := by omega
      have h1 := qfac_ne hN (i := l + 1) (by omega)
      have h2 := qfac_ne hN (i := l) (by omega)
      have h3 := qfac_ne hN (i := N - (l + 1) + 1) (by omega)
      have h4 := qfac_ne hN (i := N - (l + 1)) (by omega)
      have hNe : N = (N - (l + 1)) + l + 1 := by omega
      rw [show N + 1 - (l + 1) = N - (l + 1) + 1 by omega, hb, qfac_succ q N]
      generalize N - (l + 1) = e at *
      rw [choose2_succ, pow_add q (l.choose 2) l]
      have hq1 : qfac q (e + 1) = qfac q e * (q ^ (e + 1) - 1) := qfac_succ q e
      have hq2 : qfac q (l + 1) = qfac q l * (q ^ (l + 1) - 1) := qfac_succ q l
      have h5 : q ^ (e + 1) - 1 ≠ 0 := by intro e0; rw [hq1, e0, mul_zero] at h3; exact h3 rfl
      have h6 : q ^ (l + 1) - 1 ≠ 0 := by intro e0; rw [hq2, e0, mul_zero] at h1; exact h1 rfl
      have hNq : q ^ N = q ^ e * q ^ l * q := by rw [hNe]; ring
      have hN1q : q ^ (N + 1) = q ^ e * q ^ l * q * q := by rw [pow_succ, hNq]
      rw [hq1, hq2, hN1q, hNq]
      generalize qfac q N = A
      generalize hE : qfac q e = E at *
      generalize hL : qfac q l = L at *
      rw [pow_succ] at h5 h6
      rw [pow_succ q e, pow_succ q l]
      generalize q ^ e = a at *
      generalize q ^ l = b at *
      field_simp
      ring
    have hlast : qfac q (N + 1) * (qfac q (N + 1))⁻¹ * (qfac q (N + 1 - (N + 1)))⁻¹ * q ^ (N + 1).choose 2 *
        (-x) ^ (N + 1) = - (qfac q N * (qfac q N)⁻¹ * (qfac q (N - N))⁻¹ * q ^ N.choose 2 * (-x) ^ N * (q ^ N * x)) := by
      rw [mul_inv_cancel₀ hN, mul_inv_cancel₀ hN', Nat.sub_self, Nat.sub_self, choose2_succ]
      ring
    have hfirst : qfac q (N + 1) * (qfac q 0)⁻¹ * (qfac q (N + 1 - 0))⁻¹ * q ^ (Nat.choose 0 2) * (-x) ^ 0
        = qfac q N * (qfac q 0)⁻¹ * (qfac q (N - 0))⁻¹ * q ^ (Nat.choose 0 2) * (-x) ^ 0 := by
      rw [qfac_zero, Nat.sub_zero, Nat.sub_zero, inv_one, mul_one, mul_one, mul_inv_cancel₀ hN, mul_inv_cancel₀ hN']
    rw [sum_congr rfl hterm, sum_sub_distrib, hlast, hfirst]
    ring

/-- Alternating sum: the case `x = 1`. -/
theorem qsum_one (q : K) (N : Nat) (h : qfac q N ≠ 0) :
    ∑ l ∈ range (N + 1), (-1) ^ l * q ^ l.choose 2 * (qfac q l)⁻¹ * (qfac q (N - l))⁻¹ = if N = 0 then 1 else 0 := by
  have h1 := qbinomial q 1 N h
  by_cases hN : N = 0
  · subst hN; simp [qfac_zero]
  · rw [if_neg hN]
    rw [prod_eq_zero (mem_range.2 (Nat.pos_of_ne_zero hN)) (by simp)] at h1
    have h2 : qfac q N * ∑ l ∈ range (N + 1), (-1) ^ l * q ^ l.choose 2 * (qfac q l)⁻¹ * (qfac q (N - l))⁻¹ = 0 := by
      rw [← h1, mul_sum]
      exact sum_congr rfl fun l _ => by ring
    exact (mul_eq_zero.1 h2).resolve_left h

/-- Value of the Newton basis polynomials at the points. -/
theorem newton_value (q : K) (hq : q ≠ 0) (a m : Nat) (h : qfac q m ≠ 0) (ha : qfac q a ≠ 0) :
    ∑ i ∈ range (m + 1), (-1) ^ i * (qfac q i)⁻¹ * ((-1) ^ m * qfac q m * (q⁻¹) ^ m.choose 2) *
      (q ^ (m - i).choose 2 * (qfac q (m - i))⁻¹) * (q ^ a) ^ i
      = if m ≤ a then qfac q a * (qfac q (a - m))⁻¹ else 0 := by
  have hqa : q ^ a ≠ 0 := pow_ne_zero _ hq
  have h1 := qbinomial q ((q ^ a)⁻¹) m h
  have h2 : ∑ i ∈ range (m + 1), (-1) ^ i * (qfac q i)⁻¹ * ((-1) ^ m * qfac q m * (q⁻¹) ^ m.choose 2) *
      (q ^ (m - i).choose 2 * (qfac q (m - i))⁻¹) * (q ^ a) ^ i
      = (q⁻¹) ^ m.choose 2 * (q ^ a) ^ m * ∏ k ∈ range m, (1 - q ^ k * (q ^ a)⁻¹) := by
    rw [← h1, mul_sum, ← sum_range_reflect]
    refine sum_congr rfl fun l hl => ?_
    have hl := mem_range.1 hl
    rw [show m + 1 - 1 - l = m - l by omega, show m - (m - l) = l by omega]
    have e1 : (q ^ a) ^ m = (q ^ a) ^ (m - l) * (q ^ a) ^ l := by rw [← pow_add]; congr 1; omega
    have e2 : ((-1 : K)) ^ (m - l) * (-1) ^ m = (-1) ^ l := by
      rw [← pow_add, show m - l + m = 2 * (m - l) + l by omega, pow_add, pow_mul]; norm_num
    rw [e1, neg_pow ((q ^ a)⁻¹) l, ← e2]
    have e3 : ((q ^ a)⁻¹) ^ l * (q ^ a) ^ l = 1 := by rw [← mul_pow, inv_mul_cancel₀ hqa, one_pow]
    linear_combination -(-1) ^ (m - l) * (-1) ^ m * (q⁻¹) ^ m.choose 2 * (q ^ a) ^ (m - l) * qfac q m * (qfac q l)⁻¹ *
      (qfac q (m - l))⁻¹ * q ^ l.choose 2 * e3
  rw [h2]
  have h3 : ∀ m', m' ≤ a → (q⁻¹) ^ m'.choose 2 * (q ^ a) ^ m' * ∏ k ∈ range m', (1 - q ^ k * (q ^ a)⁻¹)
      = qfac q a * (qfac q (a - m'))⁻¹ := by
    intro m'
    induction m' with
    | zero => intro _; simp [mul_inv_cancel₀ ha]
    | succ m' ih =>
      intro hm
      have ih := ih (by omega)
      rw [prod_range_succ, choose2_succ, pow_add, pow_succ]
      have e1 : (q⁻¹) ^ m' * (q ^ a) * (1 - q ^ m' * (q ^ a)⁻¹) = q ^ (a - m') - 1 := by
        have : q ^ a = q ^ (a - m') * q ^ m' := by rw [← pow_add]; congr 1; omega
        rw [this, inv_pow]
        have := pow_ne_zero m' hq
        have := pow_ne_zero (a - m') hq
        field_simp
      have e2 : (q⁻¹) ^ m'.choose 2 * (q⁻¹) ^ m' * ((q ^ a) ^ m' * q ^ a) *
          ((∏ k ∈ range m', (1 - q ^ k * (q ^ a)⁻¹)) * (1 - q ^ m' * (q ^ a)⁻¹))
          = ((q⁻¹) ^ m'.choose 2 * (q ^ a) ^ m' * ∏ k ∈ range m', (1 - q ^ k * (q ^ a)⁻¹)) *
            ((q⁻¹) ^ m' * (q ^ a) * (1 - q ^ m' * (q ^ a)⁻¹)) := by ring
      rw [e2, ih, e1, show a - m' = a - (m' + 1) + 1 by omega, qfac_succ]
      have h5 := qfac_ne ha (i := a - (m' + 1) + 1) (by omega)
      rw [qfac_succ] at h5
      have h6 := left_ne_zero_of_mul h5
      have h7 := right_ne_zero_of_mul h5
      field_simp
  by_cases hm : m ≤ a
  · rw [if_pos hm, h3 m hm]
  · rw [if_neg hm, prod_eq_zero (mem_range.2 (show a < m by omega)) (by rw [mul_inv_cancel₀ hqa, sub_self]), mul_zero]

/-- Newton coefficients, as computed by the first product of `interpolate`. -/
def newtonCoeff (q : K) (V : Nat → K) (m : Nat) : K :=
  ∑ j ∈ range (m + 1), V j * (qfac q j)⁻¹ * ((-1) ^ (m - j) * (q ^ (m - j).choose 2 * (qfac q (m - j))⁻¹))

/-- Monomial coefficients, as computed by the second product of `interpolate`. -/
def monoCoeff (q : K) (n : Nat) (V : Nat → K) (i : Nat) : K :=
  (-1) ^ i * (qfac q i)⁻¹ * ∑ m ∈ Ico i n, newtonCoeff q V m * ((-1) ^ m * qfac q m * (q⁻¹) ^ m.choose 2) *
    (q ^ (m - i).choose 2 * (qfac q (m - i))⁻¹)

/-- The values of the interpolating polynomial. -/
theorem mono_value (q : K) (hq : q ≠ 0) (n : Nat) (h : qfac q (n - 1) ≠ 0) (V : Nat → K) (a : Nat) (ha : a < n) :
    ∑ i ∈ range n, monoCoeff q n V i * (q ^ a) ^ i = V a := by
  have hne : ∀ i, i < n → qfac q i ≠ 0 := fun i hi => qfac_ne h (by omega)
  have h1 : ∑ i ∈ range n, monoCoeff q n V i * (q ^ a) ^ i = ∑ m ∈ range n, newtonCoeff q V m *
      ∑ i ∈ range (m + 1), (-1) ^ i * (qfac q i)⁻¹ * ((-1) ^ m * qfac q m * (q⁻¹) ^ m.choose 2) *
      (q ^ (m - i).choose 2 * (qfac q (m - i))⁻¹) * (q ^ a) ^ i := by
    unfold monoCoeff
    simp only [mul_sum, sum_mul]
    rw [sum_comm' (t' := range n) (s' := fun m => range (m + 1))]
    · refine sum_congr rfl fun m _ => sum_congr rfl fun i _ => by ring
    · intro x y
      simp only [mem_range, mem_Ico]
      omega
  rw [h1]
  have h2 : ∀ m ∈ range n, newtonCoeff q V m *
      ∑ i ∈ range (m + 1), (-1) ^ i * (qfac q i)⁻¹ * ((-1) ^ m * qfac q m * (q⁻¹) ^ m.choose 2) *
      (q ^ (m - i).choose 2 * (qfac q (m - i))⁻¹) * (q ^ a) ^ i
      = if m ≤ a then newtonCoeff q V m * (qfac q a * (qfac q (a - m))⁻¹) else 0 := by
    intro m hm
    rw [newton_value q hq a m (hne m (mem_range.1 hm)) (hne a ha), mul_ite, mul_zero]
  rw [sum_congr rfl h2, ← sum_filter]
  rw [show (range n).filter (fun m => m ≤ a) = range (a + 1) by ext; simp only [mem_filter, mem_range]; omega]
  have h3 : ∑ m ∈ range (a + 1), newtonCoeff q V m * (qfac q a * (qfac q (a - m))⁻¹)
      = ∑ j ∈ range (a + 1), V j * (qfac q j)⁻¹ * qfac q a *
        ∑ l ∈ range (a - j + 1), (-1) ^ l * q ^ l.choose 2 * (qfac q l)⁻¹ * (qfac q (a - j - l))⁻¹ := by
    unfold newtonCoeff
    simp only [mul_sum, sum_mul]
    rw [sum_comm' (t' := range (a + 1)) (s' := fun j => Ico j (a + 1))]
    · refine sum_congr rfl fun j hj => ?_
      have hj := mem_range.1 hj
      rw [sum_Ico_eq_sum_range, show a + 1 - j = a - j + 1 by omega]
      refine sum_congr rfl fun l _ => ?_
      rw [show j + l - j = l by omega, show a - (j + l) = a - j - l by omega]
      ring
    · intro x y
      simp only [mem_range, mem_Ico]
      omega
  rw [h3, sum_range_succ, sum_eq_zero, zero_add, Nat.sub_self]
  · rw [qsum_one q 0 one_ne_zero, if_pos rfl, mul_one, mul_assoc, inv_mul_cancel₀ (hne a ha), mul_one]
  · intro j hj
    have hj := mem_range.1 hj
    rw [qsum_one q (a - j) (hne _ (by omega)), if_neg (by omega), mul_zero]

/-! ### Closed forms of the precomputed arrays -/

theorem fLoop_spec (r : K) (c : Nat) :
    (∀ j, j ≤ c → (fLoop r (r * r) c).1 j = r ^ (j * j)) ∧ (fLoop r (r * r) c).2 = r ^ (2 * c + 1) := by
  induction c with
  | zero =>
    refine ⟨fun j hj => ?_, by simp [fLoop]⟩
    obtain rfl : j = 0 := by omega
    simp [fLoop]
  | succ c ih =>
    constructor
    · intro j hj
      show Function.update (fLoop r (r * r) c).1 (c + 1) _ j = _
      by_cases h : j = c + 1
      · rw [h, Function.update_self, ih.1 c le_rfl, ih.2]; ring
      · rw [Function.update_of_ne h, ih.1 j (by omega)]
    · show (fLoop r (r * r) c).2 * (r * r) = _
      rw [ih.2]; ring

theorem xLoop_spec (s i : K) (c : Nat) :
    (∀ j, j ≤ c → (xLoop s i (i * i) c).x j = i ^ (j * j)) ∧
    (∀ j, j ≤ c → (xLoop s i (i * i) c).xs j = i ^ (j * j) * s ^ j) ∧
    (xLoop s i (i * i) c).tmp = i ^ (2 * c + 1) ∧ (xLoop s i (i * i) c).powS = s ^ (c + 1) := by
  induction c with
  | zero =>
    refine ⟨fun j hj => ?_, fun j hj => ?_, by simp [xLoop], by simp [xLoop]⟩ <;>
    · obtain rfl : j = 0 := by omega
      simp [xLoop]
  | succ c ih =>
    obtain ⟨h1, h2, h3, h4⟩ := ih
    refine ⟨fun j hj => ?_, fun j hj => ?_, ?_, ?_⟩
    · show Function.update (xLoop s i (i * i) c).x (c + 1) _ j = _
      by_cases h : j = c + 1
      · rw [h, Function.update_self, h1 c le_rfl, h3]; ring
      · rw [Function.update_of_ne h, h1 j (by omega)]
    · show Function.update (xLoop s i (i * i) c).xs (c + 1) _ j = _
      by_cases h : j = c + 1
      · rw [h, Function.update_self, h1 c le_rfl, h3, h4]; ring
      · rw [Function.update_of_ne h, h2 j (by omega)]
    · show (xLoop s i (i * i) c).tmp * (i * i) = _
      rw [h3]; ring
    · show (xLoop s i (i * i) c).powS * s = _
      rw [h4]; ring

theorem dLoop_spec (q : K) (c : Nat) :
    (∀ j, 1 ≤ j → j ≤ c → (dLoop q c).diff j = q ^ j - 1) ∧
    (∀ j, j ≤ c → (dLoop q c).prod j = qfac q j) ∧ (dLoop q c).qk = q ^ (c + 1) := by
  induction c with
  | zero =>
    refine ⟨fun j h1 h2 => absurd h1 (by omega), fun j hj => ?_, by simp [dLoop]⟩
    obtain rfl : j = 0 := by omega
    simp [dLoop, qfac_zero]
  | succ c ih =>
    obtain ⟨h1, h2, h3⟩ := ih
    refine ⟨fun j hj hj' => ?_, fun j hj => ?_, ?_⟩
    · show Function.update (dLoop q c).diff (c + 1) _ j = _
      by_cases h : j = c + 1
      · rw [h, Function.update_self, h3]
      · rw [Function.update_of_ne h, h1 j hj (by omega)]
    · show Function.update (dLoop q c).prod (c + 1) _ j = _
      by_cases h : j = c + 1
      · rw [h, Function.update_self, h3, h2 c le_rfl, qfac_succ]; ring
      · rw [Function.update_of_ne h, h2 j (by omega)]
    · show (dLoop q c).qk * q = _
      rw [h3]; ring

theorem invLoop_spec (q : K) (diff prod : Nat → K) : ∀ (c : Nat) (inv : Nat → K),
    (∀ j, 1 ≤ j → j ≤ c → diff j = q ^ j - 1) → (∀ j, j ≤ c → prod j = qfac q j) → qfac q c ≠ 0 →
    (∀ j, c < j → invLoop diff prod c (qfac q c)⁻¹ inv j = inv j) ∧
    ∀ j, 1 ≤ j → j ≤ c → invLoop diff prod c (qfac q c)⁻¹ inv j = (q ^ j - 1)⁻¹ := by
  intro c
  induction c with
  | zero =>
    intro inv _ _ _
    exact ⟨fun j hj => Function.update_of_ne (by omega) _ _, fun j h1 h2 => absurd h1 (by omega)⟩
  | succ c ih =>
    intro inv hd hp hne
    have hne' := qfac_ne hne (i := c) (by omega)
    rw [qfac_succ] at hne
    have hd1 := right_ne_zero_of_mul hne
    have e : (qfac q (c + 1))⁻¹ * diff (c + 1) = (qfac q c)⁻¹ := by
      rw [hd (c + 1) (by omega) le_rfl, qfac_succ]
      field_simp
    have := ih (Function.update inv (c + 1) (prod c * (qfac q (c + 1))⁻¹))
      (fun j h1 h2 => hd j h1 (by omega)) (fun j hj => hp j (by omega)) hne'
    show (∀ j, c + 1 < j → invLoop diff prod c ((qfac q (c + 1))⁻¹ * diff (c + 1)) _ j = _) ∧
      ∀ j, 1 ≤ j → j ≤ c + 1 → invLoop diff prod c ((qfac q (c + 1))⁻¹ * diff (c + 1)) _ j = _
    rw [e]
    refine ⟨fun j hj => ?_, fun j h1 h2 => ?_⟩
    · rw [this.1 j (by omega), Function.update_of_ne (by omega)]
    · by_cases h : j = c + 1
      · rw [h, this.1 (c + 1) (by omega), Function.update_self, hp c (by omega), qfac_succ]
        field_simp
      · exact this.2 j h1 (by omega)

/-- Closed forms of the arrays of `interpolate`, up to index `c`. -/
structure WOK (q s : K) (c : Nat) (u : WState K) : Prop where
  w : ∀ j, j ≤ c → u.w j = (qfac q j)⁻¹
  ws : ∀ j, j ≤ c → u.ws j = (qfac q j)⁻¹ * (s⁻¹) ^ j
  g1 : ∀ j, j ≤ c → u.g1 j = (-1) ^ j * (q ^ j.choose 2 * (qfac q j)⁻¹)
  g2 : ∀ j, j ≤ c → u.g2 j = q ^ j.choose 2 * (qfac q j)⁻¹
  y : ∀ j, j ≤ c → u.y j = (-1) ^ j * qfac q j * (q⁻¹) ^ j.choose 2
  z : ∀ j, j ≤ c → u.z j = (-1) ^ j * (qfac q j)⁻¹
  zs : ∀ j, j ≤ c → u.zs j = (-1) ^ j * (qfac q j)⁻¹ * (s⁻¹) ^ j

theorem sign_eq (i : Nat) (a : K) : (if i % 2 = 1 then -a else a) = (-1) ^ i * a := by
  by_cases h : i % 2 = 1
  · rw [if_pos h, (Nat.odd_iff.2 h).neg_one_pow]; ring
  · rw [if_neg h, (Nat.even_iff.2 (by omega)).neg_one_pow]; ring

theorem wLoop_spec (q s : K) (invDiff prod : Nat → K) (N : Nat)
    (hi : ∀ j, 1 ≤ j → j ≤ N → invDiff j = (q ^ j - 1)⁻¹) (hp : ∀ j, j ≤ N → prod j = qfac q j) (c : Nat) (hc : c ≤ N) :
    WOK q s c (wLoop q q⁻¹ s⁻¹ invDiff prod c) ∧
    (wLoop q q⁻¹ s⁻¹ invDiff prod c).qq = q ^ c.choose 2 ∧
    (wLoop q q⁻¹ s⁻¹ invDiff prod c).t = (q⁻¹) ^ c.choose 2 ∧
    (wLoop q q⁻¹ s⁻¹ invDiff prod c).qk = q ^ c ∧
    (wLoop q q⁻¹ s⁻¹ invDiff prod c).invQk = (q⁻¹) ^ c ∧
    (wLoop q q⁻¹ s⁻¹ invDiff prod c).powInvs = (s⁻¹) ^ (c + 1) := by
  induction c with
  | zero =>
    refine ⟨⟨?_, ?_, ?_, ?_, ?_, ?_, ?_⟩, ?_, ?_, ?_, ?_, ?_⟩
    all_goals try
      intro j hj
      obtain rfl : j = 0 := by omega
      simp [wLoop, qfac_zero]
    all_goals simp [wLoop]
  | succ c ih =>
    obtain ⟨hW, h1, h2, h3, h4, h5⟩ := ih (by omega)
    have hqq : (wLoop q q⁻¹ s⁻¹ invDiff prod c).qq * (wLoop q q⁻¹ s⁻¹ invDiff prod c).qk = q ^ (c + 1).choose 2 := by
      rw [h1, h3, choose2_succ, pow_add]
    have ht : (wLoop q q⁻¹ s⁻¹ invDiff prod c).t * (wLoop q q⁻¹ s⁻¹ invDiff prod c).invQk
        = (q⁻¹) ^ (c + 1).choose 2 := by
      rw [h2, h4, choose2_succ, pow_add]
    have hw : (wLoop q q⁻¹ s⁻¹ invDiff prod c).w c * invDiff (c + 1) = (qfac q (c + 1))⁻¹ := by
      rw [hW.w c le_rfl, hi (c + 1) (by omega) hc, qfac_succ, mul_inv]
    refine ⟨⟨?_, ?_, ?_, ?_, ?_, ?_, ?_⟩, hqq, ht, ?_, ?_, ?_⟩
    · intro j hj
      show Function.update (wLoop q q⁻¹ s⁻¹ invDiff prod c).w (c + 1) _ j = _
      by_cases h : j = c + 1
      · rw [h, Function.update_self, hw]
      · rw [Function.update_of_ne h, hW.w j (by omega)]
    · intro j hj
      show Function.update (wLoop q q⁻¹ s⁻¹ invDiff prod c).ws (c + 1) _ j = _
      by_cases h : j = c + 1
      · rw [h, Function.update_self, hw, h5]
      · rw [Function.update_of_ne h, hW.ws j (by omega)]
    · intro j hj
      show Function.update (wLoop q q⁻¹ s⁻¹ invDiff prod c).g1 (c + 1) _ j = _
      by_cases h : j = c + 1
      · rw [h, Function.update_self, sign_eq, hw, hqq]
      · rw [Function.update_of_ne h, hW.g1 j (by omega)]
    · intro j hj
      show Function.update (wLoop q q⁻¹ s⁻¹ invDiff prod c).g2 (c + 1) _ j = _
      by_cases h : j = c + 1
      · rw [h, Function.update_self, hw, hqq]
      · rw [Function.update_of_ne h, hW.g2 j (by omega)]
    · intro j hj
      show Function.update (wLoop q q⁻¹ s⁻¹ invDiff prod c).y (c + 1) _ j = _
      by_cases h : j = c + 1
      · rw [h, Function.update_self, sign_eq, ht, hp (c + 1) hc]
      · rw [Function.update_of_ne h, hW.y j (by omega)]
    · intro j hj
      show Function.update (wLoop q q⁻¹ s⁻¹ invDiff prod c).z (c + 1) _ j = _
      by_cases h : j = c + 1
      · rw [h, Function.update_self, sign_eq, hw]
      · rw [Function.update_of_ne h, hW.z j (by omega)]
    · intro j hj
      show Function.update (wLoop q q⁻¹ s⁻¹ invDiff prod c).zs (c + 1) _ j = _
      by_cases h : j = c + 1
      · rw [h, Function.update_self, sign_eq, hw, h5]; ring
      · rw [Function.update_of_ne h, hW.zs j (by omega)]
    · show (wLoop q q⁻¹ s⁻¹ invDiff prod c).qk * q = _
      rw [h3]; ring
    · show (wLoop q q⁻¹ s⁻¹ invDiff prod c).invQk * q⁻¹ = _
      rw [h4]; ring
    · show (wLoop q q⁻¹ s⁻¹ invDiff prod c).powInvs * s⁻¹ = _
      rw [h5]; ring

end PML.Ntl.Geom
