import Verif.Ntl.SeriesModel
import Verif.Ntl.CrtProps

/-!
# C59: power series division
-/

namespace PML.Ntl.Series

open Polynomial

set_option linter.unusedSectionVars false

variable {K : Type} [Field K]

theorem build_coeff (n : Nat) (v : Nat → K) (j : Nat) : (build n v).coeff j = if j < n then v j else 0 := by
  unfold build
  rw [finsetSum_coeff]
  simp only [coeff_C_mul, coeff_X_pow, mul_ite, mul_one, mul_zero]
  rw [Finset.sum_ite_eq (Finset.range n) j]
  simp only [Finset.mem_range]

theorem coeff_len [DecidableEq K] (a : K[X]) (j : Nat) (h : len a ≤ j) : a.coeff j = 0 := by
  unfold len at h
  split_ifs at h with h0
  · rw [h0, coeff_zero]
  · exact coeff_eq_zero_of_natDegree_lt (by omega)

/-! ### Plain division -/

theorem innerLoop_spec (x : Nat → K) (a : K[X]) (k lo : Nat) (buf : K) (c : Nat) :
    innerLoop x a k lo buf c = buf - ∑ i ∈ Finset.range c, x (lo + i) * a.coeff (k - (lo + i)) := by
  induction c with
  | zero => simp [innerLoop]
  | succ c ih => rw [innerLoop, ih, Finset.sum_range_succ]; ring

theorem sum_tail (x : Nat → K) (a : K[X]) (k : Nat) :
    ∑ i ∈ Finset.range (k - (k - a.natDegree)), x (k - a.natDegree + i) * a.coeff (k - (k - a.natDegree + i))
      = ∑ i ∈ Finset.range k, x i * a.coeff (k - i) := by
  rw [← Finset.sum_range_add_sum_Ico (fun i => x i * a.coeff (k - i)) (Nat.sub_le k a.natDegree),
    Finset.sum_Ico_eq_sum_range, Finset.sum_eq_zero (s := Finset.range (k - a.natDegree)), zero_add]
  intro i hi
  have := Finset.mem_range.1 hi
  rw [coeff_eq_zero_of_natDegree_lt (p := a) (by omega), mul_zero]

theorem plainLoop_spec [DecidableEq K] (a : K[X]) (s : K) (x : Nat → K) (c : Nat) :
    (∀ k, c < k → plainLoop a a.natDegree s x c k = x k) ∧
    (plainLoop a a.natDegree s x c 0 = x 0) ∧
    ∀ k, 1 ≤ k → k ≤ c → plainLoop a a.natDegree s x c k
      = (x k - ∑ i ∈ Finset.range k, plainLoop a a.natDegree s x c i * a.coeff (k - i)) * s := by
  induction c with
  | zero => exact ⟨fun k _ => rfl, rfl, fun k h1 h2 => absurd h1 (by omega)⟩
  | succ c ih =>
    obtain ⟨h1, h2, h3⟩ := ih
    have e : plainLoop a a.natDegree s x (c + 1) = Function.update (plainLoop a a.natDegree s x c) (c + 1)
        ((x (c + 1) - ∑ i ∈ Finset.range (c + 1), plainLoop a a.natDegree s x c i * a.coeff (c + 1 - i)) * s) := by
      rw [plainLoop]
      rw [innerLoop_spec, sum_tail, h1 (c + 1) (by omega)]
      split_ifs with hs
      · rw [hs, mul_one]
      · rfl
    rw [e]
    refine ⟨?_, ?_, ?_⟩
    · intro k hk
      rw [Function.update_of_ne (by omega), h1 k (by omega)]
    · rw [Function.update_of_ne (by omega), h2]
    · intro k hk1 hk2
      have hsum : ∑ i ∈ Finset.range k, Function.update (plainLoop a a.natDegree s x c) (c + 1)
          ((x (c + 1) - ∑ i ∈ Finset.range (c + 1), plainLoop a a.natDegree s x c i * a.coeff (c + 1 - i)) * s) i
            * a.coeff (k - i) = ∑ i ∈ Finset.range k, plainLoop a a.natDegree s x c i * a.coeff (k - i) := by
        refine Finset.sum_congr rfl fun i hi => ?_
        have := Finset.mem_range.1 hi
        rw [Function.update_of_ne (by omega)]
      rw [hsum]
      by_cases hkc : k = c + 1
      · subst hkc
        rw [Function.update_self]
      · rw [Function.update_of_ne hkc]
        exact h3 k hk1 (by omega)

theorem plain_spec [DecidableEq K] (b a : K[X]) (m : Nat) (hm : 1 ≤ m) (ha : a.coeff 0 ≠ 0) :
    ∃ x, plainInvTruncMul b a m = some x ∧ (∀ j, m ≤ j → x.coeff j = 0) ∧ X ^ m ∣ a * x - b := by
  have ha0 : a ≠ 0 := fun e => ha (by rw [e, coeff_zero])
  unfold plainInvTruncMul
  rw [if_neg ha0, if_neg ha]
  by_cases hd : a.natDegree = 0
  · refine ⟨_, if_pos hd, ?_, ?_⟩
    · intro j hj
      rw [build_coeff, if_neg (by omega)]
    · rw [X_pow_dvd_iff]
      intro d hdm
      have hC : a = C (a.coeff 0) := eq_C_of_natDegree_eq_zero hd
      rw [hC, coeff_sub, coeff_C_mul, coeff_C_zero, build_coeff]
      by_cases hb : d < len b
      · rw [if_pos (by omega)]
        split_ifs with hs
        · have : a.coeff 0 = 1 := by rw [← inv_inv (a.coeff 0), hs, inv_one]
          rw [this, one_mul, sub_self]
        · rw [mul_comm (b.coeff d), ← mul_assoc, mul_inv_cancel₀ ha, one_mul, sub_self]
      · rw [if_neg (by omega), coeff_len b d (by omega), mul_zero, sub_zero]
  · refine ⟨_, if_neg hd, ?_, ?_⟩
    · intro j hj
      rw [build_coeff, if_neg (by omega)]
    · rw [X_pow_dvd_iff]
      intro k hk
      obtain ⟨x, hx⟩ : ∃ x : Nat → K, x = fun k => if k < min m (len b) then b.coeff k else 0 := ⟨_, rfl⟩
      rw [← hx]
      have hxk : ∀ k, k < m → x k = b.coeff k := by
        intro k hk
        rw [hx]
        show (if k < min m (len b) then b.coeff k else 0) = _
        by_cases h : k < len b
        · rw [if_pos (by omega)]
        · rw [if_neg (by omega), coeff_len b k (by omega)]
      obtain ⟨-, h2, h3⟩ := plainLoop_spec a (a.coeff 0)⁻¹ (Function.update x 0 (x 0 * (a.coeff 0)⁻¹)) (m - 1)
      generalize plainLoop a a.natDegree (a.coeff 0)⁻¹ (Function.update x 0 (x 0 * (a.coeff 0)⁻¹)) (m - 1) = y at *
      rw [coeff_sub, mul_comm a, coeff_mul, Finset.Nat.sum_antidiagonal_eq_sum_range_succ
        (fun i j => (build m y).coeff i * a.coeff j)]
      have hs : ∑ i ∈ Finset.range k.succ, (build m y).coeff i * a.coeff (k - i)
          = ∑ i ∈ Finset.range k.succ, y i * a.coeff (k - i) := by
        refine Finset.sum_congr rfl fun i hi => ?_
        have := Finset.mem_range.1 hi
        rw [build_coeff, if_pos (by omega)]
      rw [hs, Finset.sum_range_succ, Nat.sub_self]
      rcases Nat.eq_zero_or_pos k with h0 | h0
      · subst h0
        rw [h2, Function.update_self, Finset.sum_range_zero, zero_add, hxk 0 hk, mul_assoc, inv_mul_cancel₀ ha,
          mul_one, sub_self]
      · have := h3 k h0 (by omega)
        rw [Function.update_of_ne (by omega), hxk k hk] at this
        have h4 : y k * a.coeff 0 = b.coeff k - ∑ i ∈ Finset.range k, y i * a.coeff (k - i) := by
          rw [this, mul_assoc, inv_mul_cancel₀ ha, mul_one]
        rw [h4]
        ring

/-! ### Newton iteration -/

theorem mul_coeff_high {A B : K[X]} {u v : Nat} (hA : ∀ j, u ≤ j → A.coeff j = 0) (hB : ∀ j, v ≤ j → B.coeff j = 0)
    (n : Nat) (hn : u + v ≤ n + 1) : (A * B).coeff n = 0 := by
  rw [coeff_mul]
  refine Finset.sum_eq_zero fun x hx => ?_
  have := Finset.mem_antidiagonal.1 hx
  by_cases h : u ≤ x.1
  · rw [hA _ h, zero_mul]
  · rw [hB _ (by omega), mul_zero]

theorem repMul {t lo hi : Nat} {A B : K[X]} (hhi : hi < 2 ^ t) (h : ∀ n, lo + 2 ^ t ≤ n → (A * B).coeff n = 0) :
    fromRep lo hi (mulRep t (A %ₘ (X ^ 2 ^ t - 1)) (B %ₘ (X ^ 2 ^ t - 1))) = slice (A * B) lo (hi + 1 - lo) := by
  have hN : 0 < 2 ^ t := Nat.pow_pos (by omega)
  ext j
  unfold fromRep mulRep
  rw [slice_coeff, slice_coeff, cyc_mul hN]
  by_cases hj : j < hi + 1 - lo
  · rw [if_pos hj, if_pos hj, cyc_coeff_eq (by omega) fun n hn => h n (by omega)]
  · rw [if_neg hj, if_neg hj]

theorem slice_zero {A : K[X]} {n : Nat} (h : ∀ j, n ≤ j → A.coeff j = 0) : slice A 0 n = A := by
  ext j
  rw [slice_coeff]
  by_cases hj : j < n
  · rw [if_pos hj, Nat.zero_add]
  · rw [if_neg hj, h j (by omega)]

theorem slice_dvd (A : K[X]) (n : Nat) : X ^ n ∣ A - slice A 0 n := by
  rw [X_pow_dvd_iff]
  intro d hd
  rw [coeff_sub, slice_coeff, if_pos hd, Nat.zero_add, sub_self]

theorem slice_high {A : K[X]} {lo n : Nat} (j : Nat) (hj : n ≤ j) : (slice A lo n).coeff j = 0 := by
  rw [slice_coeff, if_neg (by omega)]

/-- Splitting: `A = low + X^k * slice + …` modulo `X^(k+n)`. -/
theorem slice_split (A : K[X]) (k n : Nat) : X ^ (k + n) ∣ A - slice A 0 k - X ^ k * slice A k n := by
  rw [X_pow_dvd_iff]
  intro d hd
  rw [coeff_sub, coeff_sub, slice_coeff, coeff_X_pow_mul', slice_coeff]
  by_cases h : d < k
  · rw [if_pos h, if_neg (by omega), Nat.zero_add]; ring
  · rw [if_neg h, if_pos (by omega), if_pos (by omega), show k + (d - k) = d by omega]; ring

/-- If `X^k` divides `A - L` with `L` short, then `L` is the low part. -/
theorem low_eq {A L : K[X]} {k : Nat} (h : X ^ k ∣ A - L) (hL : ∀ j, k ≤ j → L.coeff j = 0) : slice A 0 k = L := by
  ext j
  rw [slice_coeff]
  by_cases hj : j < k
  · rw [if_pos hj, Nat.zero_add]
    exact Crt.coeff_eq_of_dvd h hj
  · rw [if_neg hj, hL j (by omega)]

theorem build_split {k l : Nat} (hk : k ≤ l) (u v : K[X]) :
    X ^ l ∣ (build l fun i => if i < k then u.coeff i else v.coeff (i - k)) - (slice u 0 k + X ^ k * v) := by
  rw [X_pow_dvd_iff]
  intro d hd
  rw [coeff_sub, coeff_add, build_coeff, if_pos hd, slice_coeff, coeff_X_pow_mul']
  by_cases h : d < k
  · rw [if_pos h, if_pos h, if_neg (by omega), Nat.zero_add]; ring
  · rw [if_neg h, if_neg h, if_pos (by omega)]; ring

theorem one_coeff_high {k : Nat} (hk : 1 ≤ k) : ∀ j, k ≤ j → (1 : K[X]).coeff j = 0 := fun j hj => by
  rw [coeff_one, if_neg (by omega)]

/-- One Newton step. -/
theorem newton_step (a x : K[X]) (t k : Nat) (hk : k = 2 ^ t) (hx : ∀ j, k ≤ j → x.coeff j = 0)
    (hi : X ^ k ∣ a * x - 1) :
    X ^ (2 * k) ∣ a * (build (2 * k) fun i => if i < k then x.coeff i else
      -(fromRep 0 (2 * k - k - 1) (mulRep (t + 1) (toRepAll (t + 1) (fromRep k (2 * k - 1)
        (mulRep (t + 1) (toRep (t + 1) 0 (2 * k - 1) a) (toRepAll (t + 1) x)))) (toRepAll (t + 1) x))).coeff (i - k)) - 1 := by
  have hk1 : 1 ≤ k := by rw [hk]; exact Nat.one_le_two_pow
  have h2 : 2 ^ (t + 1) = 2 * k := by rw [hk, pow_succ]; ring
  have e1 : fromRep k (2 * k - 1) (mulRep (t + 1) (toRep (t + 1) 0 (2 * k - 1) a) (toRepAll (t + 1) x))
      = slice (slice a 0 (2 * k) * x) k k := by
    unfold toRep toRepAll
    rw [repMul (by omega)]
    · rw [show 2 * k - 1 + 1 - 0 = 2 * k by omega, show 2 * k - 1 + 1 - k = k by omega]
    · intro n hn
      refine mul_coeff_high (u := 2 * k) (v := k) (fun j hj => slice_high j (by omega)) hx n (by omega)
  rw [e1]
  have e2 : fromRep 0 (2 * k - k - 1) (mulRep (t + 1) (toRepAll (t + 1) (slice (slice a 0 (2 * k) * x) k k))
      (toRepAll (t + 1) x)) = slice (slice (slice a 0 (2 * k) * x) k k * x) 0 k := by
    unfold toRepAll
    rw [repMul (by omega)]
    · rw [show 2 * k - k - 1 + 1 - 0 = k by omega]
    · intro n hn
      refine mul_coeff_high (u := k) (v := k) (fun j hj => slice_high j (by omega)) hx n (by omega)
  rw [e2]
  -- the slice of the truncated product
  have hA : X ^ (2 * k) ∣ a - slice a 0 (2 * k) := slice_dvd a (2 * k)
  have hsp := slice_split (slice a 0 (2 * k) * x) k k
  have hlow : slice (slice a 0 (2 * k) * x) 0 k = 1 := by
    refine low_eq ?_ (one_coeff_high hk1)
    obtain ⟨u, hu⟩ := hA
    obtain ⟨v, hv⟩ := hi
    refine ⟨v - X ^ k * u * x, ?_⟩
    linear_combination hv - x * hu
  rw [hlow] at hsp
  generalize slice (slice a 0 (2 * k) * x) k k = P1 at *
  have hP := slice_dvd (P1 * x) k
  have hb := build_split (K := K) (k := k) (l := 2 * k) (by omega) x (-slice (P1 * x) 0 k)
  rw [slice_zero hx] at hb
  simp only [coeff_neg] at hb
  obtain ⟨w, hw⟩ := hb
  obtain ⟨u, hu⟩ := hA
  obtain ⟨v, hv⟩ := hi
  obtain ⟨y, hy⟩ := hsp
  obtain ⟨z, hz⟩ := hP
  generalize (build (2 * k) fun i => if i < k then x.coeff i else -(slice (P1 * x) 0 k).coeff (i - k)) = X' at *
  have e : (X ^ (2 * k) : K[X]) = X ^ k * X ^ k := by rw [← pow_add]; congr 1; omega
  rw [show k + k = 2 * k by omega, e] at hy
  rw [e] at hw hu ⊢
  refine ⟨a * w + u * x + y - P1 * v + a * z, ?_⟩
  linear_combination a * hw + x * hu + hy - X ^ k * P1 * hv + X ^ k * a * hz

theorem newtonLoop_spec (a : K[X]) (m : Nat) : ∀ (fuel t k l : Nat) (x : K[X]), k = 2 ^ t → k < m → m ≤ fuel + k →
    1 ≤ fuel →
    (∀ j, k ≤ j → x.coeff j = 0) → X ^ k ∣ a * x - 1 →
    ∃ t' k' x', newtonLoop a m fuel t k l x = some (t', k', m, x') ∧ k' = 2 ^ t' ∧ k' < m ∧ m ≤ 2 * k' ∧
      (∀ j, k' ≤ j → x'.coeff j = 0) ∧ X ^ k' ∣ a * x' - 1 := by
  intro fuel
  induction fuel with
  | zero => intro t k l x _ _ _ h1; omega
  | succ fuel ih =>
    intro t k l x hk hkm hf _ hx hi
    have hk1 : 1 ≤ k := by rw [hk]; exact Nat.one_le_two_pow
    unfold newtonLoop
    rw [if_pos hkm]
    dsimp only
    by_cases h : m ≤ min (2 * k) m
    · rw [if_pos h]
      exact ⟨t, k, x, by rw [show min (2 * k) m = m by omega], hk, hkm, by omega, hx, hi⟩
    · rw [if_neg h, show min (2 * k) m = 2 * k by omega]
      refine ih (t + 1) (2 * k) (2 * k) _ (by rw [hk, pow_succ]; ring) (by omega) (by omega) (by omega) ?_ ?_
      · intro j hj
        rw [build_coeff, if_neg (by omega)]
      · exact newton_step a x t k hk hx hi

theorem natDegree_coeff {a : K[X]} {k : Nat} (h : a.natDegree < k) : ∀ j, k ≤ j → a.coeff j = 0 := fun j hj =>
  coeff_eq_zero_of_natDegree_lt (by omega)

theorem finalShort_spec (b a x : K[X]) (t k m : Nat) (hk : k = 2 ^ t) (hkm : k < m) (hm : m ≤ 2 * k)
    (hx : ∀ j, k ≤ j → x.coeff j = 0) (hi : X ^ k ∣ a * x - 1) (ha : a.natDegree < k) (hb : b.natDegree < k) :
    X ^ m ∣ a * finalShort b a t k m x - b := by
  have hk1 : 1 ≤ k := by rw [hk]; exact Nat.one_le_two_pow
  have h2 : 2 ^ (t + 1) = 2 * k := by rw [hk, pow_succ]; ring
  have hac := natDegree_coeff ha
  have hbc := natDegree_coeff hb
  unfold finalShort
  dsimp only
  have e0 : fromRep 0 (k - 1) (mulRep (t + 1) (toRepAll (t + 1) x) (toRepAll (t + 1) b)) = slice (x * b) 0 k := by
    unfold toRepAll
    rw [repMul (by omega) fun n hn => mul_coeff_high hx hbc n (by omega), show k - 1 + 1 - 0 = k by omega]
  rw [e0]
  have hr := slice_dvd (x * b) k
  have hrc : ∀ j, k ≤ j → (slice (x * b) 0 k).coeff j = 0 := fun j hj => slice_high j hj
  generalize slice (x * b) 0 k = r0 at *
  -- the high part of `r0 * a`
  have hd : X ^ k ∣ r0 * a - b := by
    obtain ⟨u, hu⟩ := hr
    obtain ⟨v, hv⟩ := hi
    exact ⟨b * v - a * u, by linear_combination b * hv - a * hu⟩
  obtain ⟨h, hh⟩ := hd
  have hhc : ∀ j, k ≤ j → h.coeff j = 0 := by
    intro j hj
    have : (X ^ k * h).coeff (k + j) = (r0 * a - b).coeff (k + j) := by rw [hh]
    rw [coeff_X_pow_mul', if_pos (by omega), Nat.add_sub_cancel_left] at this
    rw [this, coeff_sub, mul_coeff_high hrc hac _ (by omega), hbc _ (by omega), sub_zero]
  have hN : 0 < 2 ^ t := by omega
  have e1 : fromRep 0 (2 * k - 2) (mulRep t (toRepAll t r0) (toRepAll t a)) - b = h := by
    have e2 : mulRep t (toRepAll t r0) (toRepAll t a) = b + h := by
      unfold mulRep toRepAll
      rw [cyc_mul hN]
      have hmon := monic_cyc (R := K) (2 ^ t) hN
      have hdeg : (b + h).degree < (X ^ 2 ^ t - 1 : K[X]).degree := by
        rw [degree_eq_natDegree hmon.ne_zero, natDegree_cyc _ hN, ← hk, degree_lt_iff_coeff_zero]
        intro j hj
        rw [coeff_add, hbc j (by exact_mod_cast hj), hhc j (by exact_mod_cast hj), add_zero]
      rw [← (modByMonic_eq_self_iff hmon).2 hdeg]
      refine modByMonic_eq_of_dvd_sub hmon ⟨h, ?_⟩
      rw [← hk]
      linear_combination hh
    rw [e2]
    unfold fromRep
    by_cases hk2 : k = 1
    · subst hk2
      rw [show 2 * 1 - 2 + 1 - 0 = 1 by omega, slice_zero fun j hj => by rw [coeff_add, hbc j hj, hhc j hj, add_zero]]
      ring
    · rw [slice_zero fun j hj => by rw [coeff_add, hbc j (by omega), hhc j (by omega), add_zero]]
      ring
  rw [e1]
  have e3 : fromRep 0 (m - k - 1) (mulRep (t + 1) (toRepAll (t + 1) h) (toRepAll (t + 1) x)) = slice (h * x) 0 (m - k) := by
    unfold toRepAll
    rw [repMul (by omega) fun n hn => mul_coeff_high hhc hx n (by omega), show m - k - 1 + 1 - 0 = m - k by omega]
  rw [e3]
  have hP := slice_dvd (h * x) (m - k)
  have hbs := build_split (K := K) (k := k) (l := m) (by omega) r0 (-slice (h * x) 0 (m - k))
  rw [slice_zero hrc] at hbs
  simp only [coeff_neg] at hbs
  obtain ⟨w, hw⟩ := hbs
  obtain ⟨v, hv⟩ := hi
  obtain ⟨z, hz⟩ := hP
  generalize (build m fun i => if i < k then r0.coeff i else -(slice (h * x) 0 (m - k)).coeff (i - k)) = X' at *
  have e4 : (X ^ m : K[X]) = X ^ k * X ^ (m - k) := by rw [← pow_add]; congr 1; omega
  have e5 : (X ^ k : K[X]) = X ^ (m - k) * X ^ (2 * k - m) := by rw [← pow_add]; congr 1; omega
  rw [e4] at hw ⊢
  refine ⟨a * w + a * z - X ^ (2 * k - m) * h * v, ?_⟩
  linear_combination a * hw + hh + X ^ k * a * hz - X ^ k * h * hv - X ^ k * h * v * e5

theorem finalLong_spec (b a x : K[X]) (t k m : Nat) (hk : k = 2 ^ t) (hkm : k < m) (hm : m ≤ 2 * k)
    (hx : ∀ j, k ≤ j → x.coeff j = 0) (hi : X ^ k ∣ a * x - 1) :
    X ^ m ∣ a * finalLong b a t k m x - b := by
  have hk1 : 1 ≤ k := by rw [hk]; exact Nat.one_le_two_pow
  have h2 : 2 ^ (t + 1) = 2 * k := by rw [hk, pow_succ]; ring
  unfold finalLong
  dsimp only
  have e1 : fromRep 0 (m - 1 - k) (mulRep (t + 1) (toRepAll (t + 1) x) (toRep (t + 1) k (m - 1) b))
      = slice (x * slice b k (m - k)) 0 (m - k) := by
    unfold toRepAll toRep
    rw [show m - 1 + 1 - k = m - k by omega, repMul (by omega) fun n hn => mul_coeff_high (v := m - k) hx
      (fun j hj => slice_high j hj) n (by omega), show m - 1 - k + 1 - 0 = m - k by omega]
  have e2 : fromRep 0 (m - 1) (mulRep (t + 1) (toRepAll (t + 1) x) (toRep (t + 1) 0 (k - 1) b))
      = slice (x * slice b 0 k) 0 m := by
    unfold toRepAll toRep
    rw [show k - 1 + 1 - 0 = k by omega, repMul (by omega) fun n hn => mul_coeff_high (v := k) hx
      (fun j hj => slice_high j hj) n (by omega), show m - 1 + 1 - 0 = m by omega]
  have e3 : fromRep k (m - 1) (mulRep (t + 1) (toRepAll (t + 1) x) (toRep (t + 1) 0 (m - 1) a))
      = slice (x * slice a 0 m) k (m - k) := by
    unfold toRepAll toRep
    rw [show m - 1 + 1 - 0 = m by omega, repMul (by omega) fun n hn => mul_coeff_high (v := m) hx
      (fun j hj => slice_high j hj) n (by omega), show m - 1 + 1 - k = m - k by omega]
  rw [e1, e2, e3]
  obtain ⟨P2h, hP2h⟩ : ∃ P, P = slice (x * slice b k (m - k)) 0 (m - k) := ⟨_, rfl⟩
  obtain ⟨P2l, hP2l⟩ : ∃ P, P = slice (x * slice b 0 k) 0 m := ⟨_, rfl⟩
  obtain ⟨P1, hP1⟩ : ∃ P, P = slice (x * slice a 0 m) k (m - k) := ⟨_, rfl⟩
  rw [← hP2h, ← hP2l, ← hP1]
  have e4 : fromRep 0 (m - 1 - k) (mulRep (t + 1) (toRep (t + 1) 0 (m - 1 - k) P1) (toRep (t + 1) 0 (m - 1 - k) P2l))
      = slice (slice P1 0 (m - k) * slice P2l 0 (m - k)) 0 (m - k) := by
    unfold toRep
    rw [show m - 1 - k + 1 - 0 = m - k by omega, repMul (by omega) fun n hn => mul_coeff_high (u := m - k) (v := m - k)
      (fun j hj => slice_high j hj) (fun j hj => slice_high j hj) n (by omega), show m - 1 - k + 1 - 0 = m - k by omega]
  rw [e4]
  have d1 : X ^ (m - k) ∣ slice P1 0 (m - k) * slice P2l 0 (m - k) - slice (slice P1 0 (m - k) * slice P2l 0 (m - k)) 0 (m - k) :=
    slice_dvd _ _
  have d2 := slice_dvd P1 (m - k)
  have d3 := slice_dvd P2l (m - k)
  have d4 : X ^ (m - k) ∣ x * slice b k (m - k) - P2h := by rw [hP2h]; exact slice_dvd _ _
  have d5 : X ^ m ∣ x * slice b 0 k - P2l := by rw [hP2l]; exact slice_dvd _ _
  have d6 : X ^ m ∣ x * slice a 0 m - 1 - X ^ k * P1 := by
    have hlow : slice (x * slice a 0 m) 0 k = 1 := by
      refine low_eq ?_ (one_coeff_high hk1)
      obtain ⟨u, hu⟩ := slice_dvd a m
      obtain ⟨v, hv⟩ := hi
      have e : (X ^ m : K[X]) = X ^ k * X ^ (m - k) := by rw [← pow_add]; congr 1; omega
      rw [e] at hu
      exact ⟨v - X ^ (m - k) * u * x, by linear_combination hv - x * hu⟩
    have := slice_split (x * slice a 0 m) k (m - k)
    rwa [hlow, ← hP1, show k + (m - k) = m by omega] at this
  have d7 := slice_dvd a m
  have d8 : X ^ m ∣ b - slice b 0 k - X ^ k * slice b k (m - k) := by
    have := slice_split b k (m - k)
    rwa [show k + (m - k) = m by omega] at this
  -- the branch on `deg b`
  have hB : ∀ j, P2l.coeff j = (slice P2l 0 m).coeff j := by
    intro j
    rw [hP2l, slice_zero fun j hj => slice_high j hj]
  generalize hP1' : slice (slice P1 0 (m - k) * slice P2l 0 (m - k)) 0 (m - k) = P1' at *
  have hb0 : b.natDegree < k → P2h = 0 := by
    intro hlt
    have : slice b k (m - k) = 0 := by
      ext j
      rw [slice_coeff, coeff_zero]
      split_ifs
      · exact natDegree_coeff hlt _ (by omega)
      · rfl
    rw [hP2h, this, mul_zero]
    ext j
    rw [slice_coeff]; simp
  have d9 : X ^ m ∣ (build (m - 1 + 1) fun i => if i < k then P2l.coeff i
      else (if k ≤ b.natDegree then P2l.coeff i + P2h.coeff (i - k) else P2l.coeff i) - P1'.coeff (i - k))
      - (P2l + X ^ k * (P2h - P1')) := by
    rw [show m - 1 + 1 = m by omega, X_pow_dvd_iff]
    intro d hd
    rw [coeff_sub, coeff_add, build_coeff, if_pos hd, coeff_X_pow_mul']
    by_cases h : d < k
    · rw [if_pos h, if_neg (by omega)]; ring
    · rw [if_neg h, if_pos (show k ≤ d by omega), coeff_sub]
      by_cases hkb : k ≤ b.natDegree
      · rw [if_pos hkb]; ring
      · rw [if_neg hkb, hb0 (by omega), coeff_zero]; ring
  generalize (build (m - 1 + 1) fun i => if i < k then P2l.coeff i
      else (if k ≤ b.natDegree then P2l.coeff i + P2h.coeff (i - k) else P2l.coeff i) - P1'.coeff (i - k)) = Y at *
  generalize slice P1 0 (m - k) = S1 at *
  generalize slice P2l 0 (m - k) = S2 at *
  generalize slice b k (m - k) = B1 at *
  generalize slice b 0 k = B0 at *
  generalize slice a 0 m = A0 at *
  have e5 : (X ^ m : K[X]) = X ^ k * X ^ (m - k) := by rw [← pow_add]; congr 1; omega
  have e6 : (X ^ k : K[X]) = X ^ (m - k) * X ^ (2 * k - m) := by rw [← pow_add]; congr 1; omega
  obtain ⟨c1, h1⟩ := d1
  obtain ⟨c2, h2'⟩ := d2
  obtain ⟨c3, h3⟩ := d3
  obtain ⟨c4, h4⟩ := d4
  obtain ⟨c5, h5⟩ := d5
  obtain ⟨c6, h6⟩ := d6
  obtain ⟨c7, h7⟩ := d7
  obtain ⟨c8, h8⟩ := d8
  obtain ⟨c9, h9⟩ := d9
  obtain ⟨v, hv⟩ := hi
  rw [e5] at h5 h6 h7 h8 h9 ⊢
  generalize (X ^ (m - k) : K[X]) = E at *
  generalize (X ^ (2 * k - m) : K[X]) = F at *
  generalize (X ^ k : K[X]) = D at *
  refine ⟨a * c9 - a * c5 + B0 * (c6 + x * c7) - c8 - a * c4 + B1 * F * v
    + a * (c1 + P2l * c2 + S1 * c3) + a * P1 * (D * c5) - P1 * B0 * F * v, ?_⟩
  linear_combination a * h9 - a * h5 + B0 * h6 + B0 * x * h7 - h8 - D * a * h4 + D * B1 * hv
    + D * a * (h1 + P2l * h2' + S1 * h3) + D * a * P1 * h5 - D * P1 * B0 * hv
    + (D * B1 * v - D * P1 * B0 * v) * e6

/-- C59: `InvTruncMul(x, b, a, m)` returns the power series `b / a` modulo `X^m`, for all `a` with
    invertible constant coefficient, all `b` and all precisions; `co ≥ 5` is the crossover to
    Newton iteration. -/
theorem C59_inv_trunc_mul [DecidableEq K] {pit : K[X] → Nat → K[X]} (hpit : PlainInvTruncOK pit) (co : Nat)
    (hco : 5 ≤ co) (b a : K[X]) (m : Nat) (ha : a.coeff 0 ≠ 0) :
    ∃ x, invTruncMul pit co b a m = some x ∧ (∀ j, m ≤ j → x.coeff j = 0) ∧ X ^ m ∣ a * x - b := by
  unfold invTruncMul
  by_cases hm : m = 0
  · rw [if_pos hm]
    refine ⟨0, rfl, fun j _ => coeff_zero j, ?_⟩
    rw [hm, pow_zero]
    exact one_dvd _
  rw [if_neg hm]
  by_cases hc : co < m ∧ 0 < a.natDegree
  · rw [if_pos hc]
    unfold newtonInvTruncMul
    rw [if_neg ha]
    dsimp only
    have ht : 2 ^ (nextPow2 co - 3) < m := by
      have h1 : 3 ≤ nextPow2 co := by
        by_contra hlt
        have := le_nextPow2 co
        have h4 : 2 ^ nextPow2 co ≤ 2 ^ 2 := Nat.pow_le_pow_right (by omega) (by omega)
        omega
      have h2 : 2 ^ (nextPow2 co - 1) < co := by
        have := Nat.pow_pred_clog_lt_self (b := 2) (by omega) (x := co) (by omega)
        exact this
      have h3 : 2 ^ (nextPow2 co - 3) ≤ 2 ^ (nextPow2 co - 1) := Nat.pow_le_pow_right (by omega) (by omega)
      omega
    obtain ⟨hp1, hp2⟩ := hpit a (2 ^ (nextPow2 co - 3)) ha
    obtain ⟨t', k', x', hl, hk, hkm, hm2, hx, hi⟩ := newtonLoop_spec a m (m + 1) (nextPow2 co - 3)
      (2 ^ (nextPow2 co - 3)) 0 (pit a (2 ^ (nextPow2 co - 3))) rfl ht
      (le_trans (Nat.le_succ m) (Nat.le_add_right _ _)) (by omega) hp1 hp2
    rw [hl]
    refine ⟨_, rfl, ?_, ?_⟩
    · intro j hj
      split_ifs
      · unfold finalShort
        rw [build_coeff, if_neg (by omega)]
      · unfold finalLong
        rw [build_coeff, if_neg (by omega)]
    · split_ifs with h
      · exact finalShort_spec b a x' t' k' m hk hkm hm2 hx hi h.1 h.2.1
      · exact finalLong_spec b a x' t' k' m hk hkm hm2 hx hi
  · rw [if_neg hc]
    exact plain_spec b a m (by omega) ha

/-- A zero constant coefficient is reported as an error. -/
theorem C59_not_invertible [DecidableEq K] (pit : K[X] → Nat → K[X]) (co : Nat) (b a : K[X]) (m : Nat) (hm : m ≠ 0)
    (ha : a.coeff 0 = 0) : invTruncMul pit co b a m = none := by
  unfold invTruncMul
  rw [if_neg hm]
  split_ifs
  · unfold newtonInvTruncMul
    rw [if_pos ha]
  · unfold plainInvTruncMul
    split_ifs <;> rfl

/-- The contract of `PlainInvTrunc` is satisfiable. -/
theorem exists_plainInvTrunc : ∃ pit : K[X] → Nat → K[X], PlainInvTruncOK pit := by
  obtain ⟨it, hit⟩ := Crt.exists_invTrunc (K := K)
  refine ⟨fun a k => slice (it a k) 0 k, fun a k h => ⟨fun j hj => slice_high j hj, ?_⟩⟩
  obtain ⟨u, hu⟩ := slice_dvd (it a k) k
  obtain ⟨v, hv⟩ := hit a k h
  exact ⟨v - a * u, by linear_combination hv - a * hu⟩

example : ∃ pit : (ZMod 5)[X] → Nat → (ZMod 5)[X], PlainInvTruncOK pit ∧ (X + 2 : (ZMod 5)[X]).coeff 0 ≠ 0 := by
  obtain ⟨pit, h⟩ := exists_plainInvTrunc (K := ZMod 5)
  refine ⟨pit, h, ?_⟩
  have : (X + 2 : (ZMod 5)[X]) = X + C 2 := rfl
  rw [this, coeff_add, coeff_X_zero, coeff_C_zero]
  decide

end PML.Ntl.Series
