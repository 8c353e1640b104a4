import Verif.Ntl.SylvBlockModel
import Verif.Ntl.SylvProps
import Verif.Ntl.SeriesProps

/-!
# C112: the top right block of the inverse of a Sylvester matrix
-/

namespace PML.Ntl.Struct

open Polynomial PML.Ntl.Utils PML.Ntl.Inv PML.Ntl.Solve PML.Ntl.Series

variable {p : Nat} [Fact p.Prime]

/-! ### Quotients -/

/-- The polynomial part of `X^k` times the series with the coefficients `v`, in `1/X`. -/
noncomputable def quo (v : Nat → ZMod p) (k : Nat) : (ZMod p)[X] := ofCoeffs k fun i => v (k - 1 - i)

theorem mul_quo_coeff (f : (ZMod p)[X]) (v : Nat → ZMod p) (k i : Nat) :
    (f * quo v k).coeff i = ∑ l ∈ Finset.range (i + 1), if l < k then f.coeff (i - l) * v (k - 1 - l) else 0 := by
  rw [mul_comm, coeff_mul, Finset.Nat.sum_antidiagonal_eq_sum_range_succ (fun x y => (quo v k).coeff x * f.coeff y)]
  refine Finset.sum_congr rfl fun l _ => ?_
  unfold quo
  rw [ofCoeffs_coeff]
  split_ifs <;> ring

theorem quo_coeff (v : Nat → ZMod p) (k i : Nat) : (quo v k).coeff i = if i < k then v (k - 1 - i) else 0 := ofCoeffs_coeff _ _ _

/-- The remainder has small degree. -/
theorem rem_deg {b s R r x : (ZMod p)[X]} {n : Nat} (hR : ∀ k, R.coeff k = if k ≤ b.natDegree then b.coeff (b.natDegree - k) else 0)
    (hr : ∀ k, r.coeff k = if k < b.natDegree then s.coeff (b.natDegree - 1 - k) else 0) (hs : s.degree < b.degree) (hx : X ^ n ∣ R * x - r) {k i : Nat} (hk : k ≤ n)
    (hi : b.natDegree ≤ i) : (s * X ^ k - b * quo x.coeff k).coeff i = 0 := by
  have hb0 : b ≠ 0 := fun h => by
    rw [h, degree_zero] at hs
    exact not_lt_bot hs
  have hs0 : ∀ j, b.natDegree ≤ j → s.coeff j = 0 := fun j hj => coeff_eq_zero_of_degree_lt (hs.trans_le (by rw [degree_eq_natDegree hb0]; exact_mod_cast hj))
  rw [coeff_sub, mul_quo_coeff, coeff_mul_X_pow', sub_eq_zero, eq_comm]
  have e1 : ∑ l ∈ Finset.range (i + 1), (if l < k then b.coeff (i - l) * x.coeff (k - 1 - l) else 0) =
      ∑ l ∈ Finset.range k, (if l ≤ i then b.coeff (i - l) * x.coeff (k - 1 - l) else 0) := by
    rw [← Finset.sum_filter, ← Finset.sum_filter]
    refine Finset.sum_congr ?_ fun _ _ => rfl
    ext l
    simp only [Finset.mem_filter, Finset.mem_range]
    omega
  have e2 : ∑ l ∈ Finset.range k, (if l ≤ i then b.coeff (i - l) * x.coeff (k - 1 - l) else 0) =
      ∑ r ∈ Finset.range k, (if k - 1 - r ≤ i then b.coeff (i - (k - 1 - r)) * x.coeff r else 0) := by
    rw [← Finset.sum_range_reflect]
    refine Finset.sum_congr rfl fun r hr => ?_
    have := Finset.mem_range.1 hr
    rw [show k - 1 - (k - 1 - r) = r by omega]
  rw [e1, e2]
  by_cases hq : b.natDegree + k ≤ i
  · rw [Finset.sum_eq_zero, if_pos (by omega), hs0 _ (by omega)]
    intro r hr
    have := Finset.mem_range.1 hr
    rw [if_pos (by omega), coeff_eq_zero_of_natDegree_lt (by omega), zero_mul]
  · obtain ⟨q, hqk, hqi⟩ : ∃ q, q < k ∧ q + 1 + i = b.natDegree + k := ⟨b.natDegree + k - 1 - i, by omega, by omega⟩
    have h1 : (R * x).coeff q = r.coeff q := by
      have := (X_pow_dvd_iff.1 hx) q (by omega)
      rw [coeff_sub] at this
      exact sub_eq_zero.1 this
    rw [mul_comm, coeff_mul, Finset.Nat.sum_antidiagonal_eq_sum_range_succ (fun u w => x.coeff u * R.coeff w), hr] at h1
    have e3 : ∑ r ∈ Finset.range k, (if k - 1 - r ≤ i then b.coeff (i - (k - 1 - r)) * x.coeff r else 0) = ∑ u ∈ Finset.range (q + 1), x.coeff u * R.coeff (q - u) := by
      symm
      refine Finset.sum_subset_zero_on_sdiff (fun u hu => Finset.mem_range.2 (by have := Finset.mem_range.1 hu; omega)) ?_ ?_
      · intro u hu
        rw [Finset.mem_sdiff, Finset.mem_range, Finset.mem_range] at hu
        rw [if_pos (by omega), coeff_eq_zero_of_natDegree_lt (by omega), zero_mul]
      · intro u hu
        have := Finset.mem_range.1 hu
        rw [hR]
        by_cases hc : q - u ≤ b.natDegree
        · rw [if_pos hc, if_pos (by omega), show i - (k - 1 - u) = b.natDegree - (q - u) by omega, mul_comm]
        · rw [if_neg hc, if_neg (by omega), mul_zero]
    rw [e3]
    refine Eq.trans h1 ?_
    by_cases hki : k ≤ i
    · rw [if_pos hki, if_pos (by omega), show b.natDegree - 1 - q = i - k by omega]
    · rw [if_neg hki, if_neg (by omega)]

/-- The two remainders and the two series. -/
structure Pair (a b s t : (ZMod p)[X]) (v w : Nat → ZMod p) : Prop where
  ha : 0 < a.natDegree
  hb : 0 < b.natDegree
  bezout : s * a + t * b = 1
  remB : ∀ k i, k ≤ a.natDegree + b.natDegree → b.natDegree ≤ i → (s * X ^ k - b * quo v k).coeff i = 0
  remA : ∀ k i, k ≤ a.natDegree + b.natDegree → a.natDegree ≤ i → (t * X ^ k - a * quo w k).coeff i = 0

theorem Pair.sum {a b s t : (ZMod p)[X]} {v w : Nat → ZMod p} (h : Pair a b s t v w) (k : Nat) :
    (s * X ^ k - b * quo v k) * a + (t * X ^ k - a * quo w k) * b = X ^ k - a * b * (quo v k + quo w k) := by
  linear_combination X ^ k * h.bezout

theorem deg_of_coeff {f : (ZMod p)[X]} {d : Nat} (h : ∀ i, d ≤ i → f.coeff i = 0) : f.degree < d := (degree_lt_iff_coeff_zero _ _).2 fun i hi => h i (by exact_mod_cast hi)

theorem Pair.lhs_deg {a b s t : (ZMod p)[X]} {v w : Nat → ZMod p} (h : Pair a b s t v w) {k : Nat} (hk : k ≤ a.natDegree + b.natDegree) :
    (X ^ k - a * b * (quo v k + quo w k)).degree < ((a.natDegree + b.natDegree : Nat) : WithBot Nat) := by
  rw [← h.sum k]
  have ha0 : a ≠ 0 := fun e => by have := h.ha; simp [e] at this
  have hb0 : b ≠ 0 := fun e => by have := h.hb; simp [e] at this
  refine (degree_add_le _ _).trans_lt (max_lt ?_ ?_)
  · rw [degree_mul, degree_eq_natDegree ha0, add_comm, Nat.cast_add]
    exact WithBot.add_lt_add_left (by simp) (deg_of_coeff fun i => h.remB k i hk)
  · rw [degree_mul, degree_eq_natDegree hb0, Nat.cast_add]
    exact WithBot.add_lt_add_right (by simp) (deg_of_coeff fun i => h.remA k i hk)

theorem Pair.quo_lt {a b s t : (ZMod p)[X]} {v w : Nat → ZMod p} (h : Pair a b s t v w) {k : Nat} (hk : k < a.natDegree + b.natDegree) : quo v k + quo w k = 0 := by
  have ha0 : a ≠ 0 := fun e => by have := h.ha; simp [e] at this
  have hb0 : b ≠ 0 := fun e => by have := h.hb; simp [e] at this
  by_contra hne
  have h1 : (a * b * (quo v k + quo w k)).degree < ((a.natDegree + b.natDegree : Nat) : WithBot Nat) := by
    have h2 := h.lhs_deg hk.le
    have e : a * b * (quo v k + quo w k) = X ^ k - (X ^ k - a * b * (quo v k + quo w k)) := by ring
    rw [e]
    refine (degree_sub_le _ _).trans_lt (max_lt ?_ h2)
    rw [degree_X_pow]
    exact_mod_cast hk
  rw [degree_mul, degree_mul, degree_eq_natDegree ha0, degree_eq_natDegree hb0, degree_eq_natDegree hne] at h1
  norm_cast at h1
  omega

theorem Pair.small {a b s t : (ZMod p)[X]} {v w : Nat → ZMod p} (h : Pair a b s t v w) {r : Nat} (hr : r + 1 < a.natDegree + b.natDegree) : w r = -v r := by
  have := congrArg (fun f => f.coeff 0) (h.quo_lt hr)
  simp only [coeff_add, quo_coeff, coeff_zero] at this
  rw [if_pos (Nat.succ_pos _), if_pos (Nat.succ_pos _)] at this
  simp only [Nat.add_sub_cancel, Nat.sub_zero] at this
  linear_combination this

theorem Pair.quo_n {a b s t : (ZMod p)[X]} {v w : Nat → ZMod p} (h : Pair a b s t v w) :
    quo v (a.natDegree + b.natDegree) + quo w (a.natDegree + b.natDegree) = C (a.leadingCoeff * b.leadingCoeff)⁻¹ := by
  have ha0 : a ≠ 0 := fun e => by have := h.ha; simp [e] at this
  have hb0 : b ≠ 0 := fun e => by have := h.hb; simp [e] at this
  have hpos : 0 < a.natDegree + b.natDegree := by have := h.ha; omega
  have hl : a.leadingCoeff * b.leadingCoeff ≠ 0 := mul_ne_zero (leadingCoeff_ne_zero.2 ha0) (leadingCoeff_ne_zero.2 hb0)
  obtain ⟨c, hc⟩ : ∃ c, quo v (a.natDegree + b.natDegree) + quo w (a.natDegree + b.natDegree) = C c := by
    refine ⟨(quo v (a.natDegree + b.natDegree) + quo w (a.natDegree + b.natDegree)).coeff 0, ?_⟩
    ext i
    rw [coeff_C]
    split_ifs with hi
    · rw [hi]
    · rw [coeff_add, quo_coeff, quo_coeff]
      split_ifs with h2
      · rw [h.small (by omega)]
        ring
      · ring
  have h1 := h.lhs_deg le_rfl
  have h2 := coeff_eq_zero_of_degree_lt h1
  rw [hc, coeff_sub, coeff_X_pow_self, coeff_mul_C, coeff_mul_degree_add_degree] at h2
  rw [hc]
  congr 1
  rw [eq_comm, inv_eq_iff_eq_inv, eq_comm]
  rw [inv_eq_of_mul_eq_one_left]
  linear_combination -h2

theorem Pair.last {a b s t : (ZMod p)[X]} {v w : Nat → ZMod p} (h : Pair a b s t v w) :
    w (a.natDegree + b.natDegree - 1) = -v (a.natDegree + b.natDegree - 1) + (a.leadingCoeff * b.leadingCoeff)⁻¹ := by
  have hpos : 0 < a.natDegree + b.natDegree := by have := h.ha; omega
  have := congrArg (fun f => f.coeff 0) h.quo_n
  simp only [coeff_add, quo_coeff, coeff_C_zero] at this
  rw [if_pos hpos, if_pos hpos] at this
  simp only [Nat.sub_zero] at this
  linear_combination this

/-! ### The block -/

theorem Pair.ne {a b s t : (ZMod p)[X]} {v w : Nat → ZMod p} (h : Pair a b s t v w) : a.leadingCoeff * b.leadingCoeff ≠ 0 := by
  have ha0 : a ≠ 0 := fun e => by have := h.ha; simp [e] at this
  have hb0 : b ≠ 0 := fun e => by have := h.hb; simp [e] at this
  exact mul_ne_zero (leadingCoeff_ne_zero.2 ha0) (leadingCoeff_ne_zero.2 hb0)

/-- `U0 - U1`. -/
noncomputable def diffU (a b : (ZMod p)[X]) (q : Nat) : ZMod p := -b.coeff q + if q < b.natDegree then 0 else a.coeff (q - b.natDegree)

theorem diff_sum (a b : (ZMod p)[X]) (v : Nat → ZMod p) (k i : Nat) :
    ∑ l ∈ Finset.range (i + 1), (if l < k then diffU a b (i - l) * v (k - 1 - l) else 0) =
      -(b * quo v k).coeff i + if i < b.natDegree then 0 else (a * quo v k).coeff (i - b.natDegree) := by
  rw [mul_quo_coeff, mul_quo_coeff, ← Finset.sum_neg_distrib]
  have e : (if i < b.natDegree then 0 else ∑ l ∈ Finset.range (i - b.natDegree + 1), if l < k then a.coeff (i - b.natDegree - l) * v (k - 1 - l) else 0) =
      ∑ l ∈ Finset.range (i + 1), if l < k then (if i - l < b.natDegree then 0 else a.coeff (i - l - b.natDegree)) * v (k - 1 - l) else 0 := by
    split_ifs with hi
    · symm
      refine Finset.sum_eq_zero fun l _ => ?_
      rw [if_pos (show i - l < b.natDegree by omega), zero_mul, ite_self]
    · refine Finset.sum_subset_zero_on_sdiff (fun u hu => Finset.mem_range.2 (by have := Finset.mem_range.1 hu; omega)) ?_ ?_
      · intro l hl
        rw [Finset.mem_sdiff, Finset.mem_range, Finset.mem_range] at hl
        rw [if_pos (show i - l < b.natDegree by omega), zero_mul, ite_self]
      · intro l hl
        have := Finset.mem_range.1 hl
        rw [if_neg (show ¬ i - l < b.natDegree by omega), show i - b.natDegree - l = i - l - b.natDegree by omega]
  rw [e, ← Finset.sum_add_distrib]
  refine Finset.sum_congr rfl fun l _ => ?_
  unfold diffU
  split_ifs <;> ring

/-- What lines 556-568 compute. -/
structure UOk (a b s t : (ZMod p)[X]) (v w : Nat → ZMod p) (m : Nat) (U0 U1 : Nat → ZMod p) : Prop where
  low : ∀ q, q < m → q < b.natDegree → U1 q = a.leadingCoeff * b.leadingCoeff * (s.coeff q + (b * quo v (a.natDegree + b.natDegree)).coeff q)
  high : ∀ q, q < m → b.natDegree ≤ q → U1 q = a.leadingCoeff * b.leadingCoeff * (t.coeff (q - b.natDegree) +
    (a * quo w (a.natDegree + b.natDegree)).coeff (q - b.natDegree)) - a.coeff (q - b.natDegree)
  diff : ∀ q, q < m → U0 q = U1 q + diffU a b q

theorem Pair.wrap {a b s t : (ZMod p)[X]} {v w U0 U1 : Nat → ZMod p} {m : Nat} (h : Pair a b s t v w) (hU : UOk a b s t v w m U0 U1)
    (hm : m ≤ a.natDegree + b.natDegree) {q : Nat} (hq : q < m) :
    (-(b * quo v (a.natDegree + b.natDegree)).coeff q + if q < b.natDegree then 0 else (a * quo v (a.natDegree + b.natDegree)).coeff (q - b.natDegree)) +
      U1 q * (a.leadingCoeff * b.leadingCoeff)⁻¹ = s.coeff q + if q < b.natDegree then 0 else t.coeff (q - b.natDegree) := by
  have hl := h.ne
  by_cases hb : q < b.natDegree
  · rw [if_pos hb, if_pos hb, hU.low q hq hb, mul_right_comm, mul_inv_cancel₀ hl]
    ring
  · rw [if_neg hb, if_neg hb, hU.high q hq (by omega), sub_mul, mul_right_comm, mul_inv_cancel₀ hl]
    have h1 := h.remB (a.natDegree + b.natDegree) q le_rfl (by omega)
    rw [coeff_sub, coeff_mul_X_pow', if_neg (by omega)] at h1
    have h2 := h.remB 0 q (Nat.zero_le _) (by omega)
    rw [coeff_sub, pow_zero, mul_one, mul_quo_coeff] at h2
    simp only [Nat.not_lt_zero, if_false, Finset.sum_const_zero, sub_zero] at h2
    have h3 : (a * quo w (a.natDegree + b.natDegree)).coeff (q - b.natDegree) =
        a.coeff (q - b.natDegree) * (a.leadingCoeff * b.leadingCoeff)⁻¹ - (a * quo v (a.natDegree + b.natDegree)).coeff (q - b.natDegree) := by
      rw [← coeff_mul_C, ← coeff_sub]
      congr 1
      rw [← h.quo_n]
      ring
    rw [h3, h2]
    linear_combination h1

theorem Pair.block {a b s t : (ZMod p)[X]} {v w U0 U1 : Nat → ZMod p} {m : Nat} (h : Pair a b s t v w) (hU : UOk a b s t v w m U0 U1)
    (hm : m ≤ a.natDegree + b.natDegree) {i j : Nat} (hi : i < m) (hj : j < m) :
    (blockOf (a.natDegree + b.natDegree) m U0 U1 v w).e (i, j) =
      if i < b.natDegree then (s * X ^ (a.natDegree + b.natDegree - m + j) - b * quo v (a.natDegree + b.natDegree - m + j)).coeff i
      else (t * X ^ (a.natDegree + b.natDegree - m + j) - a * quo w (a.natDegree + b.natDegree - m + j)).coeff (i - b.natDegree) := by
  generalize hn : a.natDegree + b.natDegree = n at *
  obtain ⟨k, hk⟩ : ∃ k, k = n - m + j := ⟨_, rfl⟩
  rw [← hk]
  have hkn : k < n := by omega
  have hv : ∀ l, vIndex n m l j = if l < k then k - 1 - l else n + k - 1 - l := by
    intro l
    unfold vIndex
    split_ifs <;> omega
  have e1 : (blockOf n m U0 U1 v w).e (i, j) = ∑ l ∈ Finset.range (i + 1), (U0 (i - l) * v (vIndex n m l j) + U1 (i - l) * w (vIndex n m l j)) := by
    show ∑ l ∈ Finset.range m, ((if l ≤ i then U0 (i - l) else 0) * v (vIndex n m l j) + (if l ≤ i then U1 (i - l) else 0) * w (vIndex n m l j)) = _
    symm
    refine Finset.sum_subset_zero_on_sdiff (fun u hu => Finset.mem_range.2 (by have := Finset.mem_range.1 hu; omega)) ?_ ?_
    · intro l hl
      rw [Finset.mem_sdiff, Finset.mem_range, Finset.mem_range] at hl
      rw [if_neg (by omega), if_neg (by omega)]
      ring
    · intro l hl
      have := Finset.mem_range.1 hl
      rw [if_pos (by omega), if_pos (by omega)]
  have e2 : ∀ l ∈ Finset.range (i + 1), U0 (i - l) * v (vIndex n m l j) + U1 (i - l) * w (vIndex n m l j) =
      (if l < k then diffU a b (i - l) * v (k - 1 - l) else 0) + ((if l < k then 0 else diffU a b (i - l) * v (n + k - 1 - l)) +
        if l = k then U1 (i - k) * (a.leadingCoeff * b.leadingCoeff)⁻¹ else 0) := by
    intro l hl
    have hli := Finset.mem_range.1 hl
    rw [hv l, hU.diff (i - l) (by omega)]
    rcases lt_trichotomy l k with hlk | hlk | hlk
    · rw [if_pos hlk, if_pos hlk, if_pos hlk, if_neg (by omega), h.small (r := k - 1 - l) (by omega)]
      ring
    · subst hlk
      rw [if_neg (lt_irrefl l), if_neg (lt_irrefl l), if_neg (lt_irrefl l), if_pos rfl, show n + l - 1 - l = n - 1 by omega]
      have := h.last
      rw [hn] at this
      rw [this]
      ring
    · rw [if_neg (by omega), if_neg (by omega), if_neg (by omega), if_neg (by omega), h.small (r := n + k - 1 - l) (by omega)]
      ring
  rw [e1, Finset.sum_congr rfl e2, Finset.sum_add_distrib, Finset.sum_add_distrib, diff_sum]
  have e3 : ∑ l ∈ Finset.range (i + 1), (if l < k then 0 else diffU a b (i - l) * v (n + k - 1 - l)) +
      ∑ l ∈ Finset.range (i + 1), (if l = k then U1 (i - k) * (a.leadingCoeff * b.leadingCoeff)⁻¹ else 0) =
      (s * X ^ k).coeff i + if i < b.natDegree then 0 else (t * X ^ k).coeff (i - b.natDegree) := by
    rw [coeff_mul_X_pow', coeff_mul_X_pow']
    by_cases hki : k ≤ i
    · obtain ⟨q, rfl⟩ := Nat.exists_eq_add_of_le hki
      rw [Nat.add_assoc, Finset.sum_range_add, Finset.sum_eq_zero (s := Finset.range k) (fun l hl => if_pos (Finset.mem_range.1 hl)), zero_add]
      have e4 : ∑ x ∈ Finset.range (q + 1), (if k + x < k then 0 else diffU a b (k + q - (k + x)) * v (n + k - 1 - (k + x))) =
          ∑ x ∈ Finset.range (q + 1), (if x < n then diffU a b (q - x) * v (n - 1 - x) else 0) := by
        refine Finset.sum_congr rfl fun x hx => ?_
        have := Finset.mem_range.1 hx
        rw [if_neg (by omega), if_pos (by omega), show k + q - (k + x) = q - x by omega, show n + k - 1 - (k + x) = n - 1 - x by omega]
      rw [e4, diff_sum, Finset.sum_ite_eq', if_pos (Finset.mem_range.2 (by omega)), show k + q - k = q by omega, if_pos hki]
      have h5 := h.wrap hU (by omega) (q := q) (by omega)
      rw [hn] at h5
      rw [h5]
      congr 1
      by_cases hq : q < b.natDegree
      · rw [if_pos hq]
        split_ifs <;> first | rfl | omega
      · rw [if_neg hq, if_neg (by omega), if_pos (by omega), show k + q - b.natDegree - k = q - b.natDegree by omega]
    · rw [if_neg hki, Finset.sum_eq_zero, Finset.sum_eq_zero]
      · split_ifs <;> first | rfl | omega | simp
      · intro l hl
        have := Finset.mem_range.1 hl
        rw [if_neg (by omega)]
      · intro l hl
        have := Finset.mem_range.1 hl
        rw [if_pos (by omega)]
  rw [e3]
  by_cases hib : i < b.natDegree
  · rw [if_pos hib, if_pos hib, if_pos hib, coeff_sub]
    ring
  · rw [if_neg hib, if_neg hib, if_neg hib, coeff_sub]
    have h6 := h.remB k i (by omega) (by omega)
    rw [coeff_sub] at h6
    have h7 : quo w k = -quo v k := by
      have := h.quo_lt (k := k) (by omega)
      linear_combination this
    rw [h7, mul_neg, coeff_neg]
    linear_combination h6

/-! ### The arrays -/

theorem pair_loop (o : Nat) (f g : Nat → ZMod p) (U : (Nat → ZMod p) × (Nat → ZMod p)) (q : Nat) : ∀ n,
    (forN n (fun i U => (write (i + o) (f i) U.1, write (i + o) (g i) U.2)) U).1 q = (if o ≤ q ∧ q < n + o then f (q - o) else U.1 q) ∧
    (forN n (fun i U => (write (i + o) (f i) U.1, write (i + o) (g i) U.2)) U).2 q = (if o ≤ q ∧ q < n + o then g (q - o) else U.2 q)
  | 0 => by
    rw [if_neg (by omega), if_neg (by omega)]
    exact ⟨rfl, rfl⟩
  | n + 1 => by
    obtain ⟨h1, h2⟩ := pair_loop o f g U q n
    constructor
    · show Function.update (β := fun _ => ZMod p) _ (n + o) (f n) q = _
      by_cases hq : q = n + o
      · rw [hq, Function.update_self, if_pos (by omega), Nat.add_sub_cancel]
      · rw [Function.update_of_ne hq, h1]
        by_cases hc : o ≤ q ∧ q < n + o
        · rw [if_pos hc, if_pos (by omega)]
        · rw [if_neg hc, if_neg (by omega)]
    · show Function.update (β := fun _ => ZMod p) _ (n + o) (g n) q = _
      by_cases hq : q = n + o
      · rw [hq, Function.update_self, if_pos (by omega), Nat.add_sub_cancel]
      · rw [Function.update_of_ne hq, h2]
        by_cases hc : o ≤ q ∧ q < n + o
        · rw [if_pos hc, if_pos (by omega)]
        · rw [if_neg hc, if_neg (by omega)]

theorem mul_coeff_congr {f f' g g' : (ZMod p)[X]} {i : Nat} (hf : ∀ j, j ≤ i → f.coeff j = f'.coeff j) (hg : ∀ j, j ≤ i → g.coeff j = g'.coeff j) :
    (f * g).coeff i = (f' * g').coeff i := by
  rw [coeff_mul, coeff_mul]
  refine Finset.sum_congr rfl fun x hx => ?_
  have := Finset.mem_antidiagonal.1 hx
  rw [hf _ (by omega), hg _ (by omega)]

theorem blockU_ok {a b s t x y : (ZMod p)[X]} {m : Nat} (hm : m ≤ a.natDegree + b.natDegree) (hb : 0 < b.natDegree) :
    let n := a.natDegree + b.natDegree
    let top := ptrunc (ofCoeffs (max m b.natDegree) (fun i => x.coeff (n - 1 - i)) * ptrunc b (max m b.natDegree)) (max m b.natDegree)
    let bottom := if b.natDegree < m then ptrunc (ofCoeffs a.natDegree (fun i => y.coeff (n - 1 - i)) * a) (a.natDegree + 1) else 0
    let U := blockU a b s t top bottom m
    UOk a b s t x.coeff y.coeff m (write b.natDegree (U.1 b.natDegree - b.coeff b.natDegree) U.1) U.2 := by
  intro n top bottom U
  have htop : ∀ q, q < max m b.natDegree → top.coeff q = (b * quo x.coeff n).coeff q := by
    intro q hq
    show (ptrunc _ _).coeff q = _
    rw [ptrunc_coeff, if_pos hq, mul_comm b]
    refine mul_coeff_congr (fun j hj => ?_) (fun j hj => ?_)
    · rw [ofCoeffs_coeff, quo_coeff, if_pos (by omega), if_pos (by omega)]
    · rw [ptrunc_coeff, if_pos (by omega)]
  have hbot : b.natDegree < m → ∀ q, q < a.natDegree → bottom.coeff q = (a * quo y.coeff n).coeff q := by
    intro hbm q hq
    show (if b.natDegree < m then ptrunc _ _ else 0 : (ZMod p)[X]).coeff q = _
    rw [if_pos hbm, ptrunc_coeff, if_pos (by omega), mul_comm a]
    refine mul_coeff_congr (fun j hj => ?_) (fun j hj => rfl)
    rw [ofCoeffs_coeff, quo_coeff, if_pos (by omega), if_pos (by omega)]
  have hlow : ∀ q, q < m → q < b.natDegree → U.2 q = a.leadingCoeff * b.leadingCoeff * (s.coeff q + top.coeff q) ∧
      U.1 q = a.leadingCoeff * b.leadingCoeff * (s.coeff q + top.coeff q) - b.coeff q := by
    intro q hq hqb
    obtain ⟨h1, h2⟩ := pair_loop 0 (fun i => a.leadingCoeff * b.leadingCoeff * (s.coeff i + top.coeff i) - b.coeff i) (fun i => a.leadingCoeff * b.leadingCoeff * (s.coeff i + top.coeff i))
      (fun _ => 0, fun _ => 0) q (max m b.natDegree)
    rw [if_pos (by omega), Nat.sub_zero] at h1 h2
    by_cases hbm : b.natDegree < m
    · have hU : U = forN a.natDegree (fun i U => (write (i + b.natDegree) (a.leadingCoeff * b.leadingCoeff * (t.coeff i + bottom.coeff i)) U.1,
        write (i + b.natDegree) (a.leadingCoeff * b.leadingCoeff * (t.coeff i + bottom.coeff i) - a.coeff i) U.2)) _ := if_pos hbm
      obtain ⟨h3, h4⟩ := pair_loop b.natDegree (fun i => a.leadingCoeff * b.leadingCoeff * (t.coeff i + bottom.coeff i))
        (fun i => a.leadingCoeff * b.leadingCoeff * (t.coeff i + bottom.coeff i) - a.coeff i)
        (forN (max m b.natDegree) (fun i U => (write i (a.leadingCoeff * b.leadingCoeff * (s.coeff i + top.coeff i) - b.coeff i) U.1,
          write i (a.leadingCoeff * b.leadingCoeff * (s.coeff i + top.coeff i)) U.2)) (fun _ => 0, fun _ => 0)) q a.natDegree
      rw [if_neg (by omega)] at h3 h4
      rw [hU]
      exact ⟨h4.trans h2, h3.trans h1⟩
    · have hU : U = forN (max m b.natDegree) (fun i U => (write i (a.leadingCoeff * b.leadingCoeff * (s.coeff i + top.coeff i) - b.coeff i) U.1,
          write i (a.leadingCoeff * b.leadingCoeff * (s.coeff i + top.coeff i)) U.2)) (fun _ => 0, fun _ => 0) := if_neg hbm
      rw [hU]
      exact ⟨h2, h1⟩
  have hhigh : ∀ q, q < m → b.natDegree ≤ q → U.2 q = a.leadingCoeff * b.leadingCoeff * (t.coeff (q - b.natDegree) + bottom.coeff (q - b.natDegree)) - a.coeff (q - b.natDegree) ∧
      U.1 q = a.leadingCoeff * b.leadingCoeff * (t.coeff (q - b.natDegree) + bottom.coeff (q - b.natDegree)) := by
    intro q hq hqb
    have hbm : b.natDegree < m := by omega
    have hU : U = forN a.natDegree (fun i U => (write (i + b.natDegree) (a.leadingCoeff * b.leadingCoeff * (t.coeff i + bottom.coeff i)) U.1,
        write (i + b.natDegree) (a.leadingCoeff * b.leadingCoeff * (t.coeff i + bottom.coeff i) - a.coeff i) U.2)) _ := if_pos hbm
    obtain ⟨h3, h4⟩ := pair_loop b.natDegree (fun i => a.leadingCoeff * b.leadingCoeff * (t.coeff i + bottom.coeff i))
        (fun i => a.leadingCoeff * b.leadingCoeff * (t.coeff i + bottom.coeff i) - a.coeff i)
        (forN (max m b.natDegree) (fun i U => (write i (a.leadingCoeff * b.leadingCoeff * (s.coeff i + top.coeff i) - b.coeff i) U.1,
          write i (a.leadingCoeff * b.leadingCoeff * (s.coeff i + top.coeff i)) U.2)) (fun _ => 0, fun _ => 0)) q a.natDegree
    rw [if_pos (by omega)] at h3 h4
    rw [hU]
    exact ⟨h4, h3⟩
  refine ⟨fun q hq hqb => ?_, fun q hq hqb => ?_, fun q hq => ?_⟩
  · rw [(hlow q hq hqb).1, htop q (by omega)]
  · rw [(hhigh q hq hqb).1, hbot (by omega) _ (by omega)]
  · unfold diffU
    by_cases hqb : q < b.natDegree
    · rw [if_pos hqb, write, Function.update_of_ne (by omega), (hlow q hq hqb).1, (hlow q hq hqb).2]
      ring
    · rw [if_neg hqb]
      by_cases hqe : q = b.natDegree
      · rw [hqe] at hq
        rw [hqe, write, Function.update_self, (hhigh _ hq le_rfl).1, (hhigh _ hq le_rfl).2]
        ring
      · rw [write, Function.update_of_ne hqe, (hhigh q hq (by omega)).1, (hhigh q hq (by omega)).2, coeff_eq_zero_of_natDegree_lt (n := q) (by omega)]
        ring

/-! ### Columns of the inverse -/

theorem inv_col {a b F G : (ZMod p)[X]} {N : Nat → Nat → ZMod p} (hN : IsInv (a.natDegree + b.natDegree) (sylvEntry a b) N)
    (hF : ∀ i, b.natDegree ≤ i → F.coeff i = 0) (hG : ∀ i, a.natDegree ≤ i → G.coeff i = 0) {k : Nat} (hk : k < a.natDegree + b.natDegree)
    (e : F * a + G * b = X ^ k) {i : Nat} (hi : i < a.natDegree + b.natDegree) :
    N i k = if i < b.natDegree then F.coeff i else G.coeff (i - b.natDegree) := by
  have h1 := (isInv_iff _ _ _).2 (mul_eq_one_comm.1 ((isInv_iff _ _ _).1 hN))
  obtain ⟨c, hc⟩ : ∃ c : Nat → ZMod p, c = fun i => if i < b.natDegree then F.coeff i else G.coeff (i - b.natDegree) := ⟨_, rfl⟩
  have h2 : ∀ l, ∑ j ∈ Finset.range (a.natDegree + b.natDegree), sylvEntry a b l j * c j = if l = k then 1 else 0 := by
    intro l
    rw [sylv_mul]
    have eF : ofCoeffs b.natDegree c = F := by
      ext j
      rw [ofCoeffs_coeff, hc]
      dsimp only
      split_ifs with hj
      · rfl
      · exact (hF j (by omega)).symm
    have eG : ofCoeffs a.natDegree (fun k => c (k + b.natDegree)) = G := by
      ext j
      rw [ofCoeffs_coeff, hc]
      dsimp only
      rw [if_neg (show ¬ j + b.natDegree < b.natDegree by omega), Nat.add_sub_cancel]
      split_ifs with hj
      · rfl
      · exact (hG j (by omega)).symm
    rw [eF, eG, e, coeff_X_pow]
  have h3 : N i k = ∑ l ∈ Finset.range (a.natDegree + b.natDegree), N i l * if l = k then 1 else 0 := by
    rw [Finset.sum_eq_single k]
    · rw [if_pos rfl, mul_one]
    · intro l _ hl
      rw [if_neg hl, mul_zero]
    · intro hl
      exact absurd (Finset.mem_range.2 hk) hl
  rw [h3]
  simp only [← h2, Finset.mul_sum]
  rw [Finset.sum_comm]
  have h4 : ∀ j ∈ Finset.range (a.natDegree + b.natDegree), ∑ l ∈ Finset.range (a.natDegree + b.natDegree), N i l * (sylvEntry a b l j * c j) =
      if i = j then c j else 0 := by
    intro j hj
    simp only [← mul_assoc]
    rw [← Finset.sum_mul, h1 i j hi (Finset.mem_range.1 hj), ite_mul, one_mul, zero_mul]
  rw [Finset.sum_congr rfl h4, Finset.sum_ite_eq, if_pos (Finset.mem_range.2 hi), hc]

/-! ### The reversals -/

theorem reversal_ok {f : (ZMod p)[X]} {k : Nat} (hk : 0 < k) (hd : ∀ i, k ≤ i → f.coeff i = 0) (hf : f.coeff (k - 1) ≠ 0) :
    ∃ r, reversal f k = .ok r ∧ ∀ i, r.coeff i = if i < k then f.coeff (k - 1 - i) else 0 := by
  have hf0 : f ≠ 0 := fun e => hf (by rw [e, coeff_zero])
  have hn : k - 1 ≤ f.natDegree := le_natDegree_of_ne_zero hf
  obtain ⟨u, e, hu⟩ := loopOut_inv (fun j (e : Nat → ZMod p) => ∀ i, i < j → e i = f.coeff (k - 1 - i)) (k := k) (s := fun _ => 0)
    (f := fun i e => andThen (coeffAt f (k - 1 - i)) fun c => .ok (write i c e)) (fun i hi => absurd hi (Nat.not_lt_zero i)) (by
      intro i e hi he
      refine ⟨write i (f.coeff (k - 1 - i)) e, ?_, fun j hj => ?_⟩
      · show andThen (coeffAt f (k - 1 - i)) _ = _
        rw [coeffAt, if_pos ⟨hf0, by omega⟩]
        rfl
      · by_cases hji : j = i
        · rw [hji, write, Function.update_self]
        · rw [write, Function.update_of_ne hji, he j (by omega)])
  refine ⟨ofCoeffs k u, ?_, fun i => ?_⟩
  · unfold reversal
    rw [e]
    rfl
  · rw [ofCoeffs_coeff]
    split_ifs with hi
    · exact hu i hi
    · rfl

theorem reversal_ub {f : (ZMod p)[X]} {k : Nat} (hk : 0 < k) (hd : ∀ i, k ≤ i → f.coeff i = 0) (hf : f.coeff (k - 1) = 0) : reversal f k = .ub := by
  have : coeffAt f (k - 1 - 0) = .ub := by
    rw [coeffAt, if_neg]
    rintro ⟨h1, h2⟩
    rcases Nat.lt_or_ge f.natDegree k with h | h
    · have : f.natDegree = k - 1 := by omega
      rw [← this] at hf
      exact h1 (leadingCoeff_eq_zero.1 hf)
    · exact h1 (leadingCoeff_eq_zero.1 (hd _ h))
  unfold reversal
  rw [(loopOut_first hk).1 (by
    show andThen (coeffAt f (k - 1 - 0)) _ = _
    rw [this]
    rfl)]
  rfl

/-! ### C112 -/

/-- The factors of lines 494-505. -/
theorem top_factors {g : Xgcd p} (hg : XgcdOK g) {a b : (ZMod p)[X]} (ha : 0 < a.natDegree) (hb : 0 < b.natDegree) (hco : IsCoprime a b) :
    (if ((g.d a b).coeff 0)⁻¹ ≠ 1 then C ((g.d a b).coeff 0)⁻¹ * g.s a b else g.s a b) = g.s a b ∧
    (if ((g.d a b).coeff 0)⁻¹ ≠ 1 then C ((g.d a b).coeff 0)⁻¹ * g.t a b else g.t a b) = g.t a b ∧
    g.s a b * a + g.t a b * b = 1 ∧ (g.s a b).degree < b.degree ∧ (g.t a b).degree < a.degree := by
  have ha0 : a ≠ 0 := fun e => by simp [e] at ha
  have hb0 : b ≠ 0 := fun e => by simp [e] at hb
  have h1 : g.d a b = 1 := by
    have := ((xgcd_coprime hg ha0 hb0).2 hco).2
    rwa [(hg.monic a b ha0 hb0).natDegree_eq_zero] at this
  have h2 := xgcd_factors hg ha hb hco
  rw [h1, coeff_one_zero, inv_one, C_1, one_mul, one_mul] at h2
  rw [h1, coeff_one_zero, inv_one, if_neg (not_not.2 rfl), if_neg (not_not.2 rfl)]
  exact ⟨rfl, rfl, h2⟩

theorem coeff_zero_of_deg {f b : (ZMod p)[X]} (h : f.degree < b.degree) (hb : 0 < b.natDegree) (i : Nat) (hi : b.natDegree ≤ i) : f.coeff i = 0 := by
  have hb0 : b ≠ 0 := fun e => by simp [e] at hb
  exact coeff_eq_zero_of_degree_lt (h.trans_le (by rw [degree_eq_natDegree hb0]; exact_mod_cast hi))

/-- The coefficient of degree `n - 1` of `s a + t b = 1`. -/
theorem top_coeffs {a b s t : (ZMod p)[X]} (ha : 0 < a.natDegree) (hb : 0 < b.natDegree) (e : s * a + t * b = 1) (hs : s.degree < b.degree) (ht : t.degree < a.degree) :
    s.coeff (b.natDegree - 1) * a.leadingCoeff + t.coeff (a.natDegree - 1) * b.leadingCoeff = 0 := by
  have h := congrArg (fun f => coeff f (b.natDegree - 1 + a.natDegree)) e
  have h1 : (s * a).coeff (b.natDegree - 1 + a.natDegree) = s.coeff (b.natDegree - 1) * a.leadingCoeff :=
    coeff_mul_add_eq_of_natDegree_le (natDegree_le_iff_coeff_eq_zero.2 fun i hi => coeff_zero_of_deg hs hb i (by omega)) le_rfl
  have h2 : (t * b).coeff (b.natDegree - 1 + a.natDegree) = t.coeff (a.natDegree - 1) * b.leadingCoeff := by
    rw [show b.natDegree - 1 + a.natDegree = a.natDegree - 1 + b.natDegree by omega]
    exact coeff_mul_add_eq_of_natDegree_le (natDegree_le_iff_coeff_eq_zero.2 fun i hi => coeff_zero_of_deg ht ha i (by omega)) le_rfl
  rw [coeff_add, h1, h2, coeff_one, if_neg (by omega)] at h
  exact h

/-- **C112**. `top_right_block_inverse(block, m)` for coprime polynomials, none of which is a constant.  Let `N` be the inverse of the Sylvester matrix of `a` and `b`,
    of dimension `n = deg(a) + deg(b)`, and `m ≤ n`.  If the entry `(deg(b) - 1, 0)` of `N` is not zero, the return value is 1 and `block` is the
    submatrix of the first `m` rows and the last `m` columns of `N`.  Otherwise a coefficient is read outside of a polynomial. -/
theorem C112_block_partial {g : Xgcd p} (hg : XgcdOK g) {pit : (ZMod p)[X] → Nat → (ZMod p)[X]} (hpit : PlainInvTruncOK pit) {co : Nat} (hc : 5 ≤ co)
    {a b : (ZMod p)[X]} (ha : 0 < a.natDegree) (hb : 0 < b.natDegree) (hco : IsCoprime a b) {o : Sylv p} (ho : Reach g a b o)
    {m : Nat} (hm : m ≤ a.natDegree + b.natDegree) {N : Nat → Nat → ZMod p} (hN : IsInv (a.natDegree + b.natDegree) (sylvEntry a b) N) :
    (N (b.natDegree - 1) 0 ≠ 0 → ∃ B, o.topRight g pit co m = .ok (some B) ∧ B.rows = m ∧ B.cols = m ∧
      ∀ i j, i < m → j < m → B.e (i, j) = N i (a.natDegree + b.natDegree - m + j)) ∧
    (N (b.natDegree - 1) 0 = 0 → o.topRight g pit co m = .ub) := by
  have ha0 : a ≠ 0 := fun e => by simp [e] at ha
  have hb0 : b ≠ 0 := fun e => by simp [e] at hb
  have h := reach_good hg ha0 hb0 ho
  obtain ⟨f1, f2, f3, f4, f5⟩ := top_factors hg ha hb hco
  have hd := (xgcd_coprime hg ha0 hb0).2 hco
  have hs0 := coeff_zero_of_deg f4 hb
  have ht0 := coeff_zero_of_deg f5 ha
  have hN0 : N (b.natDegree - 1) 0 = (g.s a b).coeff (b.natDegree - 1) := by
    rw [inv_col hN hs0 ht0 (k := 0) (by omega) (by rw [pow_zero]; exact f3) (i := b.natDegree - 1) (by omega), if_pos (by omega)]
  unfold Sylv.topRight
  dsimp only
  rw [h.ha, h.hb, h.hn, if_neg (by omega), if_neg (by rintro (h1 | h1); exacts [hd.1 h1, h1 hd.2]), f1, f2, hN0]
  constructor
  · intro hne
    have hne' : (g.t a b).coeff (a.natDegree - 1) ≠ 0 := by
      intro h1
      have h2 := top_coeffs ha hb f3 f4 f5
      rw [h1, zero_mul, add_zero] at h2
      exact mul_ne_zero hne (leadingCoeff_ne_zero.2 ha0) h2
    obtain ⟨rS, e1, hrS⟩ := reversal_ok hb hs0 hne
    obtain ⟨rT, e2, hrT⟩ := reversal_ok ha ht0 hne'
    obtain ⟨x, e3, -, hx⟩ := C59_inv_trunc_mul hpit co hc rS o.revB (a.natDegree + b.natDegree) (by
      rw [h.hrB, if_pos (Nat.zero_le _), Nat.sub_zero]; exact leadingCoeff_ne_zero.2 hb0)
    obtain ⟨y, e4, -, hy⟩ := C59_inv_trunc_mul hpit co hc rT o.revA (a.natDegree + b.natDegree) (by
      rw [h.hrA, if_pos (Nat.zero_le _), Nat.sub_zero]; exact leadingCoeff_ne_zero.2 ha0)
    rw [e1]
    show ∃ B, andThen (reversal (g.t a b) a.natDegree) _ = _ ∧ _
    rw [e2]
    show ∃ B, andThen (ofOpt (invTruncMul pit co rS o.revB (a.natDegree + b.natDegree))) _ = _ ∧ _
    rw [e3]
    show ∃ B, andThen (ofOpt (invTruncMul pit co rT o.revA (a.natDegree + b.natDegree))) _ = _ ∧ _
    rw [e4]
    have hP : Pair a b (g.s a b) (g.t a b) x.coeff y.coeff := ⟨ha, hb, f3, fun k i hk hi => rem_deg h.hrB hrS f4 hx hk hi, fun k i hk hi => rem_deg h.hrA hrT f5 hy hk hi⟩
    refine ⟨_, (if_neg (by omega)).trans rfl, rfl, rfl, fun i j hi hj => ?_⟩
    rw [hP.block (blockU_ok (s := g.s a b) (t := g.t a b) (x := x) (y := y) hm hb) hm hi hj]
    refine (inv_col hN (fun i hi => hP.remB _ i (by omega) hi) (fun i hi => hP.remA _ i (by omega) hi) (by omega) ?_ (by omega)).symm
    rw [hP.sum, hP.quo_lt (by omega), mul_zero, sub_zero]
  · intro h1
    rw [reversal_ub hb hs0 h1]
    rfl

/-- `X (-1) + (X + 1) 1 = 1`, and the entry is `-1`. -/
example : ∃ (g : Xgcd 5) (pit : (ZMod 5)[X] → Nat → (ZMod 5)[X]) (N : Nat → Nat → ZMod 5), @XgcdOK 5 ⟨by norm_num⟩ g ∧
    @PlainInvTruncOK (ZMod 5) (@ZMod.instField 5 ⟨by norm_num⟩) pit ∧ 0 < (X : (ZMod 5)[X]).natDegree ∧ 0 < (X + 1 : (ZMod 5)[X]).natDegree ∧
    IsCoprime (X : (ZMod 5)[X]) (X + 1) ∧ IsInv ((X : (ZMod 5)[X]).natDegree + (X + 1 : (ZMod 5)[X]).natDegree) (sylvEntry (X : (ZMod 5)[X]) (X + 1)) N ∧
    N ((X + 1 : (ZMod 5)[X]).natDegree - 1) 0 ≠ 0 := by
  have : Fact (Nat.Prime 5) := ⟨by norm_num⟩
  obtain ⟨g, hg⟩ := xgcd_exists (p := 5)
  obtain ⟨pit, hpit⟩ := exists_plainInvTrunc (K := ZMod 5)
  have e : (-1 : (ZMod 5)[X]) * X + 1 * (X + 1) = 1 := by ring
  have hco : IsCoprime (X : (ZMod 5)[X]) (X + 1) := ⟨-1, 1, e⟩
  have d2 : (X + 1 : (ZMod 5)[X]).natDegree = 1 := natDegree_X_add_C 1
  have d1 : (X : (ZMod 5)[X]).natDegree = 1 := natDegree_X
  obtain ⟨N, hN⟩ := coprime_inv X_ne_zero (fun h => by rw [h] at d2; simp at d2) hco
  refine ⟨g, pit, N, hg, hpit, by omega, by omega, hco, hN, ?_⟩
  rw [inv_col hN (F := -1) (G := 1) (fun i hi => ?_) (fun i hi => ?_) (k := 0) (by omega) (by rw [e, pow_zero]) (by omega), if_pos (by omega), d2]
  · rw [coeff_neg, coeff_one, if_pos rfl]
    exact neg_ne_zero.2 one_ne_zero
  · rw [coeff_neg, coeff_one, if_neg (by omega), neg_zero]
  · rw [coeff_one, if_neg (by omega)]

/-- **C112**. The case of a coefficient read outside of a polynomial occurs: for `a = X^2` and `b = X^2 + 1`, which are coprime, the matrix is invertible and the
    call is undefined for all `m ≤ 4`. -/
theorem C112_undefined {g : Xgcd p} (hg : XgcdOK g) {pit : (ZMod p)[X] → Nat → (ZMod p)[X]} (hpit : PlainInvTruncOK pit) {co : Nat} (hc : 5 ≤ co) {o : Sylv p}
    (ho : Reach g (X ^ 2) (X ^ 2 + 1) o) {m : Nat} (hm : m ≤ 4) :
    (∃ N, IsInv ((X ^ 2 : (ZMod p)[X]).natDegree + (X ^ 2 + 1 : (ZMod p)[X]).natDegree) (sylvEntry (X ^ 2 : (ZMod p)[X]) (X ^ 2 + 1)) N) ∧ o.topRight g pit co m = .ub := by
  have d1 : (X ^ 2 : (ZMod p)[X]).natDegree = 2 := natDegree_X_pow 2
  have d2 : (X ^ 2 + 1 : (ZMod p)[X]).natDegree = 2 := natDegree_X_pow_add_C (n := 2) (r := 1)
  have e : (-1 : (ZMod p)[X]) * X ^ 2 + 1 * (X ^ 2 + 1) = 1 := by ring
  have hco : IsCoprime (X ^ 2 : (ZMod p)[X]) (X ^ 2 + 1) := ⟨-1, 1, e⟩
  obtain ⟨N, hN⟩ := coprime_inv (pow_ne_zero 2 X_ne_zero) (fun h => by rw [h] at d2; simp at d2) hco
  refine ⟨⟨N, hN⟩, (C112_block_partial hg hpit hc (by omega) (by omega) hco ho (by omega) hN).2 ?_⟩
  rw [inv_col hN (F := -1) (G := 1) (fun i hi => ?_) (fun i hi => ?_) (k := 0) (by omega) (by rw [e, pow_zero]) (by omega), if_pos (by omega), d2]
  · rw [coeff_neg, coeff_one, if_neg (by omega), neg_zero]
  · rw [coeff_neg, coeff_one, if_neg (by omega), neg_zero]
  · rw [coeff_one, if_neg (by omega)]

example : ∃ (g : Xgcd 5) (pit : (ZMod 5)[X] → Nat → (ZMod 5)[X]), @XgcdOK 5 ⟨by norm_num⟩ g ∧ @PlainInvTruncOK (ZMod 5) (@ZMod.instField 5 ⟨by norm_num⟩) pit ∧
    ∃ o, @Reach 5 ⟨by norm_num⟩ g (X ^ 2) (X ^ 2 + 1) o := by
  have : Fact (Nat.Prime 5) := ⟨by norm_num⟩
  obtain ⟨g, hg⟩ := xgcd_exists (p := 5)
  obtain ⟨pit, hpit⟩ := exists_plainInvTrunc (K := ZMod 5)
  exact ⟨g, pit, hg, hpit, _, .make⟩

/-- **C112**. For two nonzero polynomials which are not coprime, so that the Sylvester matrix has no inverse, the return value is 0; and a block larger than the matrix is
    an error. -/
theorem C112_refused {g : Xgcd p} (hg : XgcdOK g) (pit : (ZMod p)[X] → Nat → (ZMod p)[X]) (co : Nat) {a b : (ZMod p)[X]} (ha : a ≠ 0) (hb : b ≠ 0)
    {o : Sylv p} (ho : Reach g a b o) (m : Nat) :
    (a.natDegree + b.natDegree < m → o.topRight g pit co m = .error) ∧
    (m ≤ a.natDegree + b.natDegree → (¬ ∃ N, IsInv (a.natDegree + b.natDegree) (sylvEntry a b) N) → o.topRight g pit co m = .ok none) := by
  have h := reach_good hg ha hb ho
  unfold Sylv.topRight
  dsimp only
  rw [h.ha, h.hb, h.hn]
  constructor
  · intro hm
    rw [if_pos hm]
  · intro hm hi
    rw [C86_invertible ha hb, ← xgcd_coprime hg ha hb] at hi
    rw [if_neg (by omega), if_pos (by tauto)]

/-- `X` and `X^2` are not coprime. -/
example : (X : (ZMod 5)[X]) ≠ 0 ∧ (X ^ 2 : (ZMod 5)[X]) ≠ 0 ∧
    ¬ ∃ N, IsInv ((X : (ZMod 5)[X]).natDegree + (X ^ 2 : (ZMod 5)[X]).natDegree) (sylvEntry (X : (ZMod 5)[X]) (X ^ 2)) N := by
  have : Fact (Nat.Prime 5) := ⟨by norm_num⟩
  refine ⟨X_ne_zero, pow_ne_zero 2 X_ne_zero, ?_⟩
  rw [C86_invertible X_ne_zero (pow_ne_zero 2 X_ne_zero)]
  intro h
  exact not_isUnit_X (h.isUnit_of_dvd' dvd_rfl (dvd_pow_self X (by norm_num)))

end PML.Ntl.Struct
