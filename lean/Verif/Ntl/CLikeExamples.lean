import Verif.Ntl.CLikeProps
import Mathlib.GroupTheory.OrderOfElement
import Mathlib.Tactic.NormNum.Prime
import Mathlib.Tactic.IntervalCases

/-!
# Cauchy-like matrices: examples
-/

namespace PML.Ntl.CLike

open PML.Ntl.Utils PML.Ntl.Inv PML.Ntl.Solve PML.Ntl.Middle PML.Ntl.Struct

instance fact11 : Fact (Nat.Prime 11) := ⟨by norm_num⟩
instance fact401 : Fact (Nat.Prime 401) := ⟨by norm_num⟩

theorem nonsing_one_of {K : Type} [Field K] {M : Nat → Nat → K} (h : M 0 0 ≠ 0) : Nonsing 1 M := by
  intro v hv j hj
  have := hv 0 (by omega)
  rw [Finset.sum_range_one] at this
  obtain rfl : j = 0 := by omega
  exact (mul_eq_zero.1 this).resolve_left h

theorem nonsing_two_of {K : Type} [Field K] {M : Nat → Nat → K} (h : M 0 0 * M 1 1 - M 0 1 * M 1 0 ≠ 0) : Nonsing 2 M := by
  intro v hv j hj
  have h0 := hv 0 (by omega)
  have h1 := hv 1 (by omega)
  rw [Finset.sum_range_succ, Finset.sum_range_one] at h0 h1
  have a0 : (M 0 0 * M 1 1 - M 0 1 * M 1 0) * v 0 = 0 := by linear_combination M 1 1 * h0 - M 0 1 * h1
  have a1 : (M 0 0 * M 1 1 - M 0 1 * M 1 0) * v 1 = 0 := by linear_combination M 0 0 * h1 - M 1 0 * h0
  interval_cases j
  · exact (mul_eq_zero.1 a0).resolve_left h
  · exact (mul_eq_zero.1 a1).resolve_left h

theorem not_profile {K : Type} [Field K] {M : Nat → Nat → K} {m n i j : Nat} (h0 : M 0 0 = 0) (hi : i < m) (hj : j < n) (h : M i j ≠ 0) : ¬GenericRankProfile m n M := by
  rintro ⟨r, -, -, h1, h2⟩
  by_cases hr : r = 0
  · subst hr
    obtain ⟨c, hc⟩ := h2 i hi
    exact h (by rw [hc j hj, Finset.range_zero, Finset.sum_empty])
  · have := h1 1 (by omega) (fun _ => 1) (fun i hi => by
      obtain rfl : i = 0 := by omega
      rw [Finset.sum_range_one, h0, zero_mul]) 0 (by omega)
    exact one_ne_zero this

/-- Two rows of one generator. -/
def ones2 : PMat (ZMod 11) := ⟨2, 1, fun _ => 1⟩

theorem ok11 : CauchyOK (1 : ZMod 11) 3 2 2 2 := fun i j hi hj => by interval_cases i <;> interval_cases j <;> decide

theorem distinct11 (u : ZMod 11) (hu : u = 1 ∨ u = 3) : Distinct u 2 2 := fun i j hij hj => by
  obtain rfl : i = 0 := by omega
  obtain rfl : j = 1 := by omega
  rcases hu with rfl | rfl <;> decide

theorem ones2_entry (i j : Nat) (z : ZMod 11) (h : z * (progr 1 2 i - progr 3 2 j) = 1) (h0 : (progr 1 2 i - progr 3 2 j : ZMod 11) ≠ 0) :
    clMat ones2 ones2 1 3 2 i j = z := by
  unfold clMat mat
  rw [div_eq_iff h0, h]
  rfl

theorem ones2_values : clMat ones2 ones2 1 3 2 0 0 = 5 ∧ clMat ones2 ones2 1 3 2 0 1 = 2 ∧ clMat ones2 ones2 1 3 2 1 0 = 10 ∧ clMat ones2 ones2 1 3 2 1 1 = 8 :=
  ⟨ones2_entry 0 0 5 (by decide) (by decide), ones2_entry 0 1 2 (by decide) (by decide), ones2_entry 1 0 10 (by decide) (by decide),
    ones2_entry 1 1 8 (by decide) (by decide)⟩

theorem ones2_profile : GenericRankProfile 2 2 (clMat ones2 ones2 1 3 2) := by
  obtain ⟨e1, e2, e3, e4⟩ := ones2_values
  refine ⟨2, le_refl _, le_refl _, fun j hj => ?_, fun i hi => spanned_first _ hi⟩
  interval_cases j
  · intro v _ j hj; omega
  · exact nonsing_one_of (by rw [e1]; decide)
  · exact nonsing_two_of (by rw [e1, e2, e3, e4]; decide)

/-- The hypotheses of the theorems on products and inversion hold for this matrix. -/
example : ∃ c, CLike.make ones2 ones2 1 3 2 = .ok c ∧ 0 < ones2.rows ∧ 0 < ones2.cols ∧ Distinct (1 : ZMod 11) 2 (min ones2.rows ones2.rows) ∧
    Distinct (3 : ZMod 11) 2 (min ones2.rows ones2.rows) ∧ RedOK (fun a => (a : ZMod 11)) ∧ (∀ cross, ∃ x, x ≤ 2 ∧ NoOverflow 11 cross 2 2 x) ∧
    GenericRankProfile ones2.rows ones2.rows (clMat ones2 ones2 1 3 2) := by
  obtain ⟨c, e, -⟩ := (C99_constructor ones2 ones2 (1 : ZMod 11) 3 2 (by decide) (by decide)).1 ⟨by decide, ok11⟩
  exact ⟨c, e, by decide, by decide, distinct11 1 (Or.inl rfl), distinct11 3 (Or.inr rfl), fun _ _ => rfl, fun cross => ⟨0, by decide, fun _ _ => by
    rw [Nat.zero_mul]; decide⟩, ones2_profile⟩

/-- The inverse of this matrix is found. -/
example (rnd : Nat → Nat → ZMod 11) (red : Nat → ZMod 11) : ∃ c d, CLike.make ones2 ones2 1 3 2 = .ok c ∧ c.invert red 0 rnd (-1) = .ok (some d) := by
  obtain ⟨c, e, -⟩ := (C99_constructor ones2 ones2 (1 : ZMod 11) 3 2 (by decide) (by decide)).1 ⟨by decide, ok11⟩
  obtain ⟨o, eo, -, h2, -⟩ := C100_small (red := red) e (by decide) (by decide) rfl 0 rnd (-1) (Or.inl (by decide)) (distinct11 1 (Or.inl rfl)) (distinct11 3 (Or.inr rfl))
    (by decide)
  cases o with
  | none => exact absurd rfl (h2 ones2_profile)
  | some d => exact ⟨c, d, e, eo⟩

/-- The generators of the matrix whose rows are (0, 1) and (1, 0). -/
def antiU : PMat (ZMod 11) := ⟨2, 2, fun ij => if ij.1 = ij.2 then 1 else 0⟩
/-- The second generator. -/
def antiV : PMat (ZMod 11) := ⟨2, 2, fun ij => if ij = (0, 1) then 10 else if ij = (1, 0) then 6 else 0⟩

theorem anti_entry (i j : Nat) (z : ZMod 11) (h : genRow 2 antiU.e i ⬝ᵥ genRow 2 antiV.e j = z * (progr 1 2 i - progr 3 2 j))
    (h0 : (progr 1 2 i - progr 3 2 j : ZMod 11) ≠ 0) : clMat antiU antiV 1 3 2 i j = z := by
  unfold clMat mat
  rw [div_eq_iff h0]
  exact h

theorem anti_values : clMat antiU antiV 1 3 2 0 0 = 0 ∧ clMat antiU antiV 1 3 2 0 1 = 1 ∧ clMat antiU antiV 1 3 2 1 0 = 1 ∧ clMat antiU antiV 1 3 2 1 1 = 0 :=
  ⟨anti_entry 0 0 0 (by decide) (by decide), anti_entry 0 1 1 (by decide) (by decide), anti_entry 1 0 1 (by decide) (by decide),
    anti_entry 1 1 0 (by decide) (by decide)⟩

/-- **C100**. The function can return 1 for a matrix without generic rank profile: with `thresh_alpha = 2`, this is so for the
    matrix of rows (0, 1) and (1, 0). -/
theorem C100_not_profile (rnd : Nat → Nat → ZMod 11) (red : Nat → ZMod 11) (cross : Nat) :
    ¬GenericRankProfile 2 2 (clMat antiU antiV 1 3 2) ∧ ∃ c d, CLike.make antiU antiV 1 3 2 = .ok c ∧ c.invert red cross rnd 2 = .ok (some d) := by
  obtain ⟨e1, e2, e3, e4⟩ := anti_values
  refine ⟨not_profile (i := 0) (j := 1) e1 (by omega) (by omega) (by rw [e2]; decide), ?_⟩
  obtain ⟨c, e, -⟩ := (C99_constructor antiU antiV (1 : ZMod 11) 3 2 (by decide) (by decide)).1 ⟨by decide, ok11⟩
  obtain ⟨d, ed⟩ := C100_block_accepts (red := red) e (by decide) rfl rfl rfl cross rnd 2 (by decide) (distinct11 1 (Or.inl rfl)) (distinct11 3 (Or.inr rfl))
    (by decide) (nonsing_two_of (by rw [e1, e2, e3, e4]; decide))
  exact ⟨c, d, e, ed⟩

/-- Equal points: the first point of the rows is 0. -/
example (rnd : Nat → Nat → ZMod 11) (red : Nat → ZMod 11) : ∃ c, CLike.make ones2 ones2 0 3 2 = .ok c ∧ c.invert red 0 rnd (-1) = .error := by
  obtain ⟨c, e, -⟩ := (C99_constructor ones2 ones2 (0 : ZMod 11) 3 2 (by decide) (by decide)).1 ⟨by decide, fun i j hi hj => by
    change i < 2 at hi
    change j < 2 at hj
    interval_cases i <;> interval_cases j <;> decide⟩
  exact ⟨c, e, C100_equal_points e (by decide) (by decide) rfl 0 rnd (-1) (by decide) fun h => h.1 0 1 (by omega) (by decide) (by decide)⟩

/-- No generator. -/
example (rnd : Nat → Nat → ZMod 11) (red : Nat → ZMod 11) : ∃ c, CLike.make ⟨2, 0, fun _ => 0⟩ ⟨2, 0, fun _ => 0⟩ 1 3 2 = .ok c ∧
    c.invert red 0 rnd 0 = .loops := by
  obtain ⟨c, e, -⟩ := (C99_constructor ⟨2, 0, fun _ => 0⟩ ⟨2, 0, fun _ => 0⟩ (1 : ZMod 11) 3 2 (by decide) (by decide)).1 ⟨by decide, ok11⟩
  exact ⟨c, e, C100_forever e (by decide) (by decide) rfl rfl 0 rnd 0 (by decide) (by decide) (by decide) (distinct11 1 (Or.inl rfl)) (distinct11 3 (Or.inr rfl))⟩

/-! ### Size 200 -/

theorem order401 : orderOf (3 : ZMod 401) = 400 := by
  refine orderOf_eq_of_pow_and_pow_div_prime (by norm_num) (by decide +kernel) fun q hq hd => ?_
  have : q = 2 ∨ q = 5 := by
    have h : q ∣ 2 ^ 4 * 5 ^ 2 := by norm_num; exact hd
    rcases (Nat.Prime.dvd_mul hq).1 h with h | h
    · exact Or.inl ((Nat.prime_dvd_prime_iff_eq hq (by norm_num)).1 (hq.dvd_of_dvd_pow h))
    · exact Or.inr ((Nat.prime_dvd_prime_iff_eq hq (by norm_num)).1 (hq.dvd_of_dvd_pow h))
  rcases this with rfl | rfl <;> decide +kernel

theorem pow401 {i j : Nat} (hi : i < 400) (hj : j < 400) (h : (3 : ZMod 401) ^ i = 3 ^ j) : i = j :=
  pow_injOn_Iio_orderOf (by rw [Set.mem_Iio, order401]; exact hi) (by rw [Set.mem_Iio, order401]; exact hj) h

/-- One generator, with 0 in all rows but the last one. -/
def last200 : PMat (ZMod 401) := ⟨200, 1, fun ij => if ij.1 = 199 then 1 else 0⟩

theorem ok401 : CauchyOK (1 : ZMod 401) (3 ^ 200) 3 200 200 := by
  intro i j hi hj h
  rw [one_mul, ← pow_add] at h
  have := pow401 (by omega) (by omega) h
  omega

theorem distinct401 (u : ZMod 401) (hu : u ≠ 0) : Distinct u 3 200 := fun i j hij hj h => by
  have := pow401 (by omega) (by omega) (mul_left_cancel₀ hu h)
  omega

theorem last_zero {i j : Nat} (hi : i < 199) : clMat last200 last200 1 (3 ^ 200) 3 i j = 0 := by
  have : genRow last200.cols last200.e i = 0 := by
    funext t
    show (if i = 199 then (1 : ZMod 401) else 0) = 0
    rw [if_neg (by omega)]
  unfold clMat mat
  rw [this, zero_dotProduct, zero_div]

/-- **C100**. If the random vector is zero, the function returns 1 for a matrix of size 200 whose only entry which is not zero is the
    last one: this matrix does not have generic rank profile. -/
theorem C100_random_not_profile (red : Nat → ZMod 401) (hred : RedOK red) :
    ¬GenericRankProfile 200 200 (clMat last200 last200 1 (3 ^ 200) 3) ∧
    ∃ c d, CLike.make last200 last200 1 (3 ^ 200) 3 = .ok c ∧ c.invert red 0 (fun _ _ => 0) (-1) = .ok (some d) := by
  constructor
  · refine not_profile (i := 199) (j := 199) (last_zero (by omega)) (by omega) (by omega) ?_
    unfold clMat mat
    refine div_ne_zero ?_ (sub_ne_zero.2 (ok401 199 199 (by omega) (by omega)))
    decide
  · obtain ⟨c, e, -⟩ := (C99_constructor last200 last200 (1 : ZMod 401) (3 ^ 200) 3 (by decide) (by decide)).1 ⟨by decide, ok401⟩
    have hsp : Spanned 100 100 0 (clMat last200 last200 (1 : ZMod 401) (3 ^ 200) 3) := fun i hi => ⟨fun _ => 0, fun j hj => by
      rw [last_zero (by omega), Finset.range_zero, Finset.sum_empty]⟩
    obtain ⟨d, ed⟩ := C100_random (red := red) hred e rfl 0 (-1) (Or.inl (by decide)) (distinct401 1 (by decide)) (distinct401 _ (pow_ne_zero _ (by decide)))
      (fun a b s hs _ _ => by
        have hs : s ≤ 200 := hs
        have : s * (401 - 1) ^ 2 ≤ 200 * (401 - 1) ^ 2 := Nat.mul_le_mul_right _ hs
        exact lt_of_le_of_lt this (by decide)) (by decide) (r := 0) (N := 100) rfl (by decide)
      ⟨0, by omega, by omega, fun j hj v _ i hi => by omega, hsp⟩ hsp
    exact ⟨c, d, e, ed⟩

/-- A system with the matrix above, and the zero matrix. -/
example (rnd : Nat → Nat → ZMod 11) (rx : Nat → ZMod 11) (red : Nat → ZMod 11) (hred : RedOK red) (b : Nat → ZMod 11) :
    ∃ c x, CLike.make ones2 ones2 1 3 2 = .ok c ∧ c.solve red 0 rnd rx (-1) ⟨2, b⟩ = .ok (some x) := by
  obtain ⟨c, e, -⟩ := (C99_constructor ones2 ones2 (1 : ZMod 11) 3 2 (by decide) (by decide)).1 ⟨by decide, ok11⟩
  obtain ⟨x, hx, -⟩ := (C101_solve_partial hred e (by decide) (by decide) rfl 0 rnd rx (-1) (Or.inl (by decide)) (distinct11 1 (Or.inl rfl))
    (distinct11 3 (Or.inr rfl)) (fun a b s hs _ _ => by
        have hs : s ≤ 2 := hs
        have : s * (11 - 1) ^ 2 ≤ 2 * (11 - 1) ^ 2 := Nat.mul_le_mul_right _ hs
        exact lt_of_le_of_lt this (by decide)) ⟨2, b⟩ rfl).2 ones2_profile
    ⟨0, 0, by decide, by decide, by rw [ones2_values.1]; decide⟩
  exact ⟨c, x, e, hx⟩

example (rnd : Nat → Nat → ZMod 11) (rx : Nat → ZMod 11) (red : Nat → ZMod 11) (hred : RedOK red) :
    ∃ c, CLike.make (⟨2, 1, fun _ => 0⟩ : PMat (ZMod 11)) ones2 1 3 2 = .ok c ∧ c.solve red 0 rnd rx (-1) ⟨2, fun _ => 0⟩ = .error := by
  obtain ⟨c, e, -⟩ := (C99_constructor (⟨2, 1, fun _ => 0⟩ : PMat (ZMod 11)) ones2 (1 : ZMod 11) 3 2 (by decide) (by decide)).1 ⟨by decide, ok11⟩
  refine ⟨c, e, C101_zero hred e (by decide) (by decide) rfl 0 rnd rx (-1) (by decide) (distinct11 1 (Or.inl rfl))
    (distinct11 3 (Or.inr rfl)) (fun a b s hs _ _ => by
        have hs : s ≤ 2 := hs
        have : s * (11 - 1) ^ 2 ≤ 2 * (11 - 1) ^ 2 := Nat.mul_le_mul_right _ hs
        exact lt_of_le_of_lt this (by decide)) _ fun i j hi hj => ?_⟩
  unfold clMat mat
  rw [show genRow 1 (fun _ => (0 : ZMod 11)) i = 0 from rfl, zero_dotProduct, zero_div]

end PML.Ntl.CLike
