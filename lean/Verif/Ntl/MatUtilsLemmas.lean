import Verif.Ntl.MatUtilsModel
import Mathlib.Tactic.Ring
import Mathlib.Tactic.LinearCombination

/-!
# Lemmas on entrywise loops and on NTL's operations on polynomials
-/

namespace PML.Ntl.Utils

open Polynomial

set_option linter.unusedSectionVars false

variable {R : Type} [CommRing R] {α : Type}

theorem write_self (x : Nat × Nat → α) (i j : Nat) (w : α) : write (i, j) w x (i, j) = w := by
  unfold write; rw [Function.update_self]

theorem write_ne (x : Nat × Nat → α) (i j u v : Nat) (w : α) (h : u ≠ i ∨ v ≠ j) : write (i, j) w x (u, v) = x (u, v) := by
  unfold write
  rw [Function.update_of_ne]
  intro hc
  rw [Prod.mk.injEq] at hc
  rcases h with h | h
  · exact h hc.1
  · exact h hc.2

/-- A row of writes whose values depend only on the entry being written. -/
theorem loop1_spec (n i : Nat) (off : Nat) (g : Nat → (Nat × Nat → α) → α)
    (hg : ∀ j x y, x (i, off + j) = y (i, off + j) → g j x = g j y) (x : Nat × Nat → α) :
    ∀ u v, forN n (fun j cur => write (i, off + j) (g j cur) cur) x (u, v) =
      if u = i ∧ off ≤ v ∧ v < off + n then g (v - off) x else x (u, v) := by
  refine forN_inv (P := fun (n : Nat) (t : Nat × Nat → α) => ∀ u v, t (u, v) = if u = i ∧ off ≤ v ∧ v < off + n then g (v - off) x else x (u, v))
    (fun u v => by rw [if_neg (by omega)]) ?_
  intro j t _ ht u v
  by_cases h : u = i ∧ v = off + j
  · obtain ⟨rfl, rfl⟩ := h
    rw [write_self, if_pos (by omega), Nat.add_sub_cancel_left]
    apply hg
    rw [ht, if_neg (by omega)]
  · rw [write_ne _ _ _ _ _ _ (by omega), ht]
    by_cases h2 : u = i ∧ off ≤ v ∧ v < off + j
    · rw [if_pos h2, if_pos (by omega)]
    · rw [if_neg h2, if_neg (by omega)]

theorem loop2_spec (m n : Nat) (g : Nat → Nat → (Nat × Nat → α) → α)
    (hg : ∀ i j x y, x (i, j) = y (i, j) → g i j x = g i j y) (x : Nat × Nat → α) :
    ∀ u v, loop2 m n g x (u, v) = if u < m ∧ v < n then g u v x else x (u, v) := by
  unfold loop2
  refine forN_inv (P := fun (m : Nat) (t : Nat × Nat → α) => ∀ u v, t (u, v) = if u < m ∧ v < n then g u v x else x (u, v))
    (fun u v => by rw [if_neg (by omega)]) ?_
  intro i t _ ht u v
  have := loop1_spec n i 0 (g i) (by intro j x y h; rw [Nat.zero_add] at h; exact hg i j x y h) t u v
  simp only [Nat.zero_add, Nat.zero_le, true_and, Nat.sub_zero] at this
  rw [this]
  by_cases h : u = i ∧ v < n
  · rw [if_pos h, if_pos (by omega)]
    obtain ⟨rfl, h⟩ := h
    apply hg
    rw [ht, if_neg (by omega)]
  · rw [if_neg h, ht]
    by_cases h2 : u < i ∧ v < n
    · rw [if_pos h2, if_pos (by omega)]
    · rw [if_neg h2, if_neg (by omega)]

theorem loop2_const (m n : Nat) (g : Nat → Nat → α) (x : Nat × Nat → α) (u v : Nat) :
    loop2 m n (fun i j _ => g i j) x (u, v) = if u < m ∧ v < n then g u v else x (u, v) :=
  loop2_spec m n (fun i j _ => g i j) (fun _ _ _ _ _ => rfl) x u v

theorem loop2_at (m n : Nat) (g : Nat → Nat → α) (x : Nat × Nat → α) (u v : Nat) (hu : u < m) (hv : v < n) :
    loop2 m n (fun i j _ => g i j) x (u, v) = g u v := by rw [loop2_const, if_pos ⟨hu, hv⟩]

/-- Entrywise functions: dimensions and entries, whether or not the output is the input. -/
theorem entrywise_spec [Zero α] (al : Bool) (x a : PMat α) (f : Nat → Nat → α → α) :
    (entrywise al x a f).rows = a.rows ∧ (entrywise al x a f).cols = a.cols ∧
      ∀ i j, i < a.rows → j < a.cols → (entrywise al x a f).e (i, j) = f i j (a.e (i, j)) := by
  cases al
  · refine ⟨rfl, rfl, fun i j hi hj => ?_⟩
    show loop2 a.rows a.cols _ _ (i, j) = _
    rw [loop2_spec, if_pos ⟨hi, hj⟩]
    · rfl
    · intro i j x y _; rfl
  · refine ⟨rfl, rfl, fun i j hi hj => ?_⟩
    show loop2 a.rows a.cols _ _ (i, j) = _
    rw [loop2_spec, if_pos ⟨hi, hj⟩]
    · rfl
    · intro i j x y h
      show f i j (x (i, j)) = f i j (y (i, j))
      rw [h]

theorem ofCoeffs_coeff (n : Nat) (v : Nat → R) (k : Nat) : (ofCoeffs n v).coeff k = if k < n then v k else 0 := by
  unfold ofCoeffs
  rw [finsetSum_coeff]
  simp only [coeff_C_mul, coeff_X_pow, mul_ite, mul_one, mul_zero]
  rw [Finset.sum_ite_eq]
  simp only [Finset.mem_range]

theorem ptrunc_coeff (f : R[X]) (n k : Nat) : (ptrunc f n).coeff k = if k < n then f.coeff k else 0 := ofCoeffs_coeff _ _ _

theorem pshift_coeff (f : R[X]) (n : Int) (k : Nat) : (pshift f n).coeff k = if n ≤ k then f.coeff ((k : Int) - n).toNat else 0 := by
  unfold pshift
  by_cases h : 0 ≤ n
  · rw [if_pos h, coeff_mul_X_pow']
    by_cases h2 : n ≤ k
    · rw [if_pos h2, if_pos (by omega)]
      congr 1; omega
    · rw [if_neg h2, if_neg (by omega)]
  · rw [if_neg h, ofCoeffs_coeff, if_pos (show n ≤ k by omega)]
    have e : ((k : Int) - n).toNat = k + (-n).toNat := by omega
    rw [e]
    by_cases h2 : k < f.natDegree + 1 - (-n).toNat
    · rw [if_pos h2]
    · rw [if_neg h2, coeff_eq_zero_of_natDegree_lt (by omega)]

theorem preverse_coeff (f : R[X]) (hi : Int) (k : Nat) :
    (preverse f hi).coeff k = if (k : Int) ≤ hi then f.coeff (hi - k).toNat else 0 := by
  unfold preverse
  rw [ofCoeffs_coeff]
  by_cases h : (k : Int) ≤ hi
  · rw [if_pos h, if_pos (by omega)]
    congr 1; omega
  · rw [if_neg h, if_neg (by omega)]

theorem pdeg_zero : pdeg (0 : R[X]) = -1 := by unfold pdeg; rw [if_pos degree_zero]

theorem pdeg_ne (f : R[X]) (h : f ≠ 0) : pdeg f = f.natDegree := by unfold pdeg; rw [if_neg (mt degree_eq_bot.1 h)]

theorem pdeg_ge (f : R[X]) : -1 ≤ pdeg f := by
  unfold pdeg; split <;> omega

theorem pdeg_neg_iff (f : R[X]) : pdeg f = -1 ↔ f = 0 := by
  constructor
  · intro h
    by_contra hf
    rw [pdeg_ne f hf] at h
    omega
  · rintro rfl; exact pdeg_zero

theorem coeff_gt_pdeg (f : R[X]) (k : Nat) (h : pdeg f < k) : f.coeff k = 0 := by
  by_cases hf : f = 0
  · rw [hf, coeff_zero]
  · rw [pdeg_ne f hf] at h
    exact coeff_eq_zero_of_natDegree_lt (by omega)

theorem coeff_pdeg_ne (f : R[X]) (h : 0 ≤ pdeg f) : f.coeff (pdeg f).toNat ≠ 0 := by
  by_cases hf : f = 0
  · rw [hf, pdeg_zero] at h; omega
  · rw [pdeg_ne f hf]
    show f.coeff (Int.toNat (f.natDegree : Int)) ≠ 0
    rw [Int.toNat_natCast]
    exact leadingCoeff_ne_zero.2 hf

/-- The degree of a polynomial for NTL bounds its nonzero coefficients. -/
theorem pdeg_lt_iff (f : R[X]) (n : Nat) : pdeg f < n ↔ ∀ k, n ≤ k → f.coeff k = 0 := by
  constructor
  · intro h k hk
    exact coeff_gt_pdeg f k (by omega)
  · intro h
    by_contra hc
    exact coeff_pdeg_ne f (by omega) (h _ (by omega))

theorem allEntries_iff (m n : Nat) (bad : Nat → Nat → Bool) :
    allEntries m n bad = true ↔ ∀ i j, i < m → j < n → bad i j = false := by
  unfold allEntries
  rw [List.all_eq_true]
  constructor
  · intro h i j hi hj
    have h1 := List.all_eq_true.1 (h i (List.mem_range.2 hi)) j (List.mem_range.2 hj)
    simpa using h1
  · intro h i hi
    rw [List.all_eq_true]
    intro j hj
    simpa using h i j (List.mem_range.1 hi) (List.mem_range.1 hj)

theorem deg_inner (n : Nat) (g : Nat → Int) (d0 : Int) :
    (d0 ≤ forN n (fun j d => if d < g j then g j else d) d0) ∧
    (∀ j, j < n → g j ≤ forN n (fun j d => if d < g j then g j else d) d0) ∧
    (forN n (fun j d => if d < g j then g j else d) d0 = d0 ∨
      ∃ j, j < n ∧ forN n (fun j d => if d < g j then g j else d) d0 = g j) := by
  refine forN_inv (P := fun (n : Nat) t => d0 ≤ t ∧ (∀ j, j < n → g j ≤ t) ∧ (t = d0 ∨ ∃ j, j < n ∧ t = g j))
    ⟨le_refl _, fun j hj => absurd hj (by omega), Or.inl rfl⟩ ?_
  rintro i t _ ⟨h1, h2, h3⟩
  by_cases h : t < g i
  · simp only [if_pos h]
    refine ⟨by omega, fun j hj => ?_, Or.inr ⟨i, by omega, rfl⟩⟩
    rcases Nat.lt_succ_iff_lt_or_eq.1 hj with h4 | h4
    · have := h2 j h4; omega
    · rw [h4]
  · simp only [if_neg h]
    refine ⟨h1, fun j hj => ?_, ?_⟩
    · rcases Nat.lt_succ_iff_lt_or_eq.1 hj with h4 | h4
      · exact h2 j h4
      · rw [h4]; omega
    · rcases h3 with h3 | ⟨j, hj, h3⟩
      · exact Or.inl h3
      · exact Or.inr ⟨j, by omega, h3⟩

theorem deg_spec (a : PMat R[X]) : (-1 ≤ deg a) ∧ (∀ i j, i < a.rows → j < a.cols → pdeg (a.e (i, j)) ≤ deg a) ∧
    (deg a = -1 ∨ ∃ i j, i < a.rows ∧ j < a.cols ∧ deg a = pdeg (a.e (i, j))) := by
  unfold deg
  refine forN_inv (P := fun (m : Nat) t => -1 ≤ t ∧ (∀ i j, i < m → j < a.cols → pdeg (a.e (i, j)) ≤ t) ∧
    (t = -1 ∨ ∃ i j, i < m ∧ j < a.cols ∧ t = pdeg (a.e (i, j)))) ⟨le_refl _, fun i j hi => absurd hi (by omega), Or.inl rfl⟩ ?_
  rintro i t _ ⟨h1, h2, h3⟩
  obtain ⟨k1, k2, k3⟩ := deg_inner a.cols (fun j => pdeg (a.e (i, j))) t
  refine ⟨by omega, fun u j hu hj => ?_, ?_⟩
  · rcases Nat.lt_succ_iff_lt_or_eq.1 hu with h4 | h4
    · have := h2 u j h4 hj; omega
    · rw [h4]; exact k2 j hj
  · rcases k3 with k3 | ⟨j, hj, k3⟩
    · rcases h3 with h3 | ⟨u, j, hu, hj, h3⟩
      · exact Or.inl (k3.trans h3)
      · exact Or.inr ⟨u, j, by omega, hj, k3.trans h3⟩
    · exact Or.inr ⟨i, j, by omega, hj, k3⟩

/-- The degree of a matrix in terms of its coefficients. -/
theorem deg_lt_iff (a : PMat R[X]) (n : Nat) :
    deg a < n ↔ ∀ i j, i < a.rows → j < a.cols → ∀ k, n ≤ k → (a.e (i, j)).coeff k = 0 := by
  obtain ⟨h1, h2, h3⟩ := deg_spec a
  constructor
  · intro h i j hi hj
    exact (pdeg_lt_iff _ _).1 (by have := h2 i j hi hj; omega)
  · intro h
    rcases h3 with h3 | ⟨i, j, hi, hj, h3⟩
    · omega
    · rw [h3]; exact (pdeg_lt_iff _ _).2 (h i j hi hj)

theorem deg_neg_iff (a : PMat R[X]) : deg a = -1 ↔ ∀ i j, i < a.rows → j < a.cols → a.e (i, j) = 0 := by
  obtain ⟨h1, h2, h3⟩ := deg_spec a
  constructor
  · intro h i j hi hj
    have := h2 i j hi hj
    have := pdeg_ge (a.e (i, j))
    exact (pdeg_neg_iff _).1 (by omega)
  · intro h
    rcases h3 with h3 | ⟨i, j, hi, hj, h3⟩
    · exact h3
    · rw [h3, (pdeg_neg_iff _).2 (h i j hi hj)]

theorem erase_add_coeff (f : R[X]) (k : Nat) (w : R) (l : Nat) :
    (f.erase k + C w * X ^ k).coeff l = if l = k then w else f.coeff l := by
  rw [coeff_add, coeff_erase, coeff_C_mul, coeff_X_pow]
  by_cases h : l = k
  · simp [h]
  · simp [h]

end PML.Ntl.Utils
