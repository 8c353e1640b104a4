import Verif.Forms.Spec
import Verif.Approx.Theory
import Mathlib.LinearAlgebra.Matrix.Determinant.Basic
import Mathlib.Algebra.Polynomial.BigOperators

/-!
# The determinant of a square matrix in ordered weak Popov form
-/

namespace PML.Forms

open PML.Forms.Spec Polynomial

variable {K : Type} [Field K]

theorem natDegree_prod_le_int {ι : Type} (T : Finset ι) (f : ι → K[X]) (a : ι → Int)
    (h : ∀ i ∈ T, f i ≠ 0 → ((f i).natDegree : Int) ≤ a i) (hne : ∏ i ∈ T, f i ≠ 0) :
    ((∏ i ∈ T, f i).natDegree : Int) ≤ ∑ i ∈ T, a i := by
  have hf : ∀ i ∈ T, f i ≠ 0 := fun i hi h0 => hne (Finset.prod_eq_zero hi h0)
  rw [natDegree_prod _ _ hf]
  push_cast
  exact Finset.sum_le_sum fun i hi => h i hi (hf i hi)

theorem natDegree_prod_lt_int {ι : Type} (T : Finset ι) (f : ι → K[X]) (a : ι → Int)
    (h : ∀ i ∈ T, f i ≠ 0 → ((f i).natDegree : Int) ≤ a i)
    (hlt : ∃ i ∈ T, f i ≠ 0 → ((f i).natDegree : Int) < a i) (hne : ∏ i ∈ T, f i ≠ 0) :
    ((∏ i ∈ T, f i).natDegree : Int) < ∑ i ∈ T, a i := by
  have hf : ∀ i ∈ T, f i ≠ 0 := fun i hi h0 => hne (Finset.prod_eq_zero hi h0)
  rw [natDegree_prod _ _ hf]
  push_cast
  obtain ⟨i, hi, hi'⟩ := hlt
  exact Finset.sum_lt_sum (fun i hi => h i hi (hf i hi)) ⟨i, hi, hi' (hf i hi)⟩

/-- When the shifted degrees are reached on the diagonal, and every other
    permutation meets an entry of smaller shifted degree, the degree of the
    determinant is the sum of the degrees of the diagonal. -/
theorem det_degree {m : Nat} (P : Matrix (Fin m) (Fin m) K[X]) (s t : Fin m → Int)
    (hle : ∀ i j, P i j ≠ 0 → ((P i j).natDegree : Int) + s j ≤ t i)
    (hstrict : ∀ σ : Equiv.Perm (Fin m), σ ≠ 1 →
      ∃ i, P (σ i) i ≠ 0 → ((P (σ i) i).natDegree : Int) + s i < t (σ i))
    (hne : ∀ i, P i i ≠ 0) (hdeg : ∀ i, ((P i i).natDegree : Int) + s i = t i) :
    P.det ≠ 0 ∧ P.det.natDegree = ∑ i, (P i i).natDegree := by
  have hprod : ∏ i, P i i ≠ 0 := Finset.prod_ne_zero_iff.2 fun i _ => hne i
  have hD : (∏ i, P i i).natDegree = ∑ i, (P i i).natDegree :=
    natDegree_prod _ _ fun i _ => hne i
  have hrest : (∑ σ ∈ Finset.univ.erase (1 : Equiv.Perm (Fin m)),
      ((Equiv.Perm.sign σ : ℤˣ) : ℤ) • ∏ i, P (σ i) i).degree < (∏ i, P i i).degree := by
    refine lt_of_le_of_lt (degree_sum_le _ _) ?_
    rw [Finset.sup_lt_iff (bot_lt_iff_ne_bot.2 (degree_ne_bot.2 hprod))]
    intro σ hσ
    have hσ1 : σ ≠ 1 := Finset.ne_of_mem_erase hσ
    refine lt_of_le_of_lt (b := (∏ i, P (σ i) i).degree) ?_ ?_
    · rcases Int.units_eq_one_or (Equiv.Perm.sign σ) with h | h <;> rw [h] <;> simp
    · by_cases h0 : ∏ i, P (σ i) i = 0
      · rw [h0, degree_zero]; exact bot_lt_iff_ne_bot.2 (degree_ne_bot.2 hprod)
      · rw [degree_eq_natDegree h0, degree_eq_natDegree hprod]
        obtain ⟨i, hi⟩ := hstrict σ hσ1
        have h1 := natDegree_prod_lt_int Finset.univ (fun i => P (σ i) i) (fun i => t (σ i) - s i)
          (fun i _ h => by have := hle (σ i) i h; omega)
          ⟨i, Finset.mem_univ _, fun h => by have := hi h; omega⟩ h0
        have h2 : ∑ i, (t (σ i) - s i) = ∑ i, ((P i i).natDegree : Int) := by
          rw [Finset.sum_sub_distrib, Equiv.sum_comp σ t, ← Finset.sum_sub_distrib]
          exact Finset.sum_congr rfl fun i _ => by have := hdeg i; omega
        rw [h2] at h1
        have h3 : (∏ i, P (σ i) i).natDegree < (∏ i, P i i).natDegree := by
          rw [hD]; exact_mod_cast h1
        exact_mod_cast h3
  have hdet : P.det = ∏ i, P i i + ∑ σ ∈ Finset.univ.erase (1 : Equiv.Perm (Fin m)),
      ((Equiv.Perm.sign σ : ℤˣ) : ℤ) • ∏ i, P (σ i) i := by
    rw [Matrix.det_apply, ← Finset.add_sum_erase _ _ (Finset.mem_univ (1 : Equiv.Perm (Fin m)))]
    simp only [Equiv.Perm.sign_one, one_smul, Equiv.Perm.coe_one, id_eq]
    rfl
  have hdeg' := degree_add_eq_left_of_degree_lt hrest
  rw [← hdet] at hdeg'
  refine ⟨fun h0 => ?_, ?_⟩
  · rw [h0, degree_zero] at hdeg'
    exact hprod (degree_eq_bot.1 hdeg'.symm)
  · rw [natDegree, hdeg', ← natDegree, hD]

theorem exists_lt_of_ne_one {m : Nat} (σ : Equiv.Perm (Fin m)) (h : σ ≠ 1) : ∃ i, σ i < i := by
  by_contra hc
  push Not at hc
  apply h
  ext i : 1
  have key : ∀ k : Nat, ∀ i : Fin m, m - 1 - (i : Nat) = k → σ i = i := by
    intro k
    induction k using Nat.strong_induction_on with
    | _ k ih =>
      intro i hi
      by_contra hne
      have hlt : i < σ i := lt_of_le_of_ne (hc i) (Ne.symm hne)
      have := ih (m - 1 - (σ i : Nat)) (by have := (σ i).2; have := i.2; omega) (σ i) rfl
      exact hne (σ.injective this)
  simpa using key _ i rfl

theorem exists_gt_of_ne_one {m : Nat} (σ : Equiv.Perm (Fin m)) (h : σ ≠ 1) : ∃ i, i < σ i := by
  have h' : σ⁻¹ ≠ 1 := fun e => h (by rw [← inv_inv σ, e, inv_one])
  obtain ⟨i, hi⟩ := exists_lt_of_ne_one σ⁻¹ h'
  exact ⟨σ⁻¹ i, by simpa using hi⟩

/-- An increasing map of `{0, ..., m-1}` to itself is the identity. -/
theorem increasing_eq_id {m : Nat} {piv : Nat → Nat} (hlt : ∀ i, i < m → piv i < m)
    (hinc : ∀ i j, i < j → j < m → piv i < piv j) : ∀ i, i < m → piv i = i := by
  have hge : ∀ i, i < m → i ≤ piv i := by
    intro i
    induction i with
    | zero => intro _; omega
    | succ i ih =>
      intro hi
      have := ih (by omega)
      have := hinc i (i + 1) (by omega) hi
      omega
  have hup : ∀ k i, i + k + 1 = m → piv i + k + 1 ≤ m := by
    intro k
    induction k with
    | zero => intro i hi; have := hlt i (by omega); omega
    | succ k ih =>
      intro i hi
      have h1 := ih (i + 1) (by omega)
      have := hinc i (i + 1) (by omega) (by omega)
      omega
  intro i hi
  have := hge i hi
  have := hup (m - 1 - i) i (by omega)
  omega

/-- The pivots of a square matrix in ordered weak Popov form are on the diagonal. -/
theorem orderedLower_diag {m : Nat} {s : Nat → Int} {P : Nat → Nat → K[X]}
    (h : OrderedWeakPopovLower m m s P) :
    ∀ i, i < m → PivotLower m s (P i) i (P i i).natDegree := by
  obtain ⟨piv, δ, hp, hinc⟩ := h
  have hid := increasing_eq_id (fun i hi => (hp i hi).lt) hinc
  intro i hi
  have h1 := hp i hi
  rw [hid i hi] at h1
  have := h1.degree
  rw [this]; exact h1

theorem orderedUpper_diag {m : Nat} {s : Nat → Int} {P : Nat → Nat → K[X]}
    (h : OrderedWeakPopovUpper m m s P) :
    ∀ i, i < m → PivotUpper m s (P i) i (P i i).natDegree := by
  obtain ⟨piv, δ, hp, hinc⟩ := h
  have hid := increasing_eq_id (fun i hi => (hp i hi).lt) hinc
  intro i hi
  have h1 := hp i hi
  rw [hid i hi] at h1
  have := h1.degree
  rw [this]; exact h1

/-- The degree of the determinant of a square matrix in ordered weak Popov form. -/
theorem orderedLower_det {m : Nat} {s : Nat → Int} {P : Nat → Nat → K[X]}
    (h : OrderedWeakPopovLower m m s P) :
    (Matrix.of fun (i j : Fin m) => P i j).det ≠ 0 ∧
      (Matrix.of fun (i j : Fin m) => P i j).det.natDegree = ∑ i : Fin m, (P i i).natDegree := by
  have hd := orderedLower_diag h
  refine det_degree _ (fun j => s j) (fun i => ((P i i).natDegree : Int) + s i)
    (fun i j hne => (hd i i.2).le j j.2 hne) (fun σ hσ => ?_) (fun i => (hd i i.2).nonzero)
    (fun i => rfl)
  obtain ⟨i, hi⟩ := exists_lt_of_ne_one σ hσ
  exact ⟨i, fun hne => (hd (σ i) (σ i).2).after i i.2 hi hne⟩

theorem orderedUpper_det {m : Nat} {s : Nat → Int} {P : Nat → Nat → K[X]}
    (h : OrderedWeakPopovUpper m m s P) :
    (Matrix.of fun (i j : Fin m) => P i j).det ≠ 0 ∧
      (Matrix.of fun (i j : Fin m) => P i j).det.natDegree = ∑ i : Fin m, (P i i).natDegree := by
  have hd := orderedUpper_diag h
  refine det_degree _ (fun j => s j) (fun i => ((P i i).natDegree : Int) + s i)
    (fun i j hne => (hd i i.2).le j j.2 hne) (fun σ hσ => ?_) (fun i => (hd i i.2).nonzero)
    (fun i => rfl)
  obtain ⟨i, hi⟩ := exists_gt_of_ne_one σ hσ
  exact ⟨i, fun hne => (hd (σ i) (σ i).2).before i i.2 hi hne⟩

end PML.Forms
