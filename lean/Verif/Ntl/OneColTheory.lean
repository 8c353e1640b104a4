import Verif.Ntl.OneColSpec
import Verif.Ntl.MatUtilsLemmas
import Mathlib.LinearAlgebra.Matrix.ToLinearEquiv
import Mathlib.Algebra.Polynomial.BigOperators

/-!
# Matrices whose leading coefficient is the identity
-/

namespace PML.Ntl.OneCol

open Polynomial PML.Ntl.Utils

variable {F : Type} [Field F] {n D : Nat} {P : Nat × Nat → F[X]}

theorem natDegree_le_of_lt {f : F[X]} {N : Nat} (h : f.degree < (N + 1 : Nat)) : f.natDegree ≤ N :=
  by
  by_cases h0 : f = 0
  · rw [h0, natDegree_zero]; exact Nat.zero_le _
  · have := (natDegree_lt_iff_degree_lt h0).2 h
    omega

theorem degree_lt_of_le {f : F[X]} {N : Nat} (h : f.natDegree ≤ N) : f.degree < (N + 1 : Nat) :=
  lt_of_le_of_lt (degree_le_of_natDegree_le h) (by exact_mod_cast Nat.lt_succ_self N)

/-- The leading coefficient of a product of a row vector and a matrix with leading coefficient 1. -/
theorem MonicOf.row_top (h : MonicOf n D P) {v : Nat → F[X]} {N : Nat} (hv : ∀ i, i < n → (v i).natDegree ≤ N) {j : Nat} (hj : j < n) :
    (∑ i ∈ Finset.range n, v i * P (i, j)).coeff (N + D) = (v j).coeff N := by
  rw [finsetSum_coeff, Finset.sum_eq_single_of_mem j (Finset.mem_range.2 hj), coeff_mul_add_eq_of_natDegree_le (hv j hj) (h.deg j j hj hj), h.lead j j hj hj,
    if_pos rfl, mul_one]
  intro i hi hij
  have hi := Finset.mem_range.1 hi
  rw [coeff_mul_add_eq_of_natDegree_le (hv i hi) (h.deg i j hi hj), h.lead i j hi hj, if_neg hij, mul_zero]

theorem MonicOf.row_deg (h : MonicOf n D P) {v : Nat → F[X]} {N : Nat} (hv : ∀ i, i < n → (v i).natDegree ≤ N) {j : Nat} (hj : j < n) :
    (∑ i ∈ Finset.range n, v i * P (i, j)).natDegree ≤ N + D :=
  natDegree_sum_le_of_forall_le _ _ fun i hi => natDegree_mul_le_of_le (hv i (Finset.mem_range.1 hi)) (h.deg i j (Finset.mem_range.1 hi) hj)

/-- A row vector is determined by its product. -/
theorem MonicOf.cancel (h : MonicOf n D P) {v : Nat → F[X]} (hv : ∀ j, j < n → ∑ i ∈ Finset.range n, v i * P (i, j) = 0) (i : Nat) (hi : i < n) :
    v i = 0 := by
  have key : ∀ N, (∀ i, i < n → (v i).degree < (N : Nat)) → ∀ i, i < n → v i = 0 := by
    intro N
    induction N with
    | zero => intro hd i hi; exact degree_eq_bot.1 (Nat.WithBot.lt_zero_iff.1 (hd i hi))
    | succ N ih =>
      intro hd
      refine ih fun i hi => ?_
      have hn : ∀ i, i < n → (v i).natDegree ≤ N := fun i hi => natDegree_le_of_lt (hd i hi)
      have h0 := h.row_top hn hi
      rw [hv i hi, coeff_zero] at h0
      refine lt_of_le_of_ne (degree_le_of_natDegree_le (hn i hi)) fun he => ?_
      exact coeff_ne_zero_of_eq_degree he h0.symm
  refine key ((Finset.range n).sup (fun i => (v i).natDegree) + 1) (fun i hi => degree_lt_of_le ?_) i hi
  exact Finset.le_sup (f := fun i => (v i).natDegree) (Finset.mem_range.2 hi)

/-- Division by a matrix with leading coefficient 1. -/
theorem MonicOf.divide (h : MonicOf n D P) : ∀ (N : Nat) (v : Nat → F[X]), (∀ i, i < n → (v i).degree < (N : Nat)) →
    ∃ q r : Nat → F[X], (∀ j, j < n → v j = ∑ i ∈ Finset.range n, q i * P (i, j) + r j) ∧ ∀ j, j < n → (r j).degree < (D : Nat)
  | 0, v, hv => ⟨fun _ => 0, fun _ => 0, fun j hj => by
      rw [degree_eq_bot.1 (Nat.WithBot.lt_zero_iff.1 (hv j hj))]; simp, fun j _ => by rw [degree_zero]; exact WithBot.bot_lt_coe D⟩
  | N + 1, v, hv => by
    by_cases hND : N + 1 ≤ D
    · exact ⟨fun _ => 0, v, fun j _ => by simp, fun j hj => lt_of_lt_of_le (hv j hj) (by exact_mod_cast hND)⟩
    · have hn : ∀ i, i < n → (v i).natDegree ≤ N := fun i hi => natDegree_le_of_lt (hv i hi)
      have hq : ∀ i, i < n → (C ((v i).coeff N) * X ^ (N - D)).natDegree ≤ N - D := fun i _ => natDegree_C_mul_X_pow_le _ _
      obtain ⟨q, r, h1, h2⟩ := MonicOf.divide h N (fun j => v j - ∑ i ∈ Finset.range n, C ((v i).coeff N) * X ^ (N - D) * P (i, j)) (fun j hj => by
        have ht := h.row_top hq hj
        have hd := h.row_deg hq hj
        rw [show N - D + D = N by omega] at ht hd
        rw [coeff_C_mul, coeff_X_pow_self, mul_one] at ht
        have hle : (v j - ∑ i ∈ Finset.range n, C ((v i).coeff N) * X ^ (N - D) * P (i, j)).natDegree ≤ N :=
          (natDegree_sub_le_of_le (hn j hj) hd).trans (max_self N).le
        refine lt_of_le_of_ne (degree_le_of_natDegree_le hle) fun he => coeff_ne_zero_of_eq_degree he ?_
        rw [coeff_sub, ht, sub_self])
      refine ⟨fun i => q i + C ((v i).coeff N) * X ^ (N - D), r, fun j hj => ?_, h2⟩
      have := h1 j hj
      rw [sub_eq_iff_eq_add] at this
      rw [this]
      simp only [add_mul, Finset.sum_add_distrib]
      ring

theorem MonicOf.mul {D' : Nat} {Q : Nat × Nat → F[X]} (hQ : MonicOf n D' Q) (hP : MonicOf n D P) :
    MonicOf n (D' + D) fun ij => ∑ l ∈ Finset.range n, Q (ij.1, l) * P (l, ij.2) where
  deg i j hi hj := hP.row_deg (v := fun l => Q (i, l)) (fun l hl => hQ.deg i l hi hl) hj
  lead i j hi hj := (hP.row_top (v := fun l => Q (i, l)) (fun l hl => hQ.deg i l hi hl) hj).trans (hQ.lead i j hi hj)

/-- If the rows of such a matrix are approximants of a generic column, it is an approximant basis. -/
theorem MonicOf.basis (h : MonicOf n D P) {f : Nat → F[X]} (hg : Generic n D f)
    (ha : ∀ i, i < n → X ^ (n * D) ∣ ∑ j ∈ Finset.range n, P (i, j) * f j) :
    PML.Approx.Spec.IsApproximantBasis (fun (i : Fin n) (_ : Fin 1) => f i) (n * D) (fun i j : Fin n => P (i, j)) where
  nonsingular := by
    intro h0
    obtain ⟨v, hv, hv0⟩ := Matrix.exists_vecMul_eq_zero_iff.2 h0
    refine hv (funext fun i => ?_)
    have := h.cancel (v := fun i => if hi : i < n then v ⟨i, hi⟩ else 0) (fun j hj => by
      have := congrFun hv0 ⟨j, hj⟩
      rw [← Fin.sum_univ_eq_sum_range (fun i => (if hi : i < n then v ⟨i, hi⟩ else 0) * P (i, j))]
      refine Eq.trans (Finset.sum_congr rfl fun i _ => ?_) this
      rw [dif_pos i.isLt]) i i.isLt
    rw [dif_pos i.isLt] at this
    exact this
  generates v := by
    have hsum : ∀ u g : Nat → F[X], (∑ i : Fin n, u i * g i) = ∑ i ∈ Finset.range n, u i * g i :=
      fun u g => Fin.sum_univ_eq_sum_range (fun i => u i * g i) n
    constructor
    · intro hv
      have hv := hv 0
      obtain ⟨w, hw⟩ : ∃ w : Nat → F[X], ∀ i : Fin n, w i = v i := ⟨fun i => if hi : i < n then v ⟨i, hi⟩ else 0, fun i => dif_pos i.isLt⟩
      have hv' : X ^ (n * D) ∣ ∑ i ∈ Finset.range n, w i * f i := by
        rw [← hsum]
        refine (Finset.sum_congr rfl fun i _ => ?_ : ∑ i : Fin n, w i * f i = ∑ i : Fin n, v i * f i) ▸ hv
        rw [hw]
      obtain ⟨q, r, h1, h2⟩ := h.divide ((Finset.range n).sup (fun i => (w i).natDegree) + 1) w fun i hi =>
        degree_lt_of_le (Finset.le_sup (f := fun i => (w i).natDegree) (Finset.mem_range.2 hi))
      have hr : ∀ j, j < n → r j = 0 := by
        refine hg D (le_refl _) r h2 ?_
        have e : ∑ i ∈ Finset.range n, w i * f i =
            ∑ i ∈ Finset.range n, q i * (∑ j ∈ Finset.range n, P (i, j) * f j) + ∑ i ∈ Finset.range n, r i * f i := by
          rw [Finset.sum_congr rfl fun j hj => by rw [h1 j (Finset.mem_range.1 hj), add_mul], Finset.sum_add_distrib]
          congr 1
          rw [Finset.sum_congr rfl fun j _ => Finset.sum_mul _ _ _, Finset.sum_comm]
          refine Finset.sum_congr rfl fun i _ => ?_
          rw [Finset.mul_sum]
          exact Finset.sum_congr rfl fun j _ => mul_assoc _ _ _
        rw [e] at hv'
        exact (dvd_add_right (Finset.dvd_sum fun i hi => Dvd.dvd.mul_left (ha i (Finset.mem_range.1 hi)) _)).1 hv'
      refine ⟨fun i => q i, funext fun j => ?_⟩
      rw [← hw, h1 j j.isLt, hr j j.isLt, add_zero]
      exact (hsum q fun i => P (i, j)).symm
    · rintro ⟨u, rfl⟩ j
      have e := congrFun (Matrix.vecMul_vecMul u (Matrix.of fun i j : Fin n => P (i, j)) (Matrix.of fun (i : Fin n) (_ : Fin 1) => f i)) j
      refine (show X ^ (n * D) ∣ Matrix.vecMul (Matrix.vecMul u (Matrix.of fun i j : Fin n => P (i, j))) (Matrix.of fun (i : Fin n) (_ : Fin 1) => f i) j from e ▸ ?_)
      show X ^ (n * D) ∣ ∑ i : Fin n, u i * ∑ l : Fin n, P (i, l) * f l
      refine Finset.dvd_sum fun i _ => Dvd.dvd.mul_left ?_ _
      have := ha i i.isLt
      rw [← hsum] at this
      exact this

/-- No such matrix of a smaller degree has an approximant of a generic column as a row. -/
theorem MonicOf.not_approximant {D' : Nat} (h : MonicOf n D' P) (hD : D' < D) {f : Nat → F[X]} (hg : Generic n D f) {i : Nat} (hi : i < n) :
    ¬X ^ (n * D) ∣ ∑ j ∈ Finset.range n, P (i, j) * f j := by
  intro hd
  have := hg D (le_refl _) (fun j => P (i, j)) (fun j hj => lt_of_lt_of_le (degree_lt_of_le (h.deg i j hi hj)) (by exact_mod_cast hD)) hd i hi
  have h1 := h.lead i i hi hi
  rw [if_pos rfl] at h1
  rw [this, coeff_zero] at h1
  exact zero_ne_one h1

end PML.Ntl.OneCol
