import Verif.Forms.Spec
import Verif.WeakPopov.Props
import Mathlib.LinearAlgebra.Matrix.Adjugate
import Mathlib.RingTheory.PowerSeries.Inverse
import Mathlib.Algebra.Polynomial.BigOperators

/-!
# Reduced bases from the expansion of the inverse

If `P` is a square matrix of degree at most `d`, and `T` is made of the first `2 d` terms of `(P^-1 - L) / X^o`,
where `L` is the expansion of `P^-1` at order `o > (n - 1) d`, then the first `n` rows and columns of an
approximant basis of `T` and the identity, in ordered weak Popov form, are a basis of the rows of `P` in this form.
-/

namespace PML.Ntl.Reduce

open Polynomial PML.Forms.Spec Matrix

variable {F : Type} [Field F]

/-! ### Pivots of combinations -/

/-- The pivot of a combination of the rows of a matrix in weak Popov form. -/
theorem comb_pivot {r n : Nat} {s : Nat → Int} {M : Nat → Nat → F[X]} {piv dl : Nat → Nat}
    (h1 : ∀ i, i < r → PivotLower n s (M i) (piv i) (dl i)) (h2 : ∀ i j, i < r → j < r → piv i = piv j → i = j)
    (c : Nat → F[X]) {w : Nat → F[X]} (hw : ∀ j, j < n → w j = ∑ i ∈ Finset.range r, c i * M i j) (i0 : Nat) (hi0 : i0 < r) (hc0 : c i0 ≠ 0) :
    ∃ m, m < r ∧ c m ≠ 0 ∧ PivotLower n s w (piv m) ((c m).natDegree + dl m) ∧
      ∀ i, i < r → c i ≠ 0 → ((c i).natDegree : Int) + dl i + s (piv i) ≤ (c m).natDegree + dl m + s (piv m) := by
  classical
  let S := (Finset.range r).filter fun i => c i ≠ 0
  have hS : S.Nonempty := ⟨i0, Finset.mem_filter.2 ⟨Finset.mem_range.2 hi0, hc0⟩⟩
  let D : Nat → Int := fun i => (c i).natDegree + dl i + s (piv i)
  obtain ⟨a, haS, hamax⟩ := S.exists_max_image D hS
  let T := S.filter fun i => D i = D a
  obtain ⟨m, hmT, hmmax⟩ := T.exists_max_image piv ⟨a, Finset.mem_filter.2 ⟨haS, rfl⟩⟩
  have hmS := (Finset.mem_filter.1 hmT).1
  have hmD := (Finset.mem_filter.1 hmT).2
  have hmr : m < r := Finset.mem_range.1 (Finset.mem_filter.1 hmS).1
  have hm0 : c m ≠ 0 := (Finset.mem_filter.1 hmS).2
  have pm := h1 m hmr
  have eDm : D m = (c m).natDegree + dl m + s (piv m) := rfl
  have term : ∀ i, i < r → ∀ j, j < n → c i ≠ 0 → M i j ≠ 0 → ((c i * M i j).natDegree : Int) + s j ≤ D a ∧
      (piv m < j → ((c i * M i j).natDegree : Int) + s j < D a) ∧ (i ≠ m → j = piv m → ((c i * M i j).natDegree : Int) + s j < D a) := by
    intro i hi j hj hci hMij
    have hiS : i ∈ S := Finset.mem_filter.2 ⟨Finset.mem_range.2 hi, hci⟩
    have hle := hamax i hiS
    have h4 := (h1 i hi).le j hj hMij
    have e : ((c i * M i j).natDegree : Int) = (c i).natDegree + (M i j).natDegree := by rw [natDegree_mul hci hMij]; push_cast; rfl
    have eD : D i = (c i).natDegree + dl i + s (piv i) := rfl
    refine ⟨by omega, fun hpj => ?_, fun him hjm => ?_⟩
    · by_cases hiD : D i = D a
      · have := hmmax i (Finset.mem_filter.2 ⟨hiS, hiD⟩)
        have := (h1 i hi).after j hj (by omega) hMij
        omega
      · omega
    · by_cases hiD : D i = D a
      · have h5 := hmmax i (Finset.mem_filter.2 ⟨hiS, hiD⟩)
        have h6 : piv i ≠ piv m := fun he => him (h2 i m hi hmr he)
        have := (h1 i hi).after j hj (by omega) hMij
        omega
      · omega
  -- the entries of w, in general
  have entry : ∀ j, j < n → ∀ k : Nat, (∀ i, i < r → c i ≠ 0 → M i j ≠ 0 → (c i * M i j).natDegree < k) → ∀ k', k ≤ k' → (w j).coeff k' = 0 := by
    intro j hj k hk k' hkk
    rw [hw j hj, finsetSum_coeff]
    refine Finset.sum_eq_zero fun i hi => ?_
    by_cases hci : c i = 0
    · rw [hci, zero_mul, coeff_zero]
    by_cases hMi : M i j = 0
    · rw [hMi, mul_zero, coeff_zero]
    exact coeff_eq_zero_of_natDegree_lt (lt_of_lt_of_le (hk i (Finset.mem_range.1 hi) hci hMi) hkk)
  have bound : ∀ j, j < n → w j ≠ 0 → ((w j).natDegree : Int) + s j ≤ D a ∧ (piv m < j → ((w j).natDegree : Int) + s j < D a) := by
    intro j hj hwj
    refine ⟨?_, fun hpj => ?_⟩
    · by_contra hcon
      refine hwj (leadingCoeff_eq_zero.1 (entry j hj (w j).natDegree (fun i hi hci hMi => ?_) _ (le_refl _)))
      have := (term i hi j hj hci hMi).1
      omega
    · by_contra hcon
      refine hwj (leadingCoeff_eq_zero.1 (entry j hj (w j).natDegree (fun i hi hci hMi => ?_) _ (le_refl _)))
      have := (term i hi j hj hci hMi).2.1 hpj
      omega
  have hcoef : (w (piv m)).coeff ((c m).natDegree + dl m) ≠ 0 := by
    rw [hw (piv m) pm.lt, finsetSum_coeff, Finset.sum_eq_single m]
    · rw [← pm.degree, coeff_mul_degree_add_degree]
      exact mul_ne_zero (leadingCoeff_ne_zero.2 hm0) (leadingCoeff_ne_zero.2 pm.nonzero)
    · intro i hi him
      have hi' := Finset.mem_range.1 hi
      by_cases hci : c i = 0
      · rw [hci, zero_mul, coeff_zero]
      by_cases hMi : M i (piv m) = 0
      · rw [hMi, mul_zero, coeff_zero]
      refine coeff_eq_zero_of_natDegree_lt ?_
      have := (term i hi' (piv m) pm.lt hci hMi).2.2 him rfl
      omega
    · intro h
      exact absurd (Finset.mem_range.2 hmr) h
  have hwm : w (piv m) ≠ 0 := fun h => hcoef (by rw [h, coeff_zero])
  refine ⟨m, hmr, hm0, ⟨pm.lt, hwm, ?_, fun j hj hwj => ?_, fun j hj hpj hwj => ?_⟩, fun i hi hci => ?_⟩
  · have a1 := le_natDegree_of_ne_zero hcoef
    have a2 := (bound (piv m) pm.lt hwm).1
    omega
  · have := (bound j hj hwj).1
    push_cast
    omega
  · have := (bound j hj hwj).2 hpj
    push_cast
    omega
  · have : D i ≤ D a := hamax i (Finset.mem_filter.2 ⟨Finset.mem_range.2 hi, hci⟩)
    have eD : D i = (c i).natDegree + dl i + s (piv i) := rfl
    omega

theorem pivot_unique {n : Nat} {s : Nat → Int} {p : Nat → F[X]} {π π' δ δ' : Nat} (h : PivotLower n s p π δ) (h' : PivotLower n s p π' δ') : π = π' ∧ δ = δ' := by
  have e : π = π' := by
    rcases Nat.lt_trichotomy π π' with hlt | he | hlt
    · have a1 := h.after π' h'.lt hlt h'.nonzero
      have a2 := h'.le π h.lt h.nonzero
      have a3 := h.degree
      have a4 := h'.degree
      omega
    · exact he
    · have a1 := h'.after π h.lt hlt h.nonzero
      have a2 := h.le π' h'.lt h'.nonzero
      have a3 := h.degree
      have a4 := h'.degree
      omega
  subst e
  exact ⟨rfl, h.degree.symm.trans h'.degree⟩

/-! ### Degrees -/

theorem adjugate_deg {n d : Nat} (P : Matrix (Fin n) (Fin n) F[X]) (hP : ∀ i j, (P i j).natDegree ≤ d) (i j : Fin n) :
    (P.adjugate i j).natDegree ≤ (n - 1) * d := by
  rw [adjugate_apply, det_apply]
  refine natDegree_sum_le_of_forall_le _ _ fun σ _ => ?_
  refine le_trans (natDegree_smul_le _ _) (le_trans (natDegree_prod_le _ _) ?_)
  have h : ∀ k, ((P.updateRow j (Pi.single i 1)) (σ k) k).natDegree ≤ if k = σ.symm j then 0 else d := by
    intro k
    by_cases hk : σ k = j
    · rw [hk, updateRow_self, if_pos (by rw [← hk, Equiv.symm_apply_apply])]
      by_cases hki : k = i
      · rw [hki, Pi.single_eq_same, natDegree_one]
      · rw [Pi.single_eq_of_ne hki, natDegree_zero]
    · rw [updateRow_ne hk, if_neg (fun he => hk (by rw [he, Equiv.apply_symm_apply]))]
      exact hP _ _
  refine le_trans (Finset.sum_le_sum fun k _ => h k) ?_
  rw [Finset.sum_ite, Finset.sum_const_zero, zero_add, Finset.sum_const, smul_eq_mul]
  refine Nat.mul_le_mul_right _ ?_
  rw [Finset.filter_not, Finset.filter_eq', if_pos (Finset.mem_univ _), Finset.card_sdiff_of_subset (Finset.subset_univ _), Finset.card_singleton, Finset.card_univ, Fintype.card_fin]

/-! ### The expansion of the inverse -/

/-- Polynomials as power series. -/
noncomputable abbrev φ : F[X] →+* PowerSeries F := Polynomial.coeToPowerSeries.ringHom

theorem φ_inj {p q : F[X]} (h : φ p = φ q) : p = q := Polynomial.coe_injective F h

theorem poly_of_shift {o : Nat} {q : F[X]} {g : PowerSeries F} (h : φ q = PowerSeries.X ^ o * g) : ∃ r : F[X], g = φ r ∧ q = X ^ o * r := by
  have hd : X ^ o ∣ q := by
    rw [X_pow_dvd_iff]
    intro k hk
    have := congrArg (PowerSeries.coeff k) h
    rw [PowerSeries.coeff_X_pow_mul', if_neg (by omega)] at this
    exact (Polynomial.coeff_coe q k).symm.trans this
  obtain ⟨r, hr⟩ := hd
  refine ⟨r, ?_, hr⟩
  have h2 : (PowerSeries.X : PowerSeries F) ^ o * φ r = PowerSeries.X ^ o * g := by
    rw [← h, hr, map_mul, map_pow]
    congr 2
    exact (Polynomial.coe_X).symm
  exact (mul_left_cancel₀ (pow_ne_zero o PowerSeries.X_ne_zero) h2).symm

/-- `H` is the inverse of `P`, and `H = L + X^o S`. -/
structure Expansion {n : Nat} (d o : Nat) (P L : Matrix (Fin n) (Fin n) F[X]) (H S : Matrix (Fin n) (Fin n) (PowerSeries F)) : Prop where
  d1 : 1 ≤ d
  big : (n - 1) * d + 1 ≤ o
  deg : ∀ i j, (P i j).natDegree ≤ d
  left : H * P.map φ = 1
  right : P.map φ * H = 1
  low : ∀ i j, (L i j).natDegree < o
  eq : H = L.map φ + (PowerSeries.X ^ o : PowerSeries F) • S

variable {n d o : Nat} {P L : Matrix (Fin n) (Fin n) F[X]} {H S : Matrix (Fin n) (Fin n) (PowerSeries F)}

theorem Expansion.det_ne (h : Expansion d o P L H S) : P.det ≠ 0 := by
  intro h0
  have h1 : (P.map φ).det * H.det = 1 := by rw [← det_mul, h.right, det_one]
  rw [show P.map φ = φ.mapMatrix P from rfl, ← RingHom.map_det, h0, map_zero, zero_mul] at h1
  exact zero_ne_one h1

theorem mul_entry_deg (A B : Matrix (Fin n) (Fin n) F[X]) {a b : Nat} (hA : ∀ i j, (A i j).natDegree ≤ a) (hB : ∀ i j, (B i j).natDegree ≤ b) (i j : Fin n) :
    ((A * B) i j).natDegree ≤ a + b := by
  rw [mul_apply]
  exact natDegree_sum_le_of_forall_le _ _ fun l _ => le_trans natDegree_mul_le (Nat.add_le_add (hA _ _) (hB _ _))

theorem remainder {Q : Matrix (Fin n) (Fin n) F[X]} {G : Matrix (Fin n) (Fin n) (PowerSeries F)} (hd : 1 ≤ d) (ho : 1 ≤ o)
    (hQ : ∀ i j, (Q i j).natDegree ≤ o - 1 + d) (h : (PowerSeries.X ^ o : PowerSeries F) • G = 1 - Q.map φ) :
    ∃ R : Matrix (Fin n) (Fin n) F[X], G = R.map φ ∧ ∀ i j, (R i j).natDegree < d := by
  have key : ∀ i j, ∃ r : F[X], G i j = φ r ∧ (1 - Q) i j = X ^ o * r := fun i j => poly_of_shift (by
    have := congrFun (congrFun h i) j
    rw [Matrix.smul_apply, smul_eq_mul] at this
    rw [this]
    rw [Matrix.sub_apply, Matrix.sub_apply, map_sub, Matrix.map_apply, Matrix.one_apply, Matrix.one_apply]
    congr 1
    split_ifs
    · exact map_one φ
    · exact map_zero φ)
  choose R hR1 hR2 using key
  refine ⟨fun i j => R i j, by ext1 i j; exact hR1 i j, fun i j => ?_⟩
  by_cases h0 : R i j = 0
  · show (R i j).natDegree < d
    rw [h0, natDegree_zero]
    exact hd
  have h1 := congrArg natDegree (hR2 i j)
  rw [natDegree_X_pow_mul _ h0] at h1
  have h2 : ((1 - Q) i j).natDegree ≤ o - 1 + d := by
    rw [Matrix.sub_apply]
    refine le_trans (natDegree_sub_le _ _) (max_le ?_ (hQ i j))
    rw [Matrix.one_apply]
    split_ifs
    · rw [natDegree_one]; exact Nat.zero_le _
    · rw [natDegree_zero]; exact Nat.zero_le _
  show (R i j).natDegree < d
  omega

theorem Expansion.rem_left (h : Expansion d o P L H S) : ∃ R : Matrix (Fin n) (Fin n) F[X], S * P.map φ = R.map φ ∧ ∀ i j, (R i j).natDegree < d := by
  have ho := h.big
  refine remainder (Q := L * P) (o := o) h.d1 (by omega) (fun i j => mul_entry_deg L P (fun i j => ?_) h.deg i j) ?_
  · have := h.low i j
    omega
  · have h1 := h.left
    rw [h.eq, Matrix.add_mul, Matrix.smul_mul] at h1
    rw [← h1, Matrix.map_mul]
    exact (add_sub_cancel_left _ _).symm

theorem Expansion.rem_right (h : Expansion d o P L H S) : ∃ R : Matrix (Fin n) (Fin n) F[X], P.map φ * S = R.map φ ∧ ∀ i j, (R i j).natDegree < d := by
  have ho := h.big
  refine remainder (Q := P * L) (o := o) h.d1 (by omega) (fun i j => ?_) ?_
  · rw [add_comm]
    refine mul_entry_deg P L h.deg (fun i j => ?_) i j
    have := h.low i j
    omega
  · have h1 := h.right
    rw [h.eq, Matrix.mul_add, Matrix.mul_smul] at h1
    rw [← h1, Matrix.map_mul]
    exact (add_sub_cancel_left _ _).symm

/-- `r = - p S`. -/
def Ann (S : Matrix (Fin n) (Fin n) (PowerSeries F)) (p r : Fin n → F[X]) : Prop := ∀ j, ∑ l, φ (p l) * S l j + φ (r j) = 0

theorem Ann.vec {p r : Fin n → F[X]} (h : Ann S p r) : (fun i => φ (p i)) ᵥ* S = fun j => - φ (r j) := by
  funext j
  exact eq_neg_of_add_eq_zero_left (h j)

/-- If `p S` is polynomial, then `p` is a combination of the rows of `P`. -/
theorem Expansion.mem (h : Expansion d o P L H S) {p r : Fin n → F[X]} (ha : Ann S p r) : ∃ u : Fin n → F[X], p = u ᵥ* P := by
  refine ⟨fun j => (p ᵥ* L) j - X ^ o * r j, ?_⟩
  have e : (fun i => φ (p i)) ᵥ* H = fun j => φ ((p ᵥ* L) j - X ^ o * r j) := by
    rw [h.eq, vecMul_add, vecMul_smul, ha.vec]
    funext j
    rw [map_sub, map_mul, map_pow, RingHom.map_vecMul]
    rw [show φ (X : F[X]) = PowerSeries.X from Polynomial.coe_X]
    rw [Pi.add_apply, Pi.smul_apply, smul_eq_mul, mul_neg, ← sub_eq_add_neg]
    rfl
  have e2 := congrArg (fun v => v ᵥ* P.map φ) e
  rw [vecMul_vecMul, h.left, vecMul_one] at e2
  funext j
  refine φ_inj ?_
  rw [RingHom.map_vecMul]
  exact congrFun e2 j

/-- Combinations of the rows of `P`. -/
theorem Expansion.ann (h : Expansion d o P L H S) (u : Fin n → F[X]) : ∃ r, Ann S (u ᵥ* P) r := by
  obtain ⟨R, hR, -⟩ := h.rem_right
  refine ⟨fun j => - (u ᵥ* R) j, fun j => ?_⟩
  have e : (fun i => φ ((u ᵥ* P) i)) ᵥ* S = fun j => φ ((u ᵥ* R) j) := by
    have e1 : (fun i => φ ((u ᵥ* P) i)) = (φ ∘ u) ᵥ* P.map φ := by
      funext i
      rw [RingHom.map_vecMul]
    rw [e1, vecMul_vecMul, hR]
    funext j
    rw [RingHom.map_vecMul]
  have := congrFun e j
  rw [map_neg, ← this]
  exact add_neg_cancel _

/-- `S` is strictly proper. -/
theorem Expansion.proper (h : Expansion d o P L H S) {p r : Fin n → F[X]} (ha : Ann S p r) (j : Fin n) (hr : r j ≠ 0) :
    ∃ l, p l ≠ 0 ∧ (r j).natDegree < (p l).natDegree := by
  by_contra hcon
  push Not at hcon
  have hD := h.det_ne
  have ho := h.big
  -- the adjugate
  have hadj : φ P.det • H = P.adjugate.map φ := by
    have h1 : P.adjugate.map φ * P.map φ = φ P.det • (1 : Matrix (Fin n) (Fin n) (PowerSeries F)) := by
      rw [← Matrix.map_mul, adjugate_mul]
      ext1 a b
      rw [Matrix.map_apply, Matrix.smul_apply, Matrix.smul_apply, smul_eq_mul, smul_eq_mul, map_mul, Matrix.one_apply, Matrix.one_apply]
      split_ifs
      · rw [map_one]
      · rw [map_zero]
    have h2 := congrArg (fun M => M * H) h1
    rw [Matrix.mul_assoc, h.right, Matrix.mul_one, Matrix.smul_mul, Matrix.one_mul] at h2
    exact h2.symm
  have hadj' : ∀ l, φ P.det * (PowerSeries.X ^ o * S l j) = φ (P.adjugate l j - P.det * L l j) := fun l => by
    have h1 := congrFun (congrFun hadj l) j
    rw [Matrix.smul_apply, h.eq, Matrix.add_apply, Matrix.smul_apply, Matrix.map_apply, Matrix.map_apply, smul_eq_mul, smul_eq_mul, mul_add] at h1
    rw [map_sub, map_mul, ← h1]
    ring
  have key : X ^ o * (P.det * r j) = - ∑ l, p l * (P.adjugate l j - P.det * L l j) := by
    refine φ_inj ?_
    rw [map_mul, map_mul, map_pow, map_neg, map_sum, show φ (X : F[X]) = PowerSeries.X from Polynomial.coe_X]
    have h1 := ha j
    rw [Finset.sum_congr rfl fun l _ => by rw [map_mul, ← hadj' l]]
    rw [show ∑ l, φ (p l) * (φ P.det * (PowerSeries.X ^ o * S l j)) = φ P.det * PowerSeries.X ^ o * ∑ l, φ (p l) * S l j by
      rw [Finset.mul_sum]; exact Finset.sum_congr rfl fun l _ => by ring]
    rw [eq_neg_of_add_eq_zero_left h1]
    ring
  have h1 := congrArg natDegree key
  rw [natDegree_X_pow_mul _ (mul_ne_zero hD hr), natDegree_mul hD hr, natDegree_neg] at h1
  have h2 : (∑ l, p l * (P.adjugate l j - P.det * L l j)).natDegree ≤ (r j).natDegree + (P.det.natDegree + (o - 1)) := by
    refine natDegree_sum_le_of_forall_le _ _ fun l _ => ?_
    by_cases hp : p l = 0
    · rw [hp, zero_mul, natDegree_zero]
      exact Nat.zero_le _
    refine le_trans natDegree_mul_le (Nat.add_le_add (hcon l hp) (le_trans (natDegree_sub_le _ _) (max_le ?_ ?_)))
    · have := adjugate_deg P h.deg l j
      omega
    · refine le_trans natDegree_mul_le (Nat.add_le_add_left ?_ _)
      have := h.low l j
      omega
  omega

/-! ### A weak Popov form of `P` -/

/-- A vector, extended by zero. -/
noncomputable def ext (p : Fin n → F[X]) : Nat → F[X] := fun j => if h : j < n then p ⟨j, h⟩ else 0

theorem ext_fin (p : Fin n → F[X]) (j : Fin n) : ext p j = p j := dif_pos j.2

/-- What is used of C32. -/
theorem weak_popov (A : Nat → Nat → F[X]) : ∃ (B U : Nat → Nat → F[X]) (σ : Int) (rk : Nat) (piv : Nat → Int), (σ = 1 ∨ σ = -1) ∧
    (Matrix.of fun i j : Fin n => U i j).det = ((σ : Int) : F[X]) ∧ (∀ i, i < n → ∀ j, B i j = ∑ k ∈ Finset.range n, U i k * A k j) ∧
    (∀ i, i < rk → ∃ π δ : Nat, piv i = π ∧ PivotLower n (fun _ => 0) (B i) π δ) ∧ (∀ i j, i < j → j < rk → piv i ≠ piv j) ∧
    ∀ i, rk ≤ i → i < n → ZeroVec n (B i) := by
  classical
  obtain ⟨s, rk, h⟩ := PML.WeakPopov.C32_weak_popov_lower (K := F) none n n A none (fun _ => 0) fun _ => 0
  obtain ⟨-, -, -, h4, -, h6, h7, h8, -⟩ := h
  obtain ⟨σ, hσ, -, ht⟩ := h4
  unfold PML.RowOps.Spec.Transformed at ht
  obtain ⟨U, hU, hB, -⟩ := ht
  exact ⟨s.mat, U, σ, rk, s.pivind, hσ, hU, fun i hi j => hB i hi (.inl j), h6, h7, h8⟩

/-- Every index is the pivot of a combination of the rows of `P` of degree at most `d`. -/
theorem exists_pivot (P : Matrix (Fin n) (Fin n) F[X]) (hP : ∀ i j, (P i j).natDegree ≤ d) (hD : P.det ≠ 0) (i : Nat) (hi : i < n) :
    ∃ (u : Fin n → F[X]) (δ : Nat), δ ≤ d ∧ PivotLower n (fun _ => 0) (ext (u ᵥ* P)) i δ := by
  classical
  obtain ⟨B, U, σ, rk, pivind, hσ, hU, hB, hpiv, hinj, hz⟩ := weak_popov (n := n) (fun i => ext fun j => if h : i < n then P ⟨i, h⟩ j else 0)
  have hrow : ∀ i j : Fin n, B i j = ((fun k : Fin n => U i k) ᵥ* P) j := fun i j => by
    rw [hB i i.2 j, Finset.sum_range]
    refine Finset.sum_congr rfl fun k _ => ?_
    rw [ext_fin, dif_pos k.2]
  let M : Matrix (Fin n) (Fin n) F[X] := fun i j => B i j
  let U' : Matrix (Fin n) (Fin n) F[X] := fun i j => U i j
  have hM : M = U' * P := by
    ext1 i j
    exact hrow i j
  have hU' : U'.det * U'.det = 1 := by
    have : U'.det = ((σ : Int) : F[X]) := hU
    rw [this]
    rcases hσ with rfl | rfl <;> simp
  have hMdet : M.det ≠ 0 := by
    rw [hM, det_mul]
    exact mul_ne_zero (fun h => by rw [h, zero_mul] at hU'; exact zero_ne_one hU') hD
  have hlt : ∀ i, i < n → i < rk := fun i hi => by
    by_contra hcon
    have h0 := hz i (by omega) hi
    exact hMdet (det_eq_zero_of_row_eq_zero ⟨i, hi⟩ fun j => h0 j j.2)
  have hp : ∀ i, ∃ πδ : Nat × Nat, i < n → pivind i = πδ.1 ∧ PivotLower n (fun _ => 0) (B i) πδ.1 πδ.2 := by
    intro i
    by_cases hi : i < n
    · obtain ⟨π, δ, h1, h2⟩ := hpiv i (hlt i hi)
      exact ⟨(π, δ), fun _ => ⟨h1, h2⟩⟩
    · exact ⟨(0, 0), fun h => absurd h hi⟩
  choose f hf using hp
  have hfin : ∀ i j, i < n → j < n → (f i).1 = (f j).1 → i = j := fun i j hi hj he => by
    rcases Nat.lt_trichotomy i j with h | h | h
    · exact absurd ((hf i hi).1.trans ((congrArg _ he).trans (hf j hj).1.symm)) (hinj i j h (hlt j hj))
    · exact h
    · exact absurd ((hf j hj).1.trans ((congrArg _ he.symm).trans (hf i hi).1.symm)) (hinj j i h (hlt i hi))
  -- the row with pivot i
  let g : Fin n → Fin n := fun k => ⟨(f k).1, (hf k k.2).2.lt⟩
  have hg : Function.Injective g := fun a b hab => Fin.ext (hfin a b a.2 b.2 (congrArg Fin.val hab))
  obtain ⟨k, hk⟩ := (Finite.injective_iff_surjective.1 hg) ⟨i, hi⟩
  have hk' : (f k).1 = i := congrArg Fin.val hk
  have hpk := (hf k k.2).2
  rw [hk'] at hpk
  refine ⟨fun l => U k l, (f k).2, ?_, ?_⟩
  · -- a row of `P` in which this row occurs
    let W : Matrix (Fin n) (Fin n) F[X] := U'.det • U'.adjugate
    have hW : P = W * M := by
      rw [hM, ← Matrix.mul_assoc, Matrix.smul_mul, adjugate_mul, smul_smul, hU', one_smul, Matrix.one_mul]
    have hWdet : W.det ≠ 0 := fun h0 => hD (by rw [hW, det_mul, h0, zero_mul])
    obtain ⟨l, hl⟩ : ∃ l, W l k ≠ 0 := by
      by_contra hcon
      push Not at hcon
      exact hWdet (det_eq_zero_of_column_eq_zero k hcon)
    obtain ⟨m, hm, -, hpm, hmax⟩ := comb_pivot (r := n) (n := n) (s := fun _ => 0) (M := B) (fun i hi => (hf i hi).2) hfin (ext fun k => W l k) (w := ext (P l))
      (fun j hj => by
        rw [show ext (P l) j = P l ⟨j, hj⟩ from ext_fin (P l) ⟨j, hj⟩, hW, mul_apply, Finset.sum_range]
        exact Finset.sum_congr rfl fun k _ => by rw [ext_fin]) k k.2 (by rw [ext_fin]; exact hl)
    have h1 := hmax k k.2 (by rw [ext_fin]; exact hl)
    have h2 := hpm.degree
    have h3 := hpm.lt
    rw [show ext (P l) (f m).1 = P l ⟨_, h3⟩ from ext_fin (P l) ⟨_, h3⟩] at h2
    have h4 := hP l ⟨_, h3⟩
    omega
  · have e : ∀ j, j < n → ext ((fun l : Fin n => U k l) ᵥ* P) j = B k j := fun j hj => by
      rw [hrow k ⟨j, hj⟩]
      exact ext_fin _ ⟨j, hj⟩
    refine ⟨hpk.lt, ?_, ?_, fun j hj => ?_, fun j hj => ?_⟩
    · rw [e i hi]; exact hpk.nonzero
    · rw [e i hi]; exact hpk.degree
    · rw [e j hj]; exact hpk.le j hj
    · rw [e j hj]; exact hpk.after j hj

/-! ### Approximants -/

/-- The two halves of `v` annihilate `S` and the identity. -/
def AnnV (S : Matrix (Fin n) (Fin n) (PowerSeries F)) (v : Nat → F[X]) : Prop := Ann S (fun l : Fin n => v l) fun j => v (n + j)

theorem AnnV.sum {ι : Type} (s : Finset ι) (c : ι → F[X]) (B : ι → Nat → F[X]) (h : ∀ i ∈ s, AnnV S (B i)) : AnnV S fun j => ∑ i ∈ s, c i * B i j := by
  intro j
  have e : ∑ l : Fin n, φ (∑ i ∈ s, c i * B i l) * S l j + φ (∑ i ∈ s, c i * B i (n + j)) =
      ∑ i ∈ s, φ (c i) * (∑ l : Fin n, φ (B i l) * S l j + φ (B i (n + j))) := by
    simp only [map_sum, map_mul, Finset.sum_mul, mul_add, Finset.sum_add_distrib, Finset.mul_sum]
    rw [Finset.sum_comm]
    congr 1
    exact Finset.sum_congr rfl fun i _ => Finset.sum_congr rfl fun l _ => by ring
  refine e.trans (Finset.sum_eq_zero fun i hi => ?_)
  rw [show ∑ l : Fin n, φ (B i l) * S l j + φ (B i (n + j)) = 0 from h i hi j, mul_zero]

theorem AnnV.sub {v w : Nat → F[X]} (hv : AnnV S v) (hw : AnnV S w) : AnnV S fun j => v j - w j := by
  intro j
  have h1 : ∑ l : Fin n, φ (v l) * S l j + φ (v (n + j)) = 0 := hv j
  have h2 : ∑ l : Fin n, φ (w l) * S l j + φ (w (n + j)) = 0 := hw j
  show ∑ l : Fin n, φ (v l - w l) * S l j + φ (v (n + j) - w (n + j)) = 0
  simp only [map_sub, sub_mul, Finset.sum_sub_distrib]
  linear_combination h1 - h2

theorem AnnV.congr {v w : Nat → F[X]} (hv : AnnV S v) (h : ∀ j, j < 2 * n → w j = v j) : AnnV S w := by
  intro j
  have h1 : ∑ l : Fin n, φ (v l) * S l j + φ (v (n + j)) = 0 := hv j
  show ∑ l : Fin n, φ (w l) * S l j + φ (w (n + j)) = 0
  rw [h (n + j) (by omega), Finset.sum_congr rfl fun (l : Fin n) _ => by rw [h l (by omega)]]
  exact h1

/-- The pivot of an annihilating vector is in the first half. -/
theorem Expansion.pivot_lt (h : Expansion d o P L H S) {v : Nat → F[X]} (hv : AnnV S v) {m δ : Nat} (hp : PivotLower (2 * n) (fun _ => 0) v m δ) : m < n := by
  by_contra hcon
  have hlt := hp.lt
  have e : n + (m - n) = m := by omega
  obtain ⟨l, hl0, hl⟩ := h.proper hv ⟨m - n, by omega⟩ (by show v (n + (m - n)) ≠ 0; rw [e]; exact hp.nonzero)
  have h1 := hp.le l (by omega) hl0
  have h2 := hp.degree
  have h3 : (v (n + (m - n))).natDegree < (v l).natDegree := hl
  rw [e] at h3
  omega

theorem Expansion.pivot_ext (h : Expansion d o P L H S) {v : Nat → F[X]} (hv : AnnV S v) {m δ : Nat} (hp : PivotLower n (fun _ => 0) v m δ) :
    PivotLower (2 * n) (fun _ => 0) v m δ := by
  have hb : ∀ j, n ≤ j → j < 2 * n → v j ≠ 0 → (v j).natDegree < δ := fun j hj hj2 hj0 => by
    have e : n + (j - n) = j := by omega
    obtain ⟨l, hl0, hl⟩ := h.proper hv ⟨j - n, by omega⟩ (by show v (n + (j - n)) ≠ 0; rw [e]; exact hj0)
    have h1 := hp.le l (by omega) hl0
    have h3 : (v (n + (j - n))).natDegree < (v l).natDegree := hl
    rw [e] at h3
    omega
  refine ⟨by have := hp.lt; omega, hp.nonzero, hp.degree, fun j hj hj0 => ?_, fun j hj hmj hj0 => ?_⟩
  · rcases Nat.lt_or_ge j n with hjn | hjn
    · exact hp.le j hjn hj0
    · have := hb j hjn hj hj0
      omega
  · rcases Nat.lt_or_ge j n with hjn | hjn
    · exact hp.after j hjn hmj hj0
    · have := hb j hjn hj hj0
      omega

/-- A vector made of two halves. -/
noncomputable def join (p r : Fin n → F[X]) : Nat → F[X] := fun j => if j < n then ext p j else ext r (j - n)

theorem join_left (p r : Fin n → F[X]) (l : Fin n) : join p r l = p l := by
  unfold join
  rw [if_pos l.2, ext_fin]

theorem join_right (p r : Fin n → F[X]) (l : Fin n) : join p r (n + l) = r l := by
  unfold join
  rw [if_neg (by omega), Nat.add_sub_cancel_left, ext_fin]

theorem annV_join {p r : Fin n → F[X]} (h : Ann S p r) : AnnV S (join p r) := by
  intro j
  have h1 := h j
  show ∑ l : Fin n, φ (join p r l) * S l j + φ (join p r (n + j)) = 0
  rw [join_right, Finset.sum_congr rfl fun (l : Fin n) _ => by rw [join_left]]
  exact h1

theorem coeff_agree {T : Matrix (Fin n) (Fin n) F[X]} {e : Nat} (hT : ∀ i j k, k < e → (T i j).coeff k = PowerSeries.coeff k (S i j)) (v : Nat → F[X]) (j : Fin n)
    (k : Nat) (hk : k < e) : (∑ l : Fin n, v l * T l j + v (n + j)).coeff k = PowerSeries.coeff k (∑ l : Fin n, φ (v l) * S l j + φ (v (n + j))) := by
  rw [coeff_add, map_add, finsetSum_coeff, map_sum]
  congr 1
  · refine Finset.sum_congr rfl fun l _ => ?_
    rw [coeff_mul, PowerSeries.coeff_mul]
    refine Finset.sum_congr rfl fun x hx => ?_
    have := Finset.mem_antidiagonal.1 hx
    rw [hT l j x.2 (by omega)]
    congr 1
    exact (Polynomial.coeff_coe _ _).symm
  · exact (Polynomial.coeff_coe _ _).symm

/-- A vector of small degree which annihilates `T` at order `2 d` annihilates `S`. -/
theorem Expansion.ann_of_small (h : Expansion d o P L H S) {T : Matrix (Fin n) (Fin n) F[X]} (hT : ∀ i j k, k < 2 * d → (T i j).coeff k = PowerSeries.coeff k (S i j))
    {v : Nat → F[X]} (hv : ∀ j : Fin n, X ^ (2 * d) ∣ ∑ l : Fin n, v l * T l j + v (n + j)) (h1 : ∀ l : Fin n, (v l).natDegree ≤ d)
    (h2 : ∀ l : Fin n, (v (n + l)).natDegree < d) : AnnV S v := by
  obtain ⟨R, hR, hRd⟩ := h.rem_left
  have hd := h.d1
  let w : Fin n → PowerSeries F := fun j => ∑ l : Fin n, φ (v l) * S l j + φ (v (n + j))
  have hw : ∀ j, PowerSeries.X ^ (2 * d) ∣ w j := fun j => by
    rw [PowerSeries.X_pow_dvd_iff]
    intro k hk
    rw [← coeff_agree hT v j k hk]
    exact X_pow_dvd_iff.1 (hv j) k hk
  let q : Fin n → F[X] := (fun l : Fin n => v l) ᵥ* R + (fun l : Fin n => v (n + l)) ᵥ* P
  have hq : w ᵥ* P.map φ = fun j => φ (q j) := by
    have e : w = (fun l : Fin n => φ (v l)) ᵥ* S + fun j : Fin n => φ (v (n + j)) := rfl
    rw [e, add_vecMul, vecMul_vecMul, hR]
    funext j
    show _ = φ (((fun l : Fin n => v l) ᵥ* R) j + ((fun l : Fin n => v (n + l)) ᵥ* P) j)
    rw [map_add, RingHom.map_vecMul, RingHom.map_vecMul]
    rfl
  have hq0 : ∀ j, q j = 0 := fun j => by
    ext k
    rw [coeff_zero]
    rcases Nat.lt_or_ge k (2 * d) with hk | hk
    · have h3 : PowerSeries.X ^ (2 * d) ∣ φ (q j) := by
        rw [← congrFun hq j]
        show _ ∣ ∑ l, w l * P.map φ l j
        exact Finset.dvd_sum fun l _ => Dvd.dvd.mul_right (hw l) _
      exact (Polynomial.coeff_coe _ _).symm.trans (PowerSeries.X_pow_dvd_iff.1 h3 k hk)
    · refine coeff_eq_zero_of_natDegree_lt (lt_of_le_of_lt ?_ (show 2 * d - 1 < k by omega))
      refine le_trans (natDegree_add_le _ _) (max_le ?_ ?_)
      · show (∑ l : Fin n, v l * R l j).natDegree ≤ _
        refine natDegree_sum_le_of_forall_le _ _ fun l _ => le_trans natDegree_mul_le ?_
        have a1 := h1 l
        have a2 := hRd l j
        show (v l).natDegree + (R l j).natDegree ≤ _
        omega
      · show (∑ l : Fin n, v (n + l) * P l j).natDegree ≤ _
        refine natDegree_sum_le_of_forall_le _ _ fun l _ => le_trans natDegree_mul_le ?_
        have a1 := h2 l
        have a2 := h.deg l j
        show (v (n + l)).natDegree + (P l j).natDegree ≤ _
        omega
  have hw0 : w = 0 := by
    have e : w ᵥ* P.map φ = 0 := by
      rw [hq]
      funext j
      rw [hq0, map_zero]
      rfl
    have e2 := congrArg (fun x => x ᵥ* H) e
    rw [vecMul_vecMul, h.right, vecMul_one, zero_vecMul] at e2
    exact e2
  exact fun j => congrFun hw0 j

/-- The top left block is a reduced basis of the rows of `P`. -/
theorem core (h : Expansion d o P L H S) {T : Matrix (Fin n) (Fin n) F[X]} (hT : ∀ i j k, k < 2 * d → (T i j).coeff k = PowerSeries.coeff k (S i j))
    {B : Nat → Nat → F[X]} {t : Nat → Nat} (hB : ∀ i, i < 2 * n → PivotLower (2 * n) (fun _ => 0) (B i) i (t i))
    (hmem : ∀ v : Nat → F[X], (∀ j : Fin n, X ^ (2 * d) ∣ ∑ l : Fin n, v l * T l j + v (n + j)) ↔
      ∃ c : Nat → F[X], ∀ j, j < 2 * n → v j = ∑ i ∈ Finset.range (2 * n), c i * B i j) :
    (∀ i, i < n → PivotLower n (fun _ => 0) (B i) i (t i) ∧ t i ≤ d) ∧
      ∃ U W : Matrix (Fin n) (Fin n) F[X], U * W = 1 ∧ W * U = 1 ∧ (Matrix.of fun i j : Fin n => B i j) = U * P := by
  have hann : ∀ v, AnnV S v → ∃ c : Nat → F[X], ∀ j, j < 2 * n → v j = ∑ i ∈ Finset.range (2 * n), c i * B i j := fun v hv => (hmem v).1 fun j => by
    rw [X_pow_dvd_iff]
    intro k hk
    rw [coeff_agree hT v j k hk]
    rw [show ∑ l : Fin n, φ (v l) * S l j + φ (v (n + j)) = 0 from hv j, map_zero]
  have hd := h.d1
  -- degrees of the first rows
  have ht : ∀ i, i < n → t i ≤ d := fun i hi => by
    obtain ⟨u, δ, hδ, hp⟩ := exists_pivot P h.deg h.det_ne i hi
    obtain ⟨r, hr⟩ := h.ann u
    have ha := annV_join hr
    have hp' : PivotLower n (fun _ => 0) (join (u ᵥ* P) r) i δ := by
      have e : ∀ j, j < n → join (u ᵥ* P) r j = ext (u ᵥ* P) j := fun j hj => if_pos hj
      refine ⟨hi, ?_, ?_, fun j hj => ?_, fun j hj => ?_⟩
      · rw [e i hi]; exact hp.nonzero
      · rw [e i hi]; exact hp.degree
      · rw [e j hj]; exact hp.le j hj
      · rw [e j hj]; exact hp.after j hj
    have hpp := h.pivot_ext ha hp'
    obtain ⟨c, hc⟩ := hann _ ha
    obtain ⟨i0, hi0, hc0⟩ : ∃ i0, i0 < 2 * n ∧ c i0 ≠ 0 := by
      by_contra hcon
      push Not at hcon
      refine hpp.nonzero ?_
      rw [hc i (by omega)]
      exact Finset.sum_eq_zero fun k hk => by rw [hcon k (Finset.mem_range.1 hk), zero_mul]
    obtain ⟨m, hm, -, hpm, -⟩ := comb_pivot hB (fun _ _ _ _ e => e) c hc i0 hi0 hc0
    obtain ⟨e1, e2⟩ := pivot_unique hpp hpm
    subst e1
    omega
  -- the first rows annihilate `S`
  have hBa : ∀ i, i < n → AnnV S (B i) := fun i hi => by
    have hp := hB i (by omega)
    refine h.ann_of_small hT ((hmem (B i)).2 ⟨fun k => if k = i then 1 else 0, fun j _ => ?_⟩) (fun l => ?_) fun l => ?_
    · dsimp only
      rw [Finset.sum_eq_single i (fun k _ hk => by rw [if_neg hk, zero_mul]) fun hh => absurd (Finset.mem_range.2 (by omega)) hh, if_pos rfl, one_mul]
    · by_cases h0 : B i l = 0
      · rw [h0, natDegree_zero]; exact Nat.zero_le _
      have h1 := hp.le l (by omega) h0
      have := ht i hi
      omega
    · by_cases h0 : B i (n + l) = 0
      · rw [h0, natDegree_zero]; exact hd
      have h1 := hp.after (n + l) (by omega) (by omega) h0
      have := ht i hi
      omega
  refine ⟨fun i hi => ⟨?_, ht i hi⟩, ?_⟩
  · have hp := hB i (by omega)
    exact ⟨hi, hp.nonzero, hp.degree, fun j hj => hp.le j (by omega), fun j hj => hp.after j (by omega)⟩
  -- the rows of `P` are combinations of the first rows
  have hrows : ∀ k : Fin n, ∃ c : Fin n → F[X], ∀ j : Fin n, P k j = ∑ i : Fin n, c i * B i j := fun k => by
    obtain ⟨r, hr⟩ := h.ann (Pi.single k 1)
    rw [single_one_vecMul, show P.row k = P k from rfl] at hr
    have ha := annV_join hr
    obtain ⟨c, hc⟩ := hann _ ha
    have hsplit : ∀ j, ∑ i ∈ Finset.range (2 * n), c i * B i j = ∑ i ∈ Finset.range n, c i * B i j + ∑ i ∈ Finset.range (2 * n), (if i < n then 0 else c i) * B i j := fun j => by
      rw [show 2 * n = n + n by omega, Finset.sum_range_add, Finset.sum_range_add (fun i => (if i < n then 0 else c i) * B i j)]
      rw [Finset.sum_eq_zero (s := Finset.range n) (f := fun i => (if i < n then 0 else c i) * B i j) fun i hi => by rw [if_pos (Finset.mem_range.1 hi), zero_mul], zero_add]
      congr 1
      exact Finset.sum_congr rfl fun i _ => by rw [if_neg (by omega)]
    have ha2 : AnnV S fun j => ∑ i ∈ Finset.range (2 * n), (if i < n then 0 else c i) * B i j := by
      refine (ha.sub (AnnV.sum (Finset.range n) c B fun i hi => hBa i (Finset.mem_range.1 hi))).congr fun j hj => ?_
      rw [hc j hj, hsplit j]
      ring
    have hc0 : ∀ i, n ≤ i → i < 2 * n → c i = 0 := fun i hi hi2 => by
      by_contra hne
      obtain ⟨m, hm, hm0, hpm, -⟩ := comb_pivot hB (fun _ _ _ _ e => e) (fun i => if i < n then 0 else c i)
        (w := fun j => ∑ i ∈ Finset.range (2 * n), (if i < n then 0 else c i) * B i j) (fun j _ => rfl) i hi2 (by rw [if_neg (by omega)]; exact hne)
      have := h.pivot_lt ha2 hpm
      exact hm0 (if_pos this)
    refine ⟨fun i => c i, fun j => ?_⟩
    rw [← join_left (P k) r j, hc j (by omega), hsplit j, Finset.sum_eq_zero (s := Finset.range (2 * n)) fun i hi => ?_, add_zero, Finset.sum_range]
    by_cases hin : i < n
    · rw [if_pos hin, zero_mul]
    · rw [if_neg hin, hc0 i (by omega) (Finset.mem_range.1 hi), zero_mul]
  choose W hW using hrows
  have hU : ∀ i : Fin n, ∃ u : Fin n → F[X], (fun l : Fin n => B i l) = u ᵥ* P := fun i => h.mem (hBa i i.2)
  choose U hU using hU
  have e1 : (Matrix.of fun i j : Fin n => B i j) = (Matrix.of U) * P := by
    ext1 i j
    exact congrFun (hU i) j
  have e2 : P = (Matrix.of W) * (Matrix.of fun i j : Fin n => B i j) := by
    ext1 i j
    exact hW i j
  have e3 : (Matrix.of W) * (Matrix.of U) = 1 := by
    have e4 : ((Matrix.of W) * (Matrix.of U) - 1) * P = 0 := by
      rw [Matrix.sub_mul, Matrix.one_mul, Matrix.mul_assoc, ← e1, ← e2, sub_self]
    have e5 := congrArg (fun M => M * P.adjugate) e4
    rw [Matrix.mul_assoc, mul_adjugate, Matrix.zero_mul, Matrix.mul_smul, Matrix.mul_one] at e5
    exact sub_eq_zero.1 ((smul_eq_zero.1 e5).resolve_left h.det_ne)
  exact ⟨_, _, mul_eq_one_comm.1 e3, e3, e1⟩

end PML.Ntl.Reduce
