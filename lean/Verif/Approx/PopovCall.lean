import Verif.Approx.Orders
import Mathlib.Algebra.Polynomial.Degree.Lemmas

/-!
# Popov form by a second call, and the determinant of reduced matrices
-/

namespace PML.Approx

open Polynomial Matrix Spec

variable {K : Type} [Field K] {m : Nat}

/-! ### Coefficients indexed by integers -/

/-- The coefficient of degree `d`, zero for a negative `d`. -/
noncomputable def zcoeff (p : K[X]) (d : Int) : K := if d < 0 then 0 else p.coeff d.toNat

/-- `p` has degree at most `d`, possibly negative. -/
def ZLE (p : K[X]) (d : Int) : Prop := ∀ k : Nat, d < k → p.coeff k = 0

theorem ZLE.zero_of_neg {p : K[X]} {d : Int} (h : ZLE p d) (hd : d < 0) : p = 0 := by
  ext k; rw [coeff_zero]; exact h k (by omega)

theorem zcoeff_zero (d : Int) : zcoeff (0 : K[X]) d = 0 := by unfold zcoeff; split_ifs <;> simp

theorem ZLE.mul {p q : K[X]} {a b : Int} (hp : ZLE p a) (hq : ZLE q b) :
    ZLE (p * q) (a + b) ∧ zcoeff (p * q) (a + b) = zcoeff p a * zcoeff q b := by
  by_cases ha : a < 0
  · rw [hp.zero_of_neg ha, zero_mul, zcoeff_zero, zcoeff_zero, zero_mul]
    exact ⟨fun k _ => coeff_zero k, rfl⟩
  by_cases hb : b < 0
  · rw [hq.zero_of_neg hb, mul_zero, zcoeff_zero, zcoeff_zero, mul_zero]
    exact ⟨fun k _ => coeff_zero k, rfl⟩
  have h1 : p.natDegree ≤ a.toNat := natDegree_le_iff_coeff_eq_zero.2 fun k hk => hp k (by omega)
  have h2 : q.natDegree ≤ b.toNat := natDegree_le_iff_coeff_eq_zero.2 fun k hk => hq k (by omega)
  constructor
  · intro k hk
    exact coeff_eq_zero_of_natDegree_lt (lt_of_le_of_lt (natDegree_mul_le_of_le h1 h2) (by omega))
  · unfold zcoeff
    rw [if_neg (by omega), if_neg ha, if_neg hb, show (a + b).toNat = a.toNat + b.toNat by omega]
    exact coeff_mul_add_eq_of_natDegree_le h1 h2

theorem ZLE.prod {ι : Type} [DecidableEq ι] (S : Finset ι) (p : ι → K[X]) (b : ι → Int) (h : ∀ i, ZLE (p i) (b i)) :
    ZLE (∏ i ∈ S, p i) (∑ i ∈ S, b i) ∧ zcoeff (∏ i ∈ S, p i) (∑ i ∈ S, b i) = ∏ i ∈ S, zcoeff (p i) (b i) := by
  induction S using Finset.induction_on with
  | empty =>
    simp only [Finset.prod_empty, Finset.sum_empty]
    refine ⟨fun k hk => ?_, ?_⟩
    · rw [coeff_one, if_neg (by omega)]
    · unfold zcoeff; simp
  | insert i S hi ih =>
    rw [Finset.prod_insert hi, Finset.sum_insert hi, Finset.prod_insert hi]
    have := (h i).mul ih.1
    exact ⟨this.1, by rw [this.2, ih.2]⟩

/-- Degree of a determinant, and its coefficient of largest possible degree. -/
theorem det_zcoeff (P : Matrix (Fin m) (Fin m) K[X]) (s d : Fin m → Int) (h : ∀ i j, DegLE (s j) (P i j) (d i)) :
    ZLE P.det (∑ i, d i - ∑ i, s i) ∧
      zcoeff P.det (∑ i, d i - ∑ i, s i) = (Matrix.of fun i j => zcoeff (P i j) (d i - s j)).det := by
  have hz : ∀ i j, ZLE (P i j) (d i - s j) := fun i j k hk => h i j k (by omega)
  have hsum : ∀ σ : Equiv.Perm (Fin m), ∑ i, (d (σ i) - s i) = ∑ i, d i - ∑ i, s i := by
    intro σ
    rw [Finset.sum_sub_distrib, Equiv.sum_comp σ d]
  have key : ∀ σ : Equiv.Perm (Fin m), ZLE (∏ i, P (σ i) i) (∑ i, d i - ∑ i, s i) ∧
      zcoeff (∏ i, P (σ i) i) (∑ i, d i - ∑ i, s i) = ∏ i, zcoeff (P (σ i) i) (d (σ i) - s i) := by
    intro σ
    rw [← hsum σ]
    exact ZLE.prod Finset.univ (fun i => P (σ i) i) (fun i => d (σ i) - s i) fun i => hz _ _
  have hc : ∀ k : Nat, P.det.coeff k = ∑ σ : Equiv.Perm (Fin m), ((Equiv.Perm.sign σ : ℤ) : K) * (∏ i, P (σ i) i).coeff k := by
    intro k
    rw [det_apply', finsetSum_coeff]
    refine Finset.sum_congr rfl fun σ _ => ?_
    rw [← C_eq_intCast, coeff_C_mul]
  refine ⟨fun k hk => ?_, ?_⟩
  · rw [hc]
    exact Finset.sum_eq_zero fun σ _ => by rw [(key σ).1 k hk, mul_zero]
  · have hlin : zcoeff P.det (∑ i, d i - ∑ i, s i) =
        ∑ σ : Equiv.Perm (Fin m), ((Equiv.Perm.sign σ : ℤ) : K) * zcoeff (∏ i, P (σ i) i) (∑ i, d i - ∑ i, s i) := by
      unfold zcoeff
      split_ifs with hneg
      · simp
      · exact hc _
    rw [hlin, det_apply']
    exact Finset.sum_congr rfl fun σ _ => by rw [(key σ).2]; rfl

/-! ### Two bases of the same module -/

theorem GenBy.rows {N : (Fin m → K[X]) → Prop} {P : Matrix (Fin m) (Fin m) K[X]} (h : GenBy N P) (i : Fin m) : N (P i) :=
  (h _).2 ⟨Pi.single i 1, by rw [Matrix.single_one_vecMul]; rfl⟩

theorem GenBy.factor {N : (Fin m → K[X]) → Prop} {P R : Matrix (Fin m) (Fin m) K[X]} (hP : GenBy N P) (hR : GenBy N R) :
    ∃ U : Matrix (Fin m) (Fin m) K[X], R = U * P := by
  have : ∀ i, ∃ u : Fin m → K[X], R i = u ᵥ* P := fun i => (hP _).1 (hR.rows i)
  choose U hU using this
  refine ⟨Matrix.of U, Matrix.ext fun i l => ?_⟩
  exact congrFun (hU i) l

theorem GenBy.det_natDegree {N : (Fin m → K[X]) → Prop} {P R : Matrix (Fin m) (Fin m) K[X]} (hP : GenBy N P)
    (hR : GenBy N R) : P.det.natDegree = R.det.natDegree := by
  obtain ⟨U, hU⟩ := hP.factor hR
  obtain ⟨V, hV⟩ := hR.factor hP
  have h1 : P.det ∣ R.det := ⟨U.det, by rw [hU, det_mul, mul_comm]⟩
  have h2 : R.det ∣ P.det := ⟨V.det, by rw [hV, det_mul, mul_comm]⟩
  exact natDegree_eq_of_degree_eq (degree_eq_degree_of_associated (associated_of_dvd_dvd h1 h2))

/-- A constant invertible transformation. -/
theorem GenBy.const {N : (Fin m → K[X]) → Prop} {R Q : Matrix (Fin m) (Fin m) K[X]} (hR : GenBy N R)
    (W L : Matrix (Fin m) (Fin m) K) (hWL : L * W = 1) (hQ : Q = W.map C * R) : GenBy N Q := by
  have h2 : L.map C * Q = R := by
    rw [hQ, ← Matrix.mul_assoc, ← Matrix.map_mul, hWL]
    simp
  intro v
  rw [hR v]
  constructor
  · rintro ⟨u, rfl⟩
    exact ⟨u ᵥ* L.map C, by rw [Matrix.vecMul_vecMul, h2]⟩
  · rintro ⟨u, rfl⟩
    exact ⟨u ᵥ* W.map C, by rw [Matrix.vecMul_vecMul, ← hQ]⟩

/-- The shifted degrees of the rows of a basis that is minimal for the shift "minus the pivot degrees" are zero. -/
theorem second_zero {N : (Fin m → K[X]) → Prop} {P R : Matrix (Fin m) (Fin m) K[X]} {s t t' : Fin m → Int}
    (hP : GenBy N P) (hR : GenBy N R) (pP : Pivots s P t id) (pR : Pivots (fun i => s i - t i) R t' id) (i : Fin m) :
    t' i = 0 := by
  have hge : ∀ i, 0 ≤ t' i := by
    intro i
    have hne : R i ≠ 0 := (pR.row i).ne_zero
    obtain ⟨u, hu⟩ := (hP _).1 (hR.rows i)
    obtain ⟨D, π, hD⟩ := exists_hasPivot s (R i) hne
    obtain ⟨k, hk, _, hle⟩ := pP.of_mem (u := u) (by rw [← hu]; exact hD)
    have hk' : k = π := hk
    subst hk'
    by_contra hneg
    refine hD.lead ((pR.row i).le k _ ?_)
    have := hD.ge
    show t' i < ((D - s k).toNat : Int) + (s k - t k)
    omega
  have h1 := (PML.Kernel.Pivots.det pP).2
  have h2 := (PML.Kernel.Pivots.det pR).2
  have h3 := hP.det_natDegree hR
  have e1 : (P.submatrix id id) = P := rfl
  have e2 : (R.submatrix id id) = R := rfl
  rw [e1] at h1
  rw [e2, ← h3, h1] at h2
  have h4 : ∑ i, t' i = 0 := by
    simp only [id] at h2
    rw [Finset.sum_sub_distrib, Finset.sum_sub_distrib, Finset.sum_sub_distrib] at h2
    linarith
  exact (Finset.sum_eq_zero_iff_of_nonneg fun i _ => hge i).1 h4 i (Finset.mem_univ i)

/-- The leading matrix of the second basis. -/
noncomputable def lead (s t : Fin m → Int) (R : Matrix (Fin m) (Fin m) K[X]) : Matrix (Fin m) (Fin m) K :=
  Matrix.of fun i j => (R i j).coeff (t j - s j).toNat

theorem lead_det {R : Matrix (Fin m) (Fin m) K[X]} {s t : Fin m → Int} (hst : ∀ i, s i ≤ t i)
    (pR : Pivots (fun i => s i - t i) R (fun _ => 0) id) : (lead s t R).det ≠ 0 := by
  have htri : (lead s t R).BlockTriangular OrderDual.toDual := by
    intro i j hij
    have hlt : i < j := hij
    refine (pR.row i).after j hlt _ ?_
    have := hst j
    show (0 : Int) - 1 < ((t j - s j).toNat : Int) + (s j - t j)
    omega
  rw [Matrix.det_of_isLowerTriangular _ htri]
  refine Finset.prod_ne_zero_iff.2 fun i _ => ?_
  have := (pR.row i).lead
  rw [show (0 - (s (id i) - t (id i)) : Int) = t i - s i by simp] at this
  exact this

/-- The inverse of the leading matrix gives the shifted Popov basis. -/
theorem popov_of_second {N : (Fin m → K[X]) → Prop} {P R Q : Matrix (Fin m) (Fin m) K[X]} {s t : Fin m → Int}
    (hP : GenBy N P) (hR : GenBy N R) (pP : Pivots s P t id) (pR : Pivots (fun i => s i - t i) R (fun _ => 0) id)
    (W : Matrix (Fin m) (Fin m) K) (hW : W * lead s t R = 1) (hQ : Q = W.map C * R) :
    GenBy N Q ∧ Pivots s Q t id ∧ (∀ i, (Q i i).Monic ∧ ((Q i i).natDegree : Int) = t i - s i) ∧
      ∀ i k, k ≠ i → (Q k i).degree < (Q i i).degree := by
  have hst : ∀ i, s i ≤ t i := fun i => (pP.row i).ge
  have hgen : GenBy N Q := hR.const W (lead s t R) (mul_eq_one_comm.1 hW) hQ
  have hcoef : ∀ i j k, (Q i j).coeff k = ∑ l, W i l * (R l j).coeff k := by
    intro i j k
    rw [hQ, Matrix.mul_apply, finsetSum_coeff]
    exact Finset.sum_congr rfl fun l _ => by rw [Matrix.map_apply, coeff_C_mul]
  have habove : ∀ i j (k : Nat), t j - s j < k → (Q i j).coeff k = 0 := by
    intro i j k hk
    rw [hcoef]
    refine Finset.sum_eq_zero fun l _ => ?_
    rw [(pR.row l).le j k (by show (0 : Int) < k + (s j - t j); omega), mul_zero]
  have hat : ∀ i j, (Q i j).coeff (t j - s j).toNat = if i = j then 1 else 0 := by
    intro i j
    rw [hcoef]
    have := congrFun (congrFun hW i) j
    rw [Matrix.mul_apply, Matrix.one_apply] at this
    exact this
  have hdeg : ∀ i, (Q i i).natDegree = (t i - s i).toNat := by
    intro i
    apply le_antisymm
    · exact natDegree_le_iff_coeff_eq_zero.2 fun k hk => habove i i k (by have := hst i; omega)
    · exact le_natDegree_of_ne_zero (by rw [hat, if_pos rfl]; exact one_ne_zero)
  have hmonic : ∀ i, (Q i i).Monic := by
    intro i
    show (Q i i).coeff (Q i i).natDegree = 1
    rw [hdeg, hat, if_pos rfl]
  have hoff : ∀ i k, k ≠ i → ∀ e : Nat, t i - s i ≤ e → (Q k i).coeff e = 0 := by
    intro i k hki e he
    by_cases h : t i - s i = e
    · have := hat k i
      rw [if_neg hki] at this
      rwa [h, Int.toNat_natCast] at this
    · exact habove k i e (by omega)
  refine ⟨hgen, ⟨fun i => ?_, strictMono_id⟩, fun i => ⟨hmonic i, by rw [hdeg]; have := hst i; omega⟩, fun i k hki => ?_⟩
  · -- the pivot of row `i`
    have hne : Q i ≠ 0 := by
      intro e
      have := hmonic i
      rw [e] at this
      exact not_monic_zero this
    obtain ⟨D, π, hD⟩ := exists_hasPivot s (Q i) hne
    obtain ⟨u, hu⟩ := (hP _).1 (hgen.rows i)
    obtain ⟨k, hk, _, hle⟩ := pP.of_mem (u := u) (by rw [← hu]; exact hD)
    have hk' : k = π := hk
    subst hk'
    have hki : k = i := by
      by_contra hne
      have := hst k
      exact hD.lead (hoff k i (fun e => hne e.symm) _ (by omega))
    subst hki
    have hDt : D = t k := by
      by_contra hne
      have := hst k
      exact hD.lead (habove k k _ (by omega))
    subst hDt
    exact hD
  · have hb : (Q i i).degree = ((t i - s i).toNat : WithBot Nat) := by
      rw [degree_eq_natDegree (hmonic i).ne_zero, hdeg]
    rw [hb, degree_lt_iff_coeff_zero]
    exact fun e he => hoff i k hki e (by have := hst i; omega)

end PML.Approx
