import Verif.Approx.Theory
import Verif.Approx.Pivot
import Verif.Approx.SpecOrders
import Verif.Kernel.Theory
import Mathlib.LinearAlgebra.Matrix.NonsingularInverse

/-!
# Approximant bases with one order per column
(ntl-extras/mat_lzz_pX_extra/mat_lzz_pX_approximant.h)

One step of the iterative algorithm; existence of bases; characterization of bases by the determinant and
a rank (used by the verification); Popov form from two calls.
-/

namespace PML.Approx

open Polynomial Matrix Spec

variable {K : Type} [Field K] {m n : Nat}

/-- The rows of `P` generate the vectors in `N`. -/
def GenBy (N : (Fin m → K[X]) → Prop) (P : Matrix (Fin m) (Fin m) K[X]) : Prop :=
  ∀ v, N v ↔ ∃ u : Fin m → K[X], v = u ᵥ* P

theorem vecMul_row {k : Nat} (u : Fin k → K[X]) (P : Matrix (Fin k) (Fin m) K[X]) :
    u ᵥ* P = ∑ i, u i • P i := by
  funext l
  rw [Finset.sum_apply]
  rfl

/-- One elimination: `lam` is a functional on the module which turns multiplication by a polynomial into
    multiplication by its value at `a`; the rows of the new matrix generate its kernel. -/
theorem GenBy.step {N : (Fin m → K[X]) → Prop} {P P' : Matrix (Fin m) (Fin m) K[X]} (h : GenBy N P)
    (lam : (Fin m → K[X]) → K) (a : K) (r : Fin m → K)
    (hlam : ∀ u, lam (u ᵥ* P) = ∑ i, (u i).eval a * r i)
    (piv : Fin m) (hpiv : r piv ≠ 0)
    (htop : P' piv = (X - C a) • P piv)
    (hbot : ∀ i, i ≠ piv → P' i = P i + C (-(r i) / r piv) • P piv) :
    GenBy (fun v => N v ∧ lam v = 0) P' := by
  classical
  have hsum : ∀ u : Fin m → K[X], u ᵥ* P = ∑ i, u i • P i := fun u => vecMul_row u P
  have hsum' : ∀ w : Fin m → K[X], w ᵥ* P' = w piv • P' piv + ∑ i ∈ Finset.univ.erase piv, w i • P' i := fun w => by
    rw [vecMul_row, ← Finset.add_sum_erase _ _ (Finset.mem_univ piv)]
  intro v
  constructor
  · rintro ⟨hv, hl⟩
    obtain ⟨u, rfl⟩ := (h v).1 hv
    rw [hlam] at hl
    -- the coefficient of row `piv`
    have hroot : IsRoot (u piv - ∑ i ∈ Finset.univ.erase piv, C (-(r i) / r piv) * u i) a := by
      show eval a _ = 0
      rw [eval_sub, eval_finsetSum]
      rw [← Finset.add_sum_erase _ _ (Finset.mem_univ piv)] at hl
      have e : ∑ i ∈ Finset.univ.erase piv, eval a (C (-(r i) / r piv) * u i) =
          -(∑ i ∈ Finset.univ.erase piv, (u i).eval a * r i) / r piv := by
        rw [neg_div, div_eq_mul_inv, Finset.sum_mul, ← Finset.sum_neg_distrib]
        refine Finset.sum_congr rfl fun i _ => ?_
        rw [eval_mul, eval_C]
        ring
      rw [e, eq_neg_of_add_eq_zero_right hl]
      field_simp
      ring
    obtain ⟨w, hw⟩ := dvd_iff_isRoot.2 hroot
    refine ⟨fun i => if i = piv then w else u i, ?_⟩
    rw [hsum', hsum, ← Finset.add_sum_erase _ _ (Finset.mem_univ piv), if_pos rfl, htop, smul_smul,
      mul_comm w, ← hw]
    have e : ∀ i ∈ Finset.univ.erase piv, (if i = piv then w else u i) • P' i =
        u i • P i + (C (-(r i) / r piv) * u i) • P piv := by
      intro i hi
      have hne := Finset.ne_of_mem_erase hi
      rw [if_neg hne, hbot i hne, smul_add, smul_smul, mul_comm (u i)]
    rw [Finset.sum_congr rfl e, Finset.sum_add_distrib, ← Finset.sum_smul, sub_smul]
    abel
  · rintro ⟨w, rfl⟩
    have e : w ᵥ* P' = (fun i => if i = piv then (X - C a) * w piv + ∑ k ∈ Finset.univ.erase piv,
        C (-(r k) / r piv) * w k else w i) ᵥ* P := by
      rw [hsum', hsum, ← Finset.add_sum_erase _ _ (Finset.mem_univ piv), if_pos rfl, htop]
      have e1 : ∀ i ∈ Finset.univ.erase piv, w i • P' i = w i • P i + (C (-(r i) / r piv) * w i) • P piv := by
        intro i hi
        rw [hbot i (Finset.ne_of_mem_erase hi), smul_add, smul_smul, mul_comm (w i)]
      have e2 : ∀ i ∈ Finset.univ.erase piv, (if i = piv then (X - C a) * w piv + ∑ k ∈ Finset.univ.erase piv,
        C (-(r k) / r piv) * w k else w i) • P i = w i • P i := by
        intro i hi
        rw [if_neg (Finset.ne_of_mem_erase hi)]
      rw [Finset.sum_congr rfl e1, Finset.sum_congr rfl e2, Finset.sum_add_distrib, ← Finset.sum_smul,
        add_smul, smul_smul, mul_comm (w piv)]
      abel
    refine ⟨(h _).2 ⟨_, e⟩, ?_⟩
    rw [e, hlam, ← Finset.add_sum_erase _ _ (Finset.mem_univ piv), if_pos rfl]
    have e2 : ∀ i ∈ Finset.univ.erase piv, eval a (if i = piv then (X - C a) * w piv +
        ∑ k ∈ Finset.univ.erase piv, C (-(r k) / r piv) * w k else w i) * r i = (w i).eval a * r i := by
      intro i hi
      rw [if_neg (Finset.ne_of_mem_erase hi)]
    rw [Finset.sum_congr rfl e2, eval_add, eval_mul, eval_sub, eval_X, eval_C, sub_self, zero_mul, zero_add,
      eval_finsetSum, Finset.sum_mul, ← Finset.sum_add_distrib]
    refine Finset.sum_eq_zero fun i _ => ?_
    rw [eval_mul, eval_C]
    field_simp
    ring

/-- No elimination: the functional is zero on the module. -/
theorem GenBy.skip {N : (Fin m → K[X]) → Prop} {P : Matrix (Fin m) (Fin m) K[X]} (h : GenBy N P)
    (lam : (Fin m → K[X]) → K) (a : K) (r : Fin m → K)
    (hlam : ∀ u, lam (u ᵥ* P) = ∑ i, (u i).eval a * r i) (hr : ∀ i, r i = 0) :
    GenBy (fun v => N v ∧ lam v = 0) P := by
  intro v
  constructor
  · exact fun hv => (h v).1 hv.1
  · rintro ⟨u, rfl⟩
    refine ⟨(h _).2 ⟨u, rfl⟩, ?_⟩
    rw [hlam]
    exact Finset.sum_eq_zero fun i _ => by rw [hr, mul_zero]

/-! ### Approximants -/

theorem genBy_zero (F : Matrix (Fin m) (Fin n) K[X]) (o : Fin n → Nat) (ho : ∀ j, o j = 0) :
    GenBy (IsApproximantO F o) 1 := by
  intro v
  constructor
  · exact fun _ => ⟨v, by simp⟩
  · intro _ j
    rw [ho j, pow_zero]
    exact one_dvd _

theorem GenBy.sound {F : Matrix (Fin m) (Fin n) K[X]} {o : Fin n → Nat} {P : Matrix (Fin m) (Fin m) K[X]}
    (h : GenBy (IsApproximantO F o) P) (i : Fin m) (j : Fin n) : X ^ o j ∣ (P * F) i j := by
  have := (h (P i)).2 ⟨Pi.single i 1, by rw [Matrix.single_one_vecMul]; rfl⟩ j
  exact this

/-- The coefficient of degree `o j` of `(v * F)[j]`, for the vectors generated by `P`. -/
theorem coeff_combination {F : Matrix (Fin m) (Fin n) K[X]} {o : Fin n → Nat}
    {P : Matrix (Fin m) (Fin m) K[X]} (h : ∀ i j, X ^ o j ∣ (P * F) i j) (j : Fin n) (u : Fin m → K[X]) :
    (((u ᵥ* P) ᵥ* F) j).coeff (o j) = ∑ i, (u i).eval 0 * ((P * F) i j).coeff (o j) := by
  rw [Matrix.vecMul_vecMul]
  show (∑ i, u i * (P * F) i j).coeff (o j) = _
  rw [finsetSum_coeff]
  refine Finset.sum_congr rfl fun i _ => ?_
  obtain ⟨q, hq⟩ := h i j
  rw [hq, mul_left_comm, coeff_X_pow_mul', if_pos (le_refl _), coeff_X_pow_mul', if_pos (le_refl _), Nat.sub_self,
    mul_coeff_zero, coeff_zero_eq_eval_zero]

theorem approximantO_update (F : Matrix (Fin m) (Fin n) K[X]) (o : Fin n → Nat) (j : Fin n) (v : Fin m → K[X]) :
    IsApproximantO F (Function.update o j (o j + 1)) v ↔
      IsApproximantO F o v ∧ ((v ᵥ* F) j).coeff (o j) = 0 := by
  constructor
  · intro h
    refine ⟨fun k => ?_, ?_⟩
    · by_cases hk : k = j
      · subst hk
        have := h k
        rw [Function.update_self] at this
        exact dvd_trans (pow_dvd_pow X (Nat.le_succ _)) this
      · have := h k
        rwa [Function.update_of_ne hk] at this
    · have := h j
      rw [Function.update_self] at this
      exact X_pow_dvd_iff.1 this _ (Nat.lt_succ_self _)
  · rintro ⟨h1, h2⟩ k
    by_cases hk : k = j
    · subst hk
      rw [Function.update_self, X_pow_dvd_iff]
      intro d hd
      by_cases e : d = o k
      · rw [e]; exact h2
      · exact X_pow_dvd_iff.1 (h1 k) d (by omega)
    · rw [Function.update_of_ne hk]
      exact h1 k

/-- One step of the iterative algorithm on column `j`. -/
theorem approx_step {F : Matrix (Fin m) (Fin n) K[X]} {o : Fin n → Nat} {P P' : Matrix (Fin m) (Fin m) K[X]}
    (h : GenBy (IsApproximantO F o) P) (j : Fin n) (piv : Fin m)
    (hpiv : ((P * F) piv j).coeff (o j) ≠ 0)
    (htop : ∀ l, P' piv l = X * P piv l)
    (hbot : ∀ i, i ≠ piv → ∀ l, P' i l = P i l +
      C (-((P * F) i j).coeff (o j) / ((P * F) piv j).coeff (o j)) * P piv l) :
    GenBy (IsApproximantO F (Function.update o j (o j + 1))) P' := by
  have := GenBy.step h (fun v => ((v ᵥ* F) j).coeff (o j)) 0 (fun i => ((P * F) i j).coeff (o j))
    (fun u => coeff_combination h.sound j u) piv hpiv (by funext l; simpa using htop l)
    (fun i hi => by funext l; simpa using hbot i hi l)
  intro v
  rw [approximantO_update]
  exact this v

theorem approx_skip {F : Matrix (Fin m) (Fin n) K[X]} {o : Fin n → Nat} {P : Matrix (Fin m) (Fin m) K[X]}
    (h : GenBy (IsApproximantO F o) P) (j : Fin n) (hz : ∀ i, ((P * F) i j).coeff (o j) = 0) :
    GenBy (IsApproximantO F (Function.update o j (o j + 1))) P := by
  have := GenBy.skip h (fun v => ((v ᵥ* F) j).coeff (o j)) 0 (fun i => ((P * F) i j).coeff (o j))
    (fun u => coeff_combination h.sound j u) hz
  intro v
  rw [approximantO_update]
  exact this v

/-- `X^d` times the identity is in the module: the determinant of a basis divides a power of `X`. -/
theorem det_dvd_X_pow {F : Matrix (Fin m) (Fin n) K[X]} {o : Fin n → Nat} {P : Matrix (Fin m) (Fin m) K[X]}
    (h : GenBy (IsApproximantO F o) P) : ∃ d : Nat, P.det ∣ X ^ d := by
  obtain ⟨D, hD⟩ : ∃ D, ∀ j, o j ≤ D := ⟨∑ j, o j, fun j => Finset.single_le_sum (fun _ _ => Nat.zero_le _) (Finset.mem_univ j)⟩
  have hrow : ∀ i : Fin m, ∃ u : Fin m → K[X], (fun l => if i = l then X ^ D else 0) = u ᵥ* P := by
    intro i
    refine (h _).1 fun j => ?_
    show X ^ o j ∣ ∑ l, (if i = l then X ^ D else 0) * F l j
    simp only [ite_mul, zero_mul, Finset.sum_ite_eq, Finset.mem_univ, if_true]
    exact Dvd.dvd.mul_right (pow_dvd_pow X (hD j)) _
  choose U hU using hrow
  have hmul : (Matrix.of U) * P = (X ^ D : K[X]) • (1 : Matrix (Fin m) (Fin m) K[X]) := by
    refine Matrix.ext fun i l => ?_
    have := congrFun (hU i) l
    show (U i ᵥ* P) l = _
    rw [← this, Matrix.smul_apply, Matrix.one_apply, smul_eq_mul, mul_ite, mul_one, mul_zero]
  refine ⟨D * m, (Matrix.of U).det, ?_⟩
  have := congrArg Matrix.det hmul
  rw [det_mul, det_smul, det_one, mul_one, Fintype.card_fin, ← pow_mul] at this
  rw [← this, mul_comm]

theorem GenBy.det_ne {F : Matrix (Fin m) (Fin n) K[X]} {o : Fin n → Nat} {P : Matrix (Fin m) (Fin m) K[X]}
    (h : GenBy (IsApproximantO F o) P) : P.det ≠ 0 := by
  obtain ⟨d, hd⟩ := det_dvd_X_pow h
  exact ne_zero_of_dvd_ne_zero (pow_ne_zero d X_ne_zero) hd

theorem GenBy.isBasisO {F : Matrix (Fin m) (Fin n) K[X]} {o : Fin n → Nat} {P : Matrix (Fin m) (Fin m) K[X]}
    (h : GenBy (IsApproximantO F o) P) : IsApproximantBasisO F o P := ⟨h.det_ne, h⟩

/-- The determinant of a basis is a monomial. -/
theorem det_monomial {F : Matrix (Fin m) (Fin n) K[X]} {o : Fin n → Nat} {P : Matrix (Fin m) (Fin m) K[X]}
    (h : GenBy (IsApproximantO F o) P) : ∃ (c : K) (e : Nat), c ≠ 0 ∧ P.det = C c * X ^ e := by
  obtain ⟨d, hd⟩ := det_dvd_X_pow h
  obtain ⟨e, _, he⟩ := (dvd_prime_pow (prime_X (R := K)) d).1 hd
  obtain ⟨u, hu⟩ := he.symm
  obtain ⟨c, hc, e2⟩ := Polynomial.isUnit_iff.1 u.isUnit
  exact ⟨c, e, hc.ne_zero, by rw [← hu, e2, mul_comm]⟩

/-! ### Existence -/

/-- There are approximant bases for all orders. -/
theorem exists_basis (F : Matrix (Fin m) (Fin n) K[X]) (o : Fin n → Nat) :
    ∃ P, GenBy (IsApproximantO F o) P := by
  classical
  generalize hN : ∑ j, o j = N
  induction N generalizing o with
  | zero => exact ⟨1, genBy_zero F o fun j => by
      have := Finset.sum_eq_zero_iff.1 hN j (Finset.mem_univ j); exact this⟩
  | succ N ih =>
    obtain ⟨j, hj⟩ : ∃ j, o j ≠ 0 := by
      by_contra hc
      push Not at hc
      rw [Finset.sum_eq_zero fun j _ => hc j] at hN
      omega
    obtain ⟨P, hP⟩ := ih (Function.update o j (o j - 1)) (by
      rw [← Finset.add_sum_erase _ _ (Finset.mem_univ j), Function.update_self]
      have e : ∑ k ∈ Finset.univ.erase j, Function.update o j (o j - 1) k = ∑ k ∈ Finset.univ.erase j, o k :=
        Finset.sum_congr rfl fun k hk => Function.update_of_ne (Finset.ne_of_mem_erase hk) _ _
      rw [e]
      rw [← Finset.add_sum_erase _ _ (Finset.mem_univ j)] at hN
      omega)
    have ho : Function.update (Function.update o j (o j - 1)) j (Function.update o j (o j - 1) j + 1) = o := by
      rw [Function.update_self, Function.update_idem, Nat.sub_add_cancel (by omega), Function.update_eq_self]
    by_cases hz : ∀ i, ((P * F) i j).coeff (Function.update o j (o j - 1) j) = 0
    · exact ⟨P, ho ▸ approx_skip hP j hz⟩
    · push Not at hz
      obtain ⟨piv, hpiv⟩ := hz
      have := approx_step (P' := Matrix.of fun i l => if i = piv then X * P piv l else P i l +
        C (-((P * F) i j).coeff (Function.update o j (o j - 1) j) /
          ((P * F) piv j).coeff (Function.update o j (o j - 1) j)) * P piv l) hP j piv hpiv
        (fun l => by rw [Matrix.of_apply, if_pos rfl]) (fun i hi l => by rw [Matrix.of_apply, if_neg hi])
      rw [ho] at this
      exact ⟨_, this⟩

/-! ### Characterization (Giorgi, Neiger, ISSAC 2018) -/

/-- No nonzero constant vector annihilates both the coefficients of `P * F` at the orders and `P(0)`. -/
def FullRank (F : Matrix (Fin m) (Fin n) K[X]) (o : Fin n → Nat) (P : Matrix (Fin m) (Fin m) K[X]) : Prop :=
  ∀ u : Fin m → K, (∀ j, ∑ i, u i * ((P * F) i j).coeff (o j) = 0) → (∀ l, ∑ i, u i * (P i l).coeff 0 = 0) → u = 0

theorem fullRank_of_basis {F : Matrix (Fin m) (Fin n) K[X]} {o : Fin n → Nat} {P : Matrix (Fin m) (Fin m) K[X]}
    (h : GenBy (IsApproximantO F o) P) : FullRank F o P := by
  intro u h1 h2
  -- `u P = X q`, and `q` is an approximant
  have hX : ∀ l, X ∣ ((fun i => C (u i)) ᵥ* P) l := by
    intro l
    rw [X_dvd_iff]
    show (∑ i, C (u i) * P i l).coeff 0 = 0
    rw [finsetSum_coeff, ← h2 l]
    exact Finset.sum_congr rfl fun i _ => coeff_C_mul _
  choose q hq using hX
  have hq' : (fun i => C (u i)) ᵥ* P = (X : K[X]) • q := by funext l; rw [hq l]; rfl
  have happ : IsApproximantO F o q := by
    intro j
    have h3 : X ^ (o j + 1) ∣ (((fun i => C (u i)) ᵥ* P) ᵥ* F) j := by
      have h4 := coeff_combination h.sound j (fun i => C (u i))
      simp only [eval_C] at h4
      rw [h1 j] at h4
      have h5 : X ^ o j ∣ (((fun i => C (u i)) ᵥ* P) ᵥ* F) j := (h _).2 ⟨_, rfl⟩ j
      rw [X_pow_dvd_iff] at h5 ⊢
      intro d hd
      by_cases e : d = o j
      · rw [e]; exact h4
      · exact h5 d (by omega)
    rw [hq', Matrix.smul_vecMul, Pi.smul_apply, smul_eq_mul, pow_succ', mul_dvd_mul_iff_left X_ne_zero] at h3
    exact h3
  obtain ⟨w, hw⟩ := (h q).1 happ
  have h6 : ((fun i => C (u i)) - (X : K[X]) • w) ᵥ* P = 0 := by
    rw [Matrix.sub_vecMul, hq', hw, Matrix.smul_vecMul, sub_self]
  have h7 := Matrix.eq_zero_of_vecMul_eq_zero h.det_ne h6
  funext i
  have h8 := congrFun h7 i
  rw [Pi.sub_apply, Pi.smul_apply, Pi.zero_apply, smul_eq_mul] at h8
  have := congrArg (fun p => coeff p 0) h8
  simpa using this

/-- The factor of a matrix of approximants of full rank: its determinant does not vanish at zero. -/
theorem det_factor_ne {F : Matrix (Fin m) (Fin n) K[X]} {o : Fin n → Nat} {P A : Matrix (Fin m) (Fin m) K[X]}
    (hs : ∀ i j, X ^ o j ∣ (P * F) i j) (hr : FullRank F o P) (hA : GenBy (IsApproximantO F o) A)
    {U : Fin m → Fin m → K[X]} (hPU : P = Matrix.of U * A) : (Matrix.of U).det.coeff 0 ≠ 0 := by
  have hU : ∀ i, P i = U i ᵥ* A := fun i => by rw [hPU]; rfl
  intro hc
  have hsing : ((Matrix.of U).map fun p => p.coeff 0).det = 0 := by
    have := RingHom.map_det (Polynomial.constantCoeff (R := K)) (Matrix.of U)
    rw [show (Polynomial.constantCoeff (Matrix.of U).det) = (Matrix.of U).det.coeff 0 from rfl, hc] at this
    exact this.symm
  obtain ⟨u, hu0, hu⟩ := Matrix.exists_vecMul_eq_zero_iff.2 hsing
  have hk : ∀ k, ∑ i, u i * (U i k).coeff 0 = 0 := fun k => congrFun hu k
  refine hu0 (hr u (fun j => ?_) fun l => ?_)
  · have h1 : ∀ i, ((P * F) i j).coeff (o j) = ∑ k, (U i k).eval 0 * ((A * F) k j).coeff (o j) := by
      intro i
      rw [← coeff_combination hA.sound j (U i), ← hU i]
      rfl
    simp only [h1, Finset.mul_sum]
    rw [Finset.sum_comm]
    refine Finset.sum_eq_zero fun k _ => ?_
    simp only [← mul_assoc]
    rw [← Finset.sum_mul]
    have := hk k
    simp only [coeff_zero_eq_eval_zero] at this
    rw [this, zero_mul]
  · have h1 : ∀ i, (P i l).coeff 0 = ∑ k, (U i k).coeff 0 * (A k l).coeff 0 := by
      intro i
      rw [hU i]
      show (∑ k, U i k * A k l).coeff 0 = _
      rw [finsetSum_coeff]
      exact Finset.sum_congr rfl fun k _ => mul_coeff_zero _ _
    simp only [h1, Finset.mul_sum]
    rw [Finset.sum_comm]
    refine Finset.sum_eq_zero fun k _ => ?_
    simp only [← mul_assoc]
    rw [← Finset.sum_mul, hk k, zero_mul]

/-- Approximants with a monomial determinant and full rank are a basis. -/
theorem basis_of_fullRank {F : Matrix (Fin m) (Fin n) K[X]} {o : Fin n → Nat} {P : Matrix (Fin m) (Fin m) K[X]}
    (hs : ∀ i j, X ^ o j ∣ (P * F) i j) (hdet : ∃ (c : K) (e : Nat), c ≠ 0 ∧ P.det = C c * X ^ e)
    (hr : FullRank F o P) : GenBy (IsApproximantO F o) P := by
  obtain ⟨A, hA⟩ := exists_basis F o
  have hrow : ∀ i, ∃ u : Fin m → K[X], P i = u ᵥ* A := fun i => (hA _).1 (hs i)
  choose U hU using hrow
  have hPU : P = Matrix.of U * A := by
    refine Matrix.ext fun i l => ?_
    exact congrFun (hU i) l
  have hne := det_factor_ne hs hr hA hPU
  -- hence `U` is unimodular
  obtain ⟨c, e, hc, hd⟩ := hdet
  have hunit : IsUnit (Matrix.of U).det := by
    have hdvd : (Matrix.of U).det ∣ X ^ e := by
      have : (Matrix.of U).det ∣ C c * X ^ e := ⟨A.det, by rw [← hd, hPU, det_mul]⟩
      exact (IsUnit.dvd_mul_left (isUnit_C.2 hc.isUnit)).1 this
    obtain ⟨k, _, hk⟩ := (dvd_prime_pow (prime_X (R := K)) e).1 hdvd
    have hk0 : k = 0 := by
      by_contra hk0
      have : X ∣ (Matrix.of U).det := dvd_trans (dvd_pow_self X hk0) hk.symm.dvd
      exact hne (X_dvd_iff.1 this)
    rw [hk0, pow_zero] at hk
    exact hk.isUnit_iff.2 isUnit_one
  have hinv : (Matrix.of U)⁻¹ * P = A := by
    rw [hPU, ← Matrix.mul_assoc, Matrix.nonsing_inv_mul _ hunit, Matrix.one_mul]
  intro v
  rw [hA v]
  constructor
  · rintro ⟨w, rfl⟩
    exact ⟨w ᵥ* (Matrix.of U)⁻¹, by rw [Matrix.vecMul_vecMul, hinv]⟩
  · rintro ⟨w, rfl⟩
    exact ⟨w ᵥ* Matrix.of U, by rw [Matrix.vecMul_vecMul, ← hPU]⟩

end PML.Approx
