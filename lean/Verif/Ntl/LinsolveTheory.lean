import Verif.Ntl.LinsolveSpec
import Verif.Kernel.Theory
import Mathlib.LinearAlgebra.Matrix.Adjugate
import Mathlib.LinearAlgebra.Matrix.ToLinearEquiv
import Mathlib.RingTheory.PrincipalIdealDomain
import Mathlib.RingTheory.UniqueFactorizationDomain.NormalizedFactors
import Mathlib.Algebra.Polynomial.BigOperators
import Mathlib.Algebra.Polynomial.FieldDivision

/-! # Denominators of the solutions of linear systems over `K(X)`, and their reconstruction (C95) -/

namespace PML.Ntl.Linsolve

open Polynomial PML.Ntl.Utils

variable {F : Type} [Field F]

section
variable {n : Nat} (M : Matrix (Fin n) (Fin n) F[X]) (b : Fin n → F[X])

/-- The smallest denominator. -/
theorem exists_min (hdet : M.det ≠ 0) : ∃ (L : F[X]) (y : Fin n → F[X]), L.Monic ∧ M.mulVec y = L • b ∧ ∀ d v, M.mulVec v = d • b → L ∣ d ∧ ∃ q, d = L * q ∧ v = q • y := by
  let I : Ideal F[X] :=
    { carrier := {d | ∃ v, M.mulVec v = d • b}
      add_mem' := by
        rintro x y ⟨v, hv⟩ ⟨w, hw⟩
        exact ⟨v + w, by rw [Matrix.mulVec_add, hv, hw, add_smul]⟩
      zero_mem' := ⟨0, by rw [Matrix.mulVec_zero, zero_smul]⟩
      smul_mem' := by
        rintro c x ⟨v, hv⟩
        exact ⟨c • v, by rw [Matrix.mulVec_smul, hv, smul_smul, smul_eq_mul]⟩ }
  obtain ⟨g, hg⟩ : ∃ g, I = Ideal.span {g} := (IsPrincipalIdealRing.principal I).principal
  have g0 : g ≠ 0 := by
    intro h0
    have h1 : M.det ∈ I := ⟨M.cramer b, M.mulVec_cramer b⟩
    rw [hg, h0, Ideal.mem_span_singleton, zero_dvd_iff] at h1
    exact hdet h1
  have lc : g.leadingCoeff ≠ 0 := leadingCoeff_ne_zero.2 g0
  have hgI : C g.leadingCoeff⁻¹ * g ∈ I := by
    rw [hg, Ideal.mem_span_singleton]
    exact dvd_mul_left _ _
  obtain ⟨y, hy⟩ := hgI
  have inj : ∀ v w : Fin n → F[X], M.mulVec v = M.mulVec w → v = w := fun v w h => by
    have : M.mulVec (v - w) = 0 := by rw [Matrix.mulVec_sub, h, sub_self]
    exact sub_eq_zero.1 (Matrix.eq_zero_of_mulVec_eq_zero hdet this)
  refine ⟨_, y, ?_, hy, fun d v hv => ?_⟩
  · rw [mul_comm]
    exact monic_mul_leadingCoeff_inv g0
  · have hd : d ∈ I := ⟨v, hv⟩
    rw [hg, Ideal.mem_span_singleton] at hd
    obtain ⟨q, hq⟩ := hd
    have e : d = C g.leadingCoeff⁻¹ * g * (C g.leadingCoeff * q) := by
      calc d = C (g.leadingCoeff⁻¹ * g.leadingCoeff) * (g * q) := by rw [inv_mul_cancel₀ lc, C_1, one_mul, hq]
        _ = _ := by rw [C_mul]; ring
    exact ⟨⟨_, e⟩, _, e, inj _ _ (by rw [hv, Matrix.mulVec_smul, hy, smul_smul, mul_comm, ← e])⟩

theorem cramer_degree {dA dB : Nat} (hA : ∀ i j, (M i j).natDegree ≤ dA) (hb : ∀ i, (b i).natDegree ≤ dB) (i : Fin n) :
    (M.cramer b i).natDegree + dA ≤ n * dA + dB := by
  rw [Matrix.cramer_apply, ← Matrix.det_transpose]
  have h := PML.Kernel.natDegree_det_le ((M.updateCol i b).transpose) (fun j => if j = i then dB else dA) (by
    intro j k
    rw [Matrix.transpose_apply, Matrix.updateCol_apply]
    split
    · exact hb k
    · exact hA k j)
  have h2 : ∑ j : Fin n, (if j = i then dB else dA) + dA = n * dA + dB := by
    rw [← Finset.add_sum_erase Finset.univ _ (Finset.mem_univ i), if_pos rfl, Finset.sum_congr rfl fun j hj => if_neg (Finset.ne_of_mem_erase hj),
      Finset.sum_const, Finset.card_erase_of_mem (Finset.mem_univ i), Finset.card_univ, Fintype.card_fin, smul_eq_mul]
    have := i.2
    obtain ⟨k, rfl⟩ : ∃ k, n = k + 1 := ⟨n - 1, by omega⟩
    rw [Nat.add_sub_cancel]
    ring
  omega

theorem det_degree {dA : Nat} (hA : ∀ i j, (M i j).natDegree ≤ dA) : M.det.natDegree ≤ n * dA := by
  have h := PML.Kernel.natDegree_det_le M (fun _ => dA) hA
  rwa [Finset.sum_const, Finset.card_univ, Fintype.card_fin, smul_eq_mul] at h

/-- The minimal denominator times a series solution. -/
theorem series_mul (hdet : M.det.coeff 0 ≠ 0) {k : Nat} {s y : Fin n → F[X]} {L : F[X]} (hs : ∀ i, X ^ k ∣ M.mulVec s i - b i) (hy : M.mulVec y = L • b) (i : Fin n) :
    X ^ k ∣ L * s i - y i := by
  have h1 : ∀ i, X ^ k ∣ M.mulVec (L • s - y) i := fun i => by
    rw [Matrix.mulVec_sub, Matrix.mulVec_smul, hy]
    have : (L • M.mulVec s - L • b) i = L * (M.mulVec s i - b i) := by
      simp only [Pi.sub_apply, Pi.smul_apply, smul_eq_mul]
      ring
    rw [this]
    exact (hs i).mul_left _
  have h2 : X ^ k ∣ M.det * (L * s i - y i) := by
    have e : M.adjugate.mulVec (M.mulVec (L • s - y)) i = M.det * (L * s i - y i) := by
      rw [Matrix.mulVec_mulVec, Matrix.adjugate_mul, Matrix.smul_mulVec, Matrix.one_mulVec]
      rfl
    rw [← e]
    exact Finset.dvd_sum (s := Finset.univ) (f := fun j => M.adjugate i j * M.mulVec (L • s - y) j) fun j _ => (h1 j).mul_left _
  refine IsCoprime.dvd_of_dvd_mul_left ?_ h2
  refine IsCoprime.pow_left ?_
  rw [Irreducible.coprime_iff_not_dvd irreducible_X, X_dvd_iff]
  exact hdet
end

/-- Reconstruction of a fraction. -/
theorem reconstruct {H : F[X] → F[X] → Nat → Mat2 F} (hH : HgcdOK H) {D dd N : Nat} (hD : D = dd + N) {L l s : F[X]} (hL : L.coeff 0 ≠ 0) (dL : L.natDegree ≤ dd)
    (dl : l.degree < N) (ds : s.degree < D) (hN : 0 < N ∨ s = 0) (h : X ^ D ∣ L * s - l) :
    (H (X ^ D) s (dd + 1)).m11 ≠ 0 ∧ ∃ g t, L = g * (H (X ^ D) s (dd + 1)).m11 ∧ l = g * t ∧ IsCoprime (H (X ^ D) s (dd + 1)).m11 t := by
  have hU : s.degree < (X ^ D : F[X]).degree := by rwa [degree_X_pow]
  have nU : (X ^ D : F[X]).natDegree = D := natDegree_X_pow D
  have pre : dd + 1 ≤ (X ^ D : F[X]).natDegree ∨ s = 0 := by
    rw [nU]
    exact hN.imp (fun h => by omega) id
  obtain ⟨c, hc, h1⟩ := hH.unit _ _ _ hU (by omega) pre
  have h2 := hH.low _ _ _ hU (by omega) pre
  have h3 := hH.high _ _ _ hU (by omega) pre
  obtain ⟨h4, h5⟩ := hH.deg _ _ _ hU (by omega) pre
  generalize H (X ^ D) s (dd + 1) = m at *
  rw [nU] at h2 h3 h5
  refine ⟨h4, ?_⟩
  generalize hV : m.m10 * X ^ D + m.m11 * s = V at h2
  generalize m.m00 * X ^ D + m.m01 * s = U' at *
  have dm : m.m11.natDegree ≤ dd := by omega
  have dV : V.degree < N := by
    rcases h2 with h2 | h2
    · rw [h2, degree_zero]
      exact WithBot.bot_lt_coe _
    · by_cases hz : V = 0
      · rw [hz, degree_zero]
        exact WithBot.bot_lt_coe _
      · rw [degree_eq_natDegree hz]
        exact_mod_cast (by omega : V.natDegree < N)
  have L0 : L ≠ 0 := fun h => by rw [h, coeff_zero] at hL; exact hL rfl
  -- the two fractions are equal
  have key : m.m11 * l = V * L := by
    have hdvd : X ^ D ∣ m.m11 * l - V * L := by
      have e : m.m11 * l - V * L = -(m.m11 * (L * s - l)) - L * m.m10 * X ^ D := by rw [← hV]; ring
      rw [e]
      exact dvd_sub (dvd_neg.2 (h.mul_left _)) (dvd_mul_left _ _)
    have lt : ∀ f g : F[X], f.natDegree ≤ dd → g.degree < N → (f * g).degree < (D : Nat) := fun f g hf hg => by
      by_cases hg0 : g = 0
      · rw [hg0, mul_zero, degree_zero]
        exact WithBot.bot_lt_coe _
      · by_cases hf0 : f = 0
        · rw [hf0, zero_mul, degree_zero]
          exact WithBot.bot_lt_coe _
        · rw [degree_mul, degree_eq_natDegree hf0, degree_eq_natDegree hg0]
          rw [degree_eq_natDegree hg0] at hg
          have : g.natDegree < N := by exact_mod_cast hg
          exact_mod_cast (by omega : f.natDegree + g.natDegree < D)
    have hlt : (m.m11 * l - V * L).degree < (X ^ D : F[X]).degree := by
      rw [degree_X_pow]
      refine lt_of_le_of_lt (degree_sub_le _ _) (max_lt (lt _ _ dm dl) ?_)
      rw [mul_comm]
      exact lt _ _ dL dV
    exact sub_eq_zero.1 (eq_zero_of_dvd_of_degree_lt hdvd hlt)
  have cop : IsCoprime m.m10 m.m11 := by
    refine ⟨-(C c⁻¹ * m.m01), C c⁻¹ * m.m00, ?_⟩
    calc -(C c⁻¹ * m.m01) * m.m10 + C c⁻¹ * m.m00 * m.m11 = C c⁻¹ * (m.m00 * m.m11 - m.m01 * m.m10) := by ring
      _ = 1 := by rw [h1, ← C_mul, inv_mul_cancel₀ hc, C_1]
  have cX : ∀ f : F[X], f.coeff 0 ≠ 0 → IsCoprime X f := fun f hf => by
    rw [Irreducible.coprime_iff_not_dvd irreducible_X, X_dvd_iff]
    exact hf
  have m0 : m.m11.coeff 0 ≠ 0 := by
    intro hz
    obtain ⟨m', hm'⟩ : X ∣ m.m11 := X_dvd_iff.2 hz
    obtain ⟨v', hv'⟩ : X ∣ V := by
      have : X ∣ V * L := by rw [← key]; exact (X_dvd_iff.2 hz).mul_right _
      exact (cX L hL).dvd_of_dvd_mul_right this
    have hD0 : D ≠ 0 := by
      intro h0
      have : U'.natDegree = 0 := by omega
      have hm11 : m.m11.natDegree = 0 := by omega
      rw [eq_C_of_natDegree_eq_zero hm11, hz, C_0] at h4
      exact h4 rfl
    obtain ⟨k, rfl⟩ : ∃ k, D = k + 1 := ⟨D - 1, by omega⟩
    have e1 : v' - m' * s = m.m10 * X ^ k := by
      have : X * (v' - m' * s) = X * (m.m10 * X ^ k) := by
        calc X * (v' - m' * s) = V - m.m11 * s := by rw [hv', hm']; ring
          _ = X * (m.m10 * X ^ k) := by rw [← hV]; ring
      exact mul_left_cancel₀ X_ne_zero this
    have e2 : m' * l = v' * L := by
      have : X * (m' * l) = X * (v' * L) := by
        calc X * (m' * l) = m.m11 * l := by rw [hm']; ring
          _ = X * (v' * L) := by rw [key, hv']; ring
      exact mul_left_cancel₀ X_ne_zero this
    have e3 : X ^ (k + 1) ∣ L * m.m10 * X ^ k := by
      have : L * m.m10 * X ^ k = -(m' * (L * s - l)) := by
        calc L * m.m10 * X ^ k = v' * L - L * (m' * s) := by rw [mul_assoc, ← e1]; ring
          _ = _ := by rw [← e2]; ring
      rw [this]
      exact dvd_neg.2 (h.mul_left _)
    rw [pow_succ, mul_comm (X ^ k) X] at e3
    have e4 : X ∣ L * m.m10 := (mul_dvd_mul_iff_right (pow_ne_zero k X_ne_zero)).1 e3
    have e5 : X ∣ m.m10 := (cX L hL).dvd_of_dvd_mul_left e4
    exact (irreducible_X (R := F)).not_isUnit (cop.isUnit_of_dvd' e5 (X_dvd_iff.2 hz))
  have cV : IsCoprime m.m11 V := by
    rw [← hV]
    exact ((IsCoprime.mul_right cop.symm (IsCoprime.pow_right (cX _ m0).symm))).add_mul_left_right s
  obtain ⟨g, hg⟩ : m.m11 ∣ L := cV.dvd_of_dvd_mul_left (by rw [← key]; exact dvd_mul_right _ _)
  refine ⟨g, V, by rw [hg]; ring, ?_, cV⟩
  have : m.m11 * l = m.m11 * (g * V) := by
    rw [key, hg]
    ring
  exact mul_left_cancel₀ h4 this

/-- Euclid's algorithm meets the contract of `HalfGCD`. -/
theorem hgcd_exists (k : Nat) : ∀ U V : F[X], ∀ d, U.natDegree ≤ k → V.degree < U.degree → 1 ≤ d → d ≤ U.natDegree ∨ V = 0 → ∃ m : Mat2 F,
    (∃ c : F, c ≠ 0 ∧ m.m00 * m.m11 - m.m01 * m.m10 = C c) ∧ (m.m10 * U + m.m11 * V = 0 ∨ (m.m10 * U + m.m11 * V).natDegree + d ≤ U.natDegree) ∧
    U.natDegree < (m.m00 * U + m.m01 * V).natDegree + d ∧ m.m11 ≠ 0 ∧ m.m11.natDegree + (m.m00 * U + m.m01 * V).natDegree = U.natDegree ∧
    m.m10.degree < m.m11.degree := by
  classical
  induction k with
  | zero =>
    intro U V d hk hUV hd hdU
    have hV : V = 0 := by
      rcases hdU with h | h
      · omega
      · exact h
    refine ⟨⟨1, 0, 0, 1⟩, ⟨1, one_ne_zero, by simp⟩, Or.inl (by simp [hV]), by simp; omega, one_ne_zero, by simp, by simp⟩
  | succ k ih =>
    intro U V d hk hUV hd hdU
    by_cases hstop : V = 0 ∨ V.natDegree + d ≤ U.natDegree
    · refine ⟨⟨1, 0, 0, 1⟩, ⟨1, one_ne_zero, by simp⟩, ?_, by simp; omega, one_ne_zero, by simp, by simp⟩
      rcases hstop with h | h
      · left
        simp [h]
      · right
        simpa using h
    push Not at hstop
    obtain ⟨V0, hlt⟩ := hstop
    have hVU : V.natDegree < U.natDegree := natDegree_lt_natDegree V0 hUV
    have hdU' : d ≤ U.natDegree := hdU.resolve_right V0
    have hR : (U % V).degree < V.degree := EuclideanDomain.mod_lt U V0
    obtain ⟨m, ⟨c, hc, h1⟩, h2, h3, h4, h5, h6⟩ := ih V (U % V) (d - (U.natDegree - V.natDegree)) (by omega) hR (by omega) (Or.inl (by omega))
    have hdiv : V * (U / V) + U % V = U := EuclideanDomain.div_add_mod U V
    have hq : (U / V).natDegree = U.natDegree - V.natDegree := by
      have h := degree_add_div V0 (le_of_lt hUV)
      have hU0 : U ≠ 0 := fun h => by rw [h, natDegree_zero] at hVU; omega
      have hd0 : U / V ≠ 0 := fun h0 => by
        rw [h0, degree_zero, WithBot.add_bot] at h
        exact hU0 (degree_eq_bot.1 h.symm)
      rw [degree_eq_natDegree V0, degree_eq_natDegree hd0, degree_eq_natDegree hU0] at h
      have : V.natDegree + (U / V).natDegree = U.natDegree := by exact_mod_cast h
      omega
    have hq0 : (U / V) ≠ 0 := fun h => by rw [h, natDegree_zero] at hq; omega
    have eL : m.m11 * U + (m.m10 - (U / V) * m.m11) * V = m.m10 * V + m.m11 * (U % V) := by
      calc m.m11 * U + (m.m10 - (U / V) * m.m11) * V = m.m11 * (V * (U / V) + U % V) + (m.m10 - (U / V) * m.m11) * V := by rw [hdiv]
        _ = _ := by ring
    have eH : m.m01 * U + (m.m00 - (U / V) * m.m01) * V = m.m00 * V + m.m01 * (U % V) := by
      calc m.m01 * U + (m.m00 - (U / V) * m.m01) * V = m.m01 * (V * (U / V) + U % V) + (m.m00 - (U / V) * m.m01) * V := by rw [hdiv]
        _ = _ := by ring
    have hqm : ((U / V) * m.m11).natDegree = (U.natDegree - V.natDegree) + m.m11.natDegree := by rw [natDegree_mul hq0 h4, hq]
    have hlt2 : m.m10.degree < ((U / V) * m.m11).degree := by
      refine lt_of_lt_of_le h6 ?_
      rw [degree_mul, add_comm]
      exact le_add_of_nonneg_right (zero_le_degree_iff.2 hq0)
    have hm : (m.m10 - (U / V) * m.m11).degree = ((U / V) * m.m11).degree := by
      rw [sub_eq_add_neg, add_comm, degree_add_eq_left_of_degree_lt (by rwa [degree_neg]), degree_neg]
    have hmn : (m.m10 - (U / V) * m.m11).natDegree = (U.natDegree - V.natDegree) + m.m11.natDegree := by rw [natDegree_eq_of_degree_eq hm, hqm]
    have hm0 : m.m10 - (U / V) * m.m11 ≠ 0 := fun h => by
      rw [h, degree_zero] at hm
      exact mul_ne_zero hq0 h4 (degree_eq_bot.1 hm.symm)
    refine ⟨⟨m.m01, m.m00 - (U / V) * m.m01, m.m11, m.m10 - (U / V) * m.m11⟩, ⟨-c, neg_ne_zero.2 hc, ?_⟩, ?_, ?_, hm0, ?_, ?_⟩
    · dsimp only
      rw [C_neg, ← h1]
      ring
    · dsimp only
      rw [eL]
      exact h2.imp id fun h => by omega
    · dsimp only
      rw [eH]
      omega
    · dsimp only
      rw [eH, hmn]
      omega
    · dsimp only
      rw [degree_eq_natDegree h4, degree_eq_natDegree hm0, hmn]
      exact_mod_cast (by omega : m.m11.natDegree < U.natDegree - V.natDegree + m.m11.natDegree)

open Classical in
/-- A `HalfGCD`. -/
noncomputable def euclid (U V : F[X]) (d : Nat) : Mat2 F :=
  if h : V.degree < U.degree ∧ 1 ≤ d ∧ (d ≤ U.natDegree ∨ V = 0) then (hgcd_exists _ U V d le_rfl h.1 h.2.1 h.2.2).choose else ⟨1, 0, 0, 1⟩

theorem euclid_ok : HgcdOK (euclid (F := F)) := by
  have e : ∀ U V : F[X], ∀ d, ∀ (h1 : V.degree < U.degree) (h2 : 1 ≤ d) (h3 : d ≤ U.natDegree ∨ V = 0),
      euclid U V d = (hgcd_exists _ U V d le_rfl h1 h2 h3).choose := fun U V d h1 h2 h3 => by
    unfold euclid
    rw [dif_pos ⟨h1, h2, h3⟩]
  refine ⟨?_, ?_, ?_, ?_⟩ <;> intro U V d h1 h2 h3 <;> rw [e U V d h1 h2 h3]
  · exact (hgcd_exists _ U V d le_rfl h1 h2 h3).choose_spec.1
  · exact (hgcd_exists _ U V d le_rfl h1 h2 h3).choose_spec.2.1
  · exact (hgcd_exists _ U V d le_rfl h1 h2 h3).choose_spec.2.2.1
  · exact ⟨(hgcd_exists _ U V d le_rfl h1 h2 h3).choose_spec.2.2.2.1, (hgcd_exists _ U V d le_rfl h1 h2 h3).choose_spec.2.2.2.2.1⟩

/-! ### How many linear combinations are bad -/

open Classical in
theorem factors_card {L : F[X]} (hL : L ≠ 0) : (UniqueFactorizationMonoid.normalizedFactors L).toFinset.card ≤ L.natDegree := by
  refine le_trans (Multiset.toFinset_card_le _) ?_
  have h1 : (UniqueFactorizationMonoid.normalizedFactors L).prod.natDegree = L.natDegree :=
    natDegree_eq_of_degree_eq (degree_eq_degree_of_associated (UniqueFactorizationMonoid.prod_normalizedFactors hL))
  have h0 : (0 : F[X]) ∉ UniqueFactorizationMonoid.normalizedFactors L := UniqueFactorizationMonoid.zero_notMem_normalizedFactors L
  rw [← h1, natDegree_multiset_prod _ h0]
  have : ∀ m : Multiset F[X], (∀ f ∈ m, 1 ≤ f.natDegree) → Multiset.card m ≤ (m.map natDegree).sum := by
    intro m
    induction m using Multiset.induction with
    | empty => intro _; simp
    | cons a t ih =>
      intro h
      rw [Multiset.card_cons, Multiset.map_cons, Multiset.sum_cons]
      have := h a (Multiset.mem_cons_self _ _)
      have := ih fun f hf => h f (Multiset.mem_cons_of_mem hf)
      omega
  exact this _ fun f hf => (UniqueFactorizationMonoid.irreducible_of_normalized_factor f hf).natDegree_pos

open Classical in
theorem bad_card [Fintype F] {n : Nat} {L : F[X]} (hL : L ≠ 0) {y : Fin n → F[X]} (hy : ∀ π : F[X], Irreducible π → π ∣ L → ∃ j, ¬ π ∣ y j) :
    (Finset.univ.filter fun r : Fin n → F => ¬ IsCoprime L (∑ j, C (r j) * y j)).card ≤ L.natDegree * Fintype.card F ^ (n - 1) := by
  refine le_trans (Finset.card_le_card (t := (UniqueFactorizationMonoid.normalizedFactors L).toFinset.biUnion fun π =>
    Finset.univ.filter fun r : Fin n → F => π ∣ ∑ j, C (r j) * y j) ?_) ?_
  · intro r hr
    rw [Finset.mem_filter] at hr
    rw [Finset.mem_biUnion]
    by_contra hc
    push Not at hc
    refine hr.2 (isCoprime_of_irreducible_dvd (fun h => hL h.1) fun z hz h1 h2 => ?_)
    obtain ⟨q, hq, hqz⟩ := UniqueFactorizationMonoid.exists_mem_normalizedFactors_of_dvd hL hz h1
    exact hc q (Multiset.mem_toFinset.2 hq) (Finset.mem_filter.2 ⟨Finset.mem_univ _, hqz.dvd_iff_dvd_left.1 h2⟩)
  · refine le_trans (Finset.card_biUnion_le_card_mul _ _ (Fintype.card F ^ (n - 1)) ?_) (Nat.mul_le_mul_right _ (factors_card hL))
    intro π hπ
    rw [Multiset.mem_toFinset] at hπ
    have irr := UniqueFactorizationMonoid.irreducible_of_normalized_factor π hπ
    obtain ⟨j, hj⟩ := hy π irr (UniqueFactorizationMonoid.dvd_of_mem_normalizedFactors hπ)
    have hcard : Fintype.card ({i : Fin n // i ≠ j} → F) = Fintype.card F ^ (n - 1) := by
      rw [Fintype.card_fun]
      congr 1
      rw [Fintype.card_subtype_compl, Fintype.card_fin, Fintype.card_subtype_eq]
    rw [← hcard]
    refine Finset.card_le_card_of_injOn (fun r i => r i.1) (fun _ _ => Finset.mem_coe.2 (Finset.mem_univ _)) ?_
    intro r hr r' hr' h
    rw [Finset.mem_coe, Finset.mem_filter] at hr hr'
    have hne : ∀ i, i ≠ j → r i = r' i := fun i hi => congrFun h ⟨i, hi⟩
    have hd : π ∣ (C (r j - r' j)) * y j := by
      have := dvd_sub hr.2 hr'.2
      rw [← Finset.sum_sub_distrib, Finset.sum_eq_single j (fun i _ hi => by rw [hne i hi, sub_self]) (fun h => absurd (Finset.mem_univ j) h), ← sub_mul, ← C_sub] at this
      exact this
    funext i
    by_cases hi : i = j
    · rw [hi]
      by_contra hc
      rcases irr.prime.dvd_or_dvd hd with h1 | h1
      · exact irr.not_isUnit (isUnit_of_dvd_unit h1 (isUnit_C.2 (IsUnit.mk0 _ (sub_ne_zero.2 hc))))
      · exact hj h1
    · exact hne i hi

end PML.Ntl.Linsolve
