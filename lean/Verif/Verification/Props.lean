import Verif.Verification.Model
import Verif.Pmbasis.Props
import Verif.Forms.Props
import Verif.Forms.DetDegree
import Verif.Kernel.Spec
import Mathlib.LinearAlgebra.Matrix.ToLinearEquiv

/-!
# Properties: verification of approximant and kernel bases (C41, C51)
-/

namespace PML.Verification

open PML.MatOps PML.MatPoly PML.PolyMul PML.PolyMul.Spec PML.Forms PML.Forms.Spec PML.Unimodular
  PML.Approx PML.Approx.Spec PML.Pmbasis PML.Kernel.Spec Polynomial Matrix

section Theory

variable {K : Type} [Field K] {m n : Nat}

/-- No nonzero constant combination of the rows of `[P(0) | C]` vanishes, `C` being
    the coefficient of degree `d` of `P * F`. -/
def FullRank (F : Matrix (Fin m) (Fin n) K[X]) (d : Nat) (P : Matrix (Fin m) (Fin m) K[X]) : Prop :=
  ∀ u : Fin m → K, (∀ j, ∑ i, u i * (P i j).coeff 0 = 0) →
    (∀ j, ∑ i, u i * ((P * F) i j).coeff d = 0) → u = 0

theorem fullRank_of_basis {F : Matrix (Fin m) (Fin n) K[X]} {d : Nat}
    {P : Matrix (Fin m) (Fin m) K[X]} (h : IsApproximantBasis F d P) : FullRank F d P := by
  intro u h1 h2
  have hg := (IsApproximantBasis.generates' h)
  -- the combination is divisible by X
  have hX : ∀ j, X ∣ ((fun i => C (u i)) ᵥ* P) j := by
    intro j
    rw [X_dvd_iff]
    show (∑ i, C (u i) * P i j).coeff 0 = 0
    rw [finsetSum_coeff]
    simpa only [coeff_C_mul] using h1 j
  choose w hw using hX
  have hw' : (fun i => C (u i)) ᵥ* P = (X : K[X]) • w := by
    funext j; rw [hw j, Pi.smul_apply, smul_eq_mul]
  -- its quotient by X is an approximant
  have hap : IsApproximant F d w := by
    intro j
    have h3 : X * (w ᵥ* F) j = ∑ i, C (u i) * (P * F) i j := by
      have : (((X : K[X]) • w) ᵥ* F) j = ((fun i => C (u i)) ᵥ* (P * F)) j := by
        rw [← hw', vecMul_vecMul]
      rw [smul_vecMul] at this
      exact this
    have h4 : X ^ (d + 1) ∣ X * (w ᵥ* F) j := by
      rw [h3, X_pow_dvd_iff]
      intro k hk
      rw [finsetSum_coeff]
      simp only [coeff_C_mul]
      by_cases hkd : k = d
      · subst hkd; exact h2 j
      · refine Finset.sum_eq_zero fun i _ => ?_
        rw [coeff_of_dvd (hg.sound i j) (by omega), mul_zero]
    rw [pow_succ'] at h4
    exact (mul_dvd_mul_iff_left X_ne_zero).1 h4
  obtain ⟨v, hv⟩ := hg.complete w hap
  have h5 : (fun i => C (u i) - X * v i) ᵥ* P = 0 := by
    have : (fun i => C (u i) - X * v i) = (fun i => C (u i)) - (X : K[X]) • v := rfl
    rw [this, sub_vecMul, hw', smul_vecMul, ← hv, sub_self]
  have h6 := eq_zero_of_vecMul_eq_zero h.nonsingular h5
  funext i
  have h7 := congrArg (fun p => coeff p 0) (congrFun h6 i)
  simpa using h7

theorem basis_of_fullRank {F : Matrix (Fin m) (Fin n) K[X]} {d : Nat}
    {P B : Matrix (Fin m) (Fin m) K[X]} (hB : IsApproximantBasis F d B)
    (hap : ∀ i j, X ^ d ∣ (P * F) i j) (hfr : FullRank F d P) {c : K} (hc : c ≠ 0) {e : Nat}
    (hdet : P.det = C c * X ^ e) : IsApproximantBasis F d P := by
  have hrow : ∀ i, ∃ u : Fin m → K[X], P i = u ᵥ* B :=
    fun i => (hB.generates (P i)).1 fun j => hap i j
  choose U hU using hrow
  have hPU : P = (Matrix.of U) * B := by
    refine Matrix.ext fun i j => ?_
    rw [Matrix.mul_apply]
    exact congrFun (hU i) j
  have hdvd : (Matrix.of U).det ∣ X ^ e := by
    have h1 : (Matrix.of U).det ∣ C c * X ^ e := by
      rw [← hdet, hPU, det_mul]; exact Dvd.intro _ rfl
    exact (IsUnit.dvd_mul_left (isUnit_C.2 hc.isUnit)).1 h1
  obtain ⟨k, -, hk⟩ := (dvd_prime_pow prime_X e).1 hdvd
  have hk0 : k = 0 := by
    by_contra hne
    -- `U(0)` is singular
    have h0 : ((Matrix.of U).map (fun p : K[X] => p.coeff 0)).det = 0 := by
      have : ((Matrix.of U).map (fun p : K[X] => p.coeff 0)).det = (Matrix.of U).det.coeff 0 := by
        have := (RingHom.map_det (constantCoeff (R := K)) (Matrix.of U)).symm
        exact this
      rw [this, ← X_dvd_iff]
      exact (dvd_pow_self X hne).trans hk.symm.dvd
    obtain ⟨u, hu, hu0⟩ := exists_vecMul_eq_zero_iff.2 h0
    apply hu
    have hu0' : ∀ l, ∑ i, u i * (U i l).coeff 0 = 0 := fun l => congrFun hu0 l
    apply hfr u
    · intro j
      have : ∀ i, (P i j).coeff 0 = ∑ l, (U i l).coeff 0 * (B l j).coeff 0 := by
        intro i
        rw [hPU, Matrix.mul_apply, finsetSum_coeff]
        exact Finset.sum_congr rfl fun l _ => by rw [mul_coeff_zero]; rfl
      simp only [this, Finset.mul_sum]
      rw [Finset.sum_comm]
      refine Finset.sum_eq_zero fun l _ => ?_
      have : ∀ i, u i * ((U i l).coeff 0 * (B l j).coeff 0) = (u i * (U i l).coeff 0) * (B l j).coeff 0 :=
        fun i => by ring
      simp only [this]
      rw [← Finset.sum_mul, hu0' l, zero_mul]
    · intro j
      have hBF := (IsApproximantBasis.generates' hB).sound
      have : ∀ i, ((P * F) i j).coeff d = ∑ l, (U i l).coeff 0 * ((B * F) l j).coeff d := by
        intro i
        have h1 : (P * F) i j = ∑ l, U i l * (B * F) l j := by
          rw [hPU, Matrix.mul_assoc, Matrix.mul_apply]; rfl
        rw [h1, finsetSum_coeff]
        refine Finset.sum_congr rfl fun l _ => ?_
        obtain ⟨g, hg⟩ := hBF l j
        rw [hg]
        have : U i l * (X ^ d * g) = X ^ d * (U i l * g) := by ring
        rw [this]
        have e0 : ∀ p : K[X], (X ^ d * p).coeff d = p.coeff 0 := fun p => by
          have := coeff_X_pow_mul p d 0
          simpa using this
        rw [e0, e0, mul_coeff_zero]
      simp only [this, Finset.mul_sum]
      rw [Finset.sum_comm]
      refine Finset.sum_eq_zero fun l _ => ?_
      have : ∀ i, u i * ((U i l).coeff 0 * ((B * F) l j).coeff d) =
          (u i * (U i l).coeff 0) * ((B * F) l j).coeff d := fun i => by ring
      simp only [this]
      rw [← Finset.sum_mul, hu0' l, zero_mul]
  subst hk0
  rw [pow_zero] at hk
  have hunit : IsUnit (Matrix.of U).det := associated_one_iff_isUnit.1 hk
  have hgen : Generates F d P := by
    refine ⟨hap, fun v hv => ?_⟩
    obtain ⟨w, rfl⟩ := (hB.generates v).1 hv
    refine ⟨w ᵥ* (Matrix.of U)⁻¹, ?_⟩
    rw [vecMul_vecMul, hPU, ← Matrix.mul_assoc, nonsing_inv_mul _ hunit, Matrix.one_mul]
  exact hgen.isBasis

end Theory

variable {q : Nat} [Fact q.Prime]

theorem exists_basis {m n : Nat} (F : Matrix (Fin m) (Fin n) (ZMod q)[X]) (d : Nat) :
    ∃ B, IsApproximantBasis F d B := by
  obtain ⟨fl, hfl⟩ := PML.Nullspace.flintContract_satisfiable (K := ZMod q)
  obtain ⟨o, ho⟩ := oracles_satisfiable (q := q)
  have he : EnvOK (q := q) ⟨fl, PML.Sort.insQsort, o, id, true, 32⟩ :=
    ⟨hfl, PML.Sort.insQsort_contract, ho, by show 1 ≤ 32; omega⟩
  have h := (C23_poly_mat_mbasis _ he m n (fun _ _ => 0) (fun _ => 0)
    (fun i j => if h : i < m ∧ j < n then F ⟨i, h.1⟩ ⟨j, h.2⟩ else 0) d).1
  have e : asMatrix m n (fun i j => if h : i < m ∧ j < n then F ⟨i, h.1⟩ ⟨j, h.2⟩ else 0) = F := by
    ext i j : 2
    simp [asMatrix]
  rw [e] at h
  exact ⟨_, h⟩

theorem trunc_eq_zero_iff (m n : Nat) (c0 A : Mat (ZMod q)[X]) (d i j : Nat) (hi : i < m) (hj : j < n) :
    truncPoly m n c0 A d i j = 0 ↔ X ^ d ∣ A i j := by
  rw [X_pow_dvd_iff, truncPoly, if_pos ⟨hi, hj⟩]
  constructor
  · intro h k hk
    have := congrArg (fun p => coeff p k) h
    simp only [coeff_zero] at this
    rw [coeff_ofCoeffs] at this
    by_cases hkl : k < min d (polyLength (A i j))
    · rw [if_pos hkl] at this; exact this
    · exact polyLength_coeff _ _ (by omega)
  · intro h
    ext k
    rw [coeff_ofCoeffs, coeff_zero]
    split_ifs with hk
    · exact h k (by omega)
    · rfl

theorem sumDiagDeg_eq (P : Mat (ZMod q)[X]) (m : Nat) (h : ∀ i, i < m → P i i ≠ 0) :
    ∀ k, k ≤ m → sumDiagDeg P k = ∑ i ∈ Finset.range k, ((P i i).natDegree : Int) := by
  intro k
  induction k with
  | zero => intro _; rfl
  | succ k ih =>
    intro hk
    rw [sumDiagDeg, ih (by omega), Finset.sum_range_succ, pdeg_of_ne (h k (by omega))]

/-- The form asked for: ordered weak Popov, lower or upper. -/
def OrderedForm (orient : Orient) (m : Nat) (s : Nat → Int) (P : Mat (ZMod q)[X]) : Prop :=
  (orient = .rowLower ∧ OrderedWeakPopovLower m m s P) ∨
  (orient = .rowUpper ∧ OrderedWeakPopovUpper m m s P)

theorem OrderedForm.det {orient : Orient} {m : Nat} {s : Nat → Int} {P : Mat (ZMod q)[X]}
    (h : OrderedForm orient m s P) :
    (asMatrix m m P).det ≠ 0 ∧ (asMatrix m m P).det.natDegree = ∑ i : Fin m, (P i i).natDegree ∧
      ∀ i, i < m → P i i ≠ 0 := by
  rcases h with ⟨_, h⟩ | ⟨_, h⟩
  · exact ⟨(orderedLower_det h).1, (orderedLower_det h).2, fun i hi => (orderedLower_diag h i hi).nonzero⟩
  · exact ⟨(orderedUpper_det h).1, (orderedUpper_det h).2, fun i hi => (orderedUpper_diag h i hi).nonzero⟩

theorem rank_cp0_iff {m n : Nat} {P R : Mat (ZMod q)[X]} {F : Mat (ZMod q)[X]} (d : Nat)
    (hR : asMatrix m n R = asMatrix m m P * asMatrix m n F) :
    (Matrix.of fun (i : Fin m) (j : Fin (m + n)) => cp0 m P R d i j : Matrix _ _ (ZMod q)).rank = m ↔
      FullRank (asMatrix m n F) d (asMatrix m m P) := by
  rw [eq_comm, rank_rows_iff]
  constructor
  · intro h u h1 h2
    have hu := h (fun i => if hi : i < m then u ⟨i, hi⟩ else 0) (fun j hj => ?_)
    · funext i
      have := hu i i.2
      simpa using this
    · rw [Finset.sum_range]
      simp only [Fin.is_lt, dite_true, Fin.eta]
      unfold cp0
      by_cases hjm : j < m
      · simp only [if_pos hjm]; exact h1 ⟨j, hjm⟩
      · simp only [if_neg hjm]
        have := h2 ⟨j - m, by omega⟩
        rw [← hR] at this
        exact this
  · intro h u hu i hi
    have := h (fun i => u i) (fun j => ?_) (fun j => ?_)
    · exact congrFun this ⟨i, hi⟩
    · have := hu j (by omega)
      rw [Finset.sum_range] at this
      simp only [cp0, if_pos j.2] at this
      exact this
    · have := hu (m + j) (by omega)
      rw [Finset.sum_range] at this
      simp only [cp0, if_neg (show ¬ (m + (j : Nat) < m) by omega), Nat.add_sub_cancel_left] at this
      rw [← hR]
      exact this

/-- What `nmod_poly_mat_is_approximant_basis` checks, in both row orientations: it
    does not fail, and it returns 1 exactly when the matrix is in shifted ordered
    weak Popov form, its rows are approximants, and `[P(0) | C]` has full rank. -/
theorem C41_is_approximant_basis_exact (o : Oracles q) (ho : OraclesOK o) (orient : Orient)
    (hor : orient = .rowLower ∨ orient = .rowUpper) (m n : Nat) (P F : Mat (ZMod q)[X]) (d : Nat)
    (shift : Option (Nat → Int)) :
    ∃ b, isApproximantBasis o orient m n P F d shift = Outcome.ok b ∧
      (b = true ↔ OrderedForm orient m (shiftOf shift) P ∧
        (∀ i j, X ^ d ∣ (asMatrix m m P * asMatrix m n F) i j) ∧
        FullRank (asMatrix m n F) d (asMatrix m m P)) := by
  obtain ⟨R, hR1, hR2, -⟩ := C27_multiply o ho m m n (fun _ _ => 0) P F
  unfold isApproximantBasis
  rw [hR1]
  refine ⟨_, rfl, ?_⟩
  have hform : isOrderedWeakPopov orient m m P shift = true ↔ OrderedForm orient m (shiftOf shift) P := by
    rcases hor with rfl | rfl
    · rw [(C31_is_ordered_weak_popov m m P shift).1]; simp [OrderedForm]
    · rw [(C31_is_ordered_weak_popov m m P shift).2.1]; simp [OrderedForm]
  have happ : (∀ i, i < m → ∀ j, j < n → truncPoly m n (fun _ _ => 0) R d i j = 0) ↔
      ∀ i j, X ^ d ∣ (asMatrix m m P * asMatrix m n F) i j := by
    rw [← hR2]
    constructor
    · intro h i j
      exact (trunc_eq_zero_iff m n _ R d i j i.2 j.2).1 (h i i.2 j j.2)
    · intro h i hi j hj
      exact (trunc_eq_zero_iff m n _ R d i j hi hj).2 (h ⟨i, hi⟩ ⟨j, hj⟩)
  simp only [Bool.and_eq_true, decide_eq_true_eq]
  rw [hform, happ, rank_cp0_iff d hR2]
  constructor
  · rintro ⟨⟨⟨h1, h2⟩, h3⟩, h4⟩; exact ⟨h1, h2, h4⟩
  · rintro ⟨h1, h2, h4⟩
    refine ⟨⟨⟨h1, h2⟩, ?_⟩, h4⟩
    obtain ⟨g1, g2, g3⟩ := h1.det
    rw [sumDiagDeg_eq P m g3 m (Nat.le_refl m)]
    show pdeg (asMatrix m m P).det = _
    rw [pdeg_of_ne g1, g2, Finset.sum_range]
    push_cast; rfl

/-- C41, completeness: every approximant basis in shifted ordered weak Popov form
    is accepted. -/
theorem C41_is_approximant_basis_complete (o : Oracles q) (ho : OraclesOK o) (orient : Orient)
    (hor : orient = .rowLower ∨ orient = .rowUpper) (m n : Nat) (P F : Mat (ZMod q)[X]) (d : Nat)
    (shift : Option (Nat → Int)) (hform : OrderedForm orient m (shiftOf shift) P)
    (hP : IsApproximantBasis (asMatrix m n F) d (asMatrix m m P)) :
    isApproximantBasis o orient m n P F d shift = Outcome.ok true := by
  obtain ⟨b, h1, h2⟩ := C41_is_approximant_basis_exact o ho orient hor m n P F d shift
  rw [h1, h2.2 ⟨hform, (IsApproximantBasis.generates' hP).sound, fullRank_of_basis hP⟩]

/-- C41, soundness: if 1 is returned and the determinant of the matrix is, as the
    comment of line 69 says it should be, a monomial, then the matrix is an
    approximant basis in shifted ordered weak Popov form. What is missing: the code
    only tests the degree of the determinant, see `C41_is_approximant_basis_wrong`. -/
theorem C41_is_approximant_basis_sound_partial (o : Oracles q) (ho : OraclesOK o) (orient : Orient)
    (hor : orient = .rowLower ∨ orient = .rowUpper) (m n : Nat) (P F : Mat (ZMod q)[X]) (d : Nat)
    (shift : Option (Nat → Int))
    (hacc : isApproximantBasis o orient m n P F d shift = Outcome.ok true)
    (hdet : ∃ (c : ZMod q) (e : Nat), (asMatrix m m P).det = C c * X ^ e) :
    OrderedForm orient m (shiftOf shift) P ∧
      IsApproximantBasis (asMatrix m n F) d (asMatrix m m P) := by
  obtain ⟨b, h1, h2⟩ := C41_is_approximant_basis_exact o ho orient hor m n P F d shift
  have hb : b = true := by
    rw [h1] at hacc; injection hacc
  obtain ⟨h3, h4, h5⟩ := h2.1 hb
  obtain ⟨c, e, hce⟩ := hdet
  obtain ⟨B, hB⟩ := exists_basis (asMatrix m n F) d
  have hc : c ≠ 0 := by
    rintro rfl
    exact h3.det.1 (by rw [hce]; simp)
  exact ⟨h3, basis_of_fullRank hB h4 h5 hc hce⟩

/-- C41 refutation: over every prime field, with `F = [X]` and order 1, the matrix
    `[X + 1]` is accepted although its row does not generate the approximant `[1]`. -/
theorem C41_is_approximant_basis_wrong (o : Oracles q) (ho : OraclesOK o) :
    isApproximantBasis o .rowLower 1 1 (fun _ _ => (X + 1 : (ZMod q)[X])) (fun _ _ => X) 1 none =
      Outcome.ok true ∧
    ¬ IsApproximantBasis (asMatrix 1 1 fun _ _ => (X : (ZMod q)[X])) 1
      (asMatrix 1 1 fun _ _ => X + 1) := by
  have hne : (X + 1 : (ZMod q)[X]) ≠ 0 := by
    rw [← C_1]; exact X_add_C_ne_zero 1
  constructor
  · obtain ⟨b, h1, h2⟩ := C41_is_approximant_basis_exact o ho .rowLower (Or.inl rfl) 1 1
      (fun _ _ => (X + 1 : (ZMod q)[X])) (fun _ _ => X) 1 none
    have hb : b = true := by
      refine h2.2 ⟨Or.inl ⟨rfl, fun _ => 0, fun _ => 1, fun i hi => ?_, fun i j h1 h2 => by omega⟩, ?_, ?_⟩
      rotate_left
      · intro i j
        rw [Matrix.mul_apply]
        simp [asMatrix]
      · intro u h1 h2
        funext i
        have h3 := h1 0
        have : i = 0 := Subsingleton.elim _ _
        subst this
        simpa [asMatrix] using h3
      exact ⟨Nat.one_pos, hne, by rw [← C_1]; exact natDegree_X_add_C 1,
        fun j hj _ => by
          have : j = 0 := by omega
          subst this
          simp only [shiftOf]
          rw [← C_1, natDegree_X_add_C], fun j hj h => by omega⟩
    rw [h1, hb]
  · intro h
    obtain ⟨u, hu⟩ := (h.generates (fun _ => 1)).1 (fun j => by simp [asMatrix, Matrix.vecMul, dotProduct])
    have h1 : (1 : (ZMod q)[X]) = u 0 * (X + 1) := by
      have := congrFun hu 0
      simpa [asMatrix, Matrix.vecMul, dotProduct] using this
    have h2 := congrArg (fun p => eval (-1 : ZMod q) p) h1
    simp at h2

/-- The hypotheses of the two theorems are met: `[X^2]` is an approximant basis of
    `[1]` at order 2. -/
example (o : Oracles 5) (ho : OraclesOK o) :
    isApproximantBasis o .rowLower 1 1 (fun _ _ => (X ^ 2 : (ZMod 5)[X])) (fun _ _ => 1) 2 none =
      Outcome.ok true := by
  refine C41_is_approximant_basis_complete o ho .rowLower (Or.inl rfl) 1 1 _ _ 2 none
    (Or.inl ⟨rfl, fun _ => 0, fun _ => 2, fun i hi => ?_, fun i j h1 h2 => by omega⟩) ⟨?_, fun v => ?_⟩
  · exact ⟨Nat.one_pos, by simp, by simp, fun j hj _ => by simp [shiftOf], fun j hj h => by omega⟩
  · simp [asMatrix]
  · constructor
    · intro h
      obtain ⟨w, hw⟩ := h 0
      refine ⟨fun _ => w, funext fun j => ?_⟩
      have : j = 0 := Subsingleton.elim _ _
      subst this
      simp only [asMatrix, Matrix.vecMul, dotProduct, Finset.univ_unique, Finset.sum_singleton,
        Matrix.of_apply, mul_one] at hw ⊢
      rw [mul_comm, ← hw]; rfl
    · rintro ⟨u, rfl⟩ j
      simp [asMatrix, Matrix.vecMul, dotProduct]

example : (asMatrix 1 1 (fun _ _ => (X ^ 2 : (ZMod 5)[X]))).det = C 1 * X ^ 2 := by simp [asMatrix]

/-! ### Kernel bases -/

/-- C51: what `nmod_poly_mat_is_kernel` decides for the row orientations, for
    matrices of compatible dimensions: it does not fail when the test of the form
    does not, and it returns 1 exactly when the number of rows is the nullity, the
    test of the form answers 1 and every row is in the left kernel. -/
theorem C51_is_kernel_exact (o : Oracles q) (ho : OraclesOK o) (qs : QsortIntFn) (orient : Orient)
    (k m n : Nat) (hk : k ≤ m) (N A : Mat (ZMod q)[X]) (form : Form) (shift : Option (Nat → Int))
    (f : Bool) (hf : isForm qs orient k m N form shift = some f) :
    ∃ b, isKernelRow o qs orient k m m n N A form shift = Outcome.ok b ∧
      (b = true ↔ k + PML.RowOps.Spec.rankOf m n A = m ∧ f = true ∧
        asMatrix k m N * asMatrix m n A = 0) := by
  obtain ⟨R, hR1, hR2, hR3⟩ := C27_multiply o ho k m n (fun _ _ => 0) N A
  unfold isKernelRow
  rw [if_neg (by omega), hf]
  simp only [hR1]
  refine ⟨_, rfl, ?_⟩
  simp only [Bool.and_eq_true, decide_eq_true_eq]
  rw [← hR2]
  have h1 : (∀ i, i < m → ∀ j, j < n → R i j = 0) ↔ asMatrix k n R = 0 := by
    constructor
    · intro h; refine Matrix.ext fun i j => ?_; exact h i (by omega) j j.2
    · intro h i hi j hj
      by_cases hik : i < k
      · exact congrFun (congrFun h ⟨i, hik⟩) ⟨j, hj⟩
      · rw [hR3 i j (by omega)]
  rw [h1]
  constructor
  · rintro ⟨⟨h1, h2⟩, h3⟩; exact ⟨by omega, h2, h3⟩
  · rintro ⟨h1, h2, h3⟩; exact ⟨⟨by omega, h2⟩, h3⟩

/-- C51 refutation: the test does not check generation: `[X]` is accepted as a
    kernel basis, in ordered weak Popov form, of the `1 × 1` zero matrix. -/
theorem C51_is_kernel_wrong (o : Oracles q) (ho : OraclesOK o) (qs : QsortIntFn) :
    isKernelRow o qs .rowLower 1 1 1 1 (fun _ _ => (X : (ZMod q)[X])) (fun _ _ => 0) .ordWeakPopov none =
      Outcome.ok true ∧
    ¬ IsKernelBasis (asMatrix 1 1 fun _ _ => (0 : (ZMod q)[X])) (asMatrix 1 1 fun _ _ => X) := by
  constructor
  · have hf : isOrderedWeakPopov .rowLower 1 1 (fun _ _ => (X : (ZMod q)[X])) none = true := by
      rw [(C31_is_ordered_weak_popov 1 1 _ none).1]
      refine ⟨fun _ => 0, fun _ => 1, fun i hi => ?_, fun i j h1 h2 => by omega⟩
      exact ⟨Nat.one_pos, X_ne_zero, natDegree_X, fun j hj _ => by simp [shiftOf], fun j hj h => by omega⟩
    obtain ⟨b, h1, h2⟩ := C51_is_kernel_exact o ho qs .rowLower 1 1 1 (by omega)
      (fun _ _ => (X : (ZMod q)[X])) (fun _ _ => 0) .ordWeakPopov none true (by simp [isForm, hf])
    have hb : b = true := by
      refine h2.2 ⟨?_, rfl, ?_⟩
      · have : PML.RowOps.Spec.rankOf 1 1 (fun _ _ => (0 : (ZMod q)[X])) = 0 := by
          unfold PML.RowOps.Spec.rankOf
          have : (asMatrix 1 1 fun _ _ => (0 : (ZMod q)[X])).map
              (algebraMap (ZMod q)[X] (FractionRing (ZMod q)[X])) = 0 := by
            refine Matrix.ext fun i j => ?_; simp [asMatrix]
          rw [this, Matrix.rank_zero]
        omega
      · refine Matrix.ext fun i j => ?_
        rw [Matrix.mul_apply]; simp [asMatrix]
    rw [h1, hb]
  · intro h
    obtain ⟨u, hu⟩ := (h.generates (fun _ => 1)).1 (by
      funext j; simp [asMatrix, Matrix.vecMul, dotProduct])
    have h1 : (1 : (ZMod q)[X]) = u 0 * X := by
      have := congrFun hu 0
      simpa [asMatrix, Matrix.vecMul, dotProduct] using this
    have h2 := congrArg (fun p => eval (0 : ZMod q) p) h1
    simp at h2

end PML.Verification
