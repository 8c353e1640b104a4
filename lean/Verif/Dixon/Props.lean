import Verif.Dixon.Model
import Verif.Pmbasis.Props
import Verif.Approx.Pivot
import Verif.PolyMul.Props
import Mathlib.RingTheory.Ideal.Quotient.Operations
import Mathlib.LinearAlgebra.Matrix.Adjugate
import Mathlib.Algebra.Polynomial.FieldDivision
import Mathlib.RingTheory.Coprime.Lemmas

/-!
# C39: truncated inverse and Dixon lifting

The external functions are those of C23 and C27, with the contracts gathered in
`EnvOK` (shown satisfiable with C23).
-/

namespace PML.Dixon

open PML.MatOps PML.MatPoly PML.Approx PML.Approx.Spec PML.PolyMul PML.PolyMul.Spec PML.Pmbasis
open Polynomial

set_option linter.unusedSectionVars false

variable {q : Nat} [hqp : Fact q.Prime]

/-- Equality of matrices modulo `X^d`. -/
def Congr {r c : Nat} (d : Nat) (A B : Matrix (Fin r) (Fin c) (ZMod q)[X]) : Prop :=
  ∀ i j, X ^ d ∣ A i j - B i j

/-- Modulo `X^d`, a left inverse is a right inverse. -/
theorem congr_comm {n d : Nat} {S A : Matrix (Fin n) (Fin n) (ZMod q)[X]} (h : Congr d (S * A) 1) :
    Congr d (A * S) 1 := by
  let I : Ideal (ZMod q)[X] := Ideal.span {X ^ d}
  have key : ∀ M : Matrix (Fin n) (Fin n) (ZMod q)[X],
      Congr d M 1 ↔ M.map (Ideal.Quotient.mk I) = 1 := by
    intro M
    have h1 : (1 : Matrix (Fin n) (Fin n) ((ZMod q)[X] ⧸ I)) =
        (1 : Matrix (Fin n) (Fin n) (ZMod q)[X]).map (Ideal.Quotient.mk I) := by
      rw [Matrix.map_one _ (map_zero _) (map_one _)]
    rw [h1, ← Matrix.ext_iff]
    constructor
    · intro h i j
      exact (Ideal.Quotient.mk_eq_mk_iff_sub_mem _ _).2 (Ideal.mem_span_singleton.2 (h i j))
    · intro h i j
      exact Ideal.mem_span_singleton.1 ((Ideal.Quotient.mk_eq_mk_iff_sub_mem _ _).1 (h i j))
  rw [key, Matrix.map_mul] at h ⊢
  exact mul_eq_one_comm.1 h

/-- A matrix invertible at zero has an inverse modulo `X^d`, with entries of degree below `d`. -/
theorem exists_inverse {n : Nat} (A : Matrix (Fin n) (Fin n) (ZMod q)[X])
    (h : A.det.coeff 0 ≠ 0) (d : Nat) :
    ∃ S : Matrix (Fin n) (Fin n) (ZMod q)[X], Congr d (S * A) 1 ∧ ∀ i j k, d ≤ k → (S i j).coeff k = 0 := by
  have hX : ¬ (X : (ZMod q)[X]) ∣ A.det := fun hd => h (X_dvd_iff.1 hd)
  have hcop : IsCoprime (X ^ d : (ZMod q)[X]) A.det :=
    ((irreducible_X.coprime_iff_not_dvd).2 hX).pow_left
  obtain ⟨a, b, hab⟩ := hcop
  refine ⟨Matrix.of fun i j => (b * A.adjugate i j) %ₘ X ^ d, fun i j => ?_, fun i j k hk => ?_⟩
  · have h1 : (b • A.adjugate) * A = (b * A.det) • (1 : Matrix (Fin n) (Fin n) (ZMod q)[X]) := by
      rw [Matrix.smul_mul, Matrix.adjugate_mul, smul_smul]
    have h2 : X ^ d ∣ ((b • A.adjugate) * A) i j - (1 : Matrix (Fin n) (Fin n) (ZMod q)[X]) i j := by
      rw [h1, Matrix.smul_apply, smul_eq_mul]
      refine ⟨- a * (1 : Matrix (Fin n) (Fin n) (ZMod q)[X]) i j, ?_⟩
      linear_combination (1 : Matrix (Fin n) (Fin n) (ZMod q)[X]) i j * hab
    have h3 : X ^ d ∣ ((Matrix.of fun i j => (b * A.adjugate i j) %ₘ X ^ d) * A) i j -
        ((b • A.adjugate) * A) i j := by
      rw [Matrix.mul_apply, Matrix.mul_apply, ← Finset.sum_sub_distrib]
      refine Finset.dvd_sum fun l _ => ?_
      rw [← sub_mul]
      refine Dvd.dvd.mul_right ?_ _
      rw [Matrix.of_apply, Matrix.smul_apply, smul_eq_mul]
      refine ⟨- ((b * A.adjugate i l) /ₘ X ^ d), ?_⟩
      have := modByMonic_add_div (b * A.adjugate i l) (X ^ d : (ZMod q)[X])
      linear_combination this
    have := dvd_add h3 h2
    rwa [sub_add_sub_cancel] at this
  · rw [Matrix.of_apply]
    apply coeff_eq_zero_of_degree_lt
    have := degree_modByMonic_lt (b * A.adjugate i j) (monic_X_pow (R := ZMod q) d)
    rw [degree_X_pow] at this
    exact lt_of_lt_of_le this (by exact_mod_cast hk)

theorem coeff_zero_det {n : Nat} (A : Matrix (Fin n) (Fin n) (ZMod q)[X]) :
    A.det.coeff 0 = (A.map fun p => p.coeff 0).det := by
  have h := RingHom.map_det (constantCoeff (R := ZMod q)) A
  exact h

theorem inverse_det {n d : Nat} (hd : 1 ≤ d) {S A : Matrix (Fin n) (Fin n) (ZMod q)[X]}
    (h : Congr d (S * A) 1) : A.det.coeff 0 ≠ 0 := by
  intro h0
  have h1 : (S * A).map (fun p => p.coeff 0) = 1 := by
    refine Matrix.ext fun i j => ?_
    have := (X_pow_dvd_iff.1 (h i j)) 0 (by omega)
    rw [coeff_sub, sub_eq_zero] at this
    rw [Matrix.map_apply, this, Matrix.one_apply, Matrix.one_apply]
    split_ifs <;> simp
  have h2 : (S * A).det.coeff 0 = 1 := by rw [coeff_zero_det, h1, Matrix.det_one]
  rw [Matrix.det_mul, mul_coeff_zero, h0, mul_zero] at h2
  exact zero_ne_one h2

theorem neg_one_eq : ((q - 1 : Nat) : ZMod q) = -1 := by
  have := hqp.out.one_le
  rw [Nat.cast_sub this]; simp

/-- The product of a row with `[A ; -I]`. -/
theorem vecMul_stacked {n : Nat} (A : Mat (ZMod q)[X]) (v : Fin (2 * n) → (ZMod q)[X]) (j : Fin n) :
    (Matrix.vecMul v (asMatrix (2 * n) n (stacked n A))) j =
      ∑ l : Fin n, v ⟨l, by omega⟩ * A l j - v ⟨n + j, by omega⟩ := by
  show ∑ l : Fin (2 * n), v l * stacked n A l j = _
  have hs : ∑ l : Fin (2 * n), v l * stacked n A l j =
      ∑ l : Fin (n + n), v (Fin.cast (by omega) l) * stacked n A l j := by
    refine (Fintype.sum_equiv (finCongr (by omega : n + n = 2 * n)) _ _ fun x => ?_).symm
    rfl
  rw [hs, Fin.sum_univ_add, sub_eq_add_neg]
  congr 1
  · refine Finset.sum_congr rfl fun l _ => ?_
    have : stacked n A (Fin.castAdd n l : Fin (n + n)) j = A l j := by
      unfold stacked; rw [if_pos (by simp)]; rfl
    rw [this]; rfl
  · rw [Finset.sum_eq_single j]
    · have : stacked n A (Fin.natAdd n j : Fin (n + n)) j = C (-1) := by
        unfold stacked
        rw [if_neg (by simp), if_pos (by simp [Nat.add_comm]), neg_one_eq]
      rw [this]
      have e : (Fin.cast (by omega) (Fin.natAdd n j) : Fin (2 * n)) = ⟨n + j, by omega⟩ := rfl
      rw [e, C_neg, C_1, mul_neg, mul_one]
    · intro l _ hl
      have : stacked n A (Fin.natAdd n l : Fin (n + n)) j = 0 := by
        unfold stacked
        rw [if_neg (by simp), if_neg]
        intro h
        apply hl
        ext
        simp at h
        omega
      rw [this, mul_zero]
    · intro h; exact absurd (Finset.mem_univ j) h

/-- C39, first part: `inv_trunc` always ends. For `order ≥ 1` it returns nonzero exactly
    when `A(0)` is invertible. If it returns nonzero, `S` is the truncated inverse:
    `S A = A S = I` modulo `X^order`, with entries of degree below `order`; if it
    returns zero `S` is not modified. -/
theorem C39_inv_trunc (e : Env q) (he : EnvOK e) (n fuel : Nat) (S0 A : Mat (ZMod q)[X])
    (order : Nat) (hfuel : order < fuel) :
    ∃ b S, invTrunc e fuel n S0 A order = Outcome.ok (b, S) ∧
      (1 ≤ order → (b = true ↔ ((asMatrix n n A).map fun p => p.coeff 0).det ≠ 0)) ∧
      (b = true → Congr order (asMatrix n n S * asMatrix n n A) 1 ∧
        Congr order (asMatrix n n A * asMatrix n n S) 1 ∧
        (∀ i, i < n → ∀ j, j < n → ∀ k, order ≤ k → (S i j).coeff k = 0) ∧
        ∀ i j, ¬ (i < n ∧ j < n) → S i j = S0 i j) ∧
      (b = false → S = S0) := by
  obtain ⟨P, t, h1, hG, hD⟩ := pmbasis_spec e he (2 * n) n fuel (fun _ _ => 0)
    (fun i => if i < n then 0 else (order : Int)) (stacked n A) order hfuel
  unfold invTrunc
  rw [h1]
  refine ⟨_, _, rfl, ?_⟩
  -- when the block is the identity, the other block is the inverse
  have hsound : (∀ i, i < n → ∀ j, j < n → P (n + i) (n + j) = if i = j then 1 else 0) →
      Congr order ((Matrix.of fun i j : Fin n => P (n + i) j) * asMatrix n n A) 1 := by
    intro hone i j
    have h2 := hG.sound ⟨n + i, by omega⟩ j
    have h3 := vecMul_stacked A (asMatrix (2 * n) (2 * n) P ⟨n + i, by omega⟩) j
    have h4 : (asMatrix (2 * n) (2 * n) P * asMatrix (2 * n) n (stacked n A)) ⟨n + i, by omega⟩ j =
        ∑ l : Fin n, P (n + i) l * A l j - P (n + i) (n + j) := h3
    rw [h4, hone i i.2 j j.2] at h2
    rw [Matrix.mul_apply, Matrix.one_apply]
    rw [show (if i = j then (1 : (ZMod q)[X]) else 0) = if (i : Nat) = j then 1 else 0 from
      if_congr Fin.ext_iff rfl rfl]
    exact h2
  -- when A is invertible, the block is the identity
  have hcomplete : (asMatrix n n A).det.coeff 0 ≠ 0 → ∀ i, i < n →
      t (n + i) = (order : Int) := by
    intro hdet i hi
    obtain ⟨S, hS1, hS2⟩ := exists_inverse _ hdet order
    let v : Fin (2 * n) → (ZMod q)[X] := fun l =>
      if h : (l : Nat) < n then S ⟨i, hi⟩ ⟨l, h⟩ else if (l : Nat) = n + i then 1 else 0
    have hv : IsApproximant (asMatrix (2 * n) n (stacked n A)) order v := by
      intro j
      rw [vecMul_stacked]
      have h2 := hS1 ⟨i, hi⟩ j
      rw [Matrix.mul_apply, Matrix.one_apply] at h2
      convert h2 using 2
      · refine Finset.sum_congr rfl fun l _ => ?_
        simp only [v]
        rw [dif_pos l.2]
        rfl
      · simp only [v]
        rw [dif_neg (by omega)]
        by_cases hij : i = j
        · rw [if_pos (by omega), if_pos (by ext; exact hij)]
        · rw [if_neg (by omega), if_neg (by intro h; apply hij; exact congrArg Fin.val h)]
    have hp : HasPivot (fun i : Fin (2 * n) => if (i : Nat) < n then 0 else (order : Int)) v order
        ⟨n + i, by omega⟩ := by
      refine ⟨fun j k hk => ?_, fun j hj k hk => ?_, ?_, ?_⟩
      · simp only [v] at hk ⊢
        split_ifs at hk ⊢ with ha hb
        · exact hS2 _ _ _ (by omega)
        · rw [coeff_one, if_neg (by omega)]
        · simp
      · have hj' : n + i < (j : Nat) := hj
        simp only [v]
        rw [dif_neg (by omega), if_neg (by omega), coeff_zero]
      · simp only
        rw [if_neg (by omega)]
      · have e1 : v ⟨n + i, by omega⟩ = 1 := by
          simp only [v]; rw [dif_neg (by omega), if_pos True.intro]
        rw [e1]
        simp only
        rw [if_neg (by omega)]
        simp
    obtain ⟨u, hu⟩ := hG.complete v hv
    rw [hu] at hp
    obtain ⟨π, hπ, -, hle⟩ := hD.pivots.of_mem hp
    have hge := hD.ge ⟨n + i, by omega⟩
    simp only [id] at hπ
    subst hπ
    simp only at hle hge
    rw [if_neg (by omega)] at hge
    omega
  have hblock : (∀ i, i < n → t (n + i) = (order : Int)) →
      ∀ i, i < n → ∀ j, j < n → P (n + i) (n + j) = if i = j then 1 else 0 := by
    intro ht i hi j hj
    have h2 := hD.unmoved ⟨n + j, by omega⟩ (by
      simp only; rw [if_neg (by omega)]; exact ht j hj) ⟨n + i, by omega⟩
    have h3 : P (n + i) (n + j) = if (⟨n + i, by omega⟩ : Fin (2 * n)) = ⟨n + j, by omega⟩ then 1 else 0 := h2
    rw [h3]
    simp only [Fin.mk.injEq, Nat.add_left_cancel_iff]
  refine ⟨fun hord => ?_, fun hb => ?_, fun hb => ?_⟩
  · rw [decide_eq_true_iff, ← coeff_zero_det]
    exact ⟨fun h => inverse_det hord (hsound h), fun h => hblock (hcomplete h)⟩
  · have hone := of_decide_eq_true hb
    simp only [if_pos hb]
    have hS := hsound hone
    have e : (asMatrix n n fun i j => if i < n ∧ j < n then P (n + i) j else S0 i j) =
        Matrix.of fun i j : Fin n => P (n + i) j := by
      refine Matrix.ext fun i j => ?_
      show (if (i : Nat) < n ∧ (j : Nat) < n then P (n + i) j else S0 i j) = _
      rw [if_pos ⟨i.2, j.2⟩]; rfl
    rw [e]
    refine ⟨hS, congr_comm hS, fun i hi j hj k hk => ?_, fun i j h => if_neg h⟩
    rw [if_pos ⟨hi, hj⟩]
    by_cases h0 : order = 0
    · -- the basis at order zero is the identity
      have hi' := hD.degUnmoved ⟨n + i, by omega⟩ ?_ ⟨j, by omega⟩ (by
        intro h; have := congrArg Fin.val h; simp at this; omega) k hk
      · exact hi'
      · -- degrees are zero, hence the row has not moved
        have hp := hD.pivots.row ⟨n + i, by omega⟩
        have hnd := hp.natDegree
        have hge := hp.ge
        have : (P (n + i) (n + i)) = 1 := by rw [hone i hi i hi, if_pos rfl]
        have e2 : asMatrix (2 * n) (2 * n) P ⟨n + i, by omega⟩ (id ⟨n + i, by omega⟩) = 1 := this
        rw [e2, natDegree_one] at hnd
        simp only [id] at hnd hge ⊢
        omega
    · have ht := hcomplete (inverse_det (by omega) hS) i hi
      exact hD.degUnmoved ⟨n + i, by omega⟩ (by simp only; rw [if_neg (by omega)]; exact ht) ⟨j, by omega⟩ (by
        intro h; have := congrArg Fin.val h; simp at this; omega) k hk
  · simp only [hb]; rfl

/-! ### Lifting -/

/-- The invariant of the lifting loop: `A X + x^(l order) BB = B`, and `X` has degree
    below `l order`. -/
theorem dixonLoop_spec (e : Env q) (he : EnvOK e) (n m : Nat) (A Ci B : Mat (ZMod q)[X])
    (order sigma : Nat) (hord : 1 ≤ order)
    (hC : Congr order (asMatrix n n A * asMatrix n n Ci) 1) (fuel : Nat) :
    ∀ (l : Nat) (Y BB S T : Mat (ZMod q)[X]), sigma ≤ l * order + (fuel - 1) → 1 ≤ fuel →
      l * order < sigma + order →
      asMatrix n n A * asMatrix n m Y + (X ^ (l * order) : (ZMod q)[X]) • asMatrix n m BB =
        asMatrix n m B →
      (∀ i, i < n → ∀ j, j < m → ∀ k, l * order ≤ k → (Y i j).coeff k = 0) →
      ∃ Z, dixonLoop e n m A Ci order sigma fuel l Y BB S T = Outcome.ok Z ∧
        Congr sigma (asMatrix n n A * asMatrix n m Z) (asMatrix n m B) ∧
        (∀ i, i < n → ∀ j, j < m → ∀ k, sigma + order ≤ k → (Z i j).coeff k = 0) ∧
        ∀ i j, ¬ (i < n ∧ j < m) → Z i j = Y i j := by
  induction fuel with
  | zero => intro _ _ _ _ _ _ h; omega
  | succ fuel ih =>
    intro l Y BB S T hf _ hl hinv hdeg
    rw [dixonLoop]
    by_cases hlt : l * order < sigma
    · rw [if_pos hlt]
      obtain ⟨S1, e1, hS1, -⟩ := C27_multiply e.mul he.mul n n m S Ci BB
      rw [e1]
      simp only
      have htr : ∀ i j, i < n → j < m → ∀ k, (truncPoly n m S1 S1 order i j).coeff k =
          if k < order then (S1 i j).coeff k else 0 := fun i j hi hj k =>
        truncPoly_coeff _ _ _ _ _ _ _ ⟨hi, hj⟩ k
      generalize truncPoly n m S1 S1 order = S2 at *
      obtain ⟨T1, e2, hT1, -⟩ := C27_multiply e.mul he.mul n n m (shiftLeft n m T S2 (l * order)) A S2
      rw [e2]
      simp only
      -- the next residual
      have hdvd : ∀ (i : Fin n) (j : Fin m), X ^ order ∣ BB i j - T1 i j := by
        have h1 : Congr order (asMatrix n m S2) (asMatrix n n Ci * asMatrix n m BB) := by
          intro i j
          rw [← hS1]
          refine dvd_sub_of_coeff fun k hk => ?_
          have := htr i j i.2 j.2 k
          rw [if_pos hk] at this
          exact this
        intro i j
        have h2 : T1 i j = ∑ x : Fin n, A i x * S2 x j := congrFun (congrFun hT1 i) j
        -- T1 = A * S2 = A * Ci * BB = BB
        have h3 : X ^ order ∣ (asMatrix n n A * asMatrix n m S2) i j -
            (asMatrix n n A * (asMatrix n n Ci * asMatrix n m BB)) i j := by
          rw [Matrix.mul_apply, Matrix.mul_apply, ← Finset.sum_sub_distrib]
          refine Finset.dvd_sum fun x _ => ?_
          rw [← mul_sub]
          exact Dvd.dvd.mul_left (h1 x j) _
        have h4 : X ^ order ∣ ((asMatrix n n A * asMatrix n n Ci) * asMatrix n m BB) i j -
            ((1 : Matrix (Fin n) (Fin n) (ZMod q)[X]) * asMatrix n m BB) i j := by
          rw [Matrix.mul_apply, Matrix.mul_apply, ← Finset.sum_sub_distrib]
          refine Finset.dvd_sum fun x _ => ?_
          rw [← sub_mul]
          exact Dvd.dvd.mul_right (hC i x) _
        rw [Matrix.one_mul, Matrix.mul_assoc] at h4
        have h5 := dvd_add h3 h4
        rw [sub_add_sub_cancel, ← hT1] at h5
        rw [← neg_sub, dvd_neg]
        exact h5
      have hBB : ∀ i, i < n → ∀ j, j < m →
          X ^ order * shiftRight n m BB (subMat n m T1 BB T1) order i j = BB i j - T1 i j := by
        intro i hi j hj
        obtain ⟨w, hw⟩ := hdvd ⟨i, hi⟩ ⟨j, hj⟩
        simp only at hw
        rw [hw]
        congr 1
        ext k
        rw [shiftRight_coeff _ _ _ _ _ _ _ ⟨hi, hj⟩, subMat, if_pos ⟨hi, hj⟩, hw, coeff_X_pow_mul]
      have hX : ∀ i j, i < n → j < m →
          addMat n m Y Y (shiftLeft n m T S2 (l * order)) i j = Y i j + X ^ (l * order) * S2 i j := by
        intro i j hi hj
        simp only [addMat, shiftLeft, if_pos (And.intro hi hj)]
      have hout : ∀ i j, ¬ (i < n ∧ j < m) →
          addMat n m Y Y (shiftLeft n m T S2 (l * order)) i j = Y i j := fun i j h => by
        simp only [addMat, if_neg h]
      generalize shiftRight n m BB (subMat n m T1 BB T1) order = BB' at *
      generalize addMat n m Y Y (shiftLeft n m T S2 (l * order)) = Y' at *
      have hl1 : (l + 1) * order = l * order + order := by ring
      have hinv' : asMatrix n n A * asMatrix n m Y' +
          (X ^ ((l + 1) * order) : (ZMod q)[X]) • asMatrix n m BB' = asMatrix n m B := by
        have h1 : asMatrix n m Y' = asMatrix n m Y + (X ^ (l * order) : (ZMod q)[X]) • asMatrix n m S2 := by
          refine Matrix.ext fun i j => ?_
          exact hX i j i.2 j.2
        have h2 : (X ^ order : (ZMod q)[X]) • asMatrix n m BB' =
            asMatrix n m BB - asMatrix n n A * asMatrix n m S2 := by
          rw [← hT1]
          refine Matrix.ext fun i j => ?_
          exact hBB i i.2 j j.2
        rw [h1, hl1, pow_add, mul_smul, h2, Matrix.mul_add, Matrix.mul_smul, smul_sub, ← hinv]
        abel
      have hdeg' : ∀ i, i < n → ∀ j, j < m → ∀ k, (l + 1) * order ≤ k → (Y' i j).coeff k = 0 := by
        intro i hi j hj k hk
        rw [hl1] at hk
        rw [hX i j hi hj, coeff_add, hdeg i hi j hj k (by omega), zero_add, coeff_X_pow_mul']
        split_ifs
        · rw [htr i j hi hj, if_neg (by omega)]
        · rfl
      obtain ⟨Z, hZ1, hZ2, hZ3, hZ4⟩ := ih (l + 1) Y' BB' S2 (subMat n m T1 BB T1)
        (by rw [hl1]; omega) (by omega) (by rw [hl1]; omega) hinv' hdeg'
      exact ⟨Z, hZ1, hZ2, hZ3, fun i j h => (hZ4 i j h).trans (hout i j h)⟩
    · rw [if_neg hlt]
      refine ⟨Y, rfl, fun i j => ?_, fun i hi j hj k hk => hdeg i hi j hj k (by omega), fun _ _ _ => rfl⟩
      rw [← hinv]
      rw [Matrix.add_apply, Matrix.smul_apply, smul_eq_mul, sub_add_cancel_left, dvd_neg]
      exact Dvd.dvd.mul_right (pow_dvd_pow X (by omega)) _

/-- C39, second part: for `order ≥ 1`, `dixon` always ends. It returns nonzero exactly
    when `A(0)` is invertible, and then `A X = B` modulo `X^sigma`, `X` being of
    degree below `sigma + order`. Otherwise `X` is not modified. -/
theorem C39_dixon (e : Env q) (he : EnvOK e) (n m fuel : Nat) (X0 A B : Mat (ZMod q)[X])
    (order sigma : Nat) (hord : 1 ≤ order) (hfuel : order + sigma < fuel) :
    ∃ b Z, dixon e fuel n m X0 A B order sigma = Outcome.ok (b, Z) ∧
      (b = true ↔ ((asMatrix n n A).map fun p => p.coeff 0).det ≠ 0) ∧
      (b = true → Congr sigma (asMatrix n n A * asMatrix n m Z) (asMatrix n m B) ∧
        ∀ i, i < n → ∀ j, j < m → ∀ k, sigma + order ≤ k → (Z i j).coeff k = 0) ∧
      (∀ i j, ¬ (i < n ∧ j < m) → Z i j = X0 i j) ∧
      (b = false → Z = X0) := by
  obtain ⟨b, Ci, h1, h2, h3, h4⟩ := C39_inv_trunc e he n fuel (fun _ _ => 0) A order (by omega)
  unfold dixon
  rw [h1]
  simp only
  by_cases hb : b = true
  · rw [if_pos hb]
    have hz : asMatrix n m (fun i j => if i < n ∧ j < m then (0 : (ZMod q)[X]) else X0 i j) = 0 := by
      refine Matrix.ext fun i j => ?_
      show (if (i : Nat) < n ∧ (j : Nat) < m then (0 : (ZMod q)[X]) else X0 i j) = 0
      rw [if_pos ⟨i.2, j.2⟩]
    obtain ⟨Z, hZ1, hZ2, hZ3, hZ4⟩ := dixonLoop_spec e he n m A Ci B order sigma hord (h3 hb).2.1 fuel 0
      (fun i j => if i < n ∧ j < m then 0 else X0 i j) B (fun _ _ => 0) (fun _ _ => 0)
      (by omega) (by omega) (by omega) (by rw [hz]; simp)
      (fun i hi j hj k _ => by rw [if_pos ⟨hi, hj⟩, coeff_zero])
    rw [hZ1]
    refine ⟨true, Z, rfl, ?_, fun _ => ⟨hZ2, hZ3⟩, fun i j h => ?_, fun h => by simp at h⟩
    · rw [← h2 hord, hb]
    · rw [hZ4 i j h, if_neg h]
  · rw [if_neg hb]
    refine ⟨false, X0, rfl, ?_, fun h => by simp at h, fun _ _ _ => rfl, fun _ => rfl⟩
    rw [← h2 hord]
    simp [hb]

/-- C39: with `order = 0` and `sigma ≥ 1` the loop of `dixon` does not end, whatever the
    fuel: this case must be excluded by the caller. -/
theorem C39_dixon_order_zero (e : Env q) (n m : Nat) (A Ci : Mat (ZMod q)[X]) (sigma : Nat)
    (hs : 1 ≤ sigma) (fuel : Nat) :
    ∀ l Y BB S T, dixonLoop e n m A Ci 0 sigma fuel l Y BB S T = Outcome.fail := by
  induction fuel with
  | zero => intro _ _ _ _ _; rfl
  | succ fuel ih =>
    intro l Y BB S T
    rw [dixonLoop, if_pos (by omega)]
    cases multiply e.mul n n m S Ci BB with
    | fail => rfl
    | ok S1 =>
      simp only
      cases multiply e.mul n n m (shiftLeft n m T (truncPoly n m S1 S1 0) (l * 0)) A
          (truncPoly n m S1 S1 0) with
      | fail => rfl
      | ok T1 => exact ih _ _ _ _ _

/-- The hypotheses are met: over the field with five elements, `A = [1 + X]` is
    invertible at zero and `[X]` is not; `dixon` then solves `(1 + X) x = 1 + 3 X^7`
    modulo `X^40` with lifting order 3, and rejects `[X]`. -/
example : ∃ e : Env 5, EnvOK e ∧
    (∃ Z, dixon e 100 1 1 (fun _ _ => 0) (fun _ _ => 1 + X) (fun _ _ => 1 + 3 * X ^ 7) 3 40 =
      Outcome.ok (true, Z) ∧ (X : (ZMod 5)[X]) ^ 40 ∣ (1 + X) * Z 0 0 - (1 + 3 * X ^ 7)) ∧
    ∃ Z, dixon e 100 1 1 (fun _ _ => 0) (fun _ _ => X) (fun _ _ => 1) 3 40 = Outcome.ok (false, Z) := by
  obtain ⟨fl, hfl⟩ := PML.Nullspace.flintContract_satisfiable (K := ZMod 5)
  obtain ⟨o, ho⟩ := oracles_satisfiable (q := 5)
  have he : EnvOK (q := 5) ⟨fl, PML.Sort.insQsort, o, id, true, 32⟩ :=
    ⟨hfl, PML.Sort.insQsort_contract, ho, by show 1 ≤ 32; omega⟩
  refine ⟨_, he, ?_, ?_⟩
  · obtain ⟨b, Z, h1, h2, h3, -⟩ := C39_dixon _ he 1 1 100 (fun _ _ => 0) (fun _ _ => 1 + X)
      (fun _ _ => 1 + 3 * X ^ 7) 3 40 (by omega) (by omega)
    have hb : b = true := by
      rw [h2]
      simp [asMatrix]
    refine ⟨Z, by rw [h1, hb], ?_⟩
    have := (h3 hb).1 0 0
    rw [Matrix.mul_apply] at this
    simpa [asMatrix] using this
  · obtain ⟨b, Z, h1, h2, -⟩ := C39_dixon _ he 1 1 100 (fun _ _ => 0) (fun _ _ => X)
      (fun _ _ => 1) 3 40 (by omega) (by omega)
    have hb : b = false := by
      rw [← Bool.not_eq_true, h2]
      simp [asMatrix]
    exact ⟨Z, by rw [h1, hb]⟩

end PML.Dixon
