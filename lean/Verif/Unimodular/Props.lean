import Verif.Unimodular.Model
import Verif.MatPoly.Lemmas
import Verif.PolyMul.Spec
import Verif.Common.Prime
import Mathlib.LinearAlgebra.Matrix.NonsingularInverse
import Mathlib.Algebra.Polynomial.FieldDivision
import Mathlib.Tactic.NormNum

/-!
# Properties: unimodularity tests (C40)
-/

namespace PML.Unimodular

open PML PML.MatOps PML.MatPoly PML.PolyMul.Spec Polynomial

variable {K : Type} [Field K] [DecidableEq K]

/-- C40: `nmod_poly_mat_is_unimodular` returns 1 exactly for the square matrices
    that have an inverse with polynomial entries. -/
theorem C40_is_unimodular (r c : Nat) (M : Mat K[X]) :
    isUnimodular r c M = true ↔ r = c ∧ ∃ N : Matrix (Fin r) (Fin r) K[X],
      asMatrix r r M * N = 1 ∧ N * asMatrix r r M = 1 := by
  unfold isUnimodular
  by_cases h : r = c
  · subst h
    rw [if_neg (by simp)]
    have key : polyLength (detOf r M) = 1 ↔ IsUnit (asMatrix r r M) := by
      rw [Matrix.isUnit_iff_isUnit_det, Polynomial.isUnit_iff_degree_eq_zero]
      show polyLength (asMatrix r r M).det = 1 ↔ _
      generalize (asMatrix r r M).det = d
      unfold polyLength
      by_cases hd : d = 0
      · subst hd; simp
      · rw [if_neg hd, degree_eq_natDegree hd]
        constructor
        · intro h; have : d.natDegree = 0 := by omega
          rw [this]; rfl
        · intro h; have : d.natDegree = 0 := by exact_mod_cast h
          omega
    rw [decide_eq_true_iff, key]
    constructor
    · rintro ⟨u, hu⟩
      exact ⟨rfl, ↑u⁻¹, by rw [← hu, Units.mul_inv], by rw [← hu, Units.inv_mul]⟩
    · rintro ⟨_, N, h1, h2⟩
      exact ⟨⟨_, N, h1, h2⟩, rfl⟩
  · rw [if_pos h]
    simp [h]

variable {q : Nat} [Fact q.Prime]

theorem detOf_eval (n : Nat) (M : Mat (ZMod q)[X]) (x : ZMod q) :
    detOf n (evalMat M x) = (asMatrix n n M).det.eval x := by
  rw [← Polynomial.coe_evalRingHom, RingHom.map_det]
  rfl

theorem pickPoints_spec {rnd : Nat → Nat × Nat} (hdis : ∃ k, (rnd k).1 ≠ (rnd k).2) :
    ∃ p k, Ends (fun fuel => pickPoints rnd fuel) p ∧ p.pt1 = (rnd k).1 ∧ p.pt2 = (rnd k).2 ∧
      p.pt1 ≠ p.pt2 := by
  classical
  let k0 := Nat.find hdis
  have hk0 : (rnd k0).1 ≠ (rnd k0).2 := Nat.find_spec hdis
  have hmin : ∀ j, j < k0 → (rnd j).1 = (rnd j).2 := fun j hj => by
    by_contra h; exact Nat.find_min hdis hj h
  obtain ⟨p, hp, ⟨h1, h2⟩, h3⟩ := whileLoop_ends (c := fun p : Points => decide (p.pt1 = p.pt2))
    (b := fun p => (⟨(rnd p.step).1, (rnd p.step).2, p.step + 1⟩ : Points))
    (fun p => p.step ≤ k0 + 1 ∧ ((p.step = 0 ∧ p.pt1 = p.pt2) ∨
      ∃ j, p.step = j + 1 ∧ p.pt1 = (rnd j).1 ∧ p.pt2 = (rnd j).2))
    (fun p => k0 + 1 - p.step) (by
      rintro p ⟨h1, h2⟩ hc
      have hc : p.pt1 = p.pt2 := by simpa using hc
      have hlt : p.step ≤ k0 := by
        rcases h2 with ⟨h2, _⟩ | ⟨j, h2, h3, h4⟩
        · omega
        · by_contra hh
          have : j = k0 := by omega
          subst this
          exact hk0 (by rw [← h3, ← h4, hc])
      refine ⟨⟨?_, Or.inr ⟨p.step, rfl, rfl, rfl⟩⟩, ?_⟩
      · show p.step + 1 ≤ k0 + 1; omega
      · show k0 + 1 - (p.step + 1) < k0 + 1 - p.step; omega)
    ⟨0, 0, 0⟩ ⟨by show 0 ≤ k0 + 1; omega, Or.inl ⟨rfl, rfl⟩⟩
  have h3 : p.pt1 ≠ p.pt2 := by simpa using h3
  rcases h2 with ⟨_, h2⟩ | ⟨j, _, h4, h5⟩
  · exact absurd h2 h3
  · exact ⟨p, j, hp, h4, h5, h3⟩

/-- C40, the randomized test: whatever the random numbers (provided two distinct
    ones are eventually drawn), it terminates, and it accepts every unimodular
    matrix: the answer 0 certifies that the matrix is not unimodular. What is
    missing is that non-unimodular matrices are rejected for some choice of
    points: false of the code, see `C40_randomized_wrong`. -/
theorem C40_is_unimodular_randomized_partial (rnd : Nat → Nat × Nat)
    (hdis : ∃ k, (rnd k).1 ≠ (rnd k).2) (r c : Nat) (M : Mat (ZMod q)[X]) :
    ∃ b, Ends (fun fuel => isUnimodularRandomized rnd fuel r c M) b ∧
      (isUnimodular r c M = true → b = true) := by
  obtain ⟨p, k, hp, h1, h2, h3⟩ := pickPoints_spec hdis
  by_cases hrc : r = c
  · subst hrc
    have hq : q ≠ 1 := (Fact.out : q.Prime).ne_one
    refine ⟨_, (hp.map fun p => decide (detOf r (evalMat M (p.pt1 : ZMod q)) ≠ 0 ∧
      detOf r (evalMat M (p.pt1 : ZMod q)) = detOf r (evalMat M (p.pt1 : ZMod q)))).congr
      (fun fuel => ?_), fun hu => ?_⟩
    · simp only [isUnimodularRandomized, ne_eq, not_true_eq_false, if_false, hq]
      exact id
    · obtain ⟨_, N, hN, _⟩ := (C40_is_unimodular r r M).1 hu
      have hdet := congrArg Matrix.det hN
      rw [Matrix.det_mul, Matrix.det_one] at hdet
      have hev := congrArg (fun f => f.eval (p.pt1 : ZMod q)) hdet
      simp only [eval_mul, eval_one] at hev
      rw [decide_eq_true_iff]
      refine ⟨fun h => ?_, rfl⟩
      rw [detOf_eval] at h
      rw [h, zero_mul] at hev
      exact zero_ne_one hev
  · refine ⟨false, Ends.pure fun fuel => ?_, fun hu => absurd ((C40_is_unimodular r c M).1 hu).1 hrc⟩
    simp [isUnimodularRandomized, hrc]

/-- What the randomized test decides, for `r × r` matrices: that the determinant
    of the matrix evaluated at the first point is nonzero. -/
theorem C40_randomized_exact (rnd : Nat → Nat × Nat) (hdis : ∃ k, (rnd k).1 ≠ (rnd k).2) (r : Nat)
    (M : Mat (ZMod q)[X]) :
    ∃ b k, Ends (fun fuel => isUnimodularRandomized rnd fuel r r M) b ∧
      (rnd k).1 ≠ (rnd k).2 ∧
      (b = true ↔ (asMatrix r r M).det.eval ((rnd k).1 : ZMod q) ≠ 0) := by
  obtain ⟨p, k, hp, h1, h2, h3⟩ := pickPoints_spec hdis
  have hq : q ≠ 1 := (Fact.out : q.Prime).ne_one
  refine ⟨_, k, (hp.map fun p => decide (detOf r (evalMat M (p.pt1 : ZMod q)) ≠ 0 ∧
      detOf r (evalMat M (p.pt1 : ZMod q)) = detOf r (evalMat M (p.pt1 : ZMod q)))).congr
      (fun fuel => ?_), by rw [← h1, ← h2]; exact h3, ?_⟩
  · simp only [isUnimodularRandomized, ne_eq, not_true_eq_false, if_false, hq]
    exact id
  · rw [decide_eq_true_iff, detOf_eval, h1]
    exact ⟨fun h => h.1, fun h => ⟨h, rfl⟩⟩

/-- C40 refutation: over `ℤ/3` the matrix `[X^2 + 1]`, which is not unimodular and
    whose determinant takes different values at 0 and 1, is accepted whatever the
    random numbers: no choice of the points ever rejects it. -/
theorem C40_randomized_wrong :
    let M : Mat (ZMod 3)[X] := fun _ _ => X ^ 2 + 1
    (∀ rnd : Nat → Nat × Nat, (∃ k, (rnd k).1 ≠ (rnd k).2) →
      Ends (fun fuel => isUnimodularRandomized rnd fuel 1 1 M) true) ∧
    isUnimodular 1 1 M = false ∧
    detOf 1 (evalMat M 0) ≠ detOf 1 (evalMat M 1) := by
  intro M
  have hx : ∀ x : ZMod 3, x ^ 2 + 1 ≠ 0 := by decide
  have h01 : (0 : ZMod 3) ^ 2 + 1 ≠ 1 ^ 2 + 1 := by decide
  have : Fact (Nat.Prime 3) := ⟨by norm_num⟩
  have hdet : (asMatrix 1 1 M).det = X ^ 2 + 1 := by simp [asMatrix, M]
  refine ⟨fun rnd hdis => ?_, ?_, ?_⟩
  · obtain ⟨b, k, h1, -, h3⟩ := C40_randomized_exact rnd hdis 1 M
    have hb : b = true := by
      rw [h3, hdet]
      generalize ((rnd k).1 : ZMod 3) = x
      simp only [eval_add, eval_pow, eval_X, eval_one]
      exact hx x
    rw [hb] at h1; exact h1
  · by_contra h
    have h : isUnimodular 1 1 M = true := by simpa using h
    obtain ⟨-, N, hN, -⟩ := (C40_is_unimodular 1 1 M).1 h
    have hd := congrArg Matrix.det hN
    rw [Matrix.det_mul, Matrix.det_one, hdet] at hd
    have hu : IsUnit (X ^ 2 + 1 : (ZMod 3)[X]) := IsUnit.of_mul_eq_one _ hd
    have := natDegree_eq_zero_of_isUnit hu
    rw [show (X ^ 2 + 1 : (ZMod 3)[X]) = X ^ 2 + C 1 by simp, natDegree_X_pow_add_C] at this
    omega
  · rw [detOf_eval, detOf_eval, hdet]
    simp only [eval_add, eval_pow, eval_X, eval_one]
    exact h01

/-- The hypotheses are met: `[[1, X], [0, 1]]` is accepted by both tests, and the
    deterministic one rejects `[X]`. -/
example : isUnimodular 2 2 (fun i j => if i = 0 ∧ j = 1 then (X : (ZMod 5)[X]) else if i = j then 1 else 0) = true := by
  rw [C40_is_unimodular]
  refine ⟨rfl, Matrix.of fun i j => if i = 0 ∧ j = 1 then -X else if i = j then 1 else 0, ?_, ?_⟩ <;>
  · ext i j : 2
    fin_cases i <;> fin_cases j <;> simp [Matrix.mul_apply, asMatrix]

example : isUnimodular 1 1 (fun _ _ => (X : (ZMod 5)[X])) = false := by
  by_contra h
  have h : isUnimodular 1 1 (fun _ _ => (X : (ZMod 5)[X])) = true := by simpa using h
  obtain ⟨-, N, hN, -⟩ := (C40_is_unimodular 1 1 _).1 h
  have := congrFun (congrFun hN 0) 0
  simp [Matrix.mul_apply, asMatrix] at this
  exact (not_isUnit_X : ¬ IsUnit (X : (ZMod 5)[X])) (IsUnit.of_mul_eq_one _ this)

example : ∃ b, Ends (fun fuel => isUnimodularRandomized (q := 5) (fun k => (k, 2)) fuel 1 1
    (fun _ _ => 1)) b ∧ (isUnimodular 1 1 (fun _ _ => (1 : (ZMod 5)[X])) = true → b = true) :=
  C40_is_unimodular_randomized_partial _ ⟨0, by decide⟩ 1 1 _

end PML.Unimodular
