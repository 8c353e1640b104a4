import Verif.Ntl.ReduceProps

/-! # C96: cases which meet the hypotheses -/

namespace PML.Ntl.Reduce

open Polynomial PML.Ntl.Utils PML.Ntl.Inv PML.Ntl.Solve PML.Ntl.Lift PML.Ntl.Mbasis PML.Ntl.MatMid

attribute [local irreducible] Utils.deg

theorem callsEx_middle (D t : Nat) : MiddleOk (callsEx (ZMod 5) D t).mid := by
  intro a c dA dB _ _ h0 _ _
  refine ⟨_, if_neg (by omega), rfl, rfl, fun i j _ _ k => ?_⟩
  rw [ofCoeffs_coeff]
  by_cases h : k ≤ dB
  · rw [if_pos h, if_pos (by omega)]
  · rw [if_neg h, if_neg (by omega)]

/-- A reduced form of a matrix of degree 1 modulo 5, which is not unimodular. -/
example : ∃ (N : Nt (ZMod 5)) (mul : _) (R : _), N.Ok ∧ gjv (callsEx (ZMod 5) 1 2) N mul 32 ⟨0, 0, fun _ => 0⟩ inv5 = .ok (some R) ∧ IsReducedForm inv5 R := by
  obtain ⟨N, hN⟩ := nt_exists (F := ZMod 5)
  obtain ⟨mul, hmul⟩ := mulOk_exists (F := ZMod 5)
  rcases C96_reduced_partial (callsEx_ok 1 2) (callsEx_middle 1 2) hN hmul (Nat.succ_pos 31) ⟨0, 0, fun _ => 0⟩ inv5 (Nat.succ_pos 1) rfl ((constInv_iff _).1 inv5_const)
    (by rw [inv5_deg1]) with ⟨R, h⟩ | ⟨-, h⟩
  · exact ⟨N, mul, R, hN, h⟩
  · exfalso
    have e : (Matrix.det fun i j : Fin inv5.rows => inv5.e (i, j)) = (1 + X) * C 2 - X * X := by
      refine (Matrix.det_fin_two (fun i j : Fin 2 => inv5.e (i, j))).trans ?_
      simp [inv5]
    rw [e] at h
    have h1 := natDegree_eq_zero_of_isUnit h
    have h2 : ((1 + X) * C 2 - X * X : (ZMod 5)[X]).coeff 2 ≠ 0 := by
      rw [coeff_sub, coeff_mul_C, ← pow_two, coeff_X_pow, coeff_add, coeff_one, coeff_X]
      simp
    have := le_natDegree_of_ne_zero h2
    omega

/-- The singular case. -/
example (N : Nt (ZMod 5)) (mul : _) (red : PMat (ZMod 5)[X]) : gjv (callsEx (ZMod 5) 1 2) N mul 32 red ⟨1, 1, fun _ => X⟩ = .ok none :=
  (C96_singular _ N mul 32 red ⟨1, 1, fun _ => X⟩).2 rfl (by
    refine (Matrix.det_fin_one (fun _ _ : Fin 1 => (X : (ZMod 5)[X]).coeff 0)).trans ?_
    exact coeff_X_zero)

example (N : Nt (ZMod 5)) (mul : _) (red : PMat (ZMod 5)[X]) : gjv (callsEx (ZMod 5) 1 2) N mul 32 red ⟨1, 2, fun _ => X⟩ = .error :=
  (C96_singular _ N mul 32 red ⟨1, 2, fun _ => X⟩).1 (by decide)

/-- A constant matrix. -/
example (N : Nt (ZMod 5)) (mul : _) (red : PMat (ZMod 5)[X]) : gjv (callsEx (ZMod 5) 1 2) N mul 32 red (one1 (C 3)) = .ub :=
  C96_constant_fails (callsEx_ok 1 2) N mul 32 red (one1 (C 3)) (Nat.succ_pos 0) rfl ((constInv_iff _).1 (one1_const (3 : ZMod 5) (by decide)).1)
    (one1_const (3 : ZMod 5) (by decide)).2

/-- The identity and an entry `X`. -/
noncomputable def shear4 (x : (ZMod 5)[X]) : PMat (ZMod 5)[X] := ⟨4, 4, fun ij => if ij = (0, 1) then x else if ij.1 = ij.2 then 1 else 0⟩

theorem shear4_deg : deg (shear4 X) = 1 := by
  have h1 : ¬deg (shear4 X) < (1 : Nat) := fun h => by
    have := (deg_lt_iff (shear4 X) 1).1 h 0 1 (Nat.succ_pos 3) (by show 1 < 4; decide) 1 (le_refl _)
    simp [shear4] at this
  have h2 : deg (shear4 X) < (2 : Nat) := (deg_lt_iff (shear4 X) 2).2 fun i j hi hj k hk => by
    show (if (i, j) = (0, 1) then X else if i = j then 1 else 0 : (ZMod 5)[X]).coeff k = 0
    split_ifs
    · rw [coeff_X, if_neg (by omega)]
    · rw [coeff_one, if_neg (by omega)]
    · rw [coeff_zero]
  omega

/-- A unimodular matrix. -/
example (N : Nt (ZMod 5)) (mul : _) (red : PMat (ZMod 5)[X]) : gjv (callsEx (ZMod 5) 1 2) N mul 32 red (shear4 X) = .ub := by
  refine C96_unimodular_fails (callsEx_ok 1 2) 1 (fun a c dA dB h1 h2 => if_pos ⟨h1, h2⟩) N mul 32 red (shear4 X) (shear4 (-X)) (Nat.succ_pos 3) rfl (fun i j hi hj => ?_) 1
    shear4_deg (le_refl _) (fun i j hi hj => ?_) (by show 6 < 7; decide)
  · have hi : i < 4 := hi
    have hj : j < 4 := hj
    show ∑ l ∈ Finset.range 4, _ = _
    rw [Finset.sum_range_succ, Finset.sum_range_succ, Finset.sum_range_succ, Finset.sum_range_one]
    interval_cases i <;> interval_cases j <;> simp [shear4]
  · show (if (i, j) = (0, 1) then -X else if i = j then 1 else 0 : (ZMod 5)[X]).natDegree ≤ _
    split_ifs
    · rw [natDegree_neg, natDegree_X]; decide
    · rw [natDegree_one]; decide
    · rw [natDegree_zero]; decide

end PML.Ntl.Reduce
