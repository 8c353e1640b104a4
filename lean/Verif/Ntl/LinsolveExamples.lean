import Verif.Ntl.LinsolveMain
import Verif.Ntl.LinsolveKernel
import Verif.Ntl.KerbasFindings

/-! # The hypotheses of the theorems of C95 are met -/

namespace PML.Ntl.Linsolve

open Polynomial PML.Ntl.Utils PML.Ntl.Inv PML.Ntl.Solve PML.Ntl.Kerbas

variable {F : Type} [Field F]

/-- Euclid's algorithm, and an inverse. -/
theorem ntl_exists : ∃ N : Ntl F, N.Ok := by
  obtain ⟨inv, h⟩ := MatEval.invOk_exists (F := F)
  exact ⟨⟨euclid, inv⟩, ⟨euclid_ok, h⟩⟩

/-- Functions that satisfy the assumptions of `solve_series`, with a middle product that never fails. -/
noncomputable def callsTotal (F : Type) [Field F] : Calls F :=
  ⟨(callsEx F 0 2).inv, (callsEx F 0 2).lm, fun a c dA dB => some ⟨a.rows, c.cols, fun ij => ofCoeffs (dB + 1) fun k =>
      (∑ l ∈ Finset.range a.cols, (a.e (ij.1, l) %ₘ X ^ (dA + 1)) * c.e (l, ij.2)).coeff (dA + k)⟩, 2⟩

theorem callsTotal_ok : (callsTotal F).Ok := by
  refine ⟨(callsEx_ok 0 2).inv, (callsEx_ok 0 2).lm, fun a c dA dB _ _ _ _ _ => Or.inl ⟨_, rfl, rfl, rfl, fun i j _ _ k => ?_⟩⟩
  rw [ofCoeffs_coeff]
  by_cases h : k ≤ dB
  · rw [if_pos h, if_pos (by omega)]
  · rw [if_neg h, if_neg (by omega)]

/-- The right-hand side `(1, X)`. -/
noncomputable def rhsEx : Nat → F[X] := fun i => if i = 0 then 1 else X

/-- `C95_series_partial` for the diagonal matrix with entries `1 + X`, modulo 43. -/
example (r : Nat → ZMod 43) : ∃ N : Ntl (ZMod 43), N.Ok ∧ ((∃ u den, viaSeries (callsEx (ZMod 43) 1 2) N false diagMat rhsEx r = .ok (u, den) ∧ den ∣ 1 + X) ∨
    viaSeries (callsEx (ZMod 43) 1 2) N false diagMat rhsEx r = .ub) := by
  obtain ⟨N, hN⟩ := ntl_exists (F := ZMod 43)
  refine ⟨N, hN, ?_⟩
  rcases C95_series_partial (callsEx_ok 1 2) (Nat.le_succ 1) hN false diagMat rfl (show 0 < 2 by decide) diagMat_inv (by rw [diagMat_deg]; decide) rhsEx r with
    ⟨u, den, h1, -, h3, -⟩ | ⟨h, -⟩
  · refine Or.inl ⟨u, den, h1, h3 _ rhsEx fun i hi => ?_⟩
    unfold diagMat at hi ⊢
    dsimp only at hi ⊢
    rw [Finset.sum_eq_single i (fun j _ hj => by rw [if_neg (Ne.symm hj), zero_mul]) (fun hn => absurd (Finset.mem_range.2 hi) hn), if_pos rfl]
  · exact Or.inr h

/-- `C95_det_wrong`: there is a result, a divisor of `1 + X`. -/
example (N : Ntl (ZMod 43)) (hN : N.Ok) (r : Nat → ZMod 43) : ∃ d, viaLinsolve (callsTotal (ZMod 43)) N diagMat rhsEx r = .ok d ∧ d.Monic ∧
    ¬ Associated d (Det.detN 2 (diagMat (F := ZMod 43)).e) := by
  rcases C95_det_partial callsTotal_ok (Nat.le_succ 1) hN diagMat rfl (show 0 < 2 by decide) diagMat_inv rhsEx r with ⟨d, h1, h2, -⟩ | ⟨-, a, c, dA, dB, -, h⟩
  · exact ⟨d, h1, h2, C95_det_wrong callsTotal_ok (Nat.le_succ 1) hN rhsEx r d h1⟩
  · cases h

/-- `C95_series_count` in the same case: at most 2 * 43 of the 43 * 43 choices are bad. -/
example (N : Ntl (ZMod 43)) (hN : N.Ok) :=
  C95_series_count (callsEx_ok (F := ZMod 43) 1 2) (Nat.le_succ 1) hN false diagMat rfl (show 0 < 2 by decide) diagMat_inv (by rw [diagMat_deg]; decide) rhsEx

/-- `C95_series_zero_draws` in the same case: `1 / (1 + X)` is not a polynomial. -/
example (N : Ntl (ZMod 43)) (hN : N.Ok) := C95_series_zero_draws (callsEx_ok (F := ZMod 43) 1 2) (Nat.le_succ 1) hN false diagMat rfl (show 0 < 2 by decide) diagMat_inv
  (by rw [diagMat_deg]; decide) rhsEx (fun _ => 0) (fun _ _ => rfl) (by
    rintro ⟨v, hv⟩
    have h := hv 0 (show 0 < 2 by decide)
    have h2 : (1 + X) * v 0 = (1 : (ZMod 43)[X]) := by
      simpa [diagMat, rhsEx, Finset.sum_range_succ] using h
    have h3 := natDegree_one_add_X (F := ZMod 43)
    rw [natDegree_eq_zero_of_isUnit (IsUnit.of_mul_eq_one _ h2)] at h3
    exact absurd h3 (by decide))

/-- `C95_const`, for the matrix that exchanges two entries. -/
example (C' : Calls (ZMod 43)) (N : Ntl (ZMod 43)) (hN : N.Ok) (r : Nat → ZMod 43) : ∃ u, viaSeries C' N false swapMat unitVec r = .ok (u, 1) ∧ Solves swapMat unitVec u 1 := by
  refine C95_const C' hN swapMat rfl ⟨fun ij => if ij.1 + ij.2 = 1 then 1 else 0, ?_⟩ ?_ unitVec r
  · intro i j hi hj
    have hi : i < 2 := hi
    have hj : j < 2 := hj
    have h1 : i = 0 ∨ i = 1 := by omega
    have h2 : j = 0 ∨ j = 1 := by omega
    unfold swapMat
    rcases h1 with rfl | rfl <;> rcases h2 with rfl | rfl <;> simp [Finset.sum_range_succ]
  · exact deg_of_const (fun i j _ _ => by
      unfold swapMat
      dsimp only
      split
      · exact Or.inr rfl
      · exact Or.inl rfl) (i := 0) (j := 1) (show 0 < 2 by decide) (show 1 < 2 by decide) (by simp [swapMat])

/-- `C95_det_partial` for the diagonal matrix. -/
example (N : Ntl (ZMod 43)) (hN : N.Ok) (r : Nat → ZMod 43) :=
  C95_det_partial (callsEx_ok (F := ZMod 43) 1 2) (Nat.le_succ 1) hN diagMat rfl (show 0 < 2 by decide) diagMat_inv rhsEx r

/-- `C95_kernel`, `C95_kernel_missed` modulo 43. -/
example : ∃ e : Kerbas.Env (ZMod 43), (∃ o, viaKernel e diagMat rhsEx = .ok o) ∧ viaKernel e shearMat unitVec1 = .ok none := by
  obtain ⟨e, he, -⟩ := env_exists
  obtain ⟨o, h, -⟩ := C95_kernel he diagMat rhsEx
  exact ⟨e, ⟨o, h⟩, (C95_kernel_missed he).1⟩

/-- `C95_kernel_complete_partial` for the equation `(1 + X) u = d`: the solution is found. -/
example : ∃ e : Kerbas.Env (ZMod 43), ∃ u den, viaKernel e ⟨1, 1, fun _ => 1 + X⟩ (fun _ => 1) = .ok (some (u, den)) := by
  obtain ⟨e, he, -⟩ := env_exists
  have h0 : (1 + X : (ZMod 43)[X]) ≠ 0 := fun h => by
    have := natDegree_one_add_X (F := ZMod 43)
    rw [h, natDegree_zero] at this
    exact absurd this (by decide)
  refine ⟨e, C95_kernel_complete_partial he ⟨1, 1, fun _ => 1 + X⟩ (fun _ => 1) (show 1 ≤ 2 by decide) (fun j => if j = 0 then 1 else 0) ⟨?_, ?_⟩ (fun _ => 1) (1 + X) ?_ h0 ?_⟩
  · intro j hj
    have hj : j < 1 := hj
    have e : j = 0 := by omega
    rw [e, if_pos rfl]
    refine ⟨fun hz => absurd (hz 0 Nat.one_pos) h0, fun _ => ⟨fun i _ _ => ?_, 0, Nat.one_pos, h0, ?_⟩⟩
    · dsimp only
      rw [natDegree_one_add_X]
      decide
    · dsimp only
      rw [natDegree_one_add_X]
      decide
  · show PML.Forms.Spec.IsVecDegree 1 _ _ _ (if 1 = 0 then 1 else 0)
    rw [if_neg one_ne_zero]
    refine ⟨fun hz => absurd (hz 0 Nat.one_pos) one_ne_zero, fun _ => ⟨fun i _ _ => ?_, 0, Nat.one_pos, one_ne_zero, ?_⟩⟩
    · rw [natDegree_one]
      decide
    · rw [natDegree_one]
      decide
  · intro i _
    show ∑ l ∈ Finset.range 1, (1 + X) * 1 = (1 + X) * (1 : (ZMod 43)[X])
    rw [Finset.sum_range_one]
  · intro j hj _
    have hj : j < 1 := hj
    have e : j = 0 := by omega
    rw [e]
    show ((1 : (ZMod 43)[X]).natDegree : Int) + (if 0 = 0 then 1 else 0) ≤ (1 + X : (ZMod 43)[X]).natDegree + (if 1 = 0 then 1 else 0)
    rw [natDegree_one, natDegree_one_add_X]
    decide

end PML.Ntl.Linsolve
