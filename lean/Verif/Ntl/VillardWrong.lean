import Verif.Ntl.VillardProps
import Verif.Ntl.ReconProps
import Verif.Ntl.LinsolveMain
import Verif.Ntl.LinsolveExamples

/-!
# C113: Villard's algorithm may return a wrong resultant
-/

namespace PML.Ntl.Bivar

open Polynomial PML.Ntl.Utils PML.Ntl.Inv PML.Ntl.Solve PML.Ntl.Struct PML.Ntl.Series PML.Ntl.Recon PML.Ntl.Linsolve

variable {p : Nat} [Fact p.Prime]

/-- What the end of `resultant_villard` depends on: the parameters of C109 and C95. -/
structure EndEnv (p : Nat) [Fact p.Prime] where
  nt : Mbasis.Nt (ZMod p)
  mul : PMat (ZMod p)[X] → PMat (ZMod p)[X] → Option (PMat (ZMod p)[X])
  mp : (ZMod p)[X] → (ZMod p)[X] → Nat → Nat → Option (ZMod p)[X]
  feasible : Nat → Bool
  flags : Nat → Bool
  thr : Nat
  fuel : Nat
  calls : Calls (ZMod p)
  ntl : Ntl (ZMod p)
  v : Nat → (ZMod p)[X]
  r : Nat → ZMod p

/-- Lines 598-611 of lzz_pXY.cpp: `pts` are the values of `x`, then `matrix_recon_interpolation_geometric` and `determinant_via_linsolve`. -/
noncomputable def reconDet (w : EndEnv p) (m dl : Nat) (a0 : ZMod p) (B : Nat → PMat (ZMod p)) : Out (ZMod p)[X] :=
  andThen (interpolationGeometric w.nt w.mul w.mp w.feasible w.flags w.thr w.fuel ⟨dl, m, m, fun ki j => (B ki.1).e (ki.2, j)⟩ dl (fun k => a0 ^ (2 * k)) a0)
    fun b => viaLinsolve w.calls w.ntl b.1 w.v w.r

/-- The contracts of C109 and C95. -/
structure EndEnv.Ok (w : EndEnv p) (n : Nat) : Prop where
  nt : w.nt.Ok
  mul : MulOk w.mul
  mp : ∀ k, k ≤ n → Geom.MidOK w.mp k
  thr : 0 < w.thr
  fuel : n ≤ w.fuel
  calls : w.calls.Ok
  thresh : 1 ≤ w.calls.thresh
  ntl : w.ntl.Ok

/-- Zero blocks give the result 1, unless the middle product fails. -/
theorem reconDet_zero {w : EndEnv p} {dl : Nat} (hw : w.Ok dl) (hdl : 0 < dl) {a0 : ZMod p} (h0 : a0 ≠ 0) (hord : ∀ i, 1 ≤ i → i < dl → a0 ^ (2 * i) ≠ 1)
    {B : Nat → PMat (ZMod p)} (hB : ∀ k, k < dl → (B k).e (0, 0) = 0) :
    reconDet w 1 dl a0 B = .ok 1 ∨ (reconDet w 1 dl a0 B = .ub ∧ ∃ (a c : PMat (ZMod p)[X]) (dA dB : Nat), deg a < 0 ∧ w.calls.mid a c dA dB = none) := by
  have hgeo : Intbas.IsGeometric a0 (fun k => a0 ^ (2 * k)) 0 dl := ⟨h0, by simp, fun k _ => by simp, hord⟩
  obtain ⟨b, E', e, hb, -⟩ := C109_geometric hw.nt hw.mul w.feasible w.flags hw.thr w.fuel ⟨dl, 1, 1, fun ki j => (B ki.1).e (ki.2, j)⟩ dl
    (fun k => a0 ^ (2 * k)) a0 hw.mp hw.fuel hdl le_rfl one_pos rfl hgeo (N := fun _ _ => 0) (D := fun _ _ => 1) (e := fun _ => 0)
    ⟨fun k hk i j hi hj => by
        obtain rfl : i = 0 := Nat.lt_one_iff.1 hi
        show ∑ l ∈ Finset.range 1, (B k).e (0, l) * eval _ (1 : (ZMod p)[X]) = eval _ (0 : (ZMod p)[X])
        rw [Finset.sum_range_one, hB k hk, zero_mul, eval_zero],
      fun k hk y hy l hl => by
        obtain rfl : l = 0 := Nat.lt_one_iff.1 hl
        have := hy 0 one_pos
        dsimp only at this
        rw [Finset.sum_range_one, eval_one, mul_one] at this
        exact this,
      fun i j _ _ c _ => coeff_zero c, fun i j _ _ => by simp,
      fun y hy l hl => by
        obtain rfl : l = 0 := Nat.lt_one_iff.1 hl
        have := hy 0 one_pos
        dsimp only at this
        rw [Finset.sum_range_one, coeff_one_zero, mul_one] at this
        exact this⟩ (fun _ => 0) (fun i hi => by
        obtain rfl : i = 0 := Nat.lt_one_iff.1 hi
        refine ⟨fun _ => 1, ⟨fun _ => 0, fun j _ => by simp⟩, ?_, fun j _ => Nat.zero_le _⟩
        exact ⟨by show 0 < 1; omega, one_ne_zero, natDegree_one, fun j hj _ => by simp, fun j hj h1 _ => absurd (Nat.lt_one_iff.1 hj) (by omega)⟩)
  unfold reconDet
  rw [e]
  show viaLinsolve w.calls w.ntl b w.v w.r = .ok 1 ∨ (viaLinsolve w.calls w.ntl b w.v w.r = .ub ∧ _)
  have hrows : b.rows = 1 := hb.rows
  have hcols : b.cols = 1 := hb.cols
  obtain ⟨u, hu⟩ := (hb.generates fun _ => 1).1 ⟨fun _ => 0, fun j _ => by simp⟩
  have hu0 : 1 = u 0 * b.e (0, 0) := by
    have := hu 0 (by show 0 < 1; omega)
    rw [show (⟨dl, 1, 1, fun ki j => (B ki.1).e (ki.2, j)⟩ : Intbas.Evals (ZMod p)).rows = 1 from rfl, Finset.sum_range_one] at this
    exact this
  have hci : ConstInv b := by
    refine ⟨fun _ => (u 0).coeff 0, fun i j hi hj => ?_⟩
    obtain rfl : i = 0 := by omega
    obtain rfl : j = 0 := by omega
    rw [hrows, Finset.sum_range_one, if_pos rfl, ← mul_coeff_zero, ← hu0, coeff_one_zero]
  rcases C95_det_partial hw.calls hw.thresh hw.ntl b (by omega) (by omega) hci w.v w.r with ⟨d, e1, e2, e3, -⟩ | h
  · refine Or.inl ?_
    have hdet : Det.detN b.rows b.e = b.e (0, 0) := by
      unfold Det.detN
      rw [hrows, Matrix.det_fin_one]
      rfl
    rw [hdet] at e3
    have : d ∣ 1 := by rw [hu0]; exact e3.mul_left _
    rw [e1, e2.isUnit_iff.1 (isUnit_of_dvd_one this)]
  · exact Or.inr h

theorem yPlus_degX : max (yPlus (X : (ZMod p)[X])).degX (yPlus (0 : (ZMod p)[X])).degX = ((1 : Nat) : Int) := by
  have h1 : (yPlus (X : (ZMod p)[X])).degX ≤ 1 := (degX_le _ _).2 ⟨by omega, fun i _ => by
    show pdeg (if i = 0 then (X : (ZMod p)[X]) else 1) ≤ 1
    split <;> simp [pdeg]⟩
  have h2 : (yPlus (0 : (ZMod p)[X])).degX ≤ 1 := (degX_le _ _).2 ⟨by omega, fun i _ => by
    show pdeg (if i = 0 then (0 : (ZMod p)[X]) else 1) ≤ 1
    split <;> simp [pdeg]⟩
  have h3 : pdeg (X : (ZMod p)[X]) ≤ (yPlus (X : (ZMod p)[X])).degX := degX_get (yPlus (X : (ZMod p)[X])) (i := 0) (by show 0 < 2; omega)
  rw [show pdeg (X : (ZMod p)[X]) = 1 by simp [pdeg]] at h3
  push_cast
  omega

theorem CbrtOK.one {cbrt : Nat → Nat} (hc : CbrtOK cbrt) : cbrt 1 = 1 := by
  have h1 := hc.le 1
  have h2 := (hc 1).2
  rcases Nat.lt_or_ge (cbrt 1) 1 with h3 | h3
  · rw [show cbrt 1 = 0 by omega] at h2
    omega
  · omega

/-- The block of size 1 for `Y + t` and `Y` is zero. -/
theorem block_zero {t : ZMod p} {B : PMat (ZMod p)} (h : IsBlock 1 ((yPlus X).poly.map (evalRingHom t)) ((yPlus 0).poly.map (evalRingHom t)) B) : B.e (0, 0) = 0 := by
  obtain ⟨hco, -, -, hbl⟩ := h
  rw [yPlus_map, yPlus_map, eval_X, eval_zero, C_0, add_zero] at hco hbl
  have d1 : (X + C t : (ZMod p)[X]).natDegree = 1 := natDegree_X_add_C _
  have d2 : (X : (ZMod p)[X]).natDegree = 1 := natDegree_X
  obtain ⟨N, hN⟩ := coprime_inv (fun h => by rw [h] at d1; simp at d1) X_ne_zero hco
  rw [hbl N hN 0 0 one_pos one_pos, d1, d2]
  rw [inv_col hN (F := 0) (G := 1) (fun i _ => coeff_zero i) (fun i hi => by rw [coeff_one, if_neg (by omega)]) (k := 1 + 1 - 1 + 0) (by omega)
    (by rw [zero_mul, zero_add, one_mul]; exact (pow_one X).symm) (by omega), if_pos (by omega), coeff_zero]

/-- **C113**. `resultant_villard` may return 1 with a wrong polynomial: for `f = Y + X` and `g = Y`, and random elements with at least 6 distinct even powers, the result is
    never the resultant of `f` and `g`, even up to a constant. -/
theorem C113_wrong {v : Env p} (hv : v.Ok 2) {w : EndEnv p} (hw : w.Ok 6) {cbrt : Nat → Nat} (hc : CbrtOK cbrt) (draw : Nat → ZMod p)
    (hd : ∀ k, draw k ≠ 0 ∧ ∀ i, 1 ≤ i → i < 6 → draw k ^ (2 * i) ≠ 1) (R : (ZMod p)[X])
    (h : villard v cbrt (reconDet w) draw (yPlus X) (yPlus 0) = .ok (some R)) :
    ¬ ∃ c : ZMod p, Polynomial.resultant (yPlus (X : (ZMod p)[X])).poly (yPlus 0).poly = C c * R := by
  obtain ⟨k, B, m, hk, hm, -, hr, hB⟩ := C113_blocks_partial (yPlus_normal X) (yPlus_normal 0) (nf := 1) (ng := 1) rfl rfl yPlus_degX hv one_pos one_pos hc h
  rw [max_self, hc.one] at hm
  subst hm
  have hR : R = 1 := by
    rcases reconDet_zero hw (by norm_num) (hd k).1 (hd k).2 (fun i hi => block_zero (hB i hi).2.2.2) with h1 | ⟨h1, -⟩
    · exact Out.ok.inj (hr.symm.trans h1)
    · cases hr.symm.trans h1
  rintro ⟨c, hcR⟩
  rw [hR, mul_one] at hcR
  have hne := (hB 0 (by omega)).2.2.1
  rw [hcR, eval_C] at hne
  apply hne
  have hz : (Polynomial.resultant (yPlus (X : (ZMod p)[X])).poly (yPlus 0).poly).eval 0 = 0 := by
    have e := resultant_map_map (yPlus (X : (ZMod p)[X])).poly (yPlus 0).poly (yPlus (X : (ZMod p)[X])).poly.natDegree (yPlus (0 : (ZMod p)[X])).poly.natDegree (evalRingHom (0 : ZMod p))
    rw [yPlus_map, yPlus_map, eval_X, eval_zero, C_0, add_zero, natDegree_poly (yPlus_normal X) (n := 1) rfl, natDegree_poly (yPlus_normal 0) (n := 1) rfl] at e
    have e2 : Polynomial.resultant (X : (ZMod p)[X]) X 1 1 = 0 := by
      have := resultant_self_eq_zero (X : (ZMod p)[X]) (by rw [natDegree_X]; exact one_ne_zero)
      rwa [natDegree_X] at this
    rw [e2] at e
    rw [natDegree_poly (yPlus_normal X) (n := 1) rfl, natDegree_poly (yPlus_normal 0) (n := 1) rfl]
    exact e.symm
  rw [hcR, eval_C] at hz
  exact hz

/-- `Y + c` and `Y` have a regular inverse if `c` is not zero. -/
theorem yPlus_regular {c : ZMod p} (hc : c ≠ 0) : Regular (X + C c : (ZMod p)[X]) X := by
  have d1 : (X + C c : (ZMod p)[X]).natDegree = 1 := natDegree_X_add_C c
  have d2 : (X : (ZMod p)[X]).natDegree = 1 := natDegree_X
  have e : C c⁻¹ * (X + C c : (ZMod p)[X]) + (-C c⁻¹) * X = 1 := by
    have : C c⁻¹ * C c = (1 : (ZMod p)[X]) := by rw [← C_mul, inv_mul_cancel₀ hc, C_1]
    linear_combination this
  obtain ⟨N, hN⟩ := coprime_inv (fun h => by rw [h] at d1; simp at d1) X_ne_zero ⟨_, _, e⟩
  refine ⟨N, hN, ?_⟩
  rw [inv_col hN (F := C c⁻¹) (G := -C c⁻¹) (fun i hi => by rw [coeff_C, if_neg (by omega)]) (fun i hi => by rw [coeff_neg, coeff_C, if_neg (by omega), neg_zero])
    (k := 0) (by omega) (by rw [e, pow_zero]) (by omega), if_pos (by omega), d2]
  rw [show 1 - 1 - (1 - 1) = 0 from rfl, coeff_C_zero]
  exact inv_ne_zero hc

/-- **C113**. The case of `C113_wrong` occurs: the result is 1, whereas the resultant is `X` up to sign. -/
theorem C113_wrong_result {v : Env p} (hv : v.Ok 2) {w : EndEnv p} (hw : w.Ok 6) (hmid : ∀ a c dA dB, w.calls.mid a c dA dB ≠ none) {cbrt : Nat → Nat} (hc : CbrtOK cbrt)
    (draw : Nat → ZMod p) (hd : ∀ k, draw k ≠ 0 ∧ ∀ i, 1 ≤ i → i < 6 → draw k ^ (2 * i) ≠ 1) :
    villard v cbrt (reconDet w) draw (yPlus X) (yPlus 0) = .ok (some 1) := by
  obtain ⟨B, e, hB⟩ := C113_success_partial (yPlus_normal X) (nf := 1) (ng := 1) rfl rfl yPlus_degX hv one_pos one_pos hc (reconDet w) draw
    ⟨(hd 0).1, one_ne_zero, fun i h1 h2 => (hd 0).2 i h1 (by omega)⟩ (fun i => by
      refine ⟨by show eval _ (1 : (ZMod p)[X]) ≠ 0; simp, by show eval _ (1 : (ZMod p)[X]) ≠ 0; simp, ?_⟩
      rw [yPlus_map, yPlus_map, eval_X, eval_zero, C_0, add_zero]
      exact yPlus_regular (pow_ne_zero _ (hd 0).1))
  rw [max_self, hc.one] at e hB
  rw [e]
  rcases reconDet_zero hw (dl := 6) (by norm_num) (hd 0).1 (hd 0).2 (fun i hi => block_zero (hB i hi)) with h1 | ⟨-, a, c, dA, dB, -, h1⟩
  · rw [show 4 * 1 * ((1 + 1 - 1) / 1) + 2 = 6 from rfl, h1]
    rfl
  · exact absurd h1 (hmid a c dA dB)

local instance fact13 : Fact (Nat.Prime 13) := ⟨by norm_num⟩

/-- Modulo 13, with 2 as the random element. -/
example : ∃ (v : Env 13) (w : EndEnv 13) (cbrt : Nat → Nat), v.Ok 2 ∧ w.Ok 6 ∧ CbrtOK cbrt ∧ villard v cbrt (reconDet w) (fun _ => 2) (yPlus X) (yPlus 0) = .ok (some 1) := by
  obtain ⟨v, hv⟩ := exists_env (p := 13) 2
  obtain ⟨c, hc⟩ := exists_cbrt
  obtain ⟨mul, hmul⟩ := mulOk_exists (F := ZMod 13)
  obtain ⟨N, hN⟩ := Mbasis.nt_exists (F := ZMod 13)
  obtain ⟨mp, hmp⟩ := Intbas.midOK_all (K := ZMod 13)
  obtain ⟨L, hL⟩ := ntl_exists (F := ZMod 13)
  have hw : (⟨N, mul, mp, fun _ => true, fun _ => false, 1, 6, callsTotal (ZMod 13), L, fun _ => 1, fun _ => 1⟩ : EndEnv 13).Ok 6 :=
    ⟨hN, hmul, fun n _ => hmp n, one_pos, le_rfl, callsTotal_ok, Nat.le_succ 1, hL⟩
  refine ⟨v, _, c, hv, hw, hc, C113_wrong_result hv hw (fun _ _ _ _ => by exact Option.some_ne_none _) hc _ fun _ => ⟨by decide, fun i h1 h2 => ?_⟩⟩
  interval_cases i <;> decide

end PML.Ntl.Bivar
