import Verif.Ntl.ReduceModel
import Verif.Ntl.ReduceSpec
import Verif.Ntl.ReduceTheory
import Verif.Ntl.LiftProps
import Verif.Ntl.MbasisProps
import Verif.Ntl.LinsolveProps
import Verif.Forms.Reduced

/-!
# C96: reduced forms
-/

namespace PML.Ntl.Reduce

open Polynomial PML.Ntl.Utils PML.Ntl.Inv PML.Ntl.Solve PML.Ntl.Lift PML.Ntl.Mbasis PML.Ntl.MatMul PML.Ntl.MatMid PML.Ntl.LMul PML.Forms.Spec
open scoped Matrix

variable {F : Type} [Field F]

attribute [local irreducible] Utils.deg

/-! ### The loops -/

/-- The loop: the slice moves on until it is far enough, or all the coefficients are zero from some point on. -/
theorem gjvLoop_spec {mid : PMat F[X] → PMat F[X] → Nat → Nat → Option (PMat F[X])} (hmid : MidOr mid) {A invA : PMat F[X]} {h : Nat × Nat → PowerSeries F}
    {d : Nat} {ma mi : PMat F[X] → Res (PMat F[X])} (K : Ctx A invA h (d + 1) ma mi) (target : Nat) :
    ∀ fuel i o series, i = o + 2 * d + 1 → 1 ≤ o → IsSlice A.rows h o (2 * d + 1) series → target - i ≤ fuel →
      (∃ y o', gjvLoop mid ma mi d target fuel i series = .ok y ∧ target ≤ o' + 2 * d + 1 ∧ IsSlice A.rows h o' (2 * d + 1) y) ∨
      (gjvLoop mid ma mi d target fuel i series = .ub ∧ ∃ o', Vanish A.rows h o') := by
  intro fuel
  induction fuel with
  | zero =>
    intro i o series hi ho hs hf
    left
    refine ⟨series, o, ?_, by omega, hs⟩
    unfold gjvLoop
    rw [if_neg (by omega)]
  | succ fuel ih =>
    intro i o series hi ho hs hf
    by_cases hit : i < target
    · unfold gjvLoop
      rw [if_pos hit]
      dsimp only
      rcases C74_lift_partial hmid K series o (by rw [show 2 * (d + 1) - 1 = 2 * d + 1 by omega]; exact hs) with ⟨y, ey, hy⟩ | ⟨ey, hv⟩
      · rw [ey]
        dsimp only [andThen]
        rw [show 2 * (d + 1) - 1 = 2 * d + 1 by omega, show 2 * o + (d + 1) - 1 = 2 * o + d by omega] at hy
        exact ih (2 * i - d - 1) (2 * o + d) y (by omega) (by omega) hy (by omega)
      · rw [ey]
        exact Or.inr ⟨rfl, o, hv⟩
    · left
      refine ⟨series, o, ?_, by omega, hs⟩
      unfold gjvLoop
      rw [if_neg hit]

theorem addIdentity_spec (dim : Nat) (series : PMat F[X]) (hr : series.rows = dim) :
    (addIdentity dim series).rows = 2 * dim ∧ (addIdentity dim series).cols = dim ∧
      (∀ i j, i < dim → (addIdentity dim series).e (i, j) = series.e (i, j)) ∧
      ∀ i j, i < dim → j < dim → (addIdentity dim series).e (dim + i, j) = if i = j then 1 else 0 := by
  have key := forN_inv (P := fun (n : Nat) (y : Nat × Nat → F[X]) => ∀ u v, y (u, v) = if dim ≤ u ∧ u < dim + n ∧ v = u - dim then 1 else if u < series.rows then series.e (u, v) else 0)
    (f := fun i => write (dim + i, i) (1 : F[X])) (s := fun ij => if ij.1 < series.rows then series.e ij else 0) (n := dim) (fun u v => by
      have h0 : ¬(dim ≤ u ∧ u < dim + 0 ∧ v = u - dim) := by omega
      rw [if_neg h0]) (by
      intro i y _ hy u v
      unfold write
      by_cases h : (u, v) = (dim + i, i)
      · obtain ⟨rfl, rfl⟩ := Prod.mk.inj h
        rw [Function.update_self, if_pos (by omega)]
      · rw [Function.update_of_ne h, hy u v]
        have : ¬(u = dim + i ∧ v = i) := fun ⟨h1, h2⟩ => h (by rw [h1, h2])
        by_cases h2 : dim ≤ u ∧ u < dim + i ∧ v = u - dim
        · rw [if_pos h2, if_pos (by omega)]
        · have h3 : ¬(dim ≤ u ∧ u < dim + (i + 1) ∧ v = u - dim) := by omega
          rw [if_neg h2, if_neg h3])
  refine ⟨rfl, rfl, fun i j hi => ?_, fun i j hi hj => ?_⟩
  · refine (key i j).trans ?_
    rw [if_neg (by omega), if_pos (by omega)]
  · refine (key (dim + i) j).trans ?_
    by_cases hij : i = j
    · rw [if_pos (by omega), if_pos hij]
    · rw [if_neg (by omega), if_neg (by omega), if_neg hij]

theorem extract_spec (dim : Nat) (reduced appbas : PMat F[X]) (i j : Nat) (hi : i < dim) (hj : j < dim) : (extract dim reduced appbas).e (i, j) = appbas.e (i, j) := by
  have h := join_loop dim dim 0 appbas.e reduced.e i j
  rw [if_pos (by omega)] at h
  exact h

/-! ### The constant coefficient -/

theorem constInv_iff (A : PMat F[X]) : ConstInv A ↔ (Matrix.det fun i j : Fin A.rows => (A.e (i, j)).coeff 0) ≠ 0 := by
  constructor
  · intro h
    have h1 : (Linsolve.matOf A.rows A).det.coeff 0 = (Matrix.det fun i j : Fin A.rows => (A.e (i, j)).coeff 0) := by
      rw [← constantCoeff_apply, RingHom.map_det]
      rfl
    rw [← h1]
    exact Linsolve.det_const h
  · intro h
    let M : Matrix (Fin A.rows) (Fin A.rows) F := fun i j => (A.e (i, j)).coeff 0
    have hu : IsUnit M.det := isUnit_iff_ne_zero.2 h
    refine ⟨fun x => if hx : x.1 < A.rows ∧ x.2 < A.rows then M⁻¹ ⟨x.1, hx.1⟩ ⟨x.2, hx.2⟩ else 0, fun i j hi hj => ?_⟩
    have h1 := congrFun (congrFun (Matrix.nonsing_inv_mul M hu) ⟨i, hi⟩) ⟨j, hj⟩
    rw [Matrix.mul_apply, Matrix.one_apply] at h1
    rw [Finset.sum_range]
    refine Eq.trans (Finset.sum_congr rfl fun k _ => ?_) (h1.trans ?_)
    · dsimp only
      rw [dif_pos ⟨hi, k.2⟩]
    · simp only [Fin.mk.injEq]

/-! ### Reconstruction -/

theorem coe_mul_inv {A : PMat F[X]} {h : Nat × Nat → PowerSeries F} (hh : IsSeriesInv A h) :
    (Matrix.of fun i j : Fin A.rows => h (i, j)) * (Matrix.of fun i j : Fin A.rows => A.e (i, j)).map φ = 1 ∧
      (Matrix.of fun i j : Fin A.rows => A.e (i, j)).map φ * (Matrix.of fun i j : Fin A.rows => h (i, j)) = 1 := by
  constructor
  · ext1 i j
    have := hh.left i j i.2 j.2
    rw [Finset.sum_range] at this
    rw [Matrix.mul_apply, Matrix.one_apply]
    refine Eq.trans this ?_
    simp only [Fin.ext_iff]
  · ext1 i j
    have := hh.right i j i.2 j.2
    rw [Finset.sum_range] at this
    rw [Matrix.mul_apply, Matrix.one_apply]
    refine Eq.trans this ?_
    simp only [Fin.ext_iff]

/-- The expansion at order `o`. -/
theorem expansion_of_slice {A : PMat F[X]} {h : Nat × Nat → PowerSeries F} (hh : IsSeriesInv A h) {d o : Nat} (hd : 1 ≤ d)
    (hA : ∀ i j, i < A.rows → j < A.rows → (A.e (i, j)).natDegree ≤ d) (ho : (A.rows - 1) * d + 1 ≤ o) :
    Expansion d o (Matrix.of fun i j : Fin A.rows => A.e (i, j)) (Matrix.of fun i j : Fin A.rows => ofCoeffs o fun t => PowerSeries.coeff t (h (i, j)))
      (Matrix.of fun i j : Fin A.rows => h (i, j)) (Matrix.of fun i j : Fin A.rows => PowerSeries.mk fun t => PowerSeries.coeff (o + t) (h (i, j))) := by
  obtain ⟨e1, e2⟩ := coe_mul_inv hh
  refine ⟨hd, ho, fun i j => hA i j i.2 j.2, e1, e2, fun i j => ?_, ?_⟩
  · have h1 : (ofCoeffs o fun t => PowerSeries.coeff t (h (i, j))).natDegree ≤ o - 1 := natDegree_le_iff_coeff_eq_zero.2 fun k hk => by
      rw [ofCoeffs_coeff, if_neg (by omega)]
    exact lt_of_le_of_lt h1 (by omega)
  · ext1 i j
    rw [Matrix.add_apply, Matrix.map_apply, Matrix.smul_apply, smul_eq_mul, Matrix.of_apply, Matrix.of_apply, Matrix.of_apply]
    ext t
    rw [map_add, PowerSeries.coeff_X_pow_mul']
    have e3 : PowerSeries.coeff t (φ (ofCoeffs o fun t => PowerSeries.coeff t (h (i, j)))) = if t < o then PowerSeries.coeff t (h (i, j)) else 0 :=
      (Polynomial.coeff_coe _ _).trans (ofCoeffs_coeff _ _ _)
    rw [e3]
    by_cases ht : t < o
    · rw [if_pos ht, if_neg (by omega), add_zero]
    · rw [if_neg ht, if_pos (by omega), zero_add, PowerSeries.coeff_mk, show o + (t - o) = t by omega]

/-- Approximants of `T` and the identity, by halves. -/
theorem approximant_iff {n e : Nat} {S M : PMat F[X]} (hr : S.rows = n) (hM : M = addIdentity n S) (v : Nat → F[X]) :
    PML.Approx.Spec.IsApproximant (mat M.rows M.cols M) e (fun l => v l) ↔
      ∀ j : Fin n, X ^ e ∣ ∑ l : Fin n, v l * S.e (l, j) + v (n + j) := by
  obtain ⟨-, -, a3, a4⟩ := addIdentity_spec n S hr
  subst hM
  unfold PML.Approx.Spec.IsApproximant
  refine forall_congr' fun (j : Fin n) => ?_
  have e1 : ((fun l : Fin (addIdentity n S).rows => v l) ᵥ* mat (addIdentity n S).rows (addIdentity n S).cols (addIdentity n S)) j =
      ∑ l ∈ Finset.range (2 * n), v l * (addIdentity n S).e (l, j) := by
    rw [Finset.sum_range]
    rfl
  rw [e1, show 2 * n = n + n by omega, Finset.sum_range_add, Finset.sum_range, Finset.sum_range (n := n) (f := fun i => v (n + i) * (addIdentity n S).e (n + i, j)),
    Finset.sum_congr rfl fun (l : Fin n) _ => by rw [a3 l j l.2],
    Finset.sum_eq_single (f := fun i : Fin n => v (n + i) * (addIdentity n S).e (n + i, j)) j, a4 j j j.2 j.2, if_pos rfl, mul_one]
  · intro l _ hl
    rw [a4 l j l.2 j.2, if_neg (fun he => hl (Fin.ext he)), mul_zero]
  · exact fun hh => absurd (Finset.mem_univ _) hh

/-- From the slice to the reduced form. -/
theorem reconstruct {A : PMat F[X]} {h : Nat × Nat → PowerSeries F} (hh : IsSeriesInv A h) {d o : Nat} (hd : 1 ≤ d)
    (hA : ∀ i j, i < A.rows → j < A.rows → (A.e (i, j)).natDegree ≤ d) (ho : (A.rows - 1) * d + 1 ≤ o) {S : PMat F[X]} (hS : IsSlice A.rows h o (2 * d + 1) S)
    {B : PMat F[X]} {t : Nat → Int} (hB : IsMinBasis (addIdentity A.rows S) (2 * d) (fun _ => 0) B t) (red : PMat F[X]) : IsReducedForm A (extract A.rows red B) := by
  obtain ⟨a1, a2, -, -⟩ := addIdentity_spec A.rows S hS.rows
  have hex := expansion_of_slice hh hd hA ho
  have hpiv := hB.pivot
  have hgen := hB.basis.generates
  obtain ⟨k1, U, W, k2, k3, k4⟩ := core hex (T := Matrix.of fun i j : Fin A.rows => S.e (i, j)) (fun i j k hk => by
      rw [Matrix.of_apply, Matrix.of_apply, PowerSeries.coeff_mk, hS.coeff i j i.2 j.2, if_pos (by omega)])
    (B := fun i j => B.e (i, j)) (t := fun i => (t i - 0).toNat) (fun i hi => hpiv i (by rw [a1]; exact hi)) (fun v => by
      refine (approximant_iff hS.rows rfl v).symm.trans ((hgen _).trans ?_)
      constructor
      · rintro ⟨u, hu⟩
        refine ⟨fun i => if hi : i < 2 * A.rows then u ⟨i, hi⟩ else 0, fun j hj => ?_⟩
        refine (congrFun hu ⟨j, hj⟩).trans ?_
        rw [Finset.sum_range]
        show ∑ i : Fin (2 * A.rows), u i * B.e (i, j) = _
        refine Finset.sum_congr rfl fun i _ => ?_
        dsimp only
        rw [dif_pos i.2]
        rfl
      · rintro ⟨c, hc⟩
        refine ⟨fun i => c i, funext fun j => ?_⟩
        rw [hc j j.2, Finset.sum_range]
        rfl)
  have hpop : OrderedWeakPopovLower A.rows A.rows (fun _ => 0) fun i j => (extract A.rows red B).e (i, j) := by
    refine ⟨fun i => i, fun i => (t i - 0).toNat, fun i hi => ?_, fun i j hij _ => hij⟩
    have hp := (k1 i hi).1
    have e : ∀ j, j < A.rows → (extract A.rows red B).e (i, j) = B.e (i, j) := fun j hj => extract_spec A.rows red B i j hi hj
    refine ⟨hi, ?_, ?_, fun j hj => ?_, fun j hj => ?_⟩ <;> dsimp only
    · rw [e i hi]; exact hp.nonzero
    · rw [e i hi]; exact hp.degree
    · rw [e j hj]; exact hp.le j hj
    · rw [e j hj]; exact hp.after j hj
  refine ⟨rfl, rfl, ?_, hpop, U, W, k2, k3, ?_⟩
  · classical
    obtain ⟨piv, δ, p1, p2⟩ := hpop
    refine PML.Forms.weakPopov_reduced true _ _ _ _ ⟨piv, δ, p1, fun i j hi hj he => ?_⟩
    rcases Nat.lt_trichotomy i j with h | h | h
    · have := p2 i j h hj; omega
    · exact h
    · have := p2 j i h hi; omega
  · rw [← k4]
    ext1 i j
    exact extract_spec A.rows red B i j i.2 j.2

/-! ### Main theorems -/

/-- What is computed before the loop. -/
theorem gjv_start [DecidableEq F] {C : Calls F} (hC : C.Ok) (N : Nt F) (mul : PMat F[X] → PMat F[X] → Option (PMat F[X])) (thr : Nat) (reduced A : PMat F[X])
    (hn : 0 < A.rows) (hsq : A.rows = A.cols) (hc : ConstInv A) (d : Nat) (hd : deg A = d) :
    ∃ (h : Nat × Nat → PowerSeries F) (invA slice : PMat F[X]) (ma mi : PMat F[X] → Res (PMat F[X])), Ctx A invA h (d + 1) ma mi ∧ IsSlice A.rows h 1 (2 * d + 1) slice ∧
      gjv C N mul thr reduced A = andThen (gjvLoop C.mid ma mi d ((A.rows + 1) * d + 2) ((A.rows + 1) * d + 2) (2 * d + 2) slice) fun series =>
        andThen (pmbasis N C.mid mul thr (2 * d) ⟨0, 0, fun _ => 0⟩ (addIdentity A.rows series) (2 * d) fun _ => 0) fun r =>
        .ok (some (extract A.rows reduced r.1)) := by
  obtain ⟨h, hh⟩ := seriesInv_exists hc
  unfold gjv
  dsimp only
  rw [if_neg (by omega), if_neg ((constInv_iff A).1 hc), hd, Int.toNat_natCast, ← hsq]
  obtain ⟨x0, ex0, -⟩ := hC.inv A ((A.rows + 1) * d + 1) hsq hn hc (by omega)
  obtain ⟨x, ex, hx⟩ := hC.inv A (2 * d + 2) hsq hn hc (by omega)
  have hs := slice_of_inv hx hh
  have r1 := hs.rows
  have r2 := hs.cols
  rw [ex0]
  dsimp only [andThen]
  rw [ex]
  dsimp only
  obtain ⟨-, s1, s2, s3⟩ := C65_shift false ⟨0, 0, fun _ => 0⟩ x 1
  obtain ⟨t1, t2, t3⟩ := C65_trunc true x x (d + 1)
  have hx0 : 0 ≤ deg (trunc true x x (d + 1)) := by
    refine inv_deg_nonneg (A := A) (m := d + 1) ⟨by omega, by omega, fun i j hi hj k hk => ?_, fun i j hi hj k hk => ?_, fun i j hi hj k hk => ?_⟩ (by omega) hn
    · rw [t3 i j (by omega) (by omega), if_neg (by omega)]
    · rw [← hx.left i j hi hj k (by omega)]
      refine (dvd_iff _ _ (d + 1)).1 (cmul_dvd (n := A.rows) (a := (trunc true x x (d + 1)).e) (b := A.e) (fun l hl => ?_) fun l _ => by rw [sub_self]; exact dvd_zero _) k hk
      rw [dvd_iff]
      intro t ht
      rw [t3 i l (by omega) (by omega), if_pos ht]
    · rw [← hx.right i j hi hj k (by omega)]
      refine (dvd_iff _ _ (d + 1)).1 (cmul_dvd (n := A.rows) (a := A.e) (b := (trunc true x x (d + 1)).e) (fun l _ => by rw [sub_self]; exact dvd_zero _) fun l hl => ?_) k hk
      rw [dvd_iff]
      intro t ht
      rw [t3 l j (by omega) (by omega), if_pos ht]
  generalize rightShift false ⟨0, 0, fun _ => 0⟩ x 1 = slice at *
  generalize trunc true x x (d + 1) = invA at *
  obtain ⟨ma, ema, hma⟩ := hC.lm A d (by omega) (by omega)
  obtain ⟨mi, emi, hmi⟩ := hC.lm invA d (by omega) hx0
  rw [emi]
  dsimp only [ofRes]
  rw [ema]
  refine ⟨h, invA, slice, ma, mi, ⟨by omega, hn, hsq, fun i j hi hj k hk => ?_, hh, ⟨by omega, by omega, fun i j hi hj t => ?_⟩, hma, hmi⟩,
    ⟨by omega, by omega, fun i j hi hj t => ?_⟩, rfl⟩
  · exact (deg_lt_iff A (d + 1)).1 (by omega) i j hi (by omega) k (by omega)
  · rw [t3 i j (by omega) (by omega), hs.coeff i j hi hj]
    by_cases ht : t < d + 1
    · rw [if_pos ht, if_pos ht, if_pos (by omega)]
    · rw [if_neg ht, if_neg ht]
  · rw [s3 i j (by omega) (by omega), if_pos (by omega), hs.coeff i j hi hj, show ((t : Int) + 1).toNat = t + 1 by omega]
    by_cases ht : t < 2 * d + 1
    · rw [if_pos ht, if_pos (by omega), Nat.zero_add, Nat.add_comm]
    · rw [if_neg ht, if_neg (by omega)]

/-- A matrix whose inverse as a matrix of power series is polynomial. -/
theorem unimodular_of_vanish {A : PMat F[X]} {h : Nat × Nat → PowerSeries F} (hh : IsSeriesInv A h) {o : Nat} (hv : Vanish A.rows h o) :
    IsUnit (Matrix.det fun i j : Fin A.rows => A.e (i, j)) := by
  obtain ⟨e1, -⟩ := coe_mul_inv hh
  let V : Matrix (Fin A.rows) (Fin A.rows) F[X] := Matrix.of fun i j => ofCoeffs o fun t => PowerSeries.coeff t (h (i, j))
  have e2 : V.map φ = Matrix.of fun i j : Fin A.rows => h (i, j) := by
    ext1 i j
    ext t
    refine (Polynomial.coeff_coe _ _).trans ((ofCoeffs_coeff _ _ _).trans ?_)
    rw [Matrix.of_apply]
    by_cases ht : t < o
    · rw [if_pos ht]
    · rw [if_neg ht, hv i j i.2 j.2 t (by omega)]
  rw [← e2, ← Matrix.map_mul] at e1
  have e3 : V * (Matrix.of fun i j : Fin A.rows => A.e (i, j)) = 1 := by
    ext1 i j
    refine φ_inj ?_
    refine (congrFun (congrFun e1 i) j).trans ?_
    rw [Matrix.one_apply, Matrix.one_apply]
    split_ifs
    · rw [map_one]
    · rw [map_zero]
  have e4 := congrArg Matrix.det e3
  rw [Matrix.det_mul, Matrix.det_one] at e4
  exact IsUnit.of_mul_eq_one_right _ e4

/-- **C96**. If `pmat` is square, not constant, and its constant coefficient is invertible, then `reduced_form_gjv`
    returns 1 and gives a row reduced form of `pmat`, in ordered weak Popov form; or it fails, and `pmat` is unimodular.
    Full statement: it does not fail, and `pmat` may be constant (see `C96_constant_fails` and `C96_unimodular_fails`). -/
theorem C96_reduced_partial [DecidableEq F] {C : Calls F} (hC : C.Ok) (hmid : MiddleOk C.mid) {N : Nt F} (hN : N.Ok) {mul : PMat F[X] → PMat F[X] → Option (PMat F[X])}
    (hmul : MulOk mul) {thr : Nat} (hthr : 0 < thr) (reduced A : PMat F[X]) (hn : 0 < A.rows) (hsq : A.rows = A.cols)
    (hc : (Matrix.det fun i j : Fin A.rows => (A.e (i, j)).coeff 0) ≠ 0) (hd : 1 ≤ deg A) :
    (∃ R, gjv C N mul thr reduced A = .ok (some R) ∧ IsReducedForm A R) ∨
      (gjv C N mul thr reduced A = .ub ∧ IsUnit (Matrix.det fun i j : Fin A.rows => A.e (i, j))) := by
  have hci := (constInv_iff A).2 hc
  obtain ⟨d, hd'⟩ : ∃ d : Nat, deg A = d := ⟨(deg A).toNat, by omega⟩
  obtain ⟨h, invA, slice, ma, mi, K, hsl, e⟩ := gjv_start hC N mul thr reduced A hn hsq hci d hd'
  rw [e]
  rcases gjvLoop_spec hC.mid K ((A.rows + 1) * d + 2) ((A.rows + 1) * d + 2) (2 * d + 2) 1 slice (by omega) (le_refl _) hsl (by omega) with ⟨y, o, ey, ho, hy⟩ | ⟨ey, o, hv⟩
  · left
    rw [ey]
    dsimp only [andThen]
    obtain ⟨a1, a2, -, -⟩ := addIdentity_spec A.rows y hy.rows
    obtain ⟨B, t, eB, hB⟩ := C76_pmbasis_partial hN hmid hmul hthr ⟨0, 0, fun _ => 0⟩ (addIdentity A.rows y) (2 * d) (fun _ => 0) (by omega) (by omega)
    rw [eB]
    refine ⟨_, rfl, reconstruct K.inv (show 1 ≤ d by omega) (fun i j hi hj => ?_) ?_ hy hB reduced⟩
    · refine natDegree_le_iff_coeff_eq_zero.2 fun k hk => ?_
      exact (deg_lt_iff A (d + 1)).1 (by omega) i j hi (by omega) k (by omega)
    · obtain ⟨m, hm⟩ : ∃ m, A.rows = m + 1 := ⟨A.rows - 1, by omega⟩
      rw [hm] at ho ⊢
      have : (m + 1 + 1) * d = m * d + 2 * d := by ring
      rw [Nat.add_sub_cancel]
      omega
  · right
    rw [ey]
    exact ⟨rfl, unimodular_of_vanish K.inv hv⟩

/-- **C96 (value 0)**. The value 0 is returned exactly if the constant coefficient is singular; a matrix which is not
    square is rejected. -/
theorem C96_singular [DecidableEq F] (C : Calls F) (N : Nt F) (mul : PMat F[X] → PMat F[X] → Option (PMat F[X])) (thr : Nat) (reduced A : PMat F[X]) :
    (A.rows ≠ A.cols → gjv C N mul thr reduced A = .error) ∧
    (A.rows = A.cols → (Matrix.det fun i j : Fin A.rows => (A.e (i, j)).coeff 0) = 0 → gjv C N mul thr reduced A = .ok none) := by
  constructor
  · intro h
    unfold gjv
    rw [if_pos h]
  · intro h h0
    unfold gjv
    rw [if_neg (not_not.2 h), if_pos h0]

/-- **C96, negation (constant matrices)**. An invertible constant matrix makes `reduced_form_gjv` read the first entry of
    an empty vector, in `pmbasis` at order 0. -/
theorem C96_constant_fails [DecidableEq F] {C : Calls F} (hC : C.Ok) (N : Nt F) (mul : PMat F[X] → PMat F[X] → Option (PMat F[X])) (thr : Nat) (reduced A : PMat F[X])
    (hn : 0 < A.rows) (hsq : A.rows = A.cols) (hc : (Matrix.det fun i j : Fin A.rows => (A.e (i, j)).coeff 0) ≠ 0) (hd : deg A = 0) :
    gjv C N mul thr reduced A = .ub := by
  obtain ⟨h, invA, slice, ma, mi, K, hsl, e⟩ := gjv_start hC N mul thr reduced A hn hsq ((constInv_iff A).2 hc) 0 hd
  rw [e]
  have e1 : gjvLoop C.mid ma mi 0 ((A.rows + 1) * 0 + 2) ((A.rows + 1) * 0 + 2) (2 * 0 + 2) slice = .ok slice := by
    unfold gjvLoop
    rw [if_neg (by omega)]
  rw [e1]
  dsimp only [andThen]
  obtain ⟨a1, a2, -, -⟩ := addIdentity_spec A.rows slice hsl.rows
  rw [(C76_order_zero_fails N C.mid mul thr (2 * 0) ⟨0, 0, fun _ => 0⟩ (addIdentity A.rows slice) (fun _ => 0) (by omega)).2]

/-- **C96, negation (unimodular matrices)**. If `middle_product` fails on zero matrices when the degree is at least `D`
    (which happens, see C69), `reduced_form_gjv` fails on every matrix of degree `d >= D`, with `(n - 2) d >= 2`, whose inverse is
    polynomial of degree at most `d + 1`. -/
theorem C96_unimodular_fails [DecidableEq F] {C : Calls F} (hC : C.Ok) (D : Nat) (hz : ∀ a c dA dB, Utils.deg a < 0 → D ≤ dB → C.mid a c dA dB = none)
    (N : Nt F) (mul : PMat F[X] → PMat F[X] → Option (PMat F[X])) (thr : Nat) (reduced A V : PMat F[X])
    (hn : 0 < A.rows) (hsq : A.rows = A.cols) (hV : ∀ i j, i < A.rows → j < A.rows → ∑ l ∈ Finset.range A.rows, V.e (i, l) * A.e (l, j) = if i = j then 1 else 0)
    (d : Nat) (hd : deg A = d) (hDd : D ≤ d) (hVd : ∀ i j, i < A.rows → j < A.rows → (V.e (i, j)).natDegree ≤ d + 1) (hbig : 3 * d + 3 < (A.rows + 1) * d + 2) :
    gjv C N mul thr reduced A = .ub := by
  have hci : ConstInv A := ⟨fun ij => (V.e ij).coeff 0, fun i j hi hj => by
    have := congrArg (fun p => p.coeff 0) (hV i j hi hj)
    rw [finsetSum_coeff, Finset.sum_congr rfl fun l _ => by rw [mul_coeff_zero]] at this
    rw [this]
    split_ifs
    · rw [coeff_one_zero]
    · rw [coeff_zero]⟩
  obtain ⟨h, invA, slice, ma, mi, K, hsl, e⟩ := gjv_start hC N mul thr reduced A hn hsq hci d hd
  -- the inverse
  have hhV : ∀ i j, i < A.rows → j < A.rows → h (i, j) = (V.e (i, j) : PowerSeries F) := by
    intro i j hi hj
    obtain ⟨e1, e2⟩ := coe_mul_inv K.inv
    have e3 : (Matrix.of fun i j : Fin A.rows => V.e (i, j)).map φ * (Matrix.of fun i j : Fin A.rows => A.e (i, j)).map φ = 1 := by
      rw [← Matrix.map_mul]
      ext1 i j
      have := hV i j i.2 j.2
      rw [Finset.sum_range] at this
      rw [Matrix.map_apply, Matrix.mul_apply, Matrix.one_apply]
      refine (congrArg φ this).trans ?_
      simp only [Fin.ext_iff]
      split_ifs
      · rw [map_one]
      · rw [map_zero]
    have e4 := congrArg (fun M => M * Matrix.of fun i j : Fin A.rows => h (i, j)) e3
    rw [Matrix.mul_assoc, e2, Matrix.mul_one, Matrix.one_mul] at e4
    exact (congrFun (congrFun e4 ⟨i, hi⟩) ⟨j, hj⟩).symm
  have hvan : Vanish A.rows h (d + 2) := by
    intro i j hi hj t ht
    rw [hhV i j hi hj, Polynomial.coeff_coe]
    exact coeff_eq_zero_of_natDegree_lt (by have := hVd i j hi hj; omega)
  rw [e]
  have hsl' : IsSlice A.rows h 1 (2 * (d + 1) - 1) slice := by
    rw [show 2 * (d + 1) - 1 = 2 * d + 1 by omega]
    exact hsl
  have key : gjvLoop C.mid ma mi d ((A.rows + 1) * d + 2) ((A.rows + 1) * d + 2) (2 * d + 2) slice = .ub := by
    obtain ⟨f, hf⟩ : ∃ f, (A.rows + 1) * d + 2 = f + 2 := ⟨_, rfl⟩
    rw [hf] at hbig ⊢
    unfold gjvLoop
    rw [if_pos (by omega)]
    dsimp only
    rcases C74_lift_partial hC.mid K slice 1 hsl' with ⟨y, ey, hy⟩ | ⟨ey, hv⟩
    · rw [ey]
      dsimp only [andThen]
      unfold gjvLoop
      rw [if_pos (by omega)]
      dsimp only
      rw [C74_lift_fails D hz K (by omega) y (2 * 1 + (d + 1) - 1) hy fun i j hi hj t ht => hvan i j hi hj t (by omega)]
      rfl
    · rw [ey]
      rfl
  rw [key]
  rfl

end PML.Ntl.Reduce
