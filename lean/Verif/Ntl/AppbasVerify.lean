import Verif.Ntl.AppbasPopov
import Verif.Ntl.InvProps
import Verif.Forms.Reduced
import Mathlib.Algebra.Polynomial.Roots

/-!
# `is_approximant_basis`
-/

namespace PML.Ntl.Appbas

open Polynomial PML.Ntl.Utils PML.Ntl.Inv PML.Ntl.Solve PML.Ntl.Forms PML.Ntl.Det PML.Ntl.Mbasis PML.Approx PML.Approx.Spec
  PML.Forms.Spec PML.Ntl.MatMul

variable {F : Type} [Field F] [DecidableEq F]

omit [DecidableEq F] in
theorem ptrunc_zero_iff (f : F[X]) (d : Nat) : ptrunc f d = 0 ↔ X ^ d ∣ f := by
  rw [X_pow_dvd_iff]
  constructor
  · intro h k hk
    have := congrArg (fun p => coeff p k) h
    simp only [ptrunc_coeff, if_pos hk, coeff_zero] at this
    exact this
  · intro h
    ext k
    rw [ptrunc_coeff, coeff_zero]
    split_ifs with hk
    · exact h k hk
    · rfl

theorem residualZero_iff (m n : Nat) (order : List Nat) (res : PMat F[X]) :
    residualZero m n order res = true ↔ ∀ i j, i < m → j < n → X ^ order.getD j 0 ∣ res.e (i, j) := by
  unfold residualZero
  simp only [List.all_eq_true, List.mem_range, decide_eq_true_eq, ptrunc_zero_iff]
  exact ⟨fun h i j hi hj => h i hi j hj, fun h i hi j hj => h i j hi hj⟩

theorem gauss_iff (pmat P residual : PMat F[X]) (order : List Nat)
    (hres : ∀ i j, i < pmat.rows → j < pmat.cols → residual.e (i, j) = ∑ l ∈ Finset.range pmat.rows, P.e (i, l) * pmat.e (l, j)) :
    gauss (⟨pmat.rows, pmat.rows + pmat.cols, fun ij => if ij.2 < pmat.cols then (residual.e ij).coeff (order.getD ij.2 0)
      else (P.e (ij.1, ij.2 - pmat.cols)).coeff 0⟩ : PMat F) = pmat.rows ↔
    FullRank (mat pmat.rows pmat.cols pmat) (orderOf pmat.cols order) (mat pmat.rows pmat.rows P) := by
  have key := PML.Forms.rank_rows_iff (K := F) pmat.rows (pmat.rows + pmat.cols) (fun i j => if j < pmat.cols then
    (residual.e (i, j)).coeff (order.getD j 0) else (P.e (i, j - pmat.cols)).coeff 0)
  unfold gauss
  rw [eq_comm]
  refine Iff.trans key ?_
  constructor
  · intro h u h1 h2
    funext i
    have := h (fun i => if hi : i < pmat.rows then u ⟨i, hi⟩ else 0) (fun j hj => by
      by_cases hjc : j < pmat.cols
      · refine Eq.trans ?_ (h1 ⟨j, hjc⟩)
        rw [Finset.sum_range]
        refine Finset.sum_congr rfl fun i _ => ?_
        rw [dif_pos i.2, if_pos hjc, hres i j i.2 hjc, sum_mat]
        rfl
      · refine Eq.trans ?_ (h2 ⟨j - pmat.cols, by omega⟩)
        rw [Finset.sum_range]
        refine Finset.sum_congr rfl fun i _ => ?_
        rw [dif_pos i.2, if_neg hjc]
        rfl) i i.2
    rw [dif_pos i.2] at this
    exact this
  · intro h u hu i hi
    have := h (fun i => u i) (fun j => by
      have := hu j (by have := j.2; omega)
      rw [Finset.sum_range] at this
      refine Eq.trans (Finset.sum_congr rfl fun i _ => ?_) this
      rw [if_pos j.2, hres i j i.2 j.2, sum_mat]
      rfl) (fun l => by
      have := hu (l + pmat.cols) (by have := l.2; omega)
      rw [Finset.sum_range] at this
      refine Eq.trans (Finset.sum_congr rfl fun i _ => ?_) this
      rw [if_neg (by omega), Nat.add_sub_cancel]
      rfl)
    exact congrFun this ⟨i, hi⟩

omit [DecidableEq F] in
theorem detN_eval (m : Nat) (P : PMat F[X]) (hr : P.rows = m) (hc : P.cols = m) (x : PMat F) (pt : F) :
    detN m (Utils.eval x P pt).e = (mat m m P).det.eval pt := by
  obtain ⟨_, _, h⟩ := C65_eval x P pt
  have := RingHom.map_det (Polynomial.evalRingHom pt) (mat m m P)
  rw [Polynomial.coe_evalRingHom] at this
  rw [this]
  unfold detN
  congr 1
  refine Matrix.ext fun i j => ?_
  exact h i j (by rw [hr]; exact i.2) (by rw [hc]; exact j.2)

/-- The value of `is_approximant_basis`, after the test of the form. -/
theorem verify_eq {mul : PMat F[X] → PMat F[X] → Option (PMat F[X])} (hmul : MulOk mul) (P pmat : PMat F[X]) (order : List Nat)
    (shift : List Int) (form : Form) (pt : F) (hlen : order.length = pmat.cols) (hs : shift.length = pmat.rows)
    (hm : 0 < pmat.rows) (hr : P.rows = pmat.rows) (hc : P.cols = pmat.rows) (hform : isForm true form P (some shift) = .ok true) :
    ∃ degs : List Int, degs.length = pmat.rows ∧
      (∀ i, i < pmat.rows → ¬ ZeroVec pmat.rows (fun j => P.e (i, j)) →
        ShiftedDegree pmat.rows (entryOf shift) (fun j => P.e (i, j)) (degs.getD i 0)) ∧
      (isApproximantBasis mul P pmat order shift form true pt = .ok true ↔
        (∀ i j, i < pmat.rows → j < pmat.cols → X ^ order.getD j 0 ∣ ∑ l ∈ Finset.range pmat.rows, P.e (i, l) * pmat.e (l, j)) ∧
        FullRank (mat pmat.rows pmat.cols pmat) (orderOf pmat.cols order) (mat pmat.rows pmat.rows P) ∧
        ¬ (pt = 0 ∧ degs.sum - shift.sum < 0) ∧
        (mat pmat.rows pmat.rows P).det.eval pt = (mat pmat.rows pmat.rows P).det.eval 1 * pt ^ (degs.sum - shift.sum)) ∧
      (0 ≤ degs.sum - shift.sum → ∃ b, isApproximantBasis mul P pmat order shift form true pt = .ok b) := by
  obtain ⟨R, r1, r2⟩ := hmul P pmat hc (by omega)
  obtain ⟨degs, z, d1, d2, _, _, d5⟩ := C78_degree true P (some shift) (fun l hl => by cases hl; exact ⟨by rw [hs]; exact hc.symm, by
    show 0 < P.cols; omega⟩)
  have hres : ∀ i j, i < pmat.rows → j < pmat.cols → R.e (i, j) = ∑ l ∈ Finset.range pmat.rows, P.e (i, l) * pmat.e (l, j) := by
    intro i j hi hj
    rw [r2.2.2 i j (by rw [hr]; exact hi) hj, hc]
  have hz := residualZero_iff pmat.rows pmat.cols order R
  have hg := gauss_iff pmat P R order hres
  have e1 := detN_eval pmat.rows P hr hc ⟨0, 0, fun _ => 0⟩ pt
  have e2 := detN_eval pmat.rows P hr hc ⟨0, 0, fun _ => 0⟩ 1
  have hzz : residualZero pmat.rows pmat.cols order R = true ↔
      ∀ i j, i < pmat.rows → j < pmat.cols → X ^ order.getD j 0 ∣ ∑ l ∈ Finset.range pmat.rows, P.e (i, l) * pmat.e (l, j) := by
    rw [hz]
    exact forall_congr' fun i => forall_congr' fun j => forall_congr' fun hi => forall_congr' fun hj => by rw [hres i j hi hj]
  refine ⟨degs, by rw [d2]; exact hr, fun i hi hne => ?_, ?_⟩
  · have := (d5 i (by show i < P.rows; rw [hr]; exact hi)).2
    rw [show len true P = pmat.rows from hc] at this
    exact this hne
  · unfold isApproximantBasis
    dsimp only
    rw [if_neg (by simp), if_neg (by omega), hform]
    have hstep : ∀ X : Out Bool, andThen (.ok true) (fun b => if ¬ (b = true) then Out.ok false else X) = X := by
      intro X; rfl
    rw [hstep, r1]
    show (andThen (.ok R) _ = _ ↔ _) ∧ (_ → ∃ b, andThen (.ok R) _ = _)
    have hstep2 : ∀ f : PMat F[X] → Out Bool, andThen (.ok R) f = f R := fun f => rfl
    rw [hstep2]
    rw [if_neg (by omega)]
    by_cases h1 : residualZero pmat.rows pmat.cols order R = true
    · rw [if_neg (not_not.2 h1), d1]
      have hstep3 : ∀ f : List Int → Out Bool, andThen (.ok degs) f = f degs := fun f => rfl
      rw [hstep3]
      rw [e1, e2]
      by_cases h2 : pt = 0 ∧ degs.sum - shift.sum < 0
      · rw [if_pos h2]
        exact ⟨⟨fun h => (by cases h), fun h => absurd h2 h.2.2.1⟩, fun h => absurd h2.2 (by omega)⟩
      · rw [if_neg h2]
        by_cases h3 : (mat pmat.rows pmat.rows P).det.eval pt = (mat pmat.rows pmat.rows P).det.eval 1 * pt ^ (degs.sum - shift.sum)
        · rw [if_neg (not_not.2 h3)]
          refine ⟨?_, fun _ => ⟨_, rfl⟩⟩
          constructor
          · intro h
            injection h with h
            exact ⟨hzz.1 h1, hg.1 (of_decide_eq_true h), h2, h3⟩
          · intro h
            congr 1
            exact decide_eq_true (hg.2 h.2.1)
        · rw [if_pos h3]
          exact ⟨⟨fun h => (by cases h), fun h => absurd h.2.2.2 h3⟩, fun _ => ⟨_, rfl⟩⟩
    · rw [if_pos h1]
      exact ⟨⟨fun h => (by cases h), fun h => absurd (hzz.2 h.1) h1⟩, fun _ => ⟨_, rfl⟩⟩

omit [DecidableEq F] in
/-- A matrix of approximants of full rank is nonsingular. -/
theorem det_ne_of_fullRank {m n : Nat} {A : Matrix (Fin m) (Fin n) F[X]} {o : Fin n → Nat} {P : Matrix (Fin m) (Fin m) F[X]}
    (hs : ∀ i j, X ^ o j ∣ (P * A) i j) (hr : FullRank A o P) : P.det ≠ 0 := by
  obtain ⟨B, hB⟩ := exists_basis A o
  have hrow : ∀ i, ∃ u : Fin m → F[X], P i = Matrix.vecMul u B := fun i => (hB _).1 (hs i)
  choose U hU using hrow
  have hPU : P = Matrix.of U * B := Matrix.ext fun i l => congrFun (hU i) l
  have hne : (Matrix.of U).det.coeff 0 ≠ 0 := det_factor_ne hs hr hB hPU
  rw [hPU, Matrix.det_mul]
  exact mul_ne_zero (fun e => hne (by rw [e, coeff_zero])) hB.det_ne

theorem sum_getD (l : List Int) (m : Nat) (h : l.length = m) : l.sum = ∑ i : Fin m, l.getD i 0 := by
  subst h
  induction l with
  | nil => simp
  | cons a l ih =>
    rw [List.sum_cons, ih]
    show _ = ∑ i : Fin (l.length + 1), (a :: l).getD i 0
    rw [Fin.sum_univ_succ]
    rfl

omit [DecidableEq F] in
theorem degLE_of_shifted {m : Nat} {s : Nat → Int} {p : Nat → F[X]} {d : Int} (h : ShiftedDegree m s p d) (j : Nat) (hj : j < m) :
    DegLE (s j) (p j) d := degLE_iff.2 fun hne => h.le j hj hne

/-- The degree of the determinant of a reduced matrix. -/
theorem reduced_det {m : Nat} {s : Nat → Int} {P : PMat F[X]} (h : RowReduced m m s fun i j => P.e (i, j)) (d : Nat → Int)
    (hd : ∀ i, i < m → ShiftedDegree m s (fun j => P.e (i, j)) (d i)) :
    0 ≤ ∑ i : Fin m, d i - ∑ i : Fin m, s i ∧
      ((mat m m P).det.natDegree : Int) = ∑ i : Fin m, d i - ∑ i : Fin m, s i := by
  obtain ⟨d', hd', hind⟩ := h
  have hdd : ∀ i, i < m → d' i = d i := fun i hi => PML.Forms.ShiftedDegree.unique (hd' i hi) (hd i hi)
  obtain ⟨h1, h2⟩ := det_zcoeff (mat m m P) (fun j : Fin m => s j) (fun i : Fin m => d i)
    (fun i j => degLE_of_shifted (hd i i.2) j j.2)
  have hL : (Matrix.of fun i j : Fin m => zcoeff (mat m m P i j) (d i - s j)).det ≠ 0 := by
    intro hz
    obtain ⟨u, hu0, hu⟩ := Matrix.exists_vecMul_eq_zero_iff.2 hz
    apply hu0
    funext i
    have := hind (fun i => if hi : i < m then u ⟨i, hi⟩ else 0) (fun j hj => by
      have := congrFun hu ⟨j, hj⟩
      refine Eq.trans ?_ this
      rw [Finset.sum_range]
      show _ = ∑ i : Fin m, u i * zcoeff (P.e (i, j)) (d i - s j)
      refine Finset.sum_congr rfl fun i _ => ?_
      rw [dif_pos i.2, hdd i i.2]
      congr 1
      unfold leadRow zcoeff
      by_cases hs : s j ≤ d i
      · rw [if_pos hs, if_neg (by omega)]
      · rw [if_neg hs, if_pos (by omega)]) i i.2
    rw [dif_pos i.2] at this
    exact this
  rw [← h2] at hL
  have hnn : 0 ≤ ∑ i : Fin m, d i - ∑ i : Fin m, s i := by
    by_contra hneg
    exact hL (by unfold zcoeff; rw [if_pos (by omega)])
  refine ⟨hnn, ?_⟩
  have h3 : (mat m m P).det.natDegree = (∑ i : Fin m, d i - ∑ i : Fin m, s i).toNat := by
    apply le_antisymm
    · exact natDegree_le_iff_coeff_eq_zero.2 fun k hk => h1 k (by omega)
    · refine le_natDegree_of_ne_zero ?_
      unfold zcoeff at hL
      rwa [if_neg (by omega)] at hL
  omega

end PML.Ntl.Appbas
