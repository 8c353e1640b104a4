import Verif.Ntl.AppbasLoop
import Verif.Ntl.FormsProps
import Verif.Approx.PopovCall

/-!
# `popov_appbas_iterative` and `appbas_iterative_2x1`
-/

namespace PML.Ntl.Appbas

open Polynomial PML.Ntl.Utils PML.Ntl.Inv PML.Ntl.Solve PML.Ntl.Forms PML.Ntl.Det PML.Ntl.Mbasis PML.Approx PML.Approx.Spec
  PML.Forms.Spec

variable {F : Type} [Field F] [DecidableEq F]

/-! ### Popov form -/

theorem popovShift_spec (m : Nat) (s t : List Int) (hs : s.length = m) (ht : t.length = m) :
    ∃ p, popovShift m s t = .ok p ∧ p.length = m ∧ ∀ i, i < m → entryOf p i = entryOf s i - entryOf t i := by
  unfold popovShift
  rw [if_neg (by omega)]
  refine ⟨_, rfl, by simp [hs, ht], fun i hi => ?_⟩
  unfold entryOf
  rw [List.getD_eq_getElem?_getD, List.getElem?_append_left (by simp; omega), List.getElem?_zipWith,
    getD_some s i (by omega), getD_some t i (by omega)]
  rfl

theorem leadingMatrix_spec {m : Nat} (hm : 0 < m) (e : Nat × Nat → F[X]) (ps : List Int) (hps : ps.length = m)
    (s t : Nat → Int) (hst : ∀ i, i < m → entryOf ps i = s i - t i) (hle : ∀ i, i < m → s i ≤ t i)
    (hp : Pivots (fun i : Fin m => entryOf ps i) (mat m m ⟨m, m, e⟩) (fun _ => 0) id) :
    ∃ le : Nat × Nat → F, leadingMatrix true (⟨m, m, e⟩ : PMat F[X]) (some ps) = .ok ⟨m, m, le⟩ ∧
      (Matrix.of fun i j : Fin m => le (i, j)) = lead (fun i : Fin m => s i) (fun i : Fin m => t i) (mat m m ⟨m, m, e⟩) := by
  obtain ⟨⟨lr, lc, le⟩, h1, h2, h3, h4⟩ := C78_leading_matrix true (⟨m, m, e⟩ : PMat F[X]) (some ps)
    (fun l hl => by cases hl; exact ⟨hps, hm⟩)
  dsimp only at h2 h3
  subst h2; subst h3
  refine ⟨le, h1, Matrix.ext fun i j => ?_⟩
  have key := pivots_spec (s0 := entryOf ps) (s := fun _ => 0) (P := fun i j => e (i, j)) hp i i.2
  have := (h4 i j i.2 j.2).2 0 key.2.1
  rw [if_pos rfl] at this
  show le (i, j) = (e (i, j)).coeff (t j - s j).toNat
  refine Eq.trans this ?_
  unfold leadRow
  have e1 : shiftOf (some ps) (j : Nat) = s j - t j := hst j j.2
  have e2 := hle j j.2
  rw [e1, if_pos (by omega), show (0 : Int) - (s j - t j) = t j - s j by omega]
  rfl

theorem inverse_spec (m : Nat) (le : Nat × Nat → F) (h : (Matrix.of fun i j : Fin m => le (i, j)).det ≠ 0) :
    ∃ W : Nat × Nat → F, inverse (⟨m, m, le⟩ : PMat F) = .ok ⟨m, m, W⟩ ∧
      (Matrix.of fun i j : Fin m => W (i, j)) * (Matrix.of fun i j : Fin m => le (i, j)) = 1 := by
  unfold inverse
  dsimp only
  rw [if_neg (by simp), if_neg (show ¬ detN m le = 0 from h)]
  refine ⟨_, rfl, ?_⟩
  have e : (Matrix.of fun i j : Fin m => if h : (i : Nat) < m ∧ (j : Nat) < m then
      ((Matrix.of fun i j : Fin m => le (i, j))⁻¹) ⟨i, h.1⟩ ⟨j, h.2⟩ else 0) = (Matrix.of fun i j : Fin m => le (i, j))⁻¹ := by
    refine Matrix.ext fun i j => ?_
    rw [Matrix.of_apply, dif_pos ⟨i.2, j.2⟩]
  rw [e, Matrix.nonsing_inv_mul _ (isUnit_iff_ne_zero.2 h)]

theorem popov_good (app0 pmat : PMat F[X]) (order : List Nat) (shift : List Int) (ow : Bool)
    (hlen : order.length = pmat.cols) (hpos : ∀ x ∈ order, 0 < x) (hs : shift.length = pmat.rows) (hm : 0 < pmat.rows) :
    ∃ P t, popovIterative app0 pmat order shift ow = .ok (P, t) ∧ t.length = pmat.rows ∧
      IsMinBasisO pmat order (entryOf shift) P (entryOf t) ∧
      PopovLower pmat.rows pmat.rows (entryOf shift) fun i j => P.e (i, j) := by
  obtain ⟨P, t, a1, a2⟩ := iterative_good app0 pmat order shift ow hlen hpos hs
  obtain ⟨ps, b1, b2, b3⟩ := popovShift_spec pmat.rows shift t hs a2.tlen
  obtain ⟨⟨rr, rc, re⟩, t', c1, c2⟩ := iterative_good P pmat order ps ow hlen hpos b2
  have hrr : rr = pmat.rows := c2.rows
  have hrc : rc = pmat.rows := c2.cols
  subst hrr; subst hrc
  obtain ⟨d, hd⟩ := a2.piv
  obtain ⟨d', hd'⟩ := c2.piv
  have eps : (fun i : Fin pmat.rows => entryOf ps i) = fun i : Fin pmat.rows => entryOf shift i - entryOf t i :=
    funext fun i => b3 i i.2
  have hp2 := hd'.pivots
  have hz : (fun i : Fin pmat.rows => entryOf t' i) = fun _ => 0 := by
    funext i
    rw [eps] at hp2
    exact second_zero a2.gen c2.gen hd.pivots hp2 i
  rw [hz] at hp2
  have hst : ∀ i, i < pmat.rows → entryOf shift i ≤ entryOf t i := fun i hi => hd.ge ⟨i, hi⟩
  obtain ⟨le, l1, l2⟩ := leadingMatrix_spec hm re ps b2 (entryOf shift) (entryOf t) b3 hst hp2
  rw [eps] at hp2
  obtain ⟨W, w1, w2⟩ := inverse_spec pmat.rows le (by rw [l2]; exact lead_det (fun i => hst i i.2) hp2)
  obtain ⟨m1, m2⟩ := C66_mul_const_left (⟨pmat.rows, pmat.rows, W⟩ : PMat F) (⟨pmat.rows, pmat.rows, re⟩ : PMat F[X])
  obtain ⟨Q, hQ⟩ : ∃ Q, mulConstLeft (⟨pmat.rows, pmat.rows, W⟩ : PMat F) (⟨pmat.rows, pmat.rows, re⟩ : PMat F[X]) = some Q := by
    rcases hz : mulConstLeft (⟨pmat.rows, pmat.rows, W⟩ : PMat F) (⟨pmat.rows, pmat.rows, re⟩ : PMat F[X]) with _ | Q
    · exact absurd rfl (m1.1 hz)
    · exact ⟨Q, rfl⟩
  obtain ⟨q1, q2, q3⟩ := m2 Q hQ
  have hQm : mat pmat.rows pmat.rows Q = ((Matrix.of fun i j : Fin pmat.rows => W (i, j)).map C) *
      mat pmat.rows pmat.rows (⟨pmat.rows, pmat.rows, re⟩ : PMat F[X]) := by
    refine Matrix.ext fun i j => ?_
    rw [Matrix.mul_apply]
    show Q.e (i, j) = _
    rw [q3 i j i.2 j.2, Finset.sum_range]
    rfl
  obtain ⟨g1, g2, g3, g4⟩ := popov_of_second a2.gen c2.gen hd.pivots hp2 _ (by rw [← l2]; exact w2) hQm
  unfold popovIterative
  rw [a1]
  show ∃ P_1 t_1, andThen (popovShift pmat.rows shift t) _ = _ ∧ _
  rw [b1]
  show ∃ P_1 t_1, andThen (iterative P pmat order ps ow) _ = _ ∧ _
  rw [c1]
  show ∃ P_1 t_1, andThen (leadingMatrix true (⟨pmat.rows, pmat.rows, re⟩ : PMat F[X]) (some ps)) _ = _ ∧ _
  rw [l1]
  show ∃ P_1 t_1, andThen (inverse (⟨pmat.rows, pmat.rows, le⟩ : PMat F)) _ = _ ∧ _
  rw [w1]
  show ∃ P_1 t_1, andThen (ofOpt (mulConstLeft (⟨pmat.rows, pmat.rows, W⟩ : PMat F) (⟨pmat.rows, pmat.rows, re⟩ : PMat F[X]))) _ = _ ∧ _
  rw [hQ]
  have key := fun i hi => pivots_spec (s0 := entryOf shift) (s := entryOf t) (P := fun i j => Q.e (i, j)) g2 i hi
  refine ⟨Q, t, rfl, a2.tlen, ⟨q1, q2, g1.isBasisO, ⟨fun i => i, _, fun i hi => (key i hi).1, fun i j hij _ => hij⟩,
    fun i hi => (key i hi).1, fun i hi => (key i hi).2.1, fun i hi => (key i hi).2.2⟩,
    ⟨fun i => i, _, fun i hi => (key i hi).1, fun i j hij _ => hij, fun i hi => (g3 ⟨i, hi⟩).1, fun i k hi hk hki => ?_⟩⟩
  exact g4 ⟨i, hi⟩ ⟨k, hk⟩ (fun e => hki (congrArg Fin.val e))

/-! ### Two rows and one column -/

/-- The matrix of `appbas_iterative_2x1`. -/
def mat2 (st : St2 F) : Matrix (Fin 2) (Fin 2) F[X] := !![st.p0.1, st.p0.2; st.p1.1, st.p1.2]

/-- The column `(f0, f1)`. -/
def col2 (f0 f1 : F[X]) : Matrix (Fin 2) (Fin 1) F[X] := !![f0; f1]

structure Inv2 (f0 f1 : F[X]) (s : Int × Int) (ord : Nat) (st : St2 F) : Prop where
  gen : GenBy (IsApproximantO (col2 f0 f1) fun _ => ord) (mat2 st)
  piv : ∃ d, DiagPivots d ![s.1, s.2] (mat2 st) ![st.s.1, st.s.2]
  r0 : st.r.1 = st.p0.1 * f0 + st.p0.2 * f1
  r1 : st.r.2 = st.p1.1 * f0 + st.p1.2 * f1

omit [DecidableEq F] in
theorem col2_mul (f0 f1 : F[X]) (st : St2 F) (j : Fin 1) :
    (mat2 st * col2 f0 f1) 0 j = st.p0.1 * f0 + st.p0.2 * f1 ∧ (mat2 st * col2 f0 f1) 1 j = st.p1.1 * f0 + st.p1.2 * f1 := by
  constructor <;> (rw [Matrix.mul_apply, Fin.sum_univ_two]; fin_cases j; rfl)

omit [DecidableEq F] in
/-- A step with pivot row `p`, in terms of the matrices. -/
theorem step_abs {f0 f1 : F[X]} {s : Int × Int} {ord : Nat} {st st' : St2 F} (h : Inv2 f0 f1 s ord st) (p q : Fin 2) (hpq : q ≠ p)
    (r : Fin 2 → F) (hr : ∀ i, r i = ((mat2 st * col2 f0 f1) i 0).coeff ord) (hp : r p ≠ 0)
    (htop : ∀ l, mat2 st' p l = X * mat2 st p l)
    (hbot : ∀ l, mat2 st' q l = mat2 st q l + C (-(r q) / r p) * mat2 st p l)
    (hs1 : ![st'.s.1, st'.s.2] p = ![st.s.1, st.s.2] p + 1) (hs2 : ![st'.s.1, st'.s.2] q = ![st.s.1, st.s.2] q)
    (hmin : r q ≠ 0 → ![st.s.1, st.s.2] p < ![st.s.1, st.s.2] q ∨ (![st.s.1, st.s.2] p = ![st.s.1, st.s.2] q ∧ p < q)) :
    GenBy (IsApproximantO (col2 f0 f1) fun _ => ord + 1) (mat2 st') ∧
      ∃ d, DiagPivots d ![s.1, s.2] (mat2 st') ![st'.s.1, st'.s.2] := by
  have hq : ∀ i : Fin 2, i ≠ p → i = q := by
    intro i hi
    revert hi hpq
    fin_cases p <;> fin_cases q <;> fin_cases i <;> simp
  constructor
  · have := approx_step (P' := mat2 st') h.gen 0 p (by rw [← hr]; exact hp) htop (fun i hi l => by
      rw [← hr, ← hr, hq i hi]; exact hbot l)
    have e : Function.update (fun _ : Fin 1 => ord) 0 (ord + 1) = fun _ => ord + 1 := by
      funext k; fin_cases k; simp
    rw [e] at this
    exact this
  · obtain ⟨d, hd⟩ := h.piv
    refine ⟨d + 1, Step.diagPivots (R := Matrix.of fun i (_ : Fin 1) => r i) (T := {p}) (c := fun i t => -(r i) / r t)
      (s := ![st.s.1, st.s.2]) (P := mat2 st) ?_ hd⟩
    refine ⟨fun ν hν t ht => ?_, fun i hi k => ?_, fun i hi t ht hct => ?_, fun t ht l => ?_, fun i hi l => ?_,
      fun t ht => ?_, fun i hi => ?_⟩
    · have := hν 0
      rw [Finset.sum_singleton] at this
      rw [Finset.mem_singleton.1 ht]
      exact (mul_eq_zero.1 this).resolve_right hp
    · rw [Finset.sum_singleton, Matrix.of_apply, Matrix.of_apply]
      field_simp
      ring
    · rw [Finset.mem_singleton.1 ht] at hct ⊢
      have hi' := hq i (fun e => hi (Finset.mem_singleton.2 e))
      rw [hi'] at hct ⊢
      exact hmin (fun e => hct (by rw [e]; simp))
    · rw [Finset.mem_singleton.1 ht]
      exact htop l
    · rw [Finset.sum_singleton, hq i (fun e => hi (Finset.mem_singleton.2 e))]
      exact hbot l
    · rw [Finset.mem_singleton.1 ht]
      exact hs1
    · rw [hq i (fun e => hi (Finset.mem_singleton.2 e))]
      exact hs2

theorem step2_ok {f0 f1 : F[X]} {s : Int × Int} {ord : Nat} {st : St2 F} (h : Inv2 f0 f1 s ord st) :
    Inv2 f0 f1 s (ord + 1) (step2 ord st) := by
  obtain ⟨c0, hc0⟩ : ∃ c, c = st.r.1.coeff ord := ⟨_, rfl⟩
  obtain ⟨c1, hc1⟩ : ∃ c, c = st.r.2.coeff ord := ⟨_, rfl⟩
  have hr : ∀ i, ![c0, c1] i = ((mat2 st * col2 f0 f1) i 0).coeff ord := by
    intro i
    fin_cases i
    · show c0 = ((mat2 st * col2 f0 f1) 0 0).coeff ord
      rw [(col2_mul f0 f1 st 0).1, ← h.r0, hc0]
    · show c1 = ((mat2 st * col2 f0 f1) 1 0).coeff ord
      rw [(col2_mul f0 f1 st 0).2, ← h.r1, hc1]
  have e0 := h.r0
  have e1 := h.r1
  unfold step2
  dsimp only
  rw [← hc0, ← hc1]
  by_cases h0 : c0 = 0 <;> by_cases h1 : c1 = 0
  · rw [if_neg (by simp [h0]), if_neg (by simp [h1]), if_neg (by simp [h0])]
    refine ⟨?_, h.piv, h.r0, h.r1⟩
    have := approx_skip h.gen 0 (fun i => by
      rw [← hr]
      fin_cases i
      · exact h0
      · exact h1)
    have e : Function.update (fun _ : Fin 1 => ord) 0 (ord + 1) = fun _ => ord + 1 := by
      funext k; fin_cases k; simp
    rw [e] at this
    exact this
  · rw [if_neg (by simp [h0]), if_pos h1]
    obtain ⟨g, p⟩ := step_abs (st' := { st with p1 := (pshift st.p1.1 1, pshift st.p1.2 1), r := (st.r.1, pshift st.r.2 1), s := (st.s.1, st.s.2 + 1) })
      h 1 0 (by decide) ![c0, c1] hr h1
      (fun l => by fin_cases l <;> exact pshift_one _)
      (fun l => by
        have : (-(![c0, c1] 0) / ![c0, c1] 1 : F) = 0 := by simp [h0]
        rw [this, map_zero, zero_mul, add_zero]; fin_cases l <;> rfl) rfl rfl (fun hne => absurd h0 hne)
    refine ⟨g, p, h.r0, ?_⟩
    show pshift st.r.2 1 = pshift st.p1.1 1 * f0 + pshift st.p1.2 1 * f1
    rw [pshift_one, pshift_one, pshift_one, e1]; ring
  · rw [if_neg (by simp [h1]), if_neg (by simp [h1]), if_pos h0]
    obtain ⟨g, p⟩ := step_abs (st' := { st with p0 := (pshift st.p0.1 1, pshift st.p0.2 1), r := (pshift st.r.1 1, st.r.2), s := (st.s.1 + 1, st.s.2) })
      h 0 1 (by decide) ![c0, c1] hr h0
      (fun l => by fin_cases l <;> exact pshift_one _)
      (fun l => by
        have : (-(![c0, c1] 1) / ![c0, c1] 0 : F) = 0 := by simp [h1]
        rw [this, map_zero, zero_mul, add_zero]; fin_cases l <;> rfl) rfl rfl (fun hne => absurd h1 hne)
    refine ⟨g, p, ?_, h.r1⟩
    show pshift st.r.1 1 = pshift st.p0.1 1 * f0 + pshift st.p0.2 1 * f1
    rw [pshift_one, pshift_one, pshift_one, e0]; ring
  · rw [if_pos ⟨h0, h1⟩]
    by_cases hle : st.s.1 ≤ st.s.2
    · rw [if_pos hle]
      obtain ⟨g, p⟩ := step_abs (st' := { p1 := (st.p1.1 + C (-c1 / c0) * st.p0.1, st.p1.2 + C (-c1 / c0) * st.p0.2), p0 := (pshift st.p0.1 1, pshift st.p0.2 1), r := (pshift st.r.1 1, st.r.2 + C (-c1 / c0) * st.r.1), s := (st.s.1 + 1, st.s.2) })
        h 0 1 (by decide) ![c0, c1] hr h0
        (fun l => by fin_cases l <;> exact pshift_one _)
        (fun l => by fin_cases l <;> rfl) rfl rfl (fun _ => by
          show st.s.1 < st.s.2 ∨ (st.s.1 = st.s.2 ∧ (0 : Fin 2) < 1)
          rcases lt_or_eq_of_le hle with h | h
          · exact Or.inl h
          · exact Or.inr ⟨h, by decide⟩)
      refine ⟨g, p, ?_, ?_⟩
      · show pshift st.r.1 1 = pshift st.p0.1 1 * f0 + pshift st.p0.2 1 * f1
        rw [pshift_one, pshift_one, pshift_one, e0]; ring
      · show st.r.2 + C (-c1 / c0) * st.r.1 = (st.p1.1 + C (-c1 / c0) * st.p0.1) * f0 + (st.p1.2 + C (-c1 / c0) * st.p0.2) * f1
        rw [e0, e1]; ring
    · rw [if_neg hle]
      obtain ⟨g, p⟩ := step_abs (st' := { p0 := (st.p0.1 + C (-c0 / c1) * st.p1.1, st.p0.2 + C (-c0 / c1) * st.p1.2), p1 := (pshift st.p1.1 1, pshift st.p1.2 1), r := (st.r.1 + C (-c0 / c1) * st.r.2, pshift st.r.2 1), s := (st.s.1, st.s.2 + 1) })
        h 1 0 (by decide) ![c0, c1] hr h1
        (fun l => by fin_cases l <;> exact pshift_one _)
        (fun l => by fin_cases l <;> rfl) rfl rfl (fun _ => by
          show st.s.2 < st.s.1 ∨ (st.s.2 = st.s.1 ∧ (1 : Fin 2) < 0)
          exact Or.inl (by omega))
      refine ⟨g, p, ?_, ?_⟩
      · show st.r.1 + C (-c0 / c1) * st.r.2 = (st.p0.1 + C (-c0 / c1) * st.p1.1) * f0 + (st.p0.2 + C (-c0 / c1) * st.p1.2) * f1
        rw [e0, e1]; ring
      · show pshift st.r.2 1 = pshift st.p1.1 1 * f0 + pshift st.p1.2 1 * f1
        rw [pshift_one, pshift_one, pshift_one, e1]; ring

theorem iterative2x1_ok (f0 f1 : F[X]) (order : Int) (s0 s1 : Int) :
    Inv2 f0 f1 (s0, s1) order.toNat (iterative2x1 f0 f1 order s0 s1) := by
  unfold iterative2x1
  refine forN_inv (P := fun (n : Nat) (st : St2 F) => Inv2 f0 f1 (s0, s1) n st) ?_ (fun i st _ h => step2_ok h)
  have hone : mat2 (⟨(1, 0), (0, 1), (f0, f1), (s0, s1)⟩ : St2 F) = 1 := by
    refine Matrix.ext fun i j => ?_
    fin_cases i <;> fin_cases j <;> rfl
  refine ⟨?_, ⟨0, ?_⟩, by simp, by simp⟩
  · rw [hone]; exact genBy_zero _ _ fun _ => rfl
  · rw [hone]; exact DiagPivots.one _

end PML.Ntl.Appbas
