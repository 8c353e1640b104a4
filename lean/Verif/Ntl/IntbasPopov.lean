import Verif.Ntl.IntbasLoops
import Verif.Ntl.AppbasProps
import Verif.Ntl.CrtProps
import Verif.Ntl.GeomProps

/-!
# Popov bases, evaluation objects, verification
-/

namespace PML.Ntl.Intbas

open Polynomial PML.Ntl.Utils PML.Ntl.Inv PML.Ntl.Solve PML.Ntl.Mbasis PML.Ntl.Forms PML.Ntl.Appbas PML.Approx PML.Approx.Spec PML.Forms.Spec

set_option linter.unusedSectionVars false

variable {F : Type} [Field F] [DecidableEq F]

/-! ### Evaluation objects -/

theorem general_one {it : F[X] → Nat → F[X]} (hit : Crt.InvTruncOK it) (fuelc : Nat) (x : Nat → F) (o n : Nat) (hn : 0 < n) (hf : n ≤ fuelc)
    (hx : DistinctPts x o n) : ∃ ev, general it fuelc x o n = some (ev, n) ∧ ∀ f : F[X],
      ∃ v, ev f = some v ∧ ∀ i, i < n → v i = f.eval (x (o + i)) := by
  obtain ⟨M, h1, h2, -⟩ := Crt.C58_multipoint hit (fun i => x (o + i)) n hn fuelc hf hx
  unfold general
  rw [h1]
  exact ⟨_, rfl, fun f => ⟨_, rfl, fun i hi => h2 f i hi⟩⟩

theorem general_ok {it : F[X] → Nat → F[X]} (hit : Crt.InvTruncOK it) (fuelc : Nat) (x : Nat → F) (off order : Nat) (hf : order ≤ fuelc)
    (hx : DistinctPts x off order) : MakerOk (general it fuelc x) x off order := by
  intro o n h1 h2 h3 h4
  obtain ⟨ev, e1, e2⟩ := general_one hit fuelc x o n h3 (by omega) (fun k l hk hl e => by
    have := hx (o - off + k) (o - off + l) (by omega) (by omega) (by
      rw [show off + (o - off + k) = o + k by omega, show off + (o - off + l) = o + l by omega]; exact e)
    omega)
  exact ⟨ev, n, e1, fun f _ => e2 f⟩

/-- The points `x off, ...` form a geometric progression of ratio `r ^ 2`. -/
structure IsGeometric (r : F) (x : Nat → F) (off order : Nat) : Prop where
  r_ne : r ≠ 0
  x_ne : x off ≠ 0
  pts : ∀ k, k < order → x (off + k) = x off * r ^ (2 * k)
  ord : ∀ i, 1 ≤ i → i < order → r ^ (2 * i) ≠ 1

theorem IsGeometric.distinct {r : F} {x : Nat → F} {off order : Nat} (h : IsGeometric r x off order) : DistinctPts x off order := by
  have key : ∀ k l, k < l → l < order → x (off + k) ≠ x (off + l) := by
    intro k l hkl hl e
    rw [h.pts k (by omega), h.pts l hl, mul_right_inj' h.x_ne, show 2 * l = 2 * k + 2 * (l - k) by omega, pow_add] at e
    have hk : r ^ (2 * k) ≠ 0 := pow_ne_zero _ h.r_ne
    exact h.ord (l - k) (by omega) (by omega) (mul_left_cancel₀ hk (by rw [mul_one]; exact e.symm))
  intro k l hk hl e
  rcases Nat.lt_trichotomy k l with h1 | h1 | h1
  · exact absurd e (key k l h1 hl)
  · exact h1
  · exact absurd e.symm (key l k h1 hk)

theorem geometric_ok {mp : F[X] → F[X] → Nat → Nat → Option F[X]} (feasible flags : Nat → Bool) {r : F} {x : Nat → F} {off order : Nat}
    (hmp : ∀ n, n ≤ order → Geom.MidOK mp n) (h : IsGeometric r x off order) : MakerOk (geometric mp feasible flags r x) x off order := by
  intro o n h1 h2 h3 h4
  have hxo : x o = x off * r ^ (2 * (o - off)) := by
    rw [← h.pts (o - off) (by omega), show off + (o - off) = o by omega]
  obtain ⟨o₀, o', e1, e2, hs⟩ := Geom.C62_geometric (n + 1) (hmp _ (by omega)) (feasible (n + 1)) (flags (n + 1)) r (x o) (by omega) h.r_ne
    (by rw [hxo]; exact mul_ne_zero h.x_ne (pow_ne_zero _ h.r_ne)) (fun i hi1 hi2 => h.ord i hi1 (by omega)) [] (by simp)
  obtain rfl : o₀ = o' := by simpa [Geom.calls] using e2
  unfold geometric
  rw [e1]
  refine ⟨_, _, rfl, fun f hf => ?_⟩
  obtain ⟨v, v1, v2⟩ := hs.eval f (by omega)
  refine ⟨v, v1, fun i hi => ?_⟩
  rw [v2 i (by omega)]
  congr 1
  rw [show o + i = off + (o - off + i) by omega, h.pts _ (by omega), hxo, mul_assoc, ← pow_add]
  congr 2
  omega

theorem evalAll_spec {it : F[X] → Nat → F[X]} (hit : Crt.InvTruncOK it) (fuelc np : Nat) (x : Nat → F) (hn : 0 < np) (hf : np ≤ fuelc)
    (hx : DistinctPts x 0 np) (P : PMat F[X]) :
    ∃ V, evalAll it fuelc np x P = .ok V ∧ V.len = np ∧ V.rows = P.rows ∧ V.cols = P.cols ∧
      ∀ k i j, k < np → i < P.rows → j < P.cols → V.e (k, i) j = (P.e (i, j)).eval (x k) := by
  obtain ⟨ev, e1, e2⟩ := general_one hit fuelc x 0 np hn hf hx
  unfold evalAll
  rw [if_neg (by omega), e1]
  refine evaluateMatrix_spec (ev := ev) (c := np) (n := np) (y := x) (P := P) fun i j _ _ => ?_
  obtain ⟨v, v1, v2⟩ := e2 (P.e (i, j))
  exact ⟨v, v1, fun k hk => by rw [v2 k hk, Nat.zero_add]⟩

/-! ### Changing the matrices -/

theorem IsInterpolant.congr {m n : Nat} {M M' : Nat → Matrix (Fin m) (Fin n) F} {x x' : Nat → F} {d : Nat} (h : ∀ k, k < d → M k = M' k)
    (hx : ∀ k, k < d → x k = x' k) (v : Fin m → F[X]) : IsInterpolant M x d v ↔ IsInterpolant M' x' d v := by
  refine forall_congr' fun k => forall_congr' fun hk => forall_congr' fun j => ?_
  rw [h k hk, hx k hk]

theorem IsMinInt.congr {m n : Nat} {M M' : Nat → Matrix (Fin m) (Fin n) F} {x x' : Nat → F} {d : Nat} {s t : Nat → Int} {P : PMat F[X]}
    (hP : IsMinInt M x d s P t) (h : ∀ k, k < d → M k = M' k) (hx : ∀ k, k < d → x k = x' k) : IsMinInt M' x' d s P t :=
  { hP with basis := ⟨hP.basis.nonsingular, fun v => by rw [← IsInterpolant.congr h hx]; exact hP.basis.generates v⟩ }

theorem RetOk.minInt {E E' : Evals F} {x : Nat → F} {s sh : Nat → Int} {off order : Nat} {P : PMat F[X]}
    (h : RetOk E x s off order P sh E') : IsMinInt (E.mats off) (fun k => x (off + k)) order s P sh := h.good.minInt h.rows h.cols

theorem RetOk.minInt0 {E E' : Evals F} {x : Nat → F} {s sh : Nat → Int} {order : Nat} {P : PMat F[X]}
    (h : RetOk E x s 0 order P sh E') : IsMinInt (E.mats 0) x order s P sh :=
  h.minInt.congr (fun _ _ => rfl) fun k _ => by rw [Nat.zero_add]

theorem minInt_values {E : Evals F} {pmat : PMat F[X]} (hr : E.rows = pmat.rows) (hc : E.cols = pmat.cols) {x : Nat → F} {d : Nat}
    (he : ∀ k i j, k < d → i < pmat.rows → j < pmat.cols → E.e (k, i) j = (pmat.e (i, j)).eval (x k)) {s t : Nat → Int} {P : PMat F[X]}
    (h : IsMinInt (E.mats 0) x d s P t) : IsMinInt (values pmat x) x d s P t := by
  obtain ⟨len, rows, cols, e⟩ := E
  dsimp only at hr hc he
  subst hr; subst hc
  refine h.congr (fun k hk => ?_) fun _ _ => rfl
  funext i j
  show e (0 + k, i) j = _
  rw [Nat.zero_add, he k i j hk i.2 j.2]
  rfl

/-! ### Popov form -/

theorem popovWith_good {pm : PMat F[X] → Evals F → (Nat → Int) → Out (PMat F[X] × (Nat → Int) × Evals F)} {E : Evals F} {x : Nat → F}
    {np : Nat} (hm : 0 < E.rows) (hpm : ∀ i0 s, ∃ P t E', pm i0 E s = .ok (P, t, E') ∧ RetOk E x s 0 np P t E')
    (int0 : PMat F[X]) (s : Nat → Int) :
    ∃ P t E', popovWith pm E.rows int0 E s = .ok (P, t, E') ∧ IsMinInt (E.mats 0) x np s P t ∧
      PopovLower E.rows E.rows s fun i j => P.e (i, j) := by
  obtain ⟨P, t, E1, a1, a2⟩ := hpm int0 s
  set ps : Nat → Int := fun i => s i - t i with hps
  obtain ⟨⟨rr, rc, re⟩, t', E2, c1, c2⟩ := hpm P ps
  have hrr : rr = E.rows := c2.rows
  have hrc : rc = E.rows := c2.cols
  subst hrr; subst hrc
  have g1 := a2.good
  have g2 := c2.good
  have hz : (fun i : Fin E.rows => t' i) = fun _ => 0 := by
    funext i
    exact second_zero g1.gen g2.gen g1.piv g2.piv i
  have hp2 := g2.piv
  rw [hz] at hp2
  have hst : ∀ i, i < E.rows → s i ≤ t i := fun i hi => (g1.piv.row ⟨i, hi⟩).ge
  set pl := (List.range E.rows).map ps with hpl
  have hlen : pl.length = E.rows := by simp [hpl]
  have hent : ∀ i, i < E.rows → entryOf pl i = s i - t i := by
    intro i hi
    show pl.getD i 0 = _
    rw [List.getD_eq_getElem?_getD, hpl, List.getElem?_map, List.getElem?_range hi]
    rfl
  have epl : (fun i : Fin E.rows => entryOf pl i) = fun i : Fin E.rows => s i - t i := funext fun i => hent i i.2
  obtain ⟨le, l1, l2⟩ := leadingMatrix_spec hm re pl hlen s t hent hst (by rw [epl]; exact hp2)
  obtain ⟨W, w1, w2⟩ := inverse_spec E.rows le (by rw [l2]; exact lead_det (fun i => hst i i.2) hp2)
  obtain ⟨m1, m2⟩ := C66_mul_const_left (⟨E.rows, E.rows, W⟩ : PMat F) (⟨E.rows, E.rows, re⟩ : PMat F[X])
  obtain ⟨Q, hQ⟩ : ∃ Q, mulConstLeft (⟨E.rows, E.rows, W⟩ : PMat F) (⟨E.rows, E.rows, re⟩ : PMat F[X]) = some Q := by
    rcases hz : mulConstLeft (⟨E.rows, E.rows, W⟩ : PMat F) (⟨E.rows, E.rows, re⟩ : PMat F[X]) with _ | Q
    · exact absurd rfl (m1.1 hz)
    · exact ⟨Q, rfl⟩
  obtain ⟨q1, q2, q3⟩ := m2 Q hQ
  have hQm : mat E.rows E.rows Q = ((Matrix.of fun i j : Fin E.rows => W (i, j)).map C) *
      mat E.rows E.rows (⟨E.rows, E.rows, re⟩ : PMat F[X]) := by
    refine Matrix.ext fun i j => ?_
    rw [Matrix.mul_apply]
    show Q.e (i, j) = _
    rw [q3 i j i.2 j.2, Finset.sum_range]
    rfl
  obtain ⟨k1, k2, k3, k4⟩ := popov_of_second g1.gen g2.gen g1.piv hp2 _ (by
    have w3 := w2
    rw [l2] at w3
    exact w3) hQm
  unfold popovWith
  rw [a1]
  show ∃ P_1 t_1 E_1, andThen (pm P E ps) _ = _ ∧ _
  rw [c1]
  show ∃ P_1 t_1 E_1, andThen (leadingMatrix true (⟨E.rows, E.rows, re⟩ : PMat F[X]) (some pl)) _ = _ ∧ _
  rw [l1]
  show ∃ P_1 t_1 E_1, andThen (inverse (⟨E.rows, E.rows, le⟩ : PMat F)) _ = _ ∧ _
  rw [w1]
  show ∃ P_1 t_1 E_1, andThen (ofOpt (mulConstLeft (⟨E.rows, E.rows, W⟩ : PMat F) (⟨E.rows, E.rows, re⟩ : PMat F[X]))) _ = _ ∧ _
  rw [hQ]
  have hg : GoodI E.rows E.cols (from' E.e 0) (fun k => x (0 + k)) s np t fun i j => Q.e (i, j) := by
    refine ⟨k1, k2, fun i l hi hl k hk => ?_⟩
    rw [q3 i l hi hl, finsetSum_coeff]
    refine Finset.sum_eq_zero fun a ha => ?_
    rw [coeff_C_mul]
    have : (re (a, l)).coeff k = 0 := g2.deg a l (Finset.mem_range.1 ha) hl k hk
    rw [this, mul_zero]
  have hmin := hg.minInt q1 q2
  refine ⟨Q, t, E2, rfl, hmin.congr (fun _ _ => rfl) fun k _ => by rw [Nat.zero_add], ?_⟩
  refine ⟨fun i => i, _, hmin.pivot, fun i j hij _ => hij, fun i hi => (k3 ⟨i, hi⟩).1, fun i k hi hk hki => ?_⟩
  exact k4 ⟨i, hi⟩ ⟨k, hk⟩ (fun e => hki (congrArg Fin.val e))

/-! ### Verification -/

/-- A reduced matrix is nonsingular. -/
theorem reduced_det_ne {m : Nat} {s : Nat → Int} {P : PMat F[X]} (h : RowReduced m m s fun i j => P.e (i, j)) : (mat m m P).det ≠ 0 := by
  obtain ⟨d, hd, hind⟩ := h
  obtain ⟨h1, h2⟩ := det_zcoeff (mat m m P) (fun j : Fin m => s j) (fun i : Fin m => d i)
    (fun i j => degLE_of_shifted (hd i i.2) j j.2)
  have hL : (Matrix.of fun i j : Fin m => zcoeff (mat m m P i j) (d i - s j)).det ≠ 0 := by
    intro hz
    obtain ⟨u, hu0, hu⟩ := Matrix.exists_vecMul_eq_zero_iff.2 hz
    apply hu0
    funext i
    have := hind (fun i => if hi : i < m then u ⟨i, hi⟩ else 0) (fun j hj => by
      have := congrFun hu ⟨j, hj⟩
      refine Eq.trans ?_ this
      rw [Finset.sum_range]
      show _ = ∑ i : Fin m, u i * zcoeff (P.e (i, j)) (d i - s j)
      refine Finset.sum_congr rfl fun i _ => ?_
      rw [dif_pos i.2]
      congr 1
      unfold leadRow zcoeff
      by_cases hs : s j ≤ d i
      · rw [if_pos hs, if_neg (by omega)]
      · rw [if_neg hs, if_pos (by omega)]) i i.2
    rw [dif_pos i.2] at this
    exact this
  rw [← h2] at hL
  intro hz
  rw [hz] at hL
  unfold zcoeff at hL
  split_ifs at hL
  · exact hL rfl
  · exact hL (coeff_zero _)

/-- The tests after the one of the form, for a square matrix. -/
theorem checkEvals_spec {P : PMat F[X]} {v E : Evals F} {x : Nat → F} {cnt : Nat} {shift : List Int} (hr : P.rows = E.rows) (hc : P.cols = E.rows)
    (hm : 0 < E.rows) (hs : shift.length = E.rows) (hlen : cnt ≤ E.len) (hvr : v.rows = E.rows) (hvc : v.cols = E.rows)
    (hv : ∀ k i j, k < cnt → i < E.rows → j < E.rows → v.e (k, i) j = (P.e (i, j)).eval (x k))
    (hx : DistinctPts x 0 cnt) (hred : RowReduced E.rows E.rows (entryOf shift) fun i j => P.e (i, j)) :
    ∃ b, checkEvals P v E cnt shift = .ok b ∧ (b = true ↔ IsInterpolantBasis (E.mats 0) x cnt (mat E.rows E.rows P)) := by
  obtain ⟨degs, z, d1, d2, _, _, d5⟩ := C78_degree true P (some shift) (fun l hl => by cases hl; exact ⟨by rw [hs]; exact hc.symm, by
    show 0 < P.cols; omega⟩)
  have hdeg : ∀ i, i < E.rows → ShiftedDegree E.rows (entryOf shift) (fun j => P.e (i, j)) (degs.getD i 0) := by
    intro i hi
    have := (d5 i (by show i < P.rows; rw [hr]; exact hi)).2
    rw [show len true P = E.rows from hc] at this
    obtain ⟨d, e1, _⟩ := hred
    exact this fun hz => by
      obtain ⟨j, hj, hne, _⟩ := (e1 i hi).attained
      exact hne (hz j hj)
  have hdl : degs.length = E.rows := by rw [d2]; exact hr
  obtain ⟨n1, n2⟩ := reduced_det hred _ hdeg
  have hx' : ∀ k l, k < cnt → l < cnt → x k = x l → k = l := fun k l hk hl e => hx k l hk hl (by rw [Nat.zero_add, Nat.zero_add]; exact e)
  have hsum : (((List.range cnt).map fun k => gauss (⟨E.rows, E.cols, fun ij => E.e (k, ij.1) ij.2⟩ : PMat F)).sum) =
      ∑ k ∈ Finset.range cnt, (E.mats 0 k).rank := by
    rw [← List.sum_toFinset _ List.nodup_range, List.toFinset_range]
    refine Finset.sum_congr rfl fun k _ => ?_
    unfold gauss
    congr 1
    refine Matrix.ext fun i j => ?_
    show E.e (k, i) j = E.e (0 + k, i) j
    rw [Nat.zero_add]
  have hz : (((List.range cnt).all fun k => (List.range v.rows).all fun i => (List.range E.cols).all fun j =>
      decide (∑ l ∈ Finset.range E.rows, v.e (k, i) l * E.e (k, l) j = 0)) = true) ↔ ∀ i, IsInterpolant (E.mats 0) x cnt (mat E.rows E.rows P i) := by
    simp only [List.all_eq_true, List.mem_range, decide_eq_true_eq]
    have he : ∀ k (i : Fin E.rows) (j : Fin E.cols), k < cnt → ∑ l ∈ Finset.range E.rows, v.e (k, i) l * E.e (k, l) j =
        ∑ l, ((mat E.rows E.rows P i) l).eval (x k) * E.mats 0 k l j := by
      intro k i j hk
      rw [Finset.sum_range]
      refine Finset.sum_congr rfl fun l _ => ?_
      rw [hv k i l hk i.2 l.2]
      show _ = (P.e (i, l)).eval (x k) * E.e (0 + k, l) j
      rw [Nat.zero_add]
    constructor
    · intro h i k hk j
      rw [← he k i j hk]
      exact h k hk i (by rw [hvr]; exact i.2) j j.2
    · intro h k hk i hi j hj
      exact (he k ⟨i, by rw [← hvr]; exact hi⟩ ⟨j, hj⟩ hk).trans (h ⟨i, by rw [← hvr]; exact hi⟩ k hk ⟨j, hj⟩)
  have hD : degs.sum - shift.sum = ((mat E.rows E.rows P).det.natDegree : Int) := by
    rw [n2, sum_getD degs _ hdl, sum_getD shift _ hs]
    rfl
  unfold checkEvals
  rw [if_neg (by omega), if_neg (by omega)]
  by_cases h1 : (((List.range cnt).all fun k => (List.range v.rows).all fun i => (List.range E.cols).all fun j =>
      decide (∑ l ∈ Finset.range E.rows, v.e (k, i) l * E.e (k, l) j = 0)) = true)
  · rw [if_neg (not_not.2 h1), d1]
    refine ⟨_, rfl, ?_⟩
    rw [decide_eq_true_eq, hsum, hD, Nat.cast_inj]
    constructor
    · intro h
      exact (interp_basis_of_det hx' (hz.1 h1) (reduced_det_ne hred) h).isInterpolantBasis
    · intro h
      exact interp_det_natDegree hx' (show GenBy _ _ from h.generates)
  · rw [if_pos h1]
    refine ⟨false, rfl, ?_⟩
    constructor
    · intro h; exact absurd h (by simp)
    · intro h
      refine absurd (hz.2 fun i => ?_) h1
      exact (h.generates _).2 ⟨fun l => if l = i then 1 else 0, by
        funext l
        simp [Matrix.vecMul, dotProduct]⟩

end PML.Ntl.Intbas
