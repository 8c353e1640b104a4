import Verif.Ntl.IntbasPopov

/-!
# C80: interpolant bases
-/

namespace PML.Ntl.Intbas

open Polynomial PML.Ntl.Utils PML.Ntl.Inv PML.Ntl.Solve PML.Ntl.Mbasis PML.Ntl.Forms PML.Ntl.Appbas PML.Approx PML.Approx.Spec PML.Forms.Spec

set_option linter.unusedSectionVars false

variable {F : Type} [Field F] [DecidableEq F]

/-- `E'` is `E` up to the matrices of indices `off, ..., off+order-1`. -/
def SameOutside (E E' : Evals F) (off order : Nat) : Prop :=
  E'.len = E.len ∧ E'.rows = E.rows ∧ E'.cols = E.cols ∧ ∀ k i, (k < off ∨ off + order ≤ k) → E'.e (k, i) = E.e (k, i)

theorem RetOk.same {E E' : Evals F} {x : Nat → F} {s sh : Nat → Int} {off order : Nat} {P : PMat F[X]} (h : RetOk E x s off order P sh E') :
    SameOutside E E' off order := ⟨h.len', h.rows', h.cols', h.frame⟩

/-- **C80.** Interpolants for the values of a matrix `pmat`: the vectors `v` such that `v * pmat` vanishes at the points. -/
theorem C80_interpolant_values (pmat : PMat F[X]) (x : Nat → F) (d : Nat) (v : Fin pmat.rows → F[X]) :
    IsInterpolant (values pmat x) x d v ↔
      ∀ k, k < d → ∀ j : Fin pmat.cols, (∑ l : Fin pmat.rows, v l * pmat.e (l, j)).eval (x k) = 0 := by
  refine forall_congr' fun k => forall_congr' fun _ => forall_congr' fun j => ?_
  rw [eval_finsetSum]
  simp only [eval_mul]
  rfl

/-! ## Computing -/

/-- **C80.** `mbasis_rescomp`: a minimal basis, in ordered weak Popov form, and its shifted row degrees.  The points may be repeated. -/
theorem C80_rescomp {N : Nt F} (hN : N.Ok) (int0 : PMat F[X]) (E : Evals F) (np : Nat) (x : Nat → F) (s : Nat → Int) (off order : Nat)
    (hoff : off < E.len) (hlen : off + order ≤ E.len) (hnp : off + order ≤ np) (hm : 0 < E.rows) :
    ∃ P t, rescomp N int0 E np x s off order = .ok (P, t) ∧ IsMinInt (E.mats off) (fun k => x (off + k)) order s P t := by
  obtain ⟨P, t, h1, h2, h3, h4⟩ := rescompI_good hN int0 E np x s off order hoff hlen hnp hm
  exact ⟨P, t, h1, h4.minInt h2 h3⟩

/-- **C80.** `mbasis_resupdate`, for distinct points. -/
theorem C80_resupdate {N : Nt F} (hN : N.Ok) (int0 : PMat F[X]) (E : Evals F) (np : Nat) (x : Nat → F) (s : Nat → Int) (off order : Nat)
    (h0 : 0 < E.len) (hlen : off + order ≤ E.len) (hnp : off + order ≤ np) (hm : 0 < E.rows) (hx : DistinctPts x off order) :
    ∃ P t E', resupdate N int0 E np x s off order = .ok (P, t, E') ∧ IsMinInt (E.mats off) (fun k => x (off + k)) order s P t ∧
      SameOutside E E' off order := by
  obtain ⟨P, t, E', h1, h2⟩ := resupdateI_good hN int0 E np x s off order h0 hlen hnp hm hx
  exact ⟨P, t, E', h1, h2.minInt, h2.same⟩

/-- **C80.** `mbasis`, for distinct points. -/
theorem C80_mbasis {N : Nt F} (hN : N.Ok) (int0 : PMat F[X]) (E : Evals F) (np : Nat) (x : Nat → F) (s : Nat → Int) (off order : Nat)
    (h0 : 0 < E.len) (hlen : off + order ≤ E.len) (hnp : off + order ≤ np) (hm : 0 < E.rows) (hx : DistinctPts x off order) :
    ∃ P t E', mbasis N int0 E np x s off order = .ok (P, t, E') ∧ IsMinInt (E.mats off) (fun k => x (off + k)) order s P t ∧
      SameOutside E E' off order := by
  obtain ⟨P, t, E', h1, h2⟩ := mbasisI_good hN int0 E np x s off order h0 hlen hnp hm hx
  exact ⟨P, t, E', h1, h2.minInt, h2.same⟩

/-- **C80.** `pmbasis` on evaluations at distinct points, for every size of the base case. -/
theorem C80_pmbasis {N : Nt F} (hN : N.Ok) {mul : PMat F[X] → PMat F[X] → Option (PMat F[X])} (hmul : MulOk mul)
    {it : F[X] → Nat → F[X]} (hit : Crt.InvTruncOK it) {thr : Nat} (hthr : 0 < thr) (fuelc fuel : Nat) (int0 : PMat F[X]) (E : Evals F)
    (np : Nat) (x : Nat → F) (s : Nat → Int) (off order : Nat) (hf : order ≤ fuel) (hfc : order ≤ fuelc)
    (h0 : 0 < E.len) (hlen : off + order ≤ E.len) (hnp : off + order ≤ np) (hm : 0 < E.rows) (hx : DistinctPts x off order) :
    ∃ P t E', pmbasis N mul (general it fuelc x) thr fuel int0 E np x s off order = .ok (P, t, E') ∧
      IsMinInt (E.mats off) (fun k => x (off + k)) order s P t ∧ SameOutside E E' off order := by
  obtain ⟨P, t, E', h1, h2⟩ := pmbasisI_good hN hmul hthr np x fuel int0 E s off order hf hm h0 hlen hnp hx (general_ok hit fuelc x off order hfc hx)
  exact ⟨P, t, E', h1, h2.minInt, h2.same⟩

/-- **C80.** `pmbasis_geometric` on evaluations at the points of a geometric progression of ratio `r ^ 2`. -/
theorem C80_pmbasis_geometric {N : Nt F} (hN : N.Ok) {mul : PMat F[X] → PMat F[X] → Option (PMat F[X])} (hmul : MulOk mul)
    {mp : F[X] → F[X] → Nat → Nat → Option F[X]} (feasible flags : Nat → Bool) {thr : Nat} (hthr : 0 < thr) (fuel : Nat)
    (int0 : PMat F[X]) (E : Evals F) (np : Nat) (x : Nat → F) (r : F) (s : Nat → Int) (off order : Nat)
    (hmp : ∀ n, n ≤ order → Geom.MidOK mp n) (hf : order ≤ fuel) (h0 : 0 < E.len) (hlen : off + order ≤ E.len) (hnp : off + order ≤ np)
    (hm : 0 < E.rows) (hx : IsGeometric r x off order) :
    ∃ P t E', pmbasis N mul (geometric mp feasible flags r x) thr fuel int0 E np x s off order = .ok (P, t, E') ∧
      IsMinInt (E.mats off) (fun k => x (off + k)) order s P t ∧ SameOutside E E' off order := by
  obtain ⟨P, t, E', h1, h2⟩ := pmbasisI_good hN hmul hthr np x fuel int0 E s off order hf hm h0 hlen hnp hx.distinct
    (geometric_ok feasible flags hmp hx)
  exact ⟨P, t, E', h1, h2.minInt, h2.same⟩

/-- **C80.** `pmbasis` on a polynomial matrix and distinct points. -/
theorem C80_pmbasis_poly {N : Nt F} (hN : N.Ok) {mul : PMat F[X] → PMat F[X] → Option (PMat F[X])} (hmul : MulOk mul)
    {it : F[X] → Nat → F[X]} (hit : Crt.InvTruncOK it) {thr : Nat} (hthr : 0 < thr) (fuelc fuel : Nat) (int0 pmat : PMat F[X])
    (np : Nat) (x : Nat → F) (s : Nat → Int) (hf : np ≤ fuel) (hfc : np ≤ fuelc) (hnp : 0 < np) (hm : 0 < pmat.rows)
    (hx : DistinctPts x 0 np) :
    ∃ P t, pmbasisPoly N mul it fuelc thr fuel int0 pmat np x s = .ok (P, t) ∧ IsMinInt (values pmat x) x np s P t := by
  obtain ⟨E, e1, e2, e3, e4, e5⟩ := evalAll_spec hit fuelc np x hnp hfc hx pmat
  obtain ⟨P, t, E', h1, h2⟩ := pmbasisI_good hN hmul hthr np x fuel int0 E s 0 np hf (by omega) (by omega) (by omega) (by omega) hx
    (general_ok hit fuelc x 0 np hfc hx)
  refine ⟨P, t, ?_, minInt_values e3 e4 e5 h2.minInt0⟩
  unfold pmbasisPoly
  rw [e1]
  show andThen (pmbasis _ _ _ _ _ _ E _ _ _ _ _) _ = _
  rw [h1]
  rfl

/-- **C80.** `pmbasis_geometric` on a polynomial matrix of degree less than `order`: a minimal basis for the points that
    are returned, which are `1, r^2, r^4, ...` if `order` is at least two. -/
theorem C80_pmbasis_geometric_poly {N : Nt F} (hN : N.Ok) {mul : PMat F[X] → PMat F[X] → Option (PMat F[X])} (hmul : MulOk mul)
    {mp : F[X] → F[X] → Nat → Nat → Option F[X]} (feasible flags : Nat → Bool) {thr : Nat} (hthr : 0 < thr) (fuel : Nat)
    (int0 pmat : PMat F[X]) (r : F) (order : Nat) (s : Nat → Int) (hmp : ∀ n, n ≤ order → Geom.MidOK mp n) (hf : order ≤ fuel)
    (ho : 0 < order) (hm : 0 < pmat.rows) (hr : r ≠ 0) (hord : ∀ i, 1 ≤ i → i < order → r ^ (2 * i) ≠ 1)
    (hdeg : ∀ i j, i < pmat.rows → j < pmat.cols → (pmat.e (i, j)).natDegree < order) :
    ∃ P t x, pmbasisGeometric N mul mp feasible flags thr fuel int0 pmat r order s = .ok (P, t, x) ∧
      IsMinInt (values pmat x) x order s P t ∧ (2 ≤ order → ∀ k, k < order → x k = r ^ (2 * k)) := by
  obtain ⟨o, o', e1, e2, hs⟩ := Geom.C62_geometric order (hmp _ le_rfl) (feasible order) (flags order) r 1 ho hr one_ne_zero hord [] (by simp)
  obtain rfl : o = o' := by simpa [Geom.calls] using e2
  set x : Nat → F := fun i => (Geom.getPoint mp o i).getD 0 with hxd
  have hpt : 2 ≤ order → ∀ k, k < order → x k = r ^ (2 * k) := by
    intro h2 k hk
    obtain ⟨o', g1, _, _, g4⟩ := Geom.C62_getters order (hmp _ le_rfl) (feasible order) (flags order) r 1 h2 hr one_ne_zero hord
    obtain rfl : o = o' := Option.some.inj (e1.symm.trans g1)
    rw [hxd]
    dsimp only
    rw [g4 k hk, one_mul]
    rfl
  have hpt1 : order = 1 → x 0 = r := by
    intro h1
    subst h1
    obtain ⟨o', g1, _, _, g4⟩ := Geom.C62_getters_one_point mp (feasible 1) (flags 1) r 1 hr one_ne_zero
    obtain rfl : o = o' := Option.some.inj (e1.symm.trans g1)
    rw [hxd]
    dsimp only
    rw [g4, one_mul]
    rfl
  have hgeo : IsGeometric r x 0 order := by
    rcases Nat.lt_or_ge 1 order with h | h
    · have h0 : x 0 = 1 := by rw [hpt h 0 (by omega)]; simp
      exact ⟨hr, by rw [h0]; exact one_ne_zero, fun k hk => by rw [h0, one_mul, Nat.zero_add, hpt h k hk], hord⟩
    · have h0 := hpt1 (by omega)
      refine ⟨hr, by rw [h0]; exact hr, fun k hk => ?_, hord⟩
      obtain rfl : k = 0 := by omega
      simp
  obtain ⟨E, v1, v2, v3, v4, v5⟩ := evaluateMatrix_spec (ev := Geom.evaluate mp o) (c := order) (n := order) (y := x) (P := pmat)
    fun i j hi hj => by
      obtain ⟨v, w1, w2⟩ := hs.eval _ (hdeg i j hi hj)
      refine ⟨v, w1, fun k hk => ?_⟩
      rw [w2 k hk]
      rcases Nat.lt_or_ge 1 order with h | h
      · rw [hpt h k hk, one_mul]
      · have h0 : (pmat.e (i, j)).natDegree = 0 := by have := hdeg i j hi hj; omega
        rw [eq_C_of_natDegree_eq_zero h0, eval_C, eval_C]
  obtain ⟨P, t, E', h1, h2⟩ := pmbasisI_good hN hmul hthr order x fuel int0 E s 0 order hf (by omega) (by omega) (by omega) (by omega) hgeo.distinct
    (geometric_ok feasible flags hmp hgeo)
  refine ⟨P, t, x, ?_, minInt_values v3 v4 v5 h2.minInt0, hpt⟩
  unfold pmbasisGeometric
  rw [e1]
  show andThen (evaluateMatrix (Geom.evaluate mp o) order pmat) _ = _
  rw [v1]
  show andThen (pmbasis _ _ (geometric mp feasible flags r x) _ _ _ E _ x _ _ _) _ = _
  rw [h1]
  rfl

/-- **C80.** `popov_mbasis`: the minimal basis is in Popov form. -/
theorem C80_popov_mbasis {N : Nt F} (hN : N.Ok) {mul : PMat F[X] → PMat F[X] → Option (PMat F[X])} (hmul : MulOk mul)
    {it : F[X] → Nat → F[X]} (hit : Crt.InvTruncOK it) {thr : Nat} (hthr : 0 < thr) (fuelc fuel : Nat) (int0 : PMat F[X]) (E : Evals F)
    (np : Nat) (x : Nat → F) (s : Nat → Int) (hf : np ≤ fuel) (hfc : np ≤ fuelc) (h0 : 0 < E.len) (hlen : np ≤ E.len)
    (hm : 0 < E.rows) (hx : DistinctPts x 0 np) :
    ∃ P t E', popovMbasis N mul it fuelc thr fuel int0 E np x s = .ok (P, t, E') ∧ IsMinInt (E.mats 0) x np s P t ∧
      PopovLower E.rows E.rows s fun i j => P.e (i, j) :=
  popovWith_good hm (fun i0 s => pmbasisI_good hN hmul hthr np x fuel i0 E s 0 np hf hm h0 (by omega) (by omega) hx
    (general_ok hit fuelc x 0 np hfc hx)) int0 s

/-- **C80.** `popov_pmbasis`: the minimal basis is in Popov form. -/
theorem C80_popov_pmbasis {N : Nt F} (hN : N.Ok) {mul : PMat F[X] → PMat F[X] → Option (PMat F[X])} (hmul : MulOk mul)
    {it : F[X] → Nat → F[X]} (hit : Crt.InvTruncOK it) {thr : Nat} (hthr : 0 < thr) (fuelc fuel : Nat) (int0 pmat : PMat F[X])
    (np : Nat) (x : Nat → F) (s : Nat → Int) (hf : np ≤ fuel) (hfc : np ≤ fuelc) (hnp : 0 < np) (hm : 0 < pmat.rows)
    (hx : DistinctPts x 0 np) :
    ∃ P t, popovPmbasis N mul it fuelc thr fuel int0 pmat np x s = .ok (P, t) ∧ IsMinInt (values pmat x) x np s P t ∧
      PopovLower pmat.rows pmat.rows s fun i j => P.e (i, j) := by
  obtain ⟨E, e1, e2, e3, e4, e5⟩ := evalAll_spec hit fuelc np x hnp hfc hx pmat
  obtain ⟨P, t, E', h1, h2, h3⟩ := popovWith_good (pm := fun i0 E s => pmbasis N mul (general it fuelc x) thr fuel i0 E np x s 0 np) (E := E) (x := x) (np := np) (by omega) (fun i0 s =>
    pmbasisI_good hN hmul hthr np x fuel i0 E s 0 np hf (by omega) (by omega) (by omega) (by omega) hx (general_ok hit fuelc x 0 np hfc hx)) int0 s
  refine ⟨P, t, ?_, minInt_values e3 e4 e5 h2, by rw [← e3]; exact h3⟩
  unfold popovPmbasis
  rw [e1, ← e3]
  show andThen (popovWith _ _ _ E _) _ = _
  rw [h1]
  rfl

/-! ## Verifying -/

/-- **C80.** `is_interpolant_basis` on a square matrix, distinct points and a form which is at least REDUCED: it never fails
    and accepts exactly the interpolant bases in that form. -/
theorem C80_verify {it : F[X] → Nat → F[X]} (hit : Crt.InvTruncOK it) (fuelc : Nat) (P : PMat F[X]) (E : Evals F) (np : Nat)
    (x : Nat → F) (shift : List Int) (form : Form) (hr : P.rows = E.rows) (hc : P.cols = E.rows) (hm : 0 < E.rows)
    (hs : shift.length = E.rows) (hnp : 0 < np) (hf : np ≤ fuelc) (hlen : np ≤ E.len) (hx : DistinctPts x 0 np)
    (hf1 : form ≠ .none) (hf2 : form ≠ .other) :
    ∃ b, isInterpolantBasis it fuelc P E np x shift form false = .ok b ∧
      (b = true ↔ HasForm P.rows P.cols (entryOf shift) (rowsOf P) form ∧
        IsInterpolantBasis (E.mats 0) x np (mat E.rows E.rows P)) := by
  have hv : ValidShift P.cols (some shift) := fun l hl => by cases hl; exact ⟨by omega, by omega⟩
  obtain ⟨b, b1, b2⟩ := (C78_row_form P (some shift) hv form).2 hf2
  unfold isInterpolantBasis
  rw [if_neg (by simp), b1]
  show ∃ b', (if ¬ (b = true) then Out.ok false else _) = Out.ok b' ∧ _
  by_cases hb : b = true
  · rw [if_neg (not_not.2 hb)]
    have hform := b2.1 hb
    have hred : RowReduced E.rows E.rows (entryOf shift) fun i j => P.e (i, j) := by
      have := hform
      rw [hr, hc] at this
      exact reduced_of_form hf1 this
    obtain ⟨V, v1, v2, v3, v4, v5⟩ := evalAll_spec hit fuelc np x hnp hf hx P
    rw [v1]
    obtain ⟨c, c1, c2⟩ := checkEvals_spec (P := P) (v := V) (E := E) (x := x) (cnt := np) (shift := shift) hr hc hm hs hlen (by omega) (by omega)
      (fun k i j hk hi hj => v5 k i j hk (by omega) (by omega)) hx hred
    exact ⟨c, c1, c2.trans ⟨fun h => ⟨hform, h⟩, fun h => h.2⟩⟩
  · rw [if_pos hb]
    exact ⟨false, rfl, ⟨fun h => absurd h (by simp), fun h => absurd (b2.2 h.1) hb⟩⟩

/-- **C80, partial.** `is_interpolant_basis_geometric`, for the points `1, r^2, r^4, ...`.  What is missing: matrices with an
    entry of degree `order` or more, see `C80_verify_geometric_degree`. -/
theorem C80_verify_geometric_partial {mp : F[X] → F[X] → Nat → Nat → Option F[X]} (feasible flags : Nat → Bool) (P : PMat F[X]) (E : Evals F) (r : F)
    (order : Nat) (shift : List Int) (form : Form) (hmp : Geom.MidOK mp order) (hr : P.rows = E.rows) (hc : P.cols = E.rows) (hm : 0 < E.rows)
    (hs : shift.length = E.rows) (ho : 0 < order) (hlen : order ≤ E.len) (hr0 : r ≠ 0) (hord : ∀ i, 1 ≤ i → i < order → r ^ (2 * i) ≠ 1)
    (hf1 : form ≠ .none) (hf2 : form ≠ .other) (hdeg : ∀ i j, i < P.rows → j < P.cols → (P.e (i, j)).natDegree < order) :
    ∃ b, isInterpolantBasisGeometric mp feasible flags P E r order shift form false = .ok b ∧
      (b = true ↔ HasForm P.rows P.cols (entryOf shift) (rowsOf P) form ∧
        IsInterpolantBasis (E.mats 0) (fun k => r ^ (2 * k)) order (mat E.rows E.rows P)) := by
  have hv : ValidShift P.cols (some shift) := fun l hl => by cases hl; exact ⟨by omega, by omega⟩
  obtain ⟨b, b1, b2⟩ := (C78_row_form P (some shift) hv form).2 hf2
  unfold isInterpolantBasisGeometric
  rw [if_neg (by simp), b1]
  show ∃ b', (if ¬ (b = true) then Out.ok false else _) = Out.ok b' ∧ _
  by_cases hb : b = true
  · rw [if_neg (not_not.2 hb)]
    have hform := b2.1 hb
    have hred : RowReduced E.rows E.rows (entryOf shift) fun i j => P.e (i, j) := by
      have := hform
      rw [hr, hc] at this
      exact reduced_of_form hf1 this
    obtain ⟨o, o', e1, e2, hsp⟩ := Geom.C62_geometric order hmp (feasible order) (flags order) r 1 ho hr0 one_ne_zero hord [] (by simp)
    obtain rfl : o = o' := by simpa [Geom.calls] using e2
    have hgeo : IsGeometric r (fun k => r ^ (2 * k)) 0 order :=
      ⟨hr0, by simp, fun k _ => by simp, hord⟩
    obtain ⟨V, v1, v2, v3, v4, v5⟩ := evaluateMatrix_spec (ev := Geom.evaluate mp o) (c := order) (n := order) (y := fun k => r ^ (2 * k)) (P := P)
      fun i j hi hj => by
        obtain ⟨v, w1, w2⟩ := hsp.eval _ (hdeg i j hi hj)
        exact ⟨v, w1, fun k hk => by rw [w2 k hk, one_mul]⟩
    rw [e1]
    show ∃ b', andThen (evaluateMatrix (Geom.evaluate mp o) order P) _ = _ ∧ _
    rw [v1]
    obtain ⟨c, c1, c2⟩ := checkEvals_spec (P := P) (v := V) (E := E) (x := fun k => r ^ (2 * k)) (cnt := order) (shift := shift) hr hc hm hs hlen
      (by omega) (by omega) (fun k i j hk hi hj => v5 k i j hk (by omega) (by omega)) hgeo.distinct hred
    exact ⟨c, c1, c2.trans ⟨fun h => ⟨hform, h⟩, fun h => h.2⟩⟩
  · rw [if_pos hb]
    exact ⟨false, rfl, ⟨fun h => absurd h (by simp), fun h => absurd (b2.2 h.1) hb⟩⟩

/-- **C80.** `is_interpolant_basis` for a polynomial matrix. -/
theorem C80_verify_poly {it : F[X] → Nat → F[X]} (hit : Crt.InvTruncOK it) (fuelc : Nat) (P pmat : PMat F[X]) (np : Nat)
    (x : Nat → F) (shift : List Int) (form : Form) (hr : P.rows = pmat.rows) (hc : P.cols = pmat.rows) (hm : 0 < pmat.rows)
    (hs : shift.length = pmat.rows) (hnp : 0 < np) (hf : np ≤ fuelc) (hx : DistinctPts x 0 np)
    (hf1 : form ≠ .none) (hf2 : form ≠ .other) :
    ∃ b, isInterpolantBasisPoly it fuelc P pmat np x shift form false = .ok b ∧
      (b = true ↔ HasForm P.rows P.cols (entryOf shift) (rowsOf P) form ∧
        IsInterpolantBasis (values pmat x) x np (mat pmat.rows pmat.rows P)) := by
  obtain ⟨⟨len, rows, cols, e⟩, e1, e2, e3, e4, e5⟩ := evalAll_spec hit fuelc np x hnp hf hx pmat
  dsimp only at e2 e3 e4 e5
  subst e3; subst e4
  unfold isInterpolantBasisPoly
  rw [e1]
  obtain ⟨b, b1, b2⟩ := C80_verify hit fuelc P ⟨len, pmat.rows, pmat.cols, e⟩ np x shift form hr hc hm hs hnp hf (le_of_eq e2.symm) hx hf1 hf2
  refine ⟨b, b1, b2.trans (and_congr_right fun _ => ?_)⟩
  have hi : ∀ v, IsInterpolant (Evals.mats ⟨len, pmat.rows, pmat.cols, e⟩ 0) x np v ↔ IsInterpolant (values pmat x) x np v :=
    IsInterpolant.congr (fun k hk => by
      funext i j
      show e (0 + k, i) j = _
      rw [Nat.zero_add, e5 k i j hk i.2 j.2]
      rfl) fun _ _ => rfl
  exact ⟨fun h => ⟨h.nonsingular, fun v => (hi v).symm.trans (h.generates v)⟩, fun h => ⟨h.nonsingular, fun v => (hi v).trans (h.generates v)⟩⟩

/-- **C80, partial.** `is_interpolant_basis_geometric` for a polynomial matrix, with the points `1, r^2, r^4, ...`.  What is missing:
    matrices with an entry of degree `order` or more. -/
theorem C80_verify_geometric_poly_partial {mp : F[X] → F[X] → Nat → Nat → Option F[X]} (feasible flags : Nat → Bool) (P pmat : PMat F[X]) (r : F)
    (order : Nat) (shift : List Int) (form : Form) (hmp : Geom.MidOK mp order) (hr : P.rows = pmat.rows) (hc : P.cols = pmat.rows)
    (hm : 0 < pmat.rows) (hs : shift.length = pmat.rows) (ho : 0 < order) (hr0 : r ≠ 0) (hord : ∀ i, 1 ≤ i → i < order → r ^ (2 * i) ≠ 1)
    (hf1 : form ≠ .none) (hf2 : form ≠ .other) (hdeg : ∀ i j, i < P.rows → j < P.cols → (P.e (i, j)).natDegree < order)
    (hdeg' : ∀ i j, i < pmat.rows → j < pmat.cols → (pmat.e (i, j)).natDegree < order) :
    ∃ b, isInterpolantBasisGeometricPoly mp feasible flags P pmat r order shift form false = .ok b ∧
      (b = true ↔ HasForm P.rows P.cols (entryOf shift) (rowsOf P) form ∧
        IsInterpolantBasis (values pmat fun k => r ^ (2 * k)) (fun k => r ^ (2 * k)) order (mat pmat.rows pmat.rows P)) := by
  obtain ⟨o, o', e1, e2, hsp⟩ := Geom.C62_geometric order hmp (feasible order) (flags order) r 1 ho hr0 one_ne_zero hord [] (by simp)
  obtain rfl : o = o' := by simpa [Geom.calls] using e2
  obtain ⟨⟨len, rows, cols, e⟩, v1, v2, v3, v4, v5⟩ := evaluateMatrix_spec (ev := Geom.evaluate mp o) (c := order) (n := order) (y := fun k => r ^ (2 * k)) (P := pmat)
    fun i j hi hj => by
      obtain ⟨v, w1, w2⟩ := hsp.eval _ (hdeg' i j hi hj)
      exact ⟨v, w1, fun k hk => by rw [w2 k hk, one_mul]⟩
  dsimp only at v2 v3 v4 v5
  subst v3; subst v4
  unfold isInterpolantBasisGeometricPoly
  rw [e1]
  show ∃ b, andThen (evaluateMatrix (Geom.evaluate mp o) order pmat) _ = _ ∧ _
  rw [v1]
  obtain ⟨b, b1, b2⟩ := C80_verify_geometric_partial feasible flags P ⟨len, pmat.rows, pmat.cols, e⟩ r order shift form hmp hr hc hm hs ho
    (le_of_eq v2.symm) hr0 hord hf1 hf2 hdeg
  refine ⟨b, b1, b2.trans (and_congr_right fun _ => ?_)⟩
  have hi : ∀ v, IsInterpolant (Evals.mats ⟨len, pmat.rows, pmat.cols, e⟩ 0) (fun k => r ^ (2 * k)) order v ↔
      IsInterpolant (values pmat fun k => r ^ (2 * k)) (fun k => r ^ (2 * k)) order v :=
    IsInterpolant.congr (fun k hk => by
      funext i j
      show e (0 + k, i) j = _
      rw [Nat.zero_add, v5 k i j hk i.2 j.2]
      rfl) fun _ _ => rfl
  exact ⟨fun h => ⟨h.nonsingular, fun v => (hi v).symm.trans (h.generates v)⟩, fun h => ⟨h.nonsingular, fun v => (hi v).trans (h.generates v)⟩⟩

/-- **C80.** Computing then verifying: the bases computed by `pmbasis` and `popov_pmbasis` are accepted. -/
theorem C80_compute_verify {N : Nt F} (hN : N.Ok) {mul : PMat F[X] → PMat F[X] → Option (PMat F[X])} (hmul : MulOk mul)
    {it : F[X] → Nat → F[X]} (hit : Crt.InvTruncOK it) {thr : Nat} (hthr : 0 < thr) (fuelc fuel : Nat) (int0 pmat : PMat F[X])
    (np : Nat) (x : Nat → F) (shift : List Int) (hf : np ≤ fuel) (hfc : np ≤ fuelc) (hnp : 0 < np) (hm : 0 < pmat.rows)
    (hs : shift.length = pmat.rows) (hx : DistinctPts x 0 np) :
    (∃ P t, pmbasisPoly N mul it fuelc thr fuel int0 pmat np x (entryOf shift) = .ok (P, t) ∧
      isInterpolantBasisPoly it fuelc P pmat np x shift .ordWeakPopov false = .ok true) ∧
    (∃ P t, popovPmbasis N mul it fuelc thr fuel int0 pmat np x (entryOf shift) = .ok (P, t) ∧
      isInterpolantBasisPoly it fuelc P pmat np x shift .popov false = .ok true) := by
  constructor
  · obtain ⟨P, t, h1, h2⟩ := C80_pmbasis_poly hN hmul hit hthr fuelc fuel int0 pmat np x (entryOf shift) hf hfc hnp hm hx
    obtain ⟨b, b1, b2⟩ := C80_verify_poly hit fuelc P pmat np x shift .ordWeakPopov h2.rows h2.cols hm hs hnp hfc hx (by simp) (by simp)
    obtain rfl : b = true := b2.2 ⟨by rw [h2.rows, h2.cols]; exact h2.popov, h2.basis⟩
    exact ⟨P, t, h1, b1⟩
  · obtain ⟨P, t, h1, h2, h3⟩ := C80_popov_pmbasis hN hmul hit hthr fuelc fuel int0 pmat np x (entryOf shift) hf hfc hnp hm hx
    obtain ⟨b, b1, b2⟩ := C80_verify_poly hit fuelc P pmat np x shift .popov h2.rows h2.cols hm hs hnp hfc hx (by simp) (by simp)
    obtain rfl : b = true := b2.2 ⟨by rw [h2.rows, h2.cols]; exact h3, h2.basis⟩
    exact ⟨P, t, h1, b1⟩

/-! ## What the documentation says and the code does not do -/

/-- The randomized verification always ends in an error. -/
theorem C80_randomized_missing (it : F[X] → Nat → F[X]) (fuelc : Nat) (P : PMat F[X]) (E : Evals F) (np : Nat) (x : Nat → F)
    (shift : List Int) (form : Form) (mp : F[X] → F[X] → Nat → Nat → Option F[X]) (feasible flags : Nat → Bool) (r : F) (order : Nat) :
    isInterpolantBasis it fuelc P E np x shift form true = .error ∧
    isInterpolantBasisGeometric mp feasible flags P E r order shift form true = .error := ⟨rfl, rfl⟩

/-- `is_interpolant_basis_geometric` ends in an error as soon as an entry of the basis has degree `order` or more. -/
theorem C80_verify_geometric_degree {mp : F[X] → F[X] → Nat → Nat → Option F[X]} (feasible flags : Nat → Bool) (P : PMat F[X]) (E : Evals F) (r : F)
    (order : Nat) (shift : List Int) (form : Form) (hmp : Geom.MidOK mp order) (hs : shift.length = P.cols) (ho : 0 < order) (hr0 : r ≠ 0)
    (hord : ∀ i, 1 ≤ i → i < order → r ^ (2 * i) ≠ 1) (hf2 : form ≠ .other) (hform : HasForm P.rows P.cols (entryOf shift) (rowsOf P) form)
    (i j : Nat) (hi : i < P.rows) (hj : j < P.cols) (hdeg : order ≤ (P.e (i, j)).natDegree) :
    isInterpolantBasisGeometric mp feasible flags P E r order shift form false = .error := by
  have hv : ValidShift P.cols (some shift) := fun l hl => by cases hl; exact ⟨by omega, by omega⟩
  obtain ⟨b, b1, b2⟩ := (C78_row_form P (some shift) hv form).2 hf2
  obtain rfl : b = true := b2.2 hform
  obtain ⟨o, o', e1, e2, hsp⟩ := Geom.C62_geometric order hmp (feasible order) (flags order) r 1 ho hr0 one_ne_zero hord [] (by simp)
  unfold isInterpolantBasisGeometric
  rw [if_neg (by simp), b1]
  obtain rfl : o = o' := by simpa [Geom.calls] using e2
  show (if ¬ (true = true) then Out.ok false else _) = Out.error
  rw [if_neg (by simp), e1]
  show andThen (evaluateMatrix (Geom.evaluate mp o) order P) _ = _
  unfold evaluateMatrix
  rw [if_neg]
  · rfl
  · intro h
    simp only [List.all_eq_true, List.mem_range] at h
    have := h i hi j hj
    rw [hsp.eval_reject _ hdeg] at this
    exact absurd this (by simp)

/-- Without points, the functions which build an evaluation object do not end. -/
theorem C80_no_points (N : Nt F) (mul : PMat F[X] → PMat F[X] → Option (PMat F[X])) (it : F[X] → Nat → F[X]) (fuelc thr fuel : Nat)
    (int0 pmat : PMat F[X]) (x : Nat → F) (s : Nat → Int) (shift : List Int) (form : Form) (randomized : Bool) :
    pmbasisPoly N mul it fuelc thr fuel int0 pmat 0 x s = .loops ∧ popovPmbasis N mul it fuelc thr fuel int0 pmat 0 x s = .loops ∧
      isInterpolantBasisPoly it fuelc int0 pmat 0 x shift form randomized = .loops := ⟨rfl, rfl, rfl⟩

/-- Evaluations without rows end in an error. -/
theorem C80_no_rows (N : Nt F) (int0 : PMat F[X]) (E : Evals F) (np : Nat) (x : Nat → F) (s : Nat → Int) (off order : Nat)
    (hoff : off < E.len) (hlen : off + order ≤ E.len) (hnp : off + order ≤ np) (hm : E.rows = 0) :
    mbasis N int0 E np x s off order = .error := by
  unfold mbasis rescomp resupdate
  split_ifs <;> first | rfl | omega

/-- Two by one zero matrix, at one point. -/
def zeroEvals : Evals (ZMod 5) := ⟨1, 2, 1, fun _ _ => 0⟩

/-- The matrix `[1 0]`. -/
noncomputable def oneRow : PMat (ZMod 5)[X] := ⟨1, 2, fun ij => if ij.2 = 0 then 1 else 0⟩

/-- The matrix `[[X, 0], [0, 0]]`. -/
noncomputable def singular : PMat (ZMod 5)[X] := ⟨2, 2, fun ij => if ij.1 = 0 ∧ ij.2 = 0 then X else 0⟩

theorem isMin_zero (z : Int) (h : PML.Forms.Spec.IsMin 2 (shiftOf (some [0, 0])) (z + 1)) : z = -1 := by
  rcases h with ⟨h, _⟩ | ⟨_, j, hj, e⟩
  · exact absurd h (by decide)
  have : shiftOf (some [0, 0]) j = 0 := by
    interval_cases j <;> rfl
  omega

/-- `is_interpolant_basis` accepts a matrix which is not square. -/
theorem C80_verify_not_square {it : (ZMod 5)[X] → Nat → (ZMod 5)[X]} (hit : Crt.InvTruncOK it) :
    isInterpolantBasis it 1 oneRow zeroEvals 1 (fun _ => 0) [0, 0] .reduced false = .ok true := by
  have hv : ValidShift oneRow.cols (some [0, 0]) := fun l hl => by cases hl; exact ⟨rfl, by decide⟩
  obtain ⟨b, b1, b2⟩ := (C78_row_form oneRow (some [0, 0]) hv .reduced).2 (by simp)
  have hsd : ShiftedDegree 2 (shiftOf (some [0, 0])) (fun j => oneRow.e (0, j)) 0 := by
    refine ⟨fun j hj _ => ?_, 0, by decide, by simp [oneRow], by simp [oneRow, shiftOf]⟩
    interval_cases j <;> simp [oneRow, shiftOf]
  have hred : RowReduced oneRow.rows oneRow.cols (shiftOf (some [0, 0])) (Forms.rowsOf oneRow) := by
    refine ⟨fun _ => 0, fun i hi => ?_, fun u hu i hi => ?_⟩
    · obtain rfl : i = 0 := by have : i < 1 := hi; omega
      exact hsd
    · obtain rfl : i = 0 := by have : i < 1 := hi; omega
      have := hu 0 (by decide)
      simpa [oneRow, Forms.rowsOf, leadRow, shiftOf] using this
  obtain rfl : b = true := b2.2 hred
  obtain ⟨V, v1, v2, v3, v4, v5⟩ := evalAll_spec hit 1 1 (fun _ => (0 : ZMod 5)) one_pos le_rfl (fun k l hk hl _ => by omega) oneRow
  obtain ⟨degs, z, d1, d2, _, _, d5⟩ := C78_degree true oneRow (some [0, 0]) hv
  have hd0 := (d5 0 (by decide)).2 (fun hz => by
    have := hz 0 (by decide)
    simp [linesOf, Forms.rowsOf, oneRow] at this)
  have hd : degs = [0] := by
    have hl : degs.length = 1 := d2
    match degs, hl with
    | [a], _ =>
      obtain ⟨j, hj, h1, h2⟩ := hd0.attained
      have hj2 : j < 2 := hj
      interval_cases j
      · simp [linesOf, Forms.rowsOf, oneRow, shiftOf] at h2
        rw [← h2]
      · simp [linesOf, Forms.rowsOf, oneRow] at h1
  unfold isInterpolantBasis
  rw [if_neg (by simp), b1]
  show (if ¬ (true = true) then Out.ok false else _) = _
  rw [if_neg (not_not.2 rfl), v1]
  show checkEvals oneRow V zeroEvals 1 [0, 0] = _
  unfold checkEvals
  rw [if_neg (by decide), if_neg (by rw [v4]; decide), if_neg (by simp [zeroEvals]), d1, hd]
  have : Matrix.rank (Matrix.of fun (i : Fin 2) (j : Fin 1) => (0 : ZMod 5)) = 0 := Matrix.rank_zero
  simp [andThen, gauss, zeroEvals]
  exact_mod_cast this.symm

/-- With the form NONE, `is_interpolant_basis` accepts a singular matrix. -/
theorem C80_verify_none {it : (ZMod 5)[X] → Nat → (ZMod 5)[X]} (hit : Crt.InvTruncOK it) :
    isInterpolantBasis it 1 singular zeroEvals 1 (fun _ => 0) [0, 0] .none false = .ok true ∧ (mat 2 2 singular).det = 0 := by
  refine ⟨?_, by rw [Matrix.det_fin_two]; simp [mat, singular]⟩
  have hv : ValidShift singular.cols (some [0, 0]) := fun l hl => by cases hl; exact ⟨rfl, by decide⟩
  obtain ⟨V, v1, v2, v3, v4, v5⟩ := evalAll_spec hit 1 1 (fun _ => (0 : ZMod 5)) one_pos le_rfl (fun k l hk hl _ => by omega) singular
  obtain ⟨degs, z, d1, d2, _, d4, d5⟩ := C78_degree true singular (some [0, 0]) hv
  have hz := isMin_zero z (d4 _ rfl)
  have hd0 := (d5 0 (by decide)).2 (fun hz => by
    have := hz 0 (by decide)
    simp [linesOf, Forms.rowsOf, singular] at this)
  have hd1 := (d5 1 (by decide)).1 (fun j hj => by simp [linesOf, Forms.rowsOf, singular])
  have hd : degs = [1, -1] := by
    have hl : degs.length = 2 := d2
    match degs, hl with
    | [a, b], _ =>
      obtain ⟨j, hj, h1, h2⟩ := hd0.attained
      have hj2 : j < 2 := hj
      have hb : b = -1 := by simpa [hz] using hd1
      interval_cases j
      · simp [linesOf, Forms.rowsOf, singular, shiftOf] at h2
        rw [← h2, hb]
      · simp [linesOf, Forms.rowsOf, singular] at h1
  unfold isInterpolantBasis
  rw [if_neg (by simp)]
  show (if ¬ (true = true) then Out.ok false else _) = _
  rw [if_neg (not_not.2 rfl), v1]
  show checkEvals singular V zeroEvals 1 [0, 0] = _
  unfold checkEvals
  rw [if_neg (by decide), if_neg (by rw [v4]; decide), if_neg (by simp [zeroEvals]), d1, hd]
  have : Matrix.rank (Matrix.of fun (i : Fin 2) (j : Fin 1) => (0 : ZMod 5)) = 0 := Matrix.rank_zero
  simp [andThen, gauss, zeroEvals]
  exact_mod_cast this.symm

/-- The matrix `[X - 1]`. -/
noncomputable def linear : PMat (ZMod 5)[X] := ⟨1, 1, fun _ => X - C 1⟩

theorem linear_basis : IsInterpolantBasis (n := 1) (fun _ _ _ => 1) (fun _ => 1) 1 (mat 1 1 linear) := by
  refine ⟨by rw [Matrix.det_fin_one]; exact X_sub_C_ne_zero 1, fun v => ?_⟩
  have h1 : IsInterpolant (n := 1) (fun _ _ _ => 1) (fun _ => (1 : ZMod 5)) 1 v ↔ (X - C 1) ∣ v 0 := by
    rw [dvd_iff_isRoot, IsRoot]
    constructor
    · intro h
      simpa using h 0 one_pos 0
    · intro h k _ j
      simpa using h
  rw [h1]
  constructor
  · rintro ⟨q, hq⟩
    refine ⟨fun _ => q, funext fun i => ?_⟩
    obtain rfl : i = (0 : Fin 1) := Subsingleton.elim _ _
    rw [hq]
    simp [Matrix.vecMul, dotProduct, mat, linear, mul_comm]
  · rintro ⟨u, hu⟩
    rw [hu]
    exact ⟨u 0, by simp [Matrix.vecMul, dotProduct, mat, linear, mul_comm]⟩

/-- `is_interpolant_basis_geometric` does not accept the basis `[X - 1]` of the interpolants for `[1]` at the point 1. -/
theorem C80_verify_geometric_fails {mp : (ZMod 5)[X] → (ZMod 5)[X] → Nat → Nat → Option (ZMod 5)[X]} (hmp : Geom.MidOK mp 1)
    (feasible flags : Nat → Bool) :
    IsInterpolantBasis (Evals.mats ⟨1, 1, 1, fun _ _ => 1⟩ 0) (fun _ => 1) 1 (mat 1 1 linear) ∧
    isInterpolantBasisGeometric mp feasible flags linear ⟨1, 1, 1, fun _ _ => 1⟩ 2 1 [0] .reduced false = .error := by
  refine ⟨linear_basis, C80_verify_geometric_degree feasible flags linear _ 2 1 [0] .reduced hmp rfl one_pos (by decide) (fun i h1 h2 => by omega)
    (by simp) ?_ 0 0 one_pos one_pos (by simp only [linear]; rw [natDegree_X_sub_C])⟩
  refine ⟨fun _ => 1, fun i hi => ?_, fun u hu i hi => ?_⟩
  · refine ⟨fun j hj _ => ?_, 0, one_pos, X_sub_C_ne_zero 1, ?_⟩
    · obtain rfl : j = 0 := by have : j < 1 := hj; omega
      simp only [linear, Forms.rowsOf, entryOf]
      rw [natDegree_X_sub_C]
      simp
    · simp only [linear, Forms.rowsOf, entryOf]
      rw [natDegree_X_sub_C]
      simp
  · obtain rfl : i = 0 := by have : i < 1 := hi; omega
    have := hu 0 one_pos
    have h1 : (1 : (ZMod 5)[X]).coeff 1 = 0 := by rw [coeff_one]; rfl
    simpa [linear, Forms.rowsOf, leadRow, entryOf, h1] using this

/-! ## The hypotheses are met -/

theorem distinct3 : DistinctPts (fun k => ((k + 1 : Nat) : ZMod 5)) 0 3 := by
  intro k l hk hl
  interval_cases k <;> interval_cases l <;> decide

/-- The column `(1 + X, X^2 + 3)` modulo 5 at the points 1, 2, 3, with base cases of one point. -/
example : ∃ (N : Nt (ZMod 5)) (mul : PMat (ZMod 5)[X] → PMat (ZMod 5)[X] → Option (PMat (ZMod 5)[X])) (it : (ZMod 5)[X] → Nat → (ZMod 5)[X]),
    (∃ P t, pmbasisPoly N mul it 3 1 3 Appbas.sample Appbas.sample 3 (fun k => ((k + 1 : Nat) : ZMod 5)) (entryOf [0, -1]) = .ok (P, t) ∧
      isInterpolantBasisPoly it 3 P Appbas.sample 3 (fun k => ((k + 1 : Nat) : ZMod 5)) [0, -1] .ordWeakPopov false = .ok true) ∧
    (∃ P t, popovPmbasis N mul it 3 1 3 Appbas.sample Appbas.sample 3 (fun k => ((k + 1 : Nat) : ZMod 5)) (entryOf [0, -1]) = .ok (P, t) ∧
      isInterpolantBasisPoly it 3 P Appbas.sample 3 (fun k => ((k + 1 : Nat) : ZMod 5)) [0, -1] .popov false = .ok true) := by
  obtain ⟨mul, hmul⟩ := mulOk_exists (F := ZMod 5)
  obtain ⟨N, hN⟩ := nt_exists (F := ZMod 5)
  obtain ⟨it, hit⟩ := Crt.exists_invTrunc (K := ZMod 5)
  exact ⟨N, mul, it, C80_compute_verify hN hmul hit one_pos 3 3 Appbas.sample Appbas.sample 3 _ [0, -1] le_rfl le_rfl (by decide) (by decide) rfl distinct3⟩

theorem midOK_all {K : Type} [Field K] : ∃ mp : K[X] → K[X] → Nat → Nat → Option K[X], ∀ n, Geom.MidOK mp n :=
  ⟨fun a c dA dB => some (Series.build (dB + 1) fun j => ∑ i ∈ Finset.range (dA + 1), a.coeff (dA - i) * c.coeff (i + j)),
    fun _ a c dA dB _ _ => ⟨_, rfl, fun j hj => by rw [Series.build_coeff, if_pos (by omega)]⟩⟩

/-- The column `(1 + X, X + 3)` modulo 5 at the points 1 and 4, in geometric progression. -/
example : ∃ (N : Nt (ZMod 5)) (mul : PMat (ZMod 5)[X] → PMat (ZMod 5)[X] → Option (PMat (ZMod 5)[X]))
    (mp : (ZMod 5)[X] → (ZMod 5)[X] → Nat → Nat → Option (ZMod 5)[X]), ∃ P t x,
    pmbasisGeometric N mul mp (fun _ => true) (fun _ => false) 1 2 Appbas.sample ⟨2, 1, fun ij => X + C (if ij.1 = 0 then 1 else 3)⟩ 2 2 (fun _ => 0) =
      .ok (P, t, x) ∧ x 1 = 4 := by
  obtain ⟨mul, hmul⟩ := mulOk_exists (F := ZMod 5)
  obtain ⟨N, hN⟩ := nt_exists (F := ZMod 5)
  obtain ⟨mp, hmp⟩ := midOK_all (K := ZMod 5)
  obtain ⟨P, t, x, h1, -, h3⟩ := C80_pmbasis_geometric_poly hN hmul (fun _ => true) (fun _ => false) one_pos 2 Appbas.sample
    ⟨2, 1, fun ij => X + C (if ij.1 = 0 then 1 else 3)⟩ 2 2 (fun _ => 0) (fun n _ => hmp n) le_rfl (by decide) (by decide) (by decide)
    (fun i h1 h2 => by
      obtain rfl : i = 1 := by omega
      decide) (fun i j _ _ => by
        dsimp only
        rw [natDegree_X_add_C]
        decide)
  exact ⟨N, mul, mp, P, t, x, h1, by rw [h3 le_rfl 1 (by decide)]; decide⟩

/-- Two two by one evaluations. -/
def twoEvals : Evals (ZMod 5) := ⟨2, 2, 1, fun ki _ => (ki.1 + ki.2 : Nat)⟩

/-- Two evaluations at the same point, for `mbasis_rescomp`. -/
example : ∃ N : Nt (ZMod 5), ∃ P t, rescomp N Appbas.sample twoEvals 2 (fun _ => 3) (fun _ => 0) 0 2 = .ok (P, t) ∧
    IsMinInt (twoEvals.mats 0) (fun _ => 3) 2 (fun _ => 0) P t := by
  obtain ⟨N, hN⟩ := nt_exists (F := ZMod 5)
  exact ⟨N, C80_rescomp hN Appbas.sample twoEvals 2 (fun _ => 3) (fun _ => 0) 0 2 (by decide) (by decide) (by decide) (by decide)⟩

/-- The geometric variant for a polynomial matrix: the identity, the constant matrix 1, one point. -/
example {mp : (ZMod 5)[X] → (ZMod 5)[X] → Nat → Nat → Option (ZMod 5)[X]} (hmp : Geom.MidOK mp 1) (feasible flags : Nat → Bool) :
    ∃ b, isInterpolantBasisGeometricPoly mp feasible flags ⟨1, 1, fun _ => 1⟩ ⟨1, 1, fun _ => 1⟩ 2 1 [0] .reduced false = .ok b := by
  obtain ⟨b, h, -⟩ := C80_verify_geometric_poly_partial feasible flags (⟨1, 1, fun _ => 1⟩ : PMat (ZMod 5)[X]) ⟨1, 1, fun _ => 1⟩ 2 1 [0] .reduced
    hmp rfl rfl (by decide) rfl (by decide) (by decide) (fun i h1 h2 => by omega) (by simp) (by simp) (fun _ _ _ _ => by simp) (fun _ _ _ _ => by simp)
  exact ⟨b, h⟩

end PML.Ntl.Intbas
