import Verif.Ntl.BivarResModel
import Verif.Ntl.BivarKron
import Verif.Ntl.GeomProps
import Verif.Kernel.Theory
import Mathlib.RingTheory.Polynomial.Resultant.Basic

/-!
# C90: resultants of bivariate polynomials by evaluation and interpolation
-/

namespace PML.Ntl.Bivar

open Polynomial PML.Ntl.Utils PML.Ntl.Inv PML.Ntl.Solve PML.Ntl.Struct

variable {F : Type} [Field F]

/-- The resultant of NTL on nonzero univariate polynomials. -/
def ResOK (res : F[X] → F[X] → F) : Prop := ∀ a b : F[X], a ≠ 0 → b ≠ 0 → res a b = Polynomial.resultant a b

theorem andThen_eq_ok {α β : Type} {x : Out α} {f : α → Out β} {y : β} (h : andThen x f = .ok y) : ∃ a, x = .ok a ∧ f a = .ok y := by
  cases x with
  | ok a => exact ⟨a, rfl, h⟩
  | error => cases h
  | ub => cases h
  | loops => cases h

theorem ofOpt_eq_ok {α : Type} {x : Option α} {y : α} (h : ofOpt x = .ok y) : x = some y := by
  cases x with
  | some a => cases h; rfl
  | none => cases h

/-! ### Degrees -/

theorem resultant_natDegree (P Q : Polynomial F[X]) (m n d : Nat) (hP : DegXLe P d) (hQ : DegXLe Q d) :
    (Polynomial.resultant P Q m n).natDegree ≤ (m + n) * d := by
  have hc : ∀ (P : Polynomial F[X]) i, DegXLe P d → (P.coeff i).natDegree ≤ d := fun P i h =>
    natDegree_le_iff_coeff_eq_zero.2 fun j hj => h i j hj
  have h := PML.Kernel.natDegree_det_le (sylvester P Q m n) (fun _ => d) (by
    intro i j
    unfold sylvester
    rw [Matrix.of_apply]
    induction j using Fin.addCases with
    | left j =>
      rw [Fin.addCases_left]
      split
      · exact hc Q _ hQ
      · rw [natDegree_zero]; omega
    | right j =>
      rw [Fin.addCases_right]
      split
      · exact hc P _ hP
      · rw [natDegree_zero]; omega)
  simpa [Polynomial.resultant] using h

theorem natDegree_poly {v : PVec F} {n : Nat} (h : v.Normal) (hn : v.len = n + 1) : v.poly.natDegree = n := by
  refine natDegree_eq_of_le_of_coeff_ne_zero ?_ ?_
  · rw [natDegree_le_iff_coeff_eq_zero]
    intro k hk
    rw [poly_coeff, if_neg (by omega)]
  · rw [poly_coeff, if_pos (by omega)]
    exact h n hn

variable [DecidableEq F]

/-! ### Points -/

theorem construct_good {fe fl : Bool} {r s : F} {n : Nat} {o : Geom.Obj F} (h : Geom.construct fe fl r s n = some o) :
    Geom.Good r s o ∧ o.n = n ∧ 1 ≤ n ∧ r ≠ 0 ∧ s ≠ 0 ∧ ∀ i, 1 ≤ i → i < n → r ^ (2 * i) ≠ 1 := by
  have h0 : 1 ≤ n := by
    by_contra hn
    have : n = 0 := by omega
    rw [Geom.construct, if_pos this] at h
    cases h
  have hr : r ≠ 0 := by
    intro e
    rw [Geom.construct, if_neg (by omega), if_pos e] at h
    cases h
  have hp : ∀ i, 1 ≤ i → i < n → r ^ (2 * i) ≠ 1 := by
    intro i h1 h2 e
    have hz : (Geom.dLoop (r * r) (n - 1)).prod (n - 1) = 0 := by
      rw [(Geom.dLoop_spec (r * r) (n - 1)).2.1 _ le_rfl]
      by_contra hne
      exact (Geom.qfac_ne_iff.1 hne i h1 (by omega)) (by rw [← pow_two, ← pow_mul]; exact e)
    rw [Geom.construct, if_neg (by omega), if_neg hr] at h
    dsimp only at h
    rw [if_pos hz] at h
    cases h
  have hs : s ≠ 0 := by
    intro e
    rw [Geom.construct, if_neg (by omega), if_neg hr] at h
    dsimp only at h
    split at h
    · cases h
    · cases h
  obtain ⟨o', e', g', n'⟩ := Geom.good_construct fe fl r s n h0 hr hs hp
  rw [h] at e'
  cases e'
  exact ⟨g', n', h0, hr, hs, hp⟩

theorem points_inj {r s : F} {n : Nat} (hr : r ≠ 0) (hs : s ≠ 0) (h : ∀ i, 1 ≤ i → i < n → r ^ (2 * i) ≠ 1) :
    Function.Injective fun i : Fin n => s * r ^ (2 * (i : Nat)) := by
  have key : ∀ i j : Nat, i < j → j < n → s * r ^ (2 * i) ≠ s * r ^ (2 * j) := by
    intro i j hij hj e
    have e' := mul_left_cancel₀ hs e
    have : r ^ (2 * j) = r ^ (2 * i) * r ^ (2 * (j - i)) := by rw [← pow_add]; congr 1; omega
    rw [this] at e'
    exact h (j - i) (by omega) (by omega) (mul_left_cancel₀ (pow_ne_zero (2 * i) hr) (by rw [mul_one]; exact e'.symm))
  intro i j e
  rcases Nat.lt_trichotomy i j with h1 | h1 | h1
  · exact absurd e (key i j h1 j.2)
  · exact Fin.ext h1
  · exact absurd e.symm (key j i h1 i.2)

/-! ### The steps of the function -/

theorem forN_rows (dr i : Nat) (tmp : Nat → F) (val : Nat → Nat → F) (j k : Nat) :
    forN dr (fun j val => write j (write i (tmp j) (val j)) val) val j k = if j < dr ∧ k = i then tmp j else val j k := by
  induction dr generalizing j with
  | zero => simp [forN]
  | succ n ih =>
    show write n (write i (tmp n) _) _ j k = _
    by_cases hj : j = n
    · subst hj
      rw [write_self]
      by_cases hk : k = i
      · subst hk
        rw [write_self, if_pos (by omega)]
      · rw [write_ne _ _ hk, ih, if_neg (by omega), if_neg (by omega)]
    · rw [write_ne _ _ hj, ih]
      by_cases h : j < n ∧ k = i
      · rw [if_pos h, if_pos (by omega)]
      · rw [if_neg h, if_neg (by omega)]

theorem values_spec {T : Tables F} {r s : F} {o : Geom.Obj F} (hg : Geom.Good r s o) (hmp : Geom.MidOK T.mp o.n) (f : PVec F) (n dr : Nat)
    (hn : f.len = n + 1) (hdeg : ∀ i, i < f.len → (f.at' i).natDegree < o.n) (vl : Nat → F)
    (hvl : ∀ j, j < dr → vl j = (f.at' n).eval (s * r ^ (2 * j))) :
    ∃ vf, values T o f dr vl = .ok vf ∧ ∀ j, j < dr → vf j = f.poly.map (evalRingHom (s * r ^ (2 * j))) := by
  have hA : f.degY = (n : Int) := by rw [PVec.degY, hn]; push_cast; ring
  unfold values
  dsimp only
  rw [hA, loopI_zero]
  obtain ⟨val, e, h1⟩ := loopOut_inv (s := forN dr (fun i (val : Nat → Nat → F) => write i (write (n : Int).toNat (vl i) (val i)) val) fun _ _ => 0)
    (f := fun (i : Nat) (val : Nat → Nat → F) => andThen (f.get i) fun c => andThen (ofOpt (Geom.evaluateMore T.mp o c dr)) fun tmp =>
      .ok (forN dr (fun j val => write j (write (i : Int).toNat (tmp j) (val j)) val) val))
    (fun m val => ∀ j k, j < dr → k < m ∨ k = n → val j k = (f.at' k).eval (s * r ^ (2 * j))) n
    (by
      intro j k hj hk
      rw [forN_rows, if_pos ⟨hj, by omega⟩, hvl j hj, show k = n by omega])
    (by
      intro m val hm hval
      obtain ⟨tmp, et, ht⟩ := Geom.evaluateMore_spec hg hmp (f.at' m) (hdeg m (by omega)) dr
      rw [get_ok (by omega), andThen_ok, et]
      refine ⟨_, rfl, fun j k hj hk => ?_⟩
      rw [forN_rows, Int.toNat_natCast]
      by_cases hkm : k = m
      · rw [if_pos ⟨hj, hkm⟩, ht j hj, hkm]
      · rw [if_neg (by omega), hval j k hj (by omega)])
  rw [e, andThen_ok]
  refine ⟨_, rfl, fun j hj => ?_⟩
  ext k
  rw [ofCoeffs_coeff, coeff_map, poly_coeff, hn]
  rw [show ((n : Int) + 1).toNat = n + 1 by omega]
  by_cases hk : k < n + 1
  · rw [if_pos hk, if_pos hk, h1 j k hj (by omega), coe_evalRingHom]
  · rw [if_neg hk, if_neg hk, map_zero]

theorem attempts_ok {T : Tables F} {draw : Nat → F × F} {f g : PVec F} {dr : Nat} : ∀ (k nb : Nat) t, nb + k = 5 →
    attempts T draw f g dr k nb = .ok t → nb < t.1 ∧ t.1 ≤ 5 ∧ t.2.1 = draw (t.1 - 1) ∧
      ∃ b, tryPoints T f g dr t.2.1.1 t.2.1.2 = .ok (b, t.2.2) ∧ (b = true ∨ t.1 = 5)
  | 0, nb, t, _, h => by cases h
  | k + 1, nb, t, hk, h => by
    obtain ⟨u, e, h⟩ := andThen_eq_ok h
    split at h
    · obtain ⟨h1, h2⟩ := attempts_ok k (nb + 1) t (by omega) h
      exact ⟨by omega, h2⟩
    · rename_i hc
      cases h
      refine ⟨by dsimp only; omega, by dsimp only; omega, rfl, u.1, e, ?_⟩
      dsimp only
      cases hb : u.1 with
      | true => exact .inl rfl
      | false =>
        right
        rw [hb] at hc
        simp only [true_and] at hc
        omega

theorem tryPoints_ok {T : Tables F} {f g : PVec F} {dr nf ng : Nat} {r s : F} {b : Bool} {o : Geom.Obj F} {vf vg : Nat → F}
    (hf : f.len = nf + 1) (hg : g.len = ng + 1) (hmp : Geom.MidOK T.mp (max f.degX g.degX + 1).toNat)
    (h : tryPoints T f g dr r s = .ok (b, o, vf, vg)) :
    Geom.Good r s o ∧ o.n = (max f.degX g.degX + 1).toNat ∧ (∀ i, i < f.len → (f.at' i).natDegree < o.n) ∧
    (∀ i, i < g.len → (g.at' i).natDegree < o.n) ∧
    (∀ j, j < dr → vf j = (f.at' nf).eval (s * r ^ (2 * j))) ∧ (∀ j, j < dr → vg j = (g.at' ng).eval (s * r ^ (2 * j))) ∧
    (b = true ↔ ∀ j, j < dr → vf j ≠ 0 ∧ vg j ≠ 0) := by
  obtain ⟨o', e1, h⟩ := andThen_eq_ok h
  obtain ⟨good, hn, hn1, -⟩ := construct_good (ofOpt_eq_ok e1)
  have hdeg : ∀ (v : PVec F), v.degX ≤ max f.degX g.degX → ∀ i, i < v.len → (v.at' i).natDegree < o'.n := by
    intro v hv i hi
    have h1 := degX_get v hi
    rw [hn]
    by_cases h0 : v.at' i = 0
    · rw [h0, natDegree_zero]; omega
    · rw [pdeg, if_neg h0] at h1
      omega
  have hdf := hdeg f (le_max_left _ _)
  have hdg := hdeg g (le_max_right _ _)
  have hA : f.degY = (nf : Int) := by rw [PVec.degY, hf]; push_cast; ring
  have hB : g.degY = (ng : Int) := by rw [PVec.degY, hg]; push_cast; ring
  rw [hA, hB, get_ok (by omega), andThen_ok] at h
  obtain ⟨wf, e2, h⟩ := andThen_eq_ok h
  rw [get_ok (by omega), andThen_ok] at h
  obtain ⟨wg, e3, h⟩ := andThen_eq_ok h
  obtain ⟨wf', e2', h2⟩ := Geom.evaluateMore_spec good (by rw [hn]; exact hmp) (f.at' nf) (hdf nf (by omega)) dr
  obtain ⟨wg', e3', h3⟩ := Geom.evaluateMore_spec good (by rw [hn]; exact hmp) (g.at' ng) (hdg ng (by omega)) dr
  rw [ofOpt_eq_ok e2] at e2'
  rw [ofOpt_eq_ok e3] at e3'
  cases e2'
  cases e3'
  cases h
  exact ⟨good, hn, hdf, hdg, h2, h3, decide_eq_true_iff⟩

/-- The values of the polynomials keep their degrees where their leading coefficients do not vanish. -/
theorem map_natDegree {v : PVec F} {n : Nat} (hn : v.len = n + 1) {t : F} (h : (v.at' n).eval t ≠ 0) :
    (v.poly.map (evalRingHom t)).natDegree = n ∧ v.poly.map (evalRingHom t) ≠ 0 := by
  have hc : (v.poly.map (evalRingHom t)).coeff n ≠ 0 := by
    rw [coeff_map, poly_coeff, if_pos (by omega)]
    exact h
  refine ⟨natDegree_eq_of_le_of_coeff_ne_zero ?_ hc, fun e => hc (by rw [e, coeff_zero])⟩
  rw [natDegree_le_iff_coeff_eq_zero]
  intro k hk
  rw [coeff_map, poly_coeff, if_neg (by omega), map_zero]

/-- The last part of the function, when it has found suitable points. -/
theorem resultant_end {T : Tables F} {res : F[X] → F[X] → F} (hres : ResOK res) {f g : PVec F} (hf : f.Normal) (hg : g.Normal) {nf ng d dr : Nat}
    (hfl : f.len = nf + 1) (hgl : g.len = ng + 1) (hd : max f.degX g.degX = d) (hdr : 2 * max nf ng * d < dr) {r s : F} {ol : Geom.Obj F} {R : F[X]}
    {vf vg : Nat → F[X]} (hvf : ∀ j, j < dr → vf j = f.poly.map (evalRingHom (s * r ^ (2 * j))))
    (hvg : ∀ j, j < dr → vg j = g.poly.map (evalRingHom (s * r ^ (2 * j))))
    (hlf : ∀ j, j < dr → (f.at' nf).eval (s * r ^ (2 * j)) ≠ 0) (hlg : ∀ j, j < dr → (g.at' ng).eval (s * r ^ (2 * j)) ≠ 0)
    (hol : Geom.construct (T.feasible dr) (T.flags dr) r s dr = some ol)
    (hR : Geom.interpolate false ol (fun i => res (vf i) (vg i)) = some R) :
    R = Polynomial.resultant f.poly g.poly := by
  obtain ⟨good, hn, -, hr, hs, hord⟩ := construct_good hol
  obtain ⟨R', e, h1, h2⟩ := (Geom.good_multipoint (mp := (Classical.choose (Geom.exists_midOK (K := F) ol.n))) good
    (Classical.choose_spec (Geom.exists_midOK (K := F) ol.n))).interp fun i => res (vf i) (vg i)
  rw [hR] at e
  cases e
  rw [hn] at h1 h2
  have hdf : DegXLe f.poly d := degX_poly (by rw [← hd]; exact le_max_left _ _)
  have hdg : DegXLe g.poly d := degX_poly (by rw [← hd]; exact le_max_right _ _)
  have hnf := natDegree_poly hf hfl
  have hng := natDegree_poly hg hgl
  have hb : (Polynomial.resultant f.poly g.poly).natDegree < dr := by
    refine lt_of_le_of_lt (resultant_natDegree f.poly g.poly _ _ d hdf hdg) (lt_of_le_of_lt ?_ hdr)
    rw [hnf, hng]
    exact Nat.mul_le_mul_right d (by omega)
  refine Polynomial.eq_of_natDegree_lt_card_of_eval_eq R _ (points_inj hr hs hord) (fun i => ?_) ?_
  · rw [h2 i i.2, hvf i i.2, hvg i i.2]
    obtain ⟨a1, a2⟩ := map_natDegree hfl (hlf i i.2)
    obtain ⟨b1, b2⟩ := map_natDegree hgl (hlg i i.2)
    rw [hres _ _ a2 b2, a1, b1, resultant_map_map, hnf, hng]
    rfl
  · rw [Fintype.card_fin]
    exact max_lt h1 hb

/-- **C90**.  If `resultant(res, f, g)` returns 1, whatever the random draws, then `res` is the resultant with respect to `Y`. -/
theorem C90_resultant (T : Tables F) (res : F[X] → F[X] → F) (hres : ResOK res) (draw : Nat → F × F) (f g : PVec F) (hf : f.Normal) (hg : g.Normal)
    (hf0 : f.poly ≠ 0) (hg0 : g.poly ≠ 0) (hmp : Geom.MidOK T.mp (max f.degX g.degX + 1).toNat) (R : F[X])
    (h : resultant T res draw f g = .ok (some R)) : R = Polynomial.resultant f.poly g.poly := by
  obtain ⟨nf, hnf⟩ := Nat.exists_eq_succ_of_ne_zero (fun e => hf0 ((poly_eq_zero_iff hf).2 e) : f.len ≠ 0)
  obtain ⟨ng, hng⟩ := Nat.exists_eq_succ_of_ne_zero (fun e => hg0 ((poly_eq_zero_iff hg).2 e) : g.len ≠ 0)
  have hA : f.degY = (nf : Int) := by rw [PVec.degY, hnf]; push_cast; ring
  have hB : g.degY = (ng : Int) := by rw [PVec.degY, hng]; push_cast; ring
  obtain ⟨d, hd⟩ := Int.eq_ofNat_of_zero_le (le_trans (degX_nonneg hf (by omega)) (le_max_left f.degX g.degX))
  have hdr : 2 * max f.degY g.degY * max f.degX g.degX + 2 = ((2 * max nf ng * d + 2 : Nat) : Int) := by
    rw [hA, hB, hd]; push_cast; ring
  unfold resultant at h
  dsimp only at h
  rw [hdr, Int.toNat_natCast] at h
  generalize hdr' : 2 * max nf ng * d + 2 = dr at h
  obtain ⟨⟨nb, ⟨r, s⟩, o, vf, vg⟩, e1, h⟩ := andThen_eq_ok h
  obtain ⟨-, h2, -, b, e2, h3⟩ := attempts_ok 5 0 _ rfl e1
  dsimp only at h2 e2 h3 h
  obtain ⟨good, hon, hdf, hdg, hvf, hvg, hb⟩ := tryPoints_ok hnf hng hmp e2
  split at h
  · cases h
  · rename_i h5
    obtain ⟨pf, e3, h⟩ := andThen_eq_ok h
    obtain ⟨pg, e4, h⟩ := andThen_eq_ok h
    obtain ⟨ol, e5, h⟩ := andThen_eq_ok h
    obtain ⟨R', e6, h⟩ := andThen_eq_ok h
    cases h
    have hbt := hb.1 (h3.resolve_right h5)
    obtain ⟨pf', e3', k3⟩ := values_spec (T := T) good (by rw [hon]; exact hmp) f nf dr hnf hdf vf hvf
    obtain ⟨pg', e4', k4⟩ := values_spec (T := T) good (by rw [hon]; exact hmp) g ng dr hng hdg vg hvg
    rw [e3] at e3'
    rw [e4] at e4'
    cases e3'
    cases e4'
    exact resultant_end hres hf hg hnf hng hd (by omega) k3 k4 (fun j hj => hvf j hj ▸ (hbt j hj).1) (fun j hj => hvg j hj ▸ (hbt j hj).2)
      (ofOpt_eq_ok e5) (ofOpt_eq_ok e6)

/-! ### When the function succeeds, and when it does not -/

/-- The points `s, s r², s r⁴, …` are suitable for objects of `n` points. -/
def Points (n : Nat) (t : F × F) : Prop := t.1 ≠ 0 ∧ t.2 ≠ 0 ∧ ∀ i, 1 ≤ i → i < n → t.1 ^ (2 * i) ≠ 1

theorem Points.mono {n m : Nat} {t : F × F} (h : Points n t) (hm : m ≤ n) : Points m t := ⟨h.1, h.2.1, fun i h1 h2 => h.2.2 i h1 (by omega)⟩

theorem tryPoints_run (T : Tables F) {f g : PVec F} (dr : Nat) {nf ng : Nat} {r s : F} (hf : f.len = nf + 1) (hg : g.len = ng + 1)
    (hfn : f.Normal) (hmp : Geom.MidOK T.mp (max f.degX g.degX + 1).toNat) (hp : Points (max f.degX g.degX + 1).toNat (r, s)) :
    ∃ b o vf vg, tryPoints T f g dr r s = .ok (b, o, vf, vg) := by
  have h0 := le_trans (degX_nonneg hfn (by omega)) (le_max_left f.degX g.degX)
  obtain ⟨o, e1, good, hn⟩ := Geom.good_construct (T.feasible (max f.degX g.degX + 1).toNat) (T.flags (max f.degX g.degX + 1).toNat) r s
    (max f.degX g.degX + 1).toNat (by omega) hp.1 hp.2.1 hp.2.2
  have hdeg : ∀ (v : PVec F), v.degX ≤ max f.degX g.degX → ∀ i, i < v.len → (v.at' i).natDegree < o.n := by
    intro v hv i hi
    have h1 := degX_get v hi
    rw [hn]
    by_cases h0 : v.at' i = 0
    · rw [h0, natDegree_zero]; omega
    · rw [pdeg, if_neg h0] at h1
      omega
  have hA : f.degY = (nf : Int) := by rw [PVec.degY, hf]; push_cast; ring
  have hB : g.degY = (ng : Int) := by rw [PVec.degY, hg]; push_cast; ring
  obtain ⟨wf, e2, -⟩ := Geom.evaluateMore_spec good (by rw [hn]; exact hmp) (f.at' nf) (hdeg f (le_max_left _ _) nf (by omega)) dr
  obtain ⟨wg, e3, -⟩ := Geom.evaluateMore_spec good (by rw [hn]; exact hmp) (g.at' ng) (hdeg g (le_max_right _ _) ng (by omega)) dr
  unfold tryPoints
  dsimp only
  rw [e1, hA, hB, get_ok (by omega), get_ok (by omega)]
  simp only [ofOpt, andThen_ok]
  rw [e2]
  simp only [ofOpt, andThen_ok]
  rw [e3]
  exact ⟨_, _, _, _, rfl⟩

/-- **C90**.  If the first draw gives points where no leading coefficient vanishes, and which are distinct, then the function returns 1 and
    the resultant. -/
theorem C90_success (T : Tables F) (res : F[X] → F[X] → F) (hres : ResOK res) (draw : Nat → F × F) (f g : PVec F) (hf : f.Normal) (hg : g.Normal)
    (nf ng d : Nat) (hnf : f.len = nf + 1) (hng : g.len = ng + 1) (hd : max f.degX g.degX = d) (hmp : Geom.MidOK T.mp (d + 1))
    (hp : Points (max (d + 1) (2 * max nf ng * d + 2)) (draw 0))
    (hl : ∀ j, j < 2 * max nf ng * d + 2 → (f.at' nf).eval ((draw 0).2 * (draw 0).1 ^ (2 * j)) ≠ 0 ∧
      (g.at' ng).eval ((draw 0).2 * (draw 0).1 ^ (2 * j)) ≠ 0) :
    resultant T res draw f g = .ok (some (Polynomial.resultant f.poly g.poly)) := by
  have hA : f.degY = (nf : Int) := by rw [PVec.degY, hnf]; push_cast; ring
  have hB : g.degY = (ng : Int) := by rw [PVec.degY, hng]; push_cast; ring
  have hN : (max f.degX g.degX + 1).toNat = d + 1 := by rw [hd]; omega
  have hdr : 2 * max f.degY g.degY * max f.degX g.degX + 2 = ((2 * max nf ng * d + 2 : Nat) : Int) := by
    rw [hA, hB, hd]; push_cast; ring
  have hmp' : Geom.MidOK T.mp (max f.degX g.degX + 1).toNat := by rw [hN]; exact hmp
  obtain ⟨b, o, vf, vg, e⟩ := tryPoints_run T (2 * max nf ng * d + 2) hnf hng hf hmp' (r := (draw 0).1) (s := (draw 0).2)
    (by rw [hN]; exact hp.mono (le_max_left _ _))
  obtain ⟨good, hon, hdf, hdg, hvf, hvg, hb⟩ := tryPoints_ok hnf hng hmp' e
  have hbt : b = true := hb.2 fun j hj => by rw [hvf j hj, hvg j hj]; exact hl j hj
  have ea : attempts T draw f g (2 * max nf ng * d + 2) 5 0 = .ok (1, draw 0, o, vf, vg) := by
    rw [attempts, e, andThen_ok]
    dsimp only
    rw [hbt, if_neg (by simp)]
  obtain ⟨pf, e3, k3⟩ := values_spec (T := T) good (by rw [hon]; exact hmp') f nf (2 * max nf ng * d + 2) hnf hdf vf hvf
  obtain ⟨pg, e4, k4⟩ := values_spec (T := T) good (by rw [hon]; exact hmp') g ng (2 * max nf ng * d + 2) hng hdg vg hvg
  obtain ⟨ol, e5, good', -⟩ := Geom.good_construct (T.feasible (2 * max nf ng * d + 2)) (T.flags (2 * max nf ng * d + 2)) (draw 0).1 (draw 0).2
    (2 * max nf ng * d + 2) (by omega) hp.1 hp.2.1 (hp.mono (le_max_right _ _)).2.2
  obtain ⟨R, e6, -⟩ := Geom.interpolate_spec good' fun i => res (pf i) (pg i)
  have hR := resultant_end hres hf hg hnf hng hd (by omega) k3 k4 (fun j hj => (hl j hj).1) (fun j hj => (hl j hj).2) e5 e6
  unfold resultant
  dsimp only
  rw [hdr, Int.toNat_natCast, ea, andThen_ok]
  dsimp only
  rw [if_neg (by omega), e3, andThen_ok, e4, andThen_ok, e5]
  simp only [ofOpt, andThen_ok]
  rw [e6, hR]
  rfl

/-- The zero polynomial is not supported: the function never returns. -/
theorem C90_zero (T : Tables F) (res : F[X] → F[X] → F) (draw : Nat → F × F) (f g : PVec F) (h : f.len = 0 ∨ g.len = 0) :
    ∀ x, resultant T res draw f g ≠ .ok x := by
  intro x hx
  unfold resultant at hx
  obtain ⟨t, e1, -⟩ := andThen_eq_ok hx
  obtain ⟨-, -, -, b, e2, -⟩ := attempts_ok 5 0 _ rfl e1
  obtain ⟨o, -, e2⟩ := andThen_eq_ok e2
  obtain ⟨lf, e3, e2⟩ := andThen_eq_ok e2
  obtain ⟨vf, -, e2⟩ := andThen_eq_ok e2
  obtain ⟨lg, e4, -⟩ := andThen_eq_ok e2
  have hget : ∀ (v : PVec F) (y : F[X]), v.len = 0 → v.get v.degY ≠ .ok y := by
    intro v y hv e
    unfold PVec.get PVec.degY at e
    rw [hv] at e
    cases e
  rcases h with h | h
  · exact hget f lf h e3
  · exact hget g lg h e4

/-- The first draw decides: with `a0 = 0` or `b0 = 0`, or if `a0²` has a small order, the function stops with an error instead of trying again. -/
theorem C90_error (T : Tables F) (res : F[X] → F[X] → F) (draw : Nat → F × F) (f g : PVec F)
    (h : ¬ Points (max f.degX g.degX + 1).toNat (draw 0)) : resultant T res draw f g = .error := by
  have hc : Geom.construct (T.feasible (max f.degX g.degX + 1).toNat) (T.flags (max f.degX g.degX + 1).toNat) (draw 0).1 (draw 0).2
      (max f.degX g.degX + 1).toNat = none := by
    cases e : Geom.construct (T.feasible (max f.degX g.degX + 1).toNat) (T.flags (max f.degX g.degX + 1).toNat) (draw 0).1 (draw 0).2
      (max f.degX g.degX + 1).toNat with
    | none => rfl
    | some o =>
      obtain ⟨-, -, -, h1, h2, h3⟩ := construct_good e
      exact absurd ⟨h1, h2, h3⟩ h
  unfold resultant
  dsimp only
  rw [attempts, tryPoints, hc]
  rfl

theorem attempts_fifth (T : Tables F) (draw : Nat → F × F) {f g : PVec F} (dr : Nat) {nf ng : Nat} (hf : f.len = nf + 1) (hg : g.len = ng + 1)
    (hfn : f.Normal) (hmp : Geom.MidOK T.mp (max f.degX g.degX + 1).toNat) :
    ∀ k nb, nb + k = 4 → (∀ i, nb ≤ i → i < 5 → Points (max f.degX g.degX + 1).toNat (draw i)) →
      (∀ i, nb ≤ i → i < 4 → ∃ j, j < dr ∧ ((f.at' nf).eval ((draw i).2 * (draw i).1 ^ (2 * j)) = 0 ∨
        (g.at' ng).eval ((draw i).2 * (draw i).1 ^ (2 * j)) = 0)) →
      ∃ t, attempts T draw f g dr (k + 1) nb = .ok t ∧ t.1 = 5
  | 0, nb, hk, hp, hl => by
    obtain ⟨b, o, vf, vg, e⟩ := tryPoints_run T dr hf hg hfn hmp (hp nb le_rfl (by omega))
    rw [attempts, e, andThen_ok, if_neg (by omega)]
    exact ⟨_, rfl, by dsimp only; omega⟩
  | k + 1, nb, hk, hp, hl => by
    obtain ⟨b, o, vf, vg, e⟩ := tryPoints_run T dr hf hg hfn hmp (hp nb le_rfl (by omega))
    obtain ⟨-, -, -, -, hvf, hvg, hb⟩ := tryPoints_ok hf hg hmp e
    obtain ⟨j, hj, h⟩ := hl nb le_rfl (by omega)
    have hbf : b = false := by
      cases b with
      | false => rfl
      | true =>
        have := hb.1 rfl j hj
        rw [hvf j hj, hvg j hj] at this
        rcases h with h | h
        · exact absurd h this.1
        · exact absurd h this.2
    rw [attempts, e, andThen_ok]
    dsimp only
    rw [if_pos ⟨hbf, by omega⟩]
    exact attempts_fifth T draw dr hf hg hfn hmp k (nb + 1) (by omega) (fun i h1 h2 => hp i (by omega) h2) fun i h1 h2 => hl i (by omega) h2

/-- The fifth attempt is useless: when a leading coefficient vanishes at a point of each of the first four, the function returns 0, even if
    the fifth draw is suitable. -/
theorem C90_fifth (T : Tables F) (res : F[X] → F[X] → F) (draw : Nat → F × F) (f g : PVec F) (hf : f.Normal)
    (nf ng d : Nat) (hnf : f.len = nf + 1) (hng : g.len = ng + 1) (hd : max f.degX g.degX = d) (hmp : Geom.MidOK T.mp (d + 1))
    (hp : ∀ i, i < 5 → Points (d + 1) (draw i))
    (hl : ∀ i, i < 4 → ∃ j, j < 2 * max nf ng * d + 2 ∧ ((f.at' nf).eval ((draw i).2 * (draw i).1 ^ (2 * j)) = 0 ∨
      (g.at' ng).eval ((draw i).2 * (draw i).1 ^ (2 * j)) = 0)) :
    resultant T res draw f g = .ok none := by
  have hA : f.degY = (nf : Int) := by rw [PVec.degY, hnf]; push_cast; ring
  have hB : g.degY = (ng : Int) := by rw [PVec.degY, hng]; push_cast; ring
  have hN : (max f.degX g.degX + 1).toNat = d + 1 := by rw [hd]; omega
  have hdr : 2 * max f.degY g.degY * max f.degX g.degX + 2 = ((2 * max nf ng * d + 2 : Nat) : Int) := by
    rw [hA, hB, hd]; push_cast; ring
  obtain ⟨t, e, h5⟩ := attempts_fifth T draw (2 * max nf ng * d + 2) hnf hng hf (by rw [hN]; exact hmp) 4 0 rfl
    (fun i _ hi => by rw [hN]; exact hp i hi) fun i _ hi => hl i hi
  unfold resultant
  dsimp only
  rw [hdr, Int.toNat_natCast, e, andThen_ok, if_pos h5]

/-- Over a field with at most `2 dr` elements, an odd number, the function never returns 1: there are not enough points in a geometric progression of
    ratio a square. -/
theorem C90_small_field [Fintype F] (T : Tables F) (res : F[X] → F[X] → F) (draw : Nat → F × F) (f g : PVec F) (nf ng d : Nat)
    (hnf : f.len = nf + 1) (hng : g.len = ng + 1) (hd : max f.degX g.degX = d) (hodd : Odd (Fintype.card F))
    (hc : Fintype.card F ≤ 2 * (2 * max nf ng * d + 2)) : ∀ R, resultant T res draw f g ≠ .ok (some R) := by
  intro R h
  have hA : f.degY = (nf : Int) := by rw [PVec.degY, hnf]; push_cast; ring
  have hB : g.degY = (ng : Int) := by rw [PVec.degY, hng]; push_cast; ring
  have hdr : 2 * max f.degY g.degY * max f.degX g.degX + 2 = ((2 * max nf ng * d + 2 : Nat) : Int) := by
    rw [hA, hB, hd]; push_cast; ring
  unfold resultant at h
  dsimp only at h
  rw [hdr, Int.toNat_natCast] at h
  obtain ⟨t, -, h⟩ := andThen_eq_ok h
  split at h
  · cases h
  · obtain ⟨vf, -, h⟩ := andThen_eq_ok h
    obtain ⟨vg, -, h⟩ := andThen_eq_ok h
    obtain ⟨o, e, -⟩ := andThen_eq_ok h
    obtain ⟨-, -, -, hr, -, h3⟩ := construct_good (ofOpt_eq_ok e)
    obtain ⟨k, hk⟩ := hodd
    have h1 : 1 < Fintype.card F := Fintype.one_lt_card
    refine h3 k (by omega) (by omega) ?_
    have := FiniteField.pow_card_sub_one_eq_one t.2.1.1 hr
    rwa [hk, Nat.add_sub_cancel] at this

/-! ### Examples -/

/-- `a Y + b`, for `a` and `b` of degree at most 1. -/
noncomputable def lin (a b : ℚ[X]) : PVec ℚ := ⟨2, fun i => if i = 0 then b else a⟩

theorem lin_normal {a b : ℚ[X]} (ha : a ≠ 0) : (lin a b).Normal := by
  intro n hn
  have : n = 1 := by have : (lin a b).len = 2 := rfl; omega
  subst this
  exact ha

theorem lin_degX {a b a' b' : ℚ[X]} (h1 : a.natDegree ≤ 1) (h2 : b.natDegree = 1) (h3 : a'.natDegree ≤ 1) (h4 : b'.natDegree ≤ 1) :
    max (lin a b).degX (lin a' b').degX = ((1 : Nat) : Int) := by
  have hp : ∀ c : ℚ[X], c.natDegree ≤ 1 → pdeg c ≤ 1 := by
    intro c hc
    unfold pdeg
    split <;> omega
  have hl : ∀ a b : ℚ[X], a.natDegree ≤ 1 → b.natDegree ≤ 1 → (lin a b).degX ≤ 1 := by
    intro a b ha hb
    refine (degX_le _ _).2 ⟨by omega, fun i _ => ?_⟩
    show pdeg (if i = 0 then b else a) ≤ 1
    split
    · exact hp b hb
    · exact hp a ha
  refine le_antisymm (max_le (hl _ _ h1 h2.le) (hl _ _ h3 h4)) (le_trans ?_ (le_max_left _ _))
  refine le_trans ?_ (degX_get (lin a b) (i := 0) (by show 0 < 2; omega))
  show ((1 : Nat) : Int) ≤ pdeg b
  rw [pdeg, if_neg (by rintro rfl; rw [natDegree_zero] at h2; omega), h2]

theorem pow_two_ne (n : Nat) (s : ℚ) (hs : s ≠ 0) : Points n ((2 : ℚ), s) := by
  refine ⟨two_ne_zero, hs, fun i h1 _ e => ?_⟩
  have : (1 : ℚ) < 2 ^ (2 * i) := one_lt_pow₀ (by norm_num) (by omega)
  dsimp only at e
  rw [e] at this
  exact lt_irrefl _ this

/-- The resultant of `Y - X` and `Y + 1`, with the draw `(2, 1)`. -/
example (T : Tables ℚ) (hmp : Geom.MidOK T.mp 2) : resultant T Polynomial.resultant (fun _ => (2, 1)) (lin 1 (-X)) (lin 1 1) =
    .ok (some (Polynomial.resultant (lin 1 (-X)).poly (lin 1 1).poly)) :=
  C90_success T _ (fun _ _ _ _ => rfl) _ _ _ (lin_normal one_ne_zero) (lin_normal one_ne_zero) 1 1 1 rfl rfl
    (lin_degX (by simp) (by simp) (by simp) (by simp)) hmp (pow_two_ne _ 1 one_ne_zero)
    fun j _ => ⟨by show eval _ (1 : ℚ[X]) ≠ 0; simp, by show eval _ (1 : ℚ[X]) ≠ 0; simp⟩

/-- `(X - 1) Y - X` and `Y + 1`: the first four draws are `(2, 1)`, where the leading coefficient vanishes, and the fifth, `(2, 2)`, is suitable; the
    function returns 0. -/
example (T : Tables ℚ) (hmp : Geom.MidOK T.mp 2) (res : ℚ[X] → ℚ[X] → ℚ) :
    resultant T res (fun i => if i < 4 then (2, 1) else (2, 2)) (lin (X - 1) (-X)) (lin 1 1) = .ok none ∧
    ∀ j : Nat, ((lin (X - 1) (-X)).at' 1).eval (2 * 2 ^ (2 * j)) ≠ 0 ∧ ((lin 1 1).at' 1).eval (2 * 2 ^ (2 * j)) ≠ (0 : ℚ) := by
  have hn : (X - 1 : ℚ[X]).natDegree = 1 := natDegree_X_sub_C 1
  refine ⟨C90_fifth T res _ _ _ (lin_normal (by rintro h; rw [h, natDegree_zero] at hn; omega)) 1 1 1 rfl rfl
    (lin_degX hn.le (by simp) (by simp) (by simp)) hmp ?_ ?_, ?_⟩
  · intro i _
    split
    · exact pow_two_ne _ 1 one_ne_zero
    · exact pow_two_ne _ 2 two_ne_zero
  · intro i hi
    refine ⟨0, by omega, .inl ?_⟩
    show eval _ (X - 1 : ℚ[X]) = 0
    simp [hi]
  · intro j
    refine ⟨?_, by show eval _ (1 : ℚ[X]) ≠ 0; simp⟩
    show eval _ (X - 1 : ℚ[X]) ≠ 0
    have : (1 : ℚ) ≤ 2 ^ (2 * j) := one_le_pow₀ (by norm_num)
    simp only [eval_sub, eval_X, eval_one]
    intro h
    linarith

/-- Over `ZMod 3` the function never returns 1 on two polynomials of degree 1 in `X` and `Y`. -/
example : Odd (Fintype.card (ZMod 3)) ∧ Fintype.card (ZMod 3) ≤ 2 * (2 * max 1 1 * 1 + 2) := by
  rw [ZMod.card]; decide

example : ¬ Points 2 ((0 : ℚ), (1 : ℚ)) := fun h => h.1 rfl

end PML.Ntl.Bivar
