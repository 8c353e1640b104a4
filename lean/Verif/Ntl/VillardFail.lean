import Verif.Ntl.VillardProps

/-!
# C113: when Villard's algorithm returns 0
-/

namespace PML.Ntl.Bivar

open Polynomial PML.Ntl.Utils PML.Ntl.Inv PML.Ntl.Solve PML.Ntl.Struct PML.Ntl.Series

variable {p : Nat} [Fact p.Prime]

/-- At the fifth round, the rounds before it did not succeed. -/
theorem attempts_five {F : Type} [Field F] [DecidableEq F] {T : Tables F} {draw : Nat → F × F} {f g : PVec F} {dr : Nat} : ∀ (k nb : Nat) t, nb + k = 5 →
    attempts T draw f g dr k nb = .ok t → t.1 = 5 → ∀ j, nb ≤ j → j < 4 → ∃ u, tryPoints T f g dr (draw j).1 (draw j).2 = .ok (false, u)
  | 0, nb, t, _, h, _, _, _, _ => by cases h
  | k + 1, nb, t, hk, h, h5, j, h1, h2 => by
    obtain ⟨u, e, h⟩ := andThen_eq_ok h
    split at h
    · rename_i hc
      rcases Nat.lt_or_ge nb j with h3 | h3
      · exact attempts_five k (nb + 1) t (by omega) h h5 j h3 h2
      · obtain rfl : j = nb := by omega
        exact ⟨u.2, by rw [e, ← hc.1]⟩
    · cases h
      dsimp only at h5
      omega

theorem blockLoop_none {v : Env p} {m dl : Nat} {vf vg : Nat → (ZMod p)[X]} (h : blockLoop v m dl vf vg = .ok none) :
    ∃ i, i < dl ∧ (Sylv.make (vf i) (vg i)).topRight v.x v.pit v.co m = .ok none := by
  refine loopOut_of_ok (fun k (st : Option (Nat → PMat (ZMod p))) => st = none → ∃ i, i < k ∧
    (Sylv.make (vf i) (vg i)).topRight v.x v.pit v.co m = .ok none) h (fun h => by cases h) ?_ rfl
  intro k t u hk e ih hu
  subst hu
  cases t with
  | none =>
    obtain ⟨i, hi, h⟩ := ih rfl
    exact ⟨i, by omega, h⟩
  | some B' =>
    obtain ⟨r, e1, e2⟩ := andThen_eq_ok e
    cases r with
    | none => exact ⟨k, by omega, e1⟩
    | some b => cases e2

theorem topRight_none {g : Xgcd p} (hg : XgcdOK g) {pit : (ZMod p)[X] → Nat → (ZMod p)[X]} (hpit : PlainInvTruncOK pit) {co : Nat} (hc : 5 ≤ co)
    {a b : (ZMod p)[X]} (ha : 0 < a.natDegree) (hb : 0 < b.natDegree) {m : Nat} (hm : m ≤ a.natDegree + b.natDegree)
    (h : (Sylv.make a b).topRight g pit co m = .ok none) : ¬ IsCoprime a b := by
  intro hco
  have ha0 : a ≠ 0 := fun e => by simp [e] at ha
  have hb0 : b ≠ 0 := fun e => by simp [e] at hb
  obtain ⟨N, hN⟩ := coprime_inv ha0 hb0 hco
  obtain ⟨h1, h2⟩ := C112_block_partial hg hpit hc ha hb hco .make hm hN
  by_cases h0 : N (b.natDegree - 1) 0 = 0
  · rw [h2 h0] at h
    cases h
  · obtain ⟨B', e, -⟩ := h1 h0
    rw [e] at h
    cases h

/-- Values with a common factor: the resultant vanishes. -/
theorem resultant_zero {f g : PVec (ZMod p)} (hf : f.Normal) (hg : g.Normal) {nf ng : Nat} (hfl : f.len = nf + 1) (hgl : g.len = ng + 1) {t : ZMod p}
    (h1 : (f.at' nf).eval t ≠ 0) (h2 : (g.at' ng).eval t ≠ 0) :
    (Polynomial.resultant f.poly g.poly).eval t = 0 ↔ ¬ IsCoprime (f.poly.map (evalRingHom t)) (g.poly.map (evalRingHom t)) := by
  obtain ⟨a1, a2⟩ := map_natDegree hfl h1
  obtain ⟨b1, b2⟩ := map_natDegree hgl h2
  have e := resultant_map_map f.poly g.poly f.poly.natDegree g.poly.natDegree (evalRingHom t)
  have h := resultant_eq_zero_iff (f := f.poly.map (evalRingHom t)) (g := g.poly.map (evalRingHom t))
  rw [a1, b1, ← natDegree_poly hf hfl, ← natDegree_poly hg hgl, e] at h
  rw [← coe_evalRingHom, h]
  exact ⟨fun h => h.2, fun h => ⟨Or.inl a2, h⟩⟩

theorem blocks_none {v : Env p} {f g : PVec (ZMod p)} (hfN : f.Normal) (hgN : g.Normal) {nf ng : Nat} (hf : f.len = nf + 1) (hg : g.len = ng + 1) (hv : v.Ok (max f.degX g.degX + 1).toNat)
    (h0f : 0 < nf) (h0g : 0 < ng) {m dl : Nat} (hm : m ≤ nf + ng) {draw : Nat → ZMod p}
    (h : villardBlocks v m dl draw f g = .ok none) :
    (∀ k, k < 4 → ∃ i, i < dl ∧ ((f.at' nf).eval (draw k ^ (2 * i)) = 0 ∨ (g.at' ng).eval (draw k ^ (2 * i)) = 0)) ∨
    ∃ k i, k < 4 ∧ i < dl ∧ (Polynomial.resultant f.poly g.poly).eval (draw k ^ (2 * i)) = 0 := by
  obtain ⟨⟨nb, ⟨r, s⟩, o, vf, vg⟩, e1, h⟩ := andThen_eq_ok h
  split at h
  · rename_i h5
    left
    intro k hk
    obtain ⟨⟨o', vf', vg'⟩, e2⟩ := attempts_five 5 0 _ rfl e1 h5 k (Nat.zero_le _) hk
    dsimp only at e2
    obtain ⟨good, hon, hdf, hdg, hvf, hvg, hb⟩ := tryPoints_ok hf hg hv.mid e2
    by_contra hn
    push Not at hn
    have := hb.2 fun i hi => ⟨by rw [hvf i hi, one_mul]; exact (hn i hi).1, by rw [hvg i hi, one_mul]; exact (hn i hi).2⟩
    cases this
  · rename_i h5
    right
    obtain ⟨h1, h2, hd, b, e2, h3⟩ := attempts_ok 5 0 _ rfl e1
    dsimp only at h1 h2 hd e2 h3 h h5
    obtain ⟨good, hon, hdf, hdg, hvf, hvg, hb⟩ := tryPoints_ok hf hg hv.mid e2
    obtain ⟨pf, e3, h⟩ := andThen_eq_ok h
    obtain ⟨pg, e4, h⟩ := andThen_eq_ok h
    obtain ⟨R, e5, h⟩ := andThen_eq_ok h
    have hbt := hb.1 (h3.resolve_right h5)
    obtain ⟨pf', e3', k3⟩ := values_spec (T := v.T) good (by rw [hon]; exact hv.mid) f nf dl hf hdf vf hvf
    obtain ⟨pg', e4', k4⟩ := values_spec (T := v.T) good (by rw [hon]; exact hv.mid) g ng dl hg hdg vg hvg
    rw [e3] at e3'
    rw [e4] at e4'
    cases e3'
    cases e4'
    cases R with
    | some B => cases h
    | none =>
      have hr : r = draw (nb - 1) := congrArg Prod.fst hd
      have hs : s = 1 := congrArg Prod.snd hd
      subst hs
      simp only [one_mul] at hvf hvg k3 k4
      obtain ⟨i, hi, h6⟩ := blockLoop_none e5
      rw [k3 i hi, k4 i hi] at h6
      have hlf : (f.at' nf).eval (r ^ (2 * i)) ≠ 0 := hvf i hi ▸ (hbt i hi).1
      have hlg : (g.at' ng).eval (r ^ (2 * i)) ≠ 0 := hvg i hi ▸ (hbt i hi).2
      have d1 := (map_natDegree hf hlf).1
      have d2 := (map_natDegree hg hlg).1
      refine ⟨nb - 1, i, by omega, hi, ?_⟩
      rw [← hr, resultant_zero hfN hgN hf hg hlf hlg]
      exact topRight_none hv.xgcd hv.pit hv.co (by omega) (by omega) (by omega) h6

/-- **C113**. When `resultant_villard` returns 0 for two polynomials of positive degree in `Y`: either, for each of the first four random elements, a leading coefficient
    vanishes at one of the points, or the resultant vanishes at one of the points. -/
theorem C113_failure {v : Env p} {f g : PVec (ZMod p)} (hf : f.Normal) (hg : g.Normal) {nf ng d : Nat} (hfl : f.len = nf + 1) (hgl : g.len = ng + 1)
    (hd : max f.degX g.degX = d) (hv : v.Ok (d + 1)) (h0f : 0 < nf) (h0g : 0 < ng) {cbrt : Nat → Nat} (hc : CbrtOK cbrt)
    {rest : Nat → Nat → ZMod p → (Nat → PMat (ZMod p)) → Out (ZMod p)[X]} {draw : Nat → ZMod p} (h : villard v cbrt rest draw f g = .ok none) :
    (∀ k, k < 4 → ∃ i, i < 4 * d * ((max nf ng + cbrt (max nf ng) - 1) / cbrt (max nf ng)) + 2 ∧
      ((f.at' nf).eval (draw k ^ (2 * i)) = 0 ∨ (g.at' ng).eval (draw k ^ (2 * i)) = 0)) ∨
    ∃ k i, k < 4 ∧ i < 4 * d * ((max nf ng + cbrt (max nf ng) - 1) / cbrt (max nf ng)) + 2 ∧
      (Polynomial.resultant f.poly g.poly).eval (draw k ^ (2 * i)) = 0 := by
  have hA : f.degY = (nf : Int) := by rw [PVec.degY, hfl]; push_cast; ring
  have hB : g.degY = (ng : Int) := by rw [PVec.degY, hgl]; push_cast; ring
  have hn : (max f.degY g.degY).toNat = max nf ng := by rw [hA, hB]; omega
  unfold villard at h
  dsimp only at h
  rw [hn, hd, Int.toNat_natCast] at h
  split at h
  · cases h
  · have hle := hc.le (max nf ng)
    obtain ⟨r, e, h⟩ := andThen_eq_ok h
    cases r with
    | some aB =>
      obtain ⟨R, -, h⟩ := andThen_eq_ok h
      cases h
    | none => exact blocks_none hf hg hfl hgl (by rw [hd]; exact hv) h0f h0g (by omega) e

/-- **C113**. When `resultant_villard_tdeg` returns 0: the size of the blocks is larger than one of the degrees in `Y`, or, as for `resultant_villard`, a leading
    coefficient vanishes for each of the first four random elements, or the resultant vanishes at one of the points. -/
theorem C113_failure_tdeg {v : Env p} {f g : PVec (ZMod p)} (hf : f.Normal) (hg : g.Normal) {nf ng d t : Nat} (hfl : f.len = nf + 1) (hgl : g.len = ng + 1)
    (hd : max f.degX g.degX = d) (ht : f.tdeg * g.tdeg = t) (hv : v.Ok (d + 1)) {cbrt : Nat → Nat}
    {rest : Nat → Nat → ZMod p → (Nat → PMat (ZMod p)) → Out (ZMod p)[X]} {draw : Nat → ZMod p} (h : villardTdeg v cbrt rest draw f g = .ok none)
    {m dl : Nat} (hm : m = cbrt ((nf + ng) / 2)) (hdl : dl = 1 + nf + ng + 2 * (t + m - 1) / m) :
    nf < m ∨ ng < m ∨
    (∀ k, k < 4 → ∃ i, i < dl ∧ ((f.at' nf).eval (draw k ^ (2 * i)) = 0 ∨ (g.at' ng).eval (draw k ^ (2 * i)) = 0)) ∨
    ∃ k i, k < 4 ∧ i < dl ∧ (Polynomial.resultant f.poly g.poly).eval (draw k ^ (2 * i)) = 0 := by
  have hA : f.degY = (nf : Int) := by rw [PVec.degY, hfl]; push_cast; ring
  have hB : g.degY = (ng : Int) := by rw [PVec.degY, hgl]; push_cast; ring
  unfold villardTdeg at h
  dsimp only at h
  rw [hA, hB, ht, Int.toNat_natCast, Int.toNat_natCast, Int.toNat_natCast, ← hm, ← hdl] at h
  split at h
  · cases h
  · split at h
    · omega
    · obtain ⟨r, e, h⟩ := andThen_eq_ok h
      cases r with
      | some aB =>
        obtain ⟨R, -, h⟩ := andThen_eq_ok h
        cases h
      | none => exact Or.inr (Or.inr (blocks_none hf hg hfl hgl (by rw [hd]; exact hv) (by omega) (by omega) (by omega) e))

/-- The degrees 1 and 16 in `Y`: the blocks have size 2. -/
example {v : Env p} {f g : PVec (ZMod p)} (hfl : f.len = 2) (hgl : g.len = 17) {cbrt : Nat → Nat} (hc : CbrtOK cbrt)
    (rest : Nat → Nat → ZMod p → (Nat → PMat (ZMod p)) → Out (ZMod p)[X]) (draw : Nat → ZMod p) : villardTdeg v cbrt rest draw f g = .ok none := by
  have h8 : cbrt 8 = 2 := by
    obtain ⟨h1, h2⟩ := hc 8
    have h3 : cbrt 8 < 3 := by
      by_contra hn
      have := Nat.pow_le_pow_left (show 3 ≤ cbrt 8 by omega) 3
      omega
    interval_cases h : cbrt 8
    all_goals omega
  unfold villardTdeg
  dsimp only
  rw [show f.degY = 1 by rw [PVec.degY, hfl]; rfl, show g.degY = 16 by rw [PVec.degY, hgl]; rfl, show ((1 : Int).toNat + (16 : Int).toNat) / 2 = 8 from rfl, h8, if_neg (by omega),
    if_pos (by decide)]

theorem blockLoop_fail {v : Env p} {m dl : Nat} {vf vg : Nat → (ZMod p)[X]} (hdl : 0 < dl)
    (h : ∀ i, i < dl → (Sylv.make (vf i) (vg i)).topRight v.x v.pit v.co m = .ok none) : blockLoop v m dl vf vg = .ok none := by
  obtain ⟨u, e, hu⟩ := PML.Ntl.Struct.loopOut_inv (fun k (st : Option (Nat → PMat (ZMod p))) => 0 < k → st = none) (k := dl) (s := some fun _ => ⟨0, 0, fun _ => 0⟩)
    (f := fun i st =>
      match st with
      | none => .ok none
      | some B => andThen ((Sylv.make (vf i) (vg i)).topRight v.x v.pit v.co m) fun r => .ok (r.map fun b => write i b B))
    (fun h => absurd h (Nat.lt_irrefl 0)) (by
      intro i st hi _
      cases st with
      | none => exact ⟨none, rfl, fun _ => rfl⟩
      | some B =>
        refine ⟨none, ?_, fun _ => rfl⟩
        dsimp only
        rw [h i hi]
        rfl)
  rw [hu hdl] at e
  exact e

/-- **C113**. If the resultant is zero, the first random element gives enough distinct points and no leading coefficient vanishes at them, then
    `resultant_villard` returns 0. -/
theorem C113_zero_returns {v : Env p} {f g : PVec (ZMod p)} (hf : f.Normal) (hg : g.Normal) {nf ng d : Nat} (hfl : f.len = nf + 1) (hgl : g.len = ng + 1)
    (hd : max f.degX g.degX = d) (hv : v.Ok (d + 1)) (h0f : 0 < nf) (h0g : 0 < ng) {cbrt : Nat → Nat} (hc : CbrtOK cbrt)
    (rest : Nat → Nat → ZMod p → (Nat → PMat (ZMod p)) → Out (ZMod p)[X]) (draw : Nat → ZMod p) (hp : Points (d + 1) (draw 0, 1))
    (hl : ∀ i, (f.at' nf).eval (draw 0 ^ (2 * i)) ≠ 0 ∧ (g.at' ng).eval (draw 0 ^ (2 * i)) ≠ 0) (hR : Polynomial.resultant f.poly g.poly = 0) :
    villard v cbrt rest draw f g = .ok none := by
  have hA : f.degY = (nf : Int) := by rw [PVec.degY, hfl]; push_cast; ring
  have hB : g.degY = (ng : Int) := by rw [PVec.degY, hgl]; push_cast; ring
  have hn : (max f.degY g.degY).toNat = max nf ng := by rw [hA, hB]; omega
  have hN : (max f.degX g.degX + 1).toNat = d + 1 := by rw [hd]; omega
  have hle := hc.le (max nf ng)
  have hm0 : cbrt (max nf ng) ≠ 0 := by
    intro e
    have := (hc (max nf ng)).2
    rw [e] at this
    omega
  unfold villard
  dsimp only
  rw [hn, hd, Int.toNat_natCast, if_neg hm0]
  have hdl : 0 < 2 * 2 * d * ((max nf ng + cbrt (max nf ng) - 1) / cbrt (max nf ng)) + 2 := by omega
  generalize 2 * 2 * d * ((max nf ng + cbrt (max nf ng) - 1) / cbrt (max nf ng)) + 2 = dl at hdl
  have hmp' : Geom.MidOK v.T.mp (max f.degX g.degX + 1).toNat := by rw [hN]; exact hv.mid
  obtain ⟨b, o, vf, vg, e⟩ := tryPoints_run v.T dl hfl hgl hf hmp' (r := draw 0) (s := 1) (by rw [hN]; exact hp)
  obtain ⟨good, hon, hdf, hdg, hvf, hvg, hb⟩ := tryPoints_ok hfl hgl hmp' e
  have hbt : b = true := hb.2 fun j hj => by
    rw [hvf j hj, hvg j hj, one_mul]
    exact hl j
  have ea : attempts v.T (fun i => (draw i, 1)) f g dl 5 0 = .ok (1, (draw 0, 1), o, vf, vg) := by
    rw [attempts, e, andThen_ok]
    dsimp only
    rw [hbt, if_neg (by simp)]
  obtain ⟨pf, e3, k3⟩ := values_spec (T := v.T) good (by rw [hon]; exact hmp') f nf dl hfl hdf vf hvf
  obtain ⟨pg, e4, k4⟩ := values_spec (T := v.T) good (by rw [hon]; exact hmp') g ng dl hgl hdg vg hvg
  have e5 := blockLoop_fail (v := v) (m := cbrt (max nf ng)) (vf := pf) (vg := pg) hdl (by
    intro i hi
    obtain ⟨h1, h2⟩ := hl i
    obtain ⟨d1, n1⟩ := map_natDegree hfl h1
    obtain ⟨d2, n2⟩ := map_natDegree hgl h2
    rw [k3 i hi, k4 i hi, one_mul]
    refine (C112_refused hv.xgcd v.pit v.co n1 n2 .make _).2 (by omega) ?_
    rw [C86_invertible n1 n2]
    exact (resultant_zero hf hg hfl hgl h1 h2).1 (by rw [hR, eval_zero]))
  unfold villardEnd villardBlocks
  rw [ea, andThen_ok]
  dsimp only
  rw [if_neg (by omega), e3, andThen_ok, e4, andThen_ok, e5]
  rfl

/-- `Y` and `Y`, with the draw 1; this is also a case of `C113_failure`. -/
example {v : Env p} (hv : v.Ok 1) {cbrt : Nat → Nat} (hc : CbrtOK cbrt) (rest : Nat → Nat → ZMod p → (Nat → PMat (ZMod p)) → Out (ZMod p)[X]) :
    villard v cbrt rest (fun _ => 1) (yPlus 0) (yPlus 0) = .ok none := by
  have hd : max (yPlus (0 : (ZMod p)[X])).degX (yPlus (0 : (ZMod p)[X])).degX = ((0 : Nat) : Int) := by
    have h2 : (yPlus (0 : (ZMod p)[X])).degX ≤ 0 := (degX_le _ _).2 ⟨by omega, fun i _ => by
      show pdeg (if i = 0 then (0 : (ZMod p)[X]) else 1) ≤ 0
      split <;> simp [pdeg]⟩
    have h3 := degX_nonneg (yPlus_normal (0 : (ZMod p)[X])) (by show 2 ≠ 0; omega)
    omega
  refine C113_zero_returns (yPlus_normal 0) (yPlus_normal 0) (nf := 1) (ng := 1) rfl rfl hd hv one_pos one_pos hc rest _ ⟨one_ne_zero, one_ne_zero, fun i h1 h2 => by omega⟩
    (fun i => ⟨by show eval _ (1 : (ZMod p)[X]) ≠ 0; simp, by show eval _ (1 : (ZMod p)[X]) ≠ 0; simp⟩) (resultant_self_eq_zero _ ?_)
  rw [natDegree_poly (yPlus_normal 0) (n := 1) rfl]
  exact one_ne_zero

end PML.Ntl.Bivar
