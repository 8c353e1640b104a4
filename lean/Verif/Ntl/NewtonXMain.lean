import Verif.Ntl.NewtonXProps

/-! # Inversion of the Sylvester matrices over `K[X]`: `newton_inv_trunc` (C94) -/

namespace PML.Ntl.NewtonX

open Polynomial PML.Ntl.Utils PML.Ntl.Inv PML.Ntl.Solve PML.Ntl.Bivar PML.Ntl.FftPoints PML.Ntl.StructX PML.Ntl.SylvX
open PML.Ntl.Struct (loopOut)

variable {p : Nat} [Fact p.Prime]

theorem atZero_coeff (A : PVec (ZMod p)) (i : Nat) : (atZero A).coeff i = if i < A.len then (A.at' i).coeff 0 else 0 := by
  unfold atZero
  rw [ofCoeffs_coeff]

theorem atZero_eq (A : PVec (ZMod p)) : atZero A = constPart A := by
  ext i
  rw [atZero_coeff, constPart, coeff_map, poly_coeff, coe_evalRingHom]
  by_cases h : i < A.len
  · rw [if_pos h, if_pos h, coeff_zero_eq_eval_zero]
  · rw [if_neg h, if_neg h, eval_zero]

theorem atZero_degree (A : PVec (ZMod p)) : (atZero A).natDegree ≤ A.len - 1 := by
  rw [natDegree_le_iff_coeff_eq_zero]
  intro i hi
  rw [atZero_coeff, if_neg (by omega)]

theorem pdeg_pos {f : (ZMod p)[X]} (h0 : f ≠ 0) (h : Bivar.pdeg f ≠ 0) : 0 < f.natDegree := by
  unfold Bivar.pdeg at h
  rw [if_neg h0] at h
  omega

/-- The generators of the inverse of the matrix at `X = 0`. -/
theorem invGens_ok {xg : Struct.Xgcd p} (hg : Struct.XgcdOK xg) {a b : (ZMod p)[X]} (ha : 0 < a.natDegree) (hb : 0 < b.natDegree) :
    (IsCoprime a b → ∃ U V, invGens (Struct.Sylv.make a b) xg = .ok (some (U, V)) ∧ U.rows = a.natDegree + b.natDegree ∧ U.cols = 2 ∧
      V.rows = a.natDegree + b.natDegree ∧ V.cols = 2 ∧
      (∀ i j, i < a.natDegree + b.natDegree → j < 2 →
        ∑ k ∈ Finset.range (a.natDegree + b.natDegree), Struct.sylvEntry a b i k * U.e (k, j) = -Struct.genG a b i j) ∧
      ∀ i j, i < 2 → j < a.natDegree + b.natDegree → ∑ k ∈ Finset.range (a.natDegree + b.natDegree), V.e (k, i) * Struct.sylvEntry a b k j =
        if i = 0 then (if j = b.natDegree - 1 then 1 else 0) else if j = a.natDegree + b.natDegree - 1 then 1 else 0) ∧
    (¬ IsCoprime a b → invGens (Struct.Sylv.make a b) xg = .ok none) := by
  have ha0 : a ≠ 0 := fun e => by simp [e] at ha
  have hb0 : b ≠ 0 := fun e => by simp [e] at hb
  have hs : Struct.Reach xg a b (Struct.Sylv.make a b) := .make
  obtain ⟨u, eu, hu⟩ := Struct.prepare_ok hg ha hb hs
  have hr : Struct.Reach xg a b u := .prepare hs eu
  have hgood := Struct.reach_good hg ha0 hb0 hr
  unfold invGens
  rw [eu, Bivar.andThen_ok]
  constructor
  · intro hco
    rw [if_neg (fun h => hu.1 h hco)]
    obtain ⟨G, H, eg, g1, g2⟩ := Struct.generators_eq hgood hb
    have hn := hgood.hn
    rw [eg, Bivar.andThen_ok]
    obtain ⟨iU, e1, u1, u2, u3⟩ := (Struct.C86_solve_matrix_partial hg ha hb hr Struct.newMat ⟨u.n, 2, G⟩ (by show _ ≤ u.n; omega)).1 hco
    obtain ⟨iV, e2, v1, v2, v3⟩ := (Struct.C86_solve_transpose_matrix_partial hg ha hb hr Struct.newMat (Struct.denseT ⟨u.n, 2, H⟩)).1 hn hco
    have u2 : iU.cols = 2 := u2
    have v1 : iV.rows = 2 := v1
    rw [e1, Bivar.andThen_ok, e2, Bivar.andThen_ok]
    obtain ⟨t, et, -⟩ := Struct.C84_constructor ⟨iU.rows, iU.cols, fun ij => -iU.e ij⟩ (Struct.denseT iV) (by show 0 < iU.rows; omega)
      (by show 0 < iV.cols; omega) (by show iU.cols ≤ iV.rows; omega) Struct.Like.makeTM (by simp)
    show ∃ U V, andThen (Struct.Like.makeTM ⟨iU.rows, iU.cols, fun ij => -iU.e ij⟩ (Struct.denseT iV)) _ = _ ∧ _
    rw [et, Bivar.andThen_ok]
    refine ⟨_, _, rfl, u1, u2, v2, v1, fun i j hi hj => ?_, fun i j hi hj => ?_⟩
    · show ∑ k ∈ Finset.range _, Struct.sylvEntry a b i k * -iU.e (k, j) = _
      simp only [mul_neg, Finset.sum_neg_distrib]
      rw [u3 i j hi hj]
      exact congrArg Neg.neg (g1 i j hj hi)
    · show ∑ k ∈ Finset.range _, iV.e (i, k) * Struct.sylvEntry a b k j = _
      rw [v3 i j hi hj]
      show H (j, i) = _
      rcases (by omega : i = 0 ∨ i = 1) with rfl | rfl
      · rw [if_pos rfl, (g2 j).1]
      · rw [if_neg (by omega), (g2 j).2]
  · intro hco
    rw [if_pos (hu.2 hco)]

theorem entry_zero {A B : PVec (ZMod p)} (hB : (atZero B).natDegree = B.len - 1) (i j : Nat) :
    (sylvEntry A B i j).coeff 0 = Struct.sylvEntry (atZero A) (atZero B) i j := by
  have key : ∀ (A : PVec (ZMod p)) j, ((A.poly * X ^ j).coeff i).coeff 0 = (X ^ j * atZero A).coeff i := by
    intro A j
    rw [shift_coeff, coeff_X_pow_mul', atZero_coeff]
    by_cases h : j ≤ i
    · by_cases h' : i - j < A.len
      · rw [if_pos ⟨h, h'⟩, if_pos h, if_pos h']
      · rw [if_neg (by omega), if_pos h, if_neg h', coeff_zero]
    · rw [if_neg (by omega), if_neg h, coeff_zero]
  unfold sylvEntry Struct.sylvEntry
  rw [hB]
  by_cases h : j < B.len - 1
  · rw [if_pos h, if_pos h, key]
  · rw [if_neg h, if_neg h, key]

/-- The first solutions. -/
theorem start {A B : PVec (ZMod p)} {o : Sylv (ZMod p)} (ho : Made A B o) {xg : Struct.Xgcd p} (hg : Struct.XgcdOK xg)
    (dA : (atZero A).natDegree = A.len - 1) (dB : (atZero B).natDegree = B.len - 1) (ha : 2 ≤ A.len) (hb : 2 ≤ B.len) (hco : IsCoprime (atZero A) (atZero B)) :
    ∃ U V r, o.gens newMat newMat = .ok (U, V) ∧ Setup o.n (sylvEntry A B) U V ∧ invGens (Struct.Sylv.make (atZero A) (atZero B)) xg = .ok (some r) ∧
      Sol o.n (sylvEntry A B) U V 1 (mConv r.1) (mT (mConv r.2)) := by
  have h := made_inv ho
  have la := h.la
  have lb := h.lb
  have hn := h.n
  obtain ⟨U, V, e1, e2, e3, e4, e5, e6⟩ := gens_ok h (by omega) newMat newMat
  obtain ⟨G, H, f1, f2, f3, f4, f5, f6, f7⟩ := (invGens_ok hg (a := atZero A) (b := atZero B) (by omega) (by omega)).1 hco
  have hnn : (atZero A).natDegree + (atZero B).natDegree = o.n := by omega
  have ha0 : atZero A ≠ 0 := fun e => by rw [e, natDegree_zero] at dA; omega
  have hb0 : atZero B ≠ 0 := fun e => by rw [e, natDegree_zero] at dB; omega
  have hdisp : ∀ i j, i < o.n → j < o.n → disp 1 0 o.n o.n (sylvEntry A B) i j = ∑ l ∈ Finset.range 2, U.e (i, l) * V.e (j, l) := by
    intro i j hi hj
    rw [Finset.sum_range_succ, Finset.sum_range_one, (e6 i hi).1, (e6 i hi).2.1, (e6 j hj).2.2 0 (by omega), (e6 j hj).2.2 1 (by omega)]
    rw [hn] at hi hj ⊢
    exact sylv_disp la lb (by omega) hi hj
  have hat : ∀ (A : PVec (ZMod p)) i, i < A.len → (atZero A).coeff i = (A.at' i).coeff 0 := fun A i hi => by rw [atZero_coeff, if_pos hi]
  refine ⟨U, V, (G, H), e1, ⟨by omega, e2, e3, e4, e5, hdisp, ?_⟩, f1, ⟨f2.trans hnn, f3, f5, f4.trans hnn, fun i j _ _ => ?_, fun i j _ _ => ?_,
    fun i j hi hj => ?_, fun i j hi hj => ?_⟩⟩
  · obtain ⟨Q, hQ⟩ := Struct.coprime_inv ha0 hb0 hco
    rw [hnn] at hQ
    refine ⟨Q, ?_⟩
    rw [toX_mul, ← toX_one]
    ext i j
    show ∑ k ∈ Finset.range o.n, (sylvEntry A B i k).coeff 0 * Q k j = _
    simp only [entry_zero dB]
    exact hQ i j i.2 j.2
  · exact lt_of_le_of_lt degree_C_le (by norm_num)
  · exact lt_of_le_of_lt degree_C_le (by norm_num)
  · rw [pow_one, X_dvd_iff, coeff_add, finset_sum_coeff]
    show (∑ l ∈ Finset.range o.n, (sylvEntry A B i l * C (G.e (l, j))).coeff 0) + _ = 0
    simp only [coeff_mul_C, entry_zero dB]
    have := f6 i j (by omega) hj
    rw [hnn] at this
    rw [this]
    refine neg_add_eq_zero.2 ?_
    unfold Struct.genG
    rcases (by omega : j = 0 ∨ j = 1) with rfl | rfl
    · rw [if_pos rfl, (e6 i hi).1]
      unfold g0
      rw [show (atZero A).natDegree = o.dAy by omega, show (atZero B).natDegree = o.dBy by omega]
      simp only [coeff_add, coeff_sub]
      refine congrArg₂ (· - ·) (congrArg₂ (· - ·) (congrArg₂ (· + ·) ?_ ?_) ?_) ?_
      · by_cases hc : o.dBy ≤ i
        · rw [if_pos (by omega), if_pos hc, hat A _ (by omega)]
        · rw [if_neg (by omega), if_neg hc, coeff_zero]
      · by_cases hc : i = 0
        · rw [if_pos hc, if_pos hc, hat A _ (by omega)]
        · rw [if_neg hc, if_neg hc, coeff_zero]
      · by_cases hc : i < o.dBy
        · rw [if_pos hc, if_pos hc, hat B _ (by omega)]
        · rw [if_neg hc, if_neg hc, coeff_zero]
      · by_cases hc : i = o.dBy % (o.dAy + o.dBy)
        · rw [if_pos hc, if_pos hc, hat B _ (by omega)]
        · rw [if_neg hc, if_neg hc, coeff_zero]
    · rw [if_neg (by omega), (e6 i hi).2.1]
      unfold g1
      rw [show (atZero A).natDegree = o.dAy by omega, show (atZero B).natDegree = o.dBy by omega]
      simp only [coeff_add]
      refine congrArg₂ (· + ·) ?_ ?_
      · by_cases hc : o.dAy ≤ i
        · rw [if_pos (by omega), if_pos hc, hat B _ (by omega)]
        · rw [if_neg (by omega), if_neg hc, coeff_zero]
      · by_cases hc : i = 0
        · rw [if_pos hc, if_pos hc, hat B _ (by omega)]
        · rw [if_neg hc, if_neg hc, coeff_zero]
  · rw [pow_one, X_dvd_iff, coeff_sub, finset_sum_coeff]
    show (∑ l ∈ Finset.range o.n, (C (H.e (l, i)) * sylvEntry A B l j).coeff 0) - _ = 0
    simp only [coeff_C_mul, entry_zero dB]
    have := f7 i j hi (by omega)
    rw [hnn] at this
    rw [this, (e6 j hj).2.2 i hi, sub_eq_zero]
    unfold h01
    rw [show (atZero B).natDegree = o.dBy by omega, hn]
    rcases (by omega : i = 0 ∨ i = 1) with rfl | rfl
    · rw [if_pos (show 0 = 0 from rfl), if_pos (show 0 = 0 from rfl)]
      split <;> simp
    · rw [if_neg (show ¬ (1 = 0) by omega), if_neg (show ¬ (1 = 0) by omega)]
      split <;> simp

theorem degrees_zero (m : Nat) : (degrees m)[0]? = some (min m 1) := by
  obtain ⟨-, -, r, e⟩ := degrees_spec m
  rw [e]
  rfl

/-- **C94**. The precisions of the iteration: the sequence begins at 1, ends at `m`, and is increasing; each term is twice the previous one, or one less. -/
theorem C94_degrees (m : Nat) (hm : 1 ≤ m) : (∃ r, degrees m = 1 :: r) ∧ (degrees m).getLast? = some m ∧
    List.IsChain (fun x y => x < y ∧ (y = 2 * x ∨ y + 1 = 2 * x)) (degrees m) := by
  obtain ⟨h1, h2, r, h3⟩ := degrees_spec m
  exact ⟨⟨r, by rw [h3, Nat.min_eq_right hm]⟩, h1, h2⟩

theorem newton_sol {A B : PVec (ZMod p)} {o : Sylv (ZMod p)} (ho : Made A B o) (c : Ctx p) (hx : Struct.XgcdOK c.xg) (hmp : MidOK c.mp)
    (hA : constPart A ≠ 0) (hB : constPart B ≠ 0) {m : Nat} (hm : 1 ≤ m)
    (hd : 2 ≤ m ∨ (constPart A).natDegree = A.len - 1 ∧ (constPart B).natDegree = B.len - 1) {iM : Like (ZMod p)} (h : newtonInv c o m = .ok iM) :
    ∃ U V, o.gens newMat newMat = .ok (U, V) ∧ Setup o.n (sylvEntry A B) U V ∧ ∃ G H, Sol o.n (sylvEntry A B) U V m G H ∧ c.like G H = .ok iM := by
  have hi := made_inv ho
  have la := hi.la
  have lb := hi.lb
  have hn := hi.n
  rw [← atZero_eq] at hA hB hd
  rw [← atZero_eq] at hd
  have bA := atZero_degree A
  have bB := atZero_degree B
  unfold newtonInv at h
  rw [hi.a, hi.b] at h
  obtain ⟨UV, e1, h⟩ := andThen_eq h
  have hb : 2 ≤ B.len := by
    by_contra hc
    rw [(C93_gens ho newMat newMat).2 (by omega)] at e1
    cases e1
  dsimp only at h
  by_cases hz : Bivar.pdeg (atZero A) = 0 ∨ Bivar.pdeg (atZero B) = 0
  · rw [if_pos hz] at h
    cases h
  · rw [if_neg hz] at h
    have pA := pdeg_pos hA (fun e => hz (.inl e))
    have pB := pdeg_pos hB (fun e => hz (.inr e))
    obtain ⟨i1, i2⟩ := invGens_ok hx pA pB
    by_cases hco : IsCoprime (atZero A) (atZero B)
    · obtain ⟨G, H, f1, f2, f3, f4, f5, -⟩ := i1 hco
      rw [f1, Bivar.andThen_ok] at h
      dsimp only at h
      obtain ⟨iM0, l0, h⟩ := andThen_eq h
      rw [show lget (degrees m) 0 = .ok 1 by rw [lget_iff, degrees_zero, Nat.min_eq_right hm], Bivar.andThen_ok] at h
      by_cases hdeg : (atZero A).natDegree = A.len - 1 ∧ (atZero B).natDegree = B.len - 1
      · obtain ⟨U, V, r, s1, s2, s3, s4⟩ := start ho hx hdeg.1 hdeg.2 (by omega) hb hco
        rw [e1] at s1
        cases s1
        rw [f1] at s3
        cases s3
        refine ⟨U, V, e1, s2, ?_⟩
        exact loop_inv ho hmp s2 s4 l0 (idx := 0) (by rw [degrees_zero, Nat.min_eq_right hm]) hm h
      · -- the dimensions do not match
        have hm2 : 2 ≤ m := by omega
        exfalso
        obtain ⟨t, rfl⟩ : ∃ t, m = t + 1 := ⟨m - 1, by omega⟩
        unfold newtonLoop at h
        rw [if_pos (by omega)] at h
        obtain ⟨s, h1, -⟩ := andThen_eq h
        obtain ⟨y, z, d, h2, -⟩ := step_inv h1
        have : G.rows = o.n := (right_inv ho h2).1
        omega
    · rw [i2 hco, Bivar.andThen_ok] at h
      cases h

/-- **C94**. `newton_inv_trunc(iM, m)`, if it returns: the object represents a matrix `N` which is the inverse of the Sylvester matrix modulo `X^m`, and its
    generators have degrees less than `m`.  It is assumed that `A(0, Y)` and `B(0, Y)` are not zero and, for `m = 1`, that their degrees are those of `A`
    and `B` (see `C94_newton_short`). -/
theorem C94_newton {A B : PVec (ZMod p)} {o : Sylv (ZMod p)} (ho : Made A B o) (c : Ctx p) (hx : Struct.XgcdOK c.xg) (hmp : MidOK c.mp)
    (hA : constPart A ≠ 0) (hB : constPart B ≠ 0) {m : Nat} (hm : 1 ≤ m)
    (hd : 2 ≤ m ∨ (constPart A).natDegree = A.len - 1 ∧ (constPart B).natDegree = B.len - 1) {iM : Like (ZMod p)} (h : newtonInv c o m = .ok iM) :
    Small iM m ∧ ∃ N, IsInvMod m o.n (sylvEntry A B) N ∧ Represents iM o.n N := by
  obtain ⟨U, V, -, hs, G, H, h1, h2⟩ := newton_sol ho c hx hmp hA hB hm hd h
  exact (Sol.inv hs h1 h2).2.2

/-- **C94**. `newton_inv_trunc(iM, m)` returns, if `A(0, Y)` and `B(0, Y)` are coprime and have positive degrees, those of `A` and `B`, and if all the products that
    it computes, of the Sylvester matrix by the generators at the precisions `k` of the iteration, return (see C93). -/
theorem C94_newton_returns {A B : PVec (ZMod p)} {o : Sylv (ZMod p)} (ho : Made A B o) (c : Ctx p) (hx : Struct.XgcdOK c.xg) (hmp : MidOK c.mp)
    (dA : (constPart A).natDegree = A.len - 1) (dB : (constPart B).natDegree = B.len - 1) (hA : 2 ≤ A.len) (hB : 2 ≤ B.len)
    (hco : IsCoprime (constPart A) (constPart B)) {m : Nat} (hm : 1 ≤ m)
    (hprod : ∀ k U V G H, k ∈ degrees m → k < m → o.gens newMat newMat = .ok (U, V) → Sol o.n (sylvEntry A B) U V k G H → ∀ j, j < 2 →
      ∀ res v, v.len = o.n → ((∀ i, i < o.n → v.at' i = G.e (i, j)) → ∃ w, o.mulRightTrunc c.g res v (2 * k) = .ok w) ∧
        ((∀ i, i < o.n → v.at' i = H.e (j, i)) → ∃ w, o.mulLeftTrunc c.g c.mp res v (2 * k) = .ok w)) : ∃ iM, newtonInv c o m = .ok iM := by
  have hi := made_inv ho
  rw [← atZero_eq] at dA dB hco
  rw [← atZero_eq] at hco
  obtain ⟨U, V, r, s1, s2, s3, s4⟩ := start ho hx dA dB hA hB hco
  unfold newtonInv
  rw [s1, Bivar.andThen_ok, hi.a, hi.b]
  dsimp only
  have pos : ∀ f : (ZMod p)[X], 0 < f.natDegree → Bivar.pdeg f ≠ 0 := fun f hf => by
    unfold Bivar.pdeg
    split
    · omega
    · omega
  rw [if_neg (not_or.2 ⟨pos _ (by omega), pos _ (by omega)⟩), s3, Bivar.andThen_ok]
  dsimp only
  obtain ⟨iM, e, -⟩ := like_made c.g c.x c.y (G := mConv r.1) (H := mT (mT (mConv r.2))) (by rw [s4.gr]; exact s2.pos)
    (by show 0 < (mT (mConv r.2)).cols; rw [s4.hc]; exact s2.pos) (by show _ ≤ (mT (mConv r.2)).rows; rw [s4.gc, s4.hr])
  rw [show c.like _ _ = .ok iM from e, Bivar.andThen_ok, show lget (degrees m) 0 = .ok 1 by rw [lget_iff, degrees_zero, Nat.min_eq_right hm], Bivar.andThen_ok]
  refine loop_ok ho hmp s2 (fun k G H _ h2 h3 h4 => ?_) s4 e (idx := 0) (by rw [degrees_zero, Nat.min_eq_right hm]) (fun _ => le_refl _) (by omega)
  refine ⟨right_returns ho h4.gr fun j hj res v hv => ?_, left_returns ho hmp h4.hc fun j hj res v hv => ?_⟩
  · rw [h4.gc] at hj
    exact (hprod k U V G H h3 h2 s1 h4 j hj res v hv).1
  · rw [h4.hr] at hj
    exact (hprod k U V G H h3 h2 s1 h4 j hj res v hv).2

/-- **C94**. `newton_inv_trunc` stops with an error if one of `A(0, Y)`, `B(0, Y)` is a nonzero constant, or if they have positive degrees and are not coprime; its
    behaviour is undefined if `B` has degree 0 in `Y`. -/
theorem C94_newton_errors {A B : PVec (ZMod p)} {o : Sylv (ZMod p)} (ho : Made A B o) (c : Ctx p) (hx : Struct.XgcdOK c.xg) (m : Nat) :
    (2 ≤ B.len → (constPart A ≠ 0 ∧ (constPart A).natDegree = 0 ∨ constPart B ≠ 0 ∧ (constPart B).natDegree = 0) → newtonInv c o m = .error) ∧
    (2 ≤ B.len → 0 < (constPart A).natDegree → 0 < (constPart B).natDegree → ¬ IsCoprime (constPart A) (constPart B) → newtonInv c o m = .error) ∧
    (B.len < 2 → newtonInv c o m = .ub) := by
  have hi := made_inv ho
  rw [← atZero_eq, ← atZero_eq]
  unfold newtonInv
  rw [hi.a, hi.b]
  have pd : ∀ f : (ZMod p)[X], f ≠ 0 → Bivar.pdeg f = f.natDegree := fun f hf => by
    unfold Bivar.pdeg
    rw [if_neg hf]
  refine ⟨fun hb h => ?_, fun hb h1 h2 h3 => ?_, fun hb => ?_⟩
  · obtain ⟨U, V, e, -⟩ := (C93_gens ho newMat newMat).1 hb
    rw [e, Bivar.andThen_ok]
    dsimp only
    rw [if_pos]
    rcases h with ⟨h, h'⟩ | ⟨h, h'⟩
    · left
      rw [pd _ h, h']
      rfl
    · right
      rw [pd _ h, h']
      rfl
  · obtain ⟨U, V, e, -⟩ := (C93_gens ho newMat newMat).1 hb
    rw [e, Bivar.andThen_ok]
    dsimp only
    have n1 : atZero A ≠ 0 := fun e => by rw [e, natDegree_zero] at h1; omega
    have n2 : atZero B ≠ 0 := fun e => by rw [e, natDegree_zero] at h2; omega
    rw [if_neg (by rw [pd _ n1, pd _ n2]; omega), (invGens_ok hx h1 h2).2 h3, Bivar.andThen_ok]
  · rw [(C93_gens ho newMat newMat).2 hb]
    rfl

/-- **C94**. If the degree of `A(0, Y)` or of `B(0, Y)` is less than that of `A` or `B` (and they are coprime, of positive degrees), then `newton_inv_trunc` stops with
    an error for `m ≥ 2`, even when the Sylvester matrix is invertible at 0; for `m ≤ 1`, the result is an object of another dimension. -/
theorem C94_newton_short {A B : PVec (ZMod p)} {o : Sylv (ZMod p)} (ho : Made A B o) (c : Ctx p) (hx : Struct.XgcdOK c.xg) (hB : 2 ≤ B.len)
    (h1 : 0 < (constPart A).natDegree) (h2 : 0 < (constPart B).natDegree) (hco : IsCoprime (constPart A) (constPart B))
    (hd : (constPart A).natDegree < A.len - 1 ∨ (constPart B).natDegree < B.len - 1) (m : Nat) :
    (2 ≤ m → newtonInv c o m = .error) ∧
    (m ≤ 1 → ∃ iM, newtonInv c o m = .ok iM ∧ iM.m = (constPart A).natDegree + (constPart B).natDegree ∧ iM.m < o.n ∧ iM.n = iM.m) := by
  have hi := made_inv ho
  have la := hi.la
  have lb := hi.lb
  have hn := hi.n
  have bA := atZero_degree A
  have bB := atZero_degree B
  rw [← atZero_eq] at *
  rw [← atZero_eq] at *
  unfold newtonInv
  rw [hi.a, hi.b]
  have pd : ∀ f : (ZMod p)[X], 0 < f.natDegree → Bivar.pdeg f ≠ 0 := fun f hf => by
    unfold Bivar.pdeg
    split
    · omega
    · omega
  obtain ⟨U, V, e, -⟩ := (C93_gens ho newMat newMat).1 hB
  obtain ⟨G, H, f1, f2, f3, f4, f5, -⟩ := (invGens_ok hx h1 h2).1 hco
  obtain ⟨iM, l1, l2, l3, -⟩ := like_made c.g c.x c.y (G := mConv G) (H := mT (mT (mConv H))) (by show 0 < G.rows; omega)
    (by show 0 < H.rows; omega) (by show G.cols ≤ H.cols; omega)
  have l2 : iM.m = G.rows := l2
  have l3 : iM.n = H.rows := l3
  rw [e, Bivar.andThen_ok]
  dsimp only
  rw [if_neg (not_or.2 ⟨pd _ h1, pd _ h2⟩), f1, Bivar.andThen_ok]
  dsimp only
  rw [show c.like (mConv G) (mT (mConv H)) = .ok iM from l1, Bivar.andThen_ok, show lget (degrees m) 0 = .ok (min m 1) by rw [lget_iff, degrees_zero],
    Bivar.andThen_ok]
  refine ⟨fun hm => ?_, fun hm => ?_⟩
  · obtain ⟨t, rfl⟩ : ∃ t, m = t + 1 := ⟨m - 1, by omega⟩
    unfold newtonLoop newtonStep Ctx.right matRight
    rw [if_pos (by omega), if_pos (by show G.rows ≠ o.n; omega)]
    rfl
  · refine ⟨iM, ?_, by omega, by omega, by omega⟩
    rcases m with _ | t
    · unfold newtonLoop
      rw [if_neg (by omega)]
    · unfold newtonLoop
      rw [if_neg (by omega)]

/-- **C94**. The precision 0 is treated like the precision 1. -/
theorem C94_newton_zero (c : Ctx p) (o : Sylv (ZMod p)) : newtonInv c o 0 = newtonInv c o 1 := by
  unfold newtonInv
  rw [show lget (degrees 0) 0 = .ok 0 by rw [lget_iff, degrees_zero]; rfl, show lget (degrees 1) 0 = .ok 1 by rw [lget_iff, degrees_zero]; rfl]
  rfl

end PML.Ntl.NewtonX
