import Verif.Ntl.NewtonXHigh

/-! # Inversion of the Sylvester matrices over `K[X]`: examples (C94) -/

namespace PML.Ntl.NewtonX

open Polynomial PML.Ntl.Utils PML.Ntl.Inv PML.Ntl.Solve PML.Ntl.Bivar PML.Ntl.FftPoints PML.Ntl.StructX PML.Ntl.SylvX

local instance fact7 : Fact (Nat.Prime 7) := ⟨by norm_num⟩

/-- The middle product as a part of the product. -/
noncomputable def exMid (a c : (ZMod 7)[X]) (dA dB : Int) : Out (ZMod 7)[X] :=
  .ok (ofCoeffs (dB + 1).toNat fun j => ((a %ₘ X ^ (dA.toNat + 1)) * c).coeff (dA.toNat + j))

theorem exMid_ok : MidOK exMid := by
  refine ⟨fun a c dA dB h => ?_, fun a c dA l => ⟨_, rfl, fun j => ?_⟩⟩
  · unfold exMid
    congr 1
    ext t
    rw [ofCoeffs_coeff]
    rcases h with h | h <;> simp [h]
  · rw [ofCoeffs_coeff, Int.toNat_natCast, show ((l : Int) - 1 + 1).toNat = l by omega]

/-- Some uninitialised data. -/
noncomputable def exCtx (xg : Struct.Xgcd 7) : Ctx 7 := ⟨⟨fun i => i, fun i j => i + j, ⟨5, fun i => C 3 * X ^ i⟩⟩, 3, -2, xg, exMid⟩

/-- `A = 1 + (2 + X) Y`. -/
noncomputable def exA : PVec (ZMod 7) := ⟨2, fun i => if i = 0 then C 1 else C 2 + X⟩

/-- `B = 3 + (1 + X) Y`. -/
noncomputable def exB : PVec (ZMod 7) := ⟨2, fun i => if i = 0 then C 3 else C 1 + X⟩

theorem exA0 : (exA.at' 0).coeff 0 = 1 := coeff_C_zero
theorem exA1 : (exA.at' 1).coeff 0 = 2 := by show (C 2 + X : (ZMod 7)[X]).coeff 0 = 2; simp
theorem exB0 : (exB.at' 0).coeff 0 = 3 := coeff_C_zero
theorem exB1 : (exB.at' 1).coeff 0 = 1 := by show (C 1 + X : (ZMod 7)[X]).coeff 0 = 1; simp

theorem ne_of_coeff {f : (ZMod 7)[X]} {a : ZMod 7} (h : f.coeff 0 = a) (ha : a ≠ 0) : f ≠ 0 := fun e => by
  rw [e, coeff_zero] at h
  exact ha h.symm

theorem ex_make (g : Junk (ZMod 7)) : ∃ o : Sylv (ZMod 7), Sylv.make g exA exB = .ok o ∧ o.n = 2 :=
  (C93_make g exA exB).1 1 1 rfl rfl (ne_of_coeff exA1 (by decide)) (ne_of_coeff exB1 (by decide))

theorem coeff_of_dvd {f : (ZMod 7)[X]} {k : Nat} (hk : 1 ≤ k) (h : X ^ k ∣ f) : f.coeff 0 = 0 :=
  X_dvd_iff.1 (dvd_trans (dvd_pow_self X (by omega)) h)

/-- The generators do not vanish at `x = 0`. -/
theorem ex_sol {o : Sylv (ZMod 7)} (ho : Made exA exB o) {U V G H : PMat (ZMod 7)[X]} (hg : o.gens newMat newMat = .ok (U, V)) {k : Nat} (hk : 1 ≤ k)
    (h : Sol o.n (sylvEntry exA exB) U V k G H) :
    (∀ i j, i < 2 → j < 2 → (G.e (i, j)).coeff 0 ≠ 0) ∧ ∀ i, i < 2 → ∃ l, l < 2 ∧ (H.e (i, l)).coeff 0 ≠ 0 := by
  have hi := made_inv ho
  have la : 2 = o.dAy + 1 := hi.la
  have lb : 2 = o.dBy + 1 := hi.lb
  have a1 : o.dAy = 1 := by omega
  have b1 : o.dBy = 1 := by omega
  have hn : o.n = 2 := by rw [hi.n]; omega
  obtain ⟨U', V', e1, -, -, -, -, e6⟩ := gens_ok hi (by omega) newMat newMat
  rw [hg] at e1
  cases e1
  rw [hn] at e6 h
  rw [a1, b1] at e6
  have m00 : (sylvEntry exA exB 0 0).coeff 0 = 1 := by unfold sylvEntry; rw [if_pos (by decide), shift_coeff, if_pos (by decide)]; exact exA0
  have m10 : (sylvEntry exA exB 1 0).coeff 0 = 2 := by unfold sylvEntry; rw [if_pos (by decide), shift_coeff, if_pos (by decide)]; exact exA1
  have m01 : (sylvEntry exA exB 0 1).coeff 0 = 3 := by unfold sylvEntry; rw [if_neg (by decide), shift_coeff, if_pos (by decide)]; exact exB0
  have m11 : (sylvEntry exA exB 1 1).coeff 0 = 1 := by unfold sylvEntry; rw [if_neg (by decide), shift_coeff, if_pos (by decide)]; exact exB1
  have u00 : (U.e (0, 0)).coeff 0 = -1 := by
    rw [(e6 0 (by omega)).1]
    simp only [g0, coeff_add, coeff_sub, if_neg (by decide : ¬ 1 ≤ 0), if_pos, if_neg (by decide : ¬ 0 = 1 % (1 + 1)), if_pos (by decide : 0 < 1), exA1, exB0, coeff_zero]
    decide
  have u10 : (U.e (1, 0)).coeff 0 = 0 := by
    rw [(e6 1 (by omega)).1]
    simp only [g0, coeff_add, coeff_sub, if_pos (by decide : 1 ≤ 1), if_neg (by decide : ¬ 1 = 0), if_neg (by decide : ¬ 1 < 1), (by decide : 1 % (1 + 1) = 1), if_true,
      (by decide : 1 - 1 = 0), exA0, exB1, coeff_zero]
    decide
  have u01 : (U.e (0, 1)).coeff 0 = 1 := by
    rw [(e6 0 (by omega)).2.1]
    simp only [g1, coeff_add, if_neg (by decide : ¬ 1 ≤ 0), if_pos, exB1, coeff_zero]
    decide
  have u11 : (U.e (1, 1)).coeff 0 = 3 := by
    rw [(e6 1 (by omega)).2.1]
    simp only [g1, coeff_add, if_pos (by decide : 1 ≤ 1), if_neg (by decide : ¬ 1 = 0), (by decide : 1 - 1 = 0), exB0, coeff_zero]
    decide
  have v00 : (V.e (0, 0)).coeff 0 = 1 := by
    rw [(e6 0 (by omega)).2.2 0 (by omega)]
    simp [h01]
  have v11 : (V.e (1, 1)).coeff 0 = 1 := by
    rw [(e6 1 (by omega)).2.2 1 (by omega)]
    simp [h01]
  have eG : ∀ i j, i < 2 → j < 2 → (sylvEntry exA exB i 0).coeff 0 * (G.e (0, j)).coeff 0 + (sylvEntry exA exB i 1).coeff 0 * (G.e (1, j)).coeff 0 + (U.e (i, j)).coeff 0 = 0 := by
    intro i j hi hj
    have := coeff_of_dvd hk (h.hG i j hi hj)
    rwa [Finset.sum_range_succ, Finset.sum_range_one, coeff_add, coeff_add, mul_coeff_zero, mul_coeff_zero] at this
  have eH : ∀ i, i < 2 → (H.e (i, 0)).coeff 0 * (sylvEntry exA exB 0 i).coeff 0 + (H.e (i, 1)).coeff 0 * (sylvEntry exA exB 1 i).coeff 0 - (V.e (i, i)).coeff 0 = 0 := by
    intro i hi
    have := coeff_of_dvd hk (h.hH i i hi hi)
    rwa [Finset.sum_range_succ, Finset.sum_range_one, coeff_sub, coeff_add, mul_coeff_zero, mul_coeff_zero] at this
  have c0 := eG 0 0 (by omega) (by omega)
  have c1 := eG 1 0 (by omega) (by omega)
  have d0 := eG 0 1 (by omega) (by omega)
  have d1 := eG 1 1 (by omega) (by omega)
  have f0 := eH 0 (by omega)
  have f1 := eH 1 (by omega)
  rw [m00, m01, u00] at c0
  rw [m10, m11, u10] at c1
  rw [m00, m01, u01] at d0
  rw [m10, m11, u11] at d1
  rw [v00] at f0
  rw [v11] at f1
  have kc : ∀ x y : ZMod 7, 1 * x + 3 * y + -1 = 0 → 2 * x + 1 * y + 0 = 0 → x ≠ 0 ∧ y ≠ 0 := by decide
  have kd : ∀ x y : ZMod 7, 1 * x + 3 * y + 1 = 0 → 2 * x + 1 * y + 3 = 0 → x ≠ 0 ∧ y ≠ 0 := by decide
  obtain ⟨p1, p2⟩ := kc _ _ c0 c1
  obtain ⟨p3, p4⟩ := kd _ _ d0 d1
  refine ⟨fun i j hi hj => ?_, fun i hi => ?_⟩
  · rcases (by omega : i = 0 ∨ i = 1) with rfl | rfl <;> rcases (by omega : j = 0 ∨ j = 1) with rfl | rfl
    · exact p1
    · exact p3
    · exact p2
    · exact p4
  · by_contra hc
    push Not at hc
    rcases (by omega : i = 0 ∨ i = 1) with rfl | rfl
    · rw [hc 0 (by omega), hc 1 (by omega)] at f0
      simp at f0
    · rw [hc 0 (by omega), hc 1 (by omega)] at f1
      simp at f1

theorem degX_tr {u : PVec (ZMod 7)} {i s : Nat} (hi : i < u.len) (hs : 0 < s) (h : (u.at' i).coeff 0 ≠ 0) : 0 ≤ (truncV u s).degX :=
  degX_pos (i := i) hi fun h0 => by
    have := congrArg (fun f => coeff f 0) h0
    have e : (ptrunc (u.at' i) s).coeff 0 = 0 := by
      have : (truncV u s).at' i = ptrunc (u.at' i) s := rfl
      rw [← this, h0, coeff_zero]
    rw [ptrunc_coeff, if_pos hs] at e
    exact h e

theorem degX_full {u : PVec (ZMod 7)} {i : Nat} (hi : i < u.len) (h : (u.at' i).coeff 0 ≠ 0) : 0 ≤ u.degX := degX_pos (i := i) hi (ne_of_coeff rfl h)

theorem ex_const : constPart exA = C 1 + C 2 * X ∧ constPart exB = C 3 + C 1 * X := by
  rw [← atZero_eq, ← atZero_eq]
  constructor
  · ext t
    rw [atZero_coeff]
    rcases t with _ | _ | t
    · simp [exA]
    · simp [exA, coeff_one]
    · simp [exA, coeff_one]
  · ext t
    rw [atZero_coeff]
    rcases t with _ | _ | t
    · simp [exB]
    · simp [exB]
    · simp [exB, coeff_X]

theorem ex_cop : IsCoprime (constPart exA) (constPart exB) ∧ (constPart exA).natDegree = 1 ∧ (constPart exB).natDegree = 1 := by
  rw [ex_const.1, ex_const.2]
  refine ⟨⟨C 4, C 6, ?_⟩, ?_, ?_⟩
  · have e1 : (4 * 1 + 6 * 3 : ZMod 7) = 1 := by decide
    have e2 : (4 * 2 + 6 * 1 : ZMod 7) = 0 := by decide
    calc (C 4 * (C 1 + C 2 * X) + C 6 * (C 3 + C 1 * X) : (ZMod 7)[X]) = C (4 * 1 + 6 * 3) + C (4 * 2 + 6 * 1) * X := by
          simp only [C_add, C_mul]; ring
      _ = 1 := by rw [e1, e2, C_0, C_1, zero_mul, add_zero]
  · rw [add_comm]
    exact natDegree_linear (by decide)
  · rw [add_comm]
    exact natDegree_linear (by decide)

/-- The Sylvester matrix `[[1, 3], [2 + X, 1 + X]]` modulo 7 is inverted at every precision by the Newton iteration. -/
theorem ex_newton : ∃ xg, Struct.XgcdOK xg ∧ ∃ o : Sylv (ZMod 7), Made exA exB o ∧ o.n = 2 ∧ ∀ m, 1 ≤ m → ∃ iM, newtonInv (exCtx xg) o m = .ok iM ∧
    Small iM m ∧ ∃ N, IsInvMod m 2 (sylvEntry exA exB) N ∧ Represents iM 2 N := by
  obtain ⟨xg, hx⟩ := Struct.xgcd_exists (p := 7)
  obtain ⟨o, e, hn⟩ := ex_make (exCtx xg).g
  have ho : Made exA exB o := ⟨_, e⟩
  obtain ⟨h1, h2, h3⟩ := ex_cop
  refine ⟨xg, hx, o, ho, hn, fun m hm => ?_⟩
  obtain ⟨iM, he⟩ := C94_newton_returns ho (exCtx xg) hx exMid_ok h2 h3 (le_refl _) (le_refl _) h1 hm fun k U V G H hk _ hg hs j hj res v hv => by
    have k1 : 1 ≤ k := by
      by_contra hc
      have d : (0 : WithBot Nat) ≤ ⊥ := by
        have := hs.gd 0 0 (by omega) (by omega)
        rw [(by omega : k = 0)] at this
        obtain ⟨⟨r, hr⟩, -, hch⟩ := C94_degrees m hm
        rw [(by omega : k = 0), hr] at hk
        rcases List.mem_cons.1 hk with hk | hk
        · omega
        · have : 0 < 0 := by
            rw [hr] at hch
            have hall : ∀ x ∈ r, 1 < x := by
              have hp := (List.isChain_iff_pairwise (R := fun x y : Nat => x < y)).1 (hch.imp fun _ _ h => h.1)
              exact (List.pairwise_cons.1 hp).1
            have := hall 0 hk
            omega
          omega
      exact absurd d (by simp)
    obtain ⟨s1, s2⟩ := ex_sol ho hg k1 hs
    refine ⟨fun hq => ?_, fun hq => ?_⟩
    · obtain ⟨w, hw, -⟩ := (C93_right_trunc ho (exCtx xg).g res v (2 * k)).1 hv
        (.inl ⟨degX_tr (i := 0) (by decide) (by omega) (by rw [exA0]; decide), degX_tr (i := 0) (show 0 < 1 by decide) (by omega) (by
          show (v.at' 0).coeff 0 ≠ 0
          rw [hq 0 (by omega)]
          exact s1 0 j (by omega) hj)⟩)
        (.inl ⟨degX_tr (i := 0) (by decide) (by omega) (by rw [exB0]; decide), degX_tr (i := 0) (show 0 < 1 by decide) (by omega) (by
          show (v.at' 1).coeff 0 ≠ 0
          rw [hq 1 (by omega)]
          exact s1 1 j (by omega) hj)⟩)
      exact ⟨w, hw⟩
    · obtain ⟨l, l1, l2⟩ := s2 j hj
      have hv' : (v.at' l).coeff 0 ≠ 0 := by
        rw [hq l (by omega)]
        exact l2
      obtain ⟨w, hw, -⟩ := (C93_left_trunc ho (exCtx xg).g exMid_ok res v (2 * k)).1 hv
        (.inl ⟨degX_tr (i := 1) (by decide) (by omega) (show (exA.at' 0).coeff 0 ≠ 0 by rw [exA0]; decide), degX_tr (i := l) (by omega) (by omega) hv'⟩)
        (.inl ⟨degX_tr (i := 1) (by decide) (by omega) (show (exB.at' 0).coeff 0 ≠ 0 by rw [exB0]; decide), degX_tr (i := l) (by omega) (by omega) hv'⟩)
      exact ⟨w, hw⟩
  have n1 : constPart exA ≠ 0 := fun h => by rw [h, natDegree_zero] at h2; omega
  have n2 : constPart exB ≠ 0 := fun h => by rw [h, natDegree_zero] at h3; omega
  have := C94_newton ho (exCtx xg) hx exMid_ok n1 n2 hm (.inr ⟨h2, h3⟩) he
  rw [hn] at this
  exact ⟨iM, he, this⟩

theorem pdeg_ex : exA.degX = 1 ∧ exB.degX = 1 := by
  have d : ∀ a : ZMod 7, Bivar.pdeg (C a + X : (ZMod 7)[X]) = 1 := fun a => by
    have : (C a + X : (ZMod 7)[X]).natDegree = 1 := by
      rw [add_comm]
      exact natDegree_X_add_C a
    unfold Bivar.pdeg
    rw [if_neg (fun h => by rw [h, natDegree_zero] at this; omega), this]
    rfl
  have z : ∀ a : ZMod 7, Bivar.pdeg (C a : (ZMod 7)[X]) ≤ 1 := fun a => by
    unfold Bivar.pdeg
    split
    · omega
    · rw [natDegree_C]
      omega
  constructor
  · refine le_antisymm ((degX_le _ _).2 ⟨by decide, fun i hi => ?_⟩) ?_
    · show Bivar.pdeg (if i = 0 then C 1 else C 2 + X : (ZMod 7)[X]) ≤ 1
      split
      · exact z 1
      · exact (d 2).le
    · have := degX_get exA (i := 1) (by decide)
      rw [← d 2]
      exact this
  · refine le_antisymm ((degX_le _ _).2 ⟨by decide, fun i hi => ?_⟩) ?_
    · show Bivar.pdeg (if i = 0 then C 3 else C 1 + X : (ZMod 7)[X]) ≤ 1
      split
      · exact z 3
      · exact (d 1).le
    · have := degX_get exB (i := 1) (by decide)
      rw [← d 1]
      exact this

/-- The same matrix at precision 4, in two blocks. -/
example : ∃ xg, Struct.XgcdOK xg ∧ ∃ o : Sylv (ZMod 7), Made exA exB o ∧ ∃ iM, highInv (exCtx xg) o 4 = .ok iM ∧
    Small iM 4 ∧ ∃ N, IsInvMod 4 2 (sylvEntry exA exB) N ∧ Represents iM 2 N := by
  obtain ⟨xg, hx, o, ho, hn, h⟩ := ex_newton
  obtain ⟨h1, h2, h3⟩ := ex_cop
  have n1 : constPart exA ≠ 0 := fun h => by rw [h, natDegree_zero] at h2; omega
  have n2 : constPart exB ≠ 0 := fun h => by rw [h, natDegree_zero] at h3; omega
  have dA : o.dAx = 1 := (made_inv ho).dA.trans pdeg_ex.1
  have dB : o.dBx = 1 := (made_inv ho).dB.trans pdeg_ex.2
  obtain ⟨iN, hN, -⟩ := h 2 (by omega)
  obtain ⟨iM, he⟩ := C94_high_returns (m := 4) ho (exCtx xg) hx exMid_ok n1 n2 ⟨iN, by rw [dA, dB]; exact hN⟩ fun t d U V G H hd ht hg hs j hj res v hv => by
    rw [dA, dB] at hd
    have hd : d = 2 := hd
    subst hd
    obtain rfl : t = 0 := by omega
    obtain ⟨s1, s2⟩ := ex_sol ho hg (by omega) hs
    rw [Nat.zero_mul, pow_zero]
    refine ⟨fun hq => ?_, fun hq => ?_⟩
    · obtain ⟨w, hw, -⟩ := (C93_right ho (exCtx xg).g res v).1 hv
        (.inl ⟨degX_full (i := 0) (by decide) (by rw [exA0]; decide), degX_full (i := 0) (show 0 < 1 by decide) (by
          show (v.at' 0).coeff 0 ≠ 0
          rw [hq 0 (by omega), divByMonic_one]
          exact s1 0 j (by omega) hj)⟩)
        (.inl ⟨degX_full (i := 0) (by decide) (by rw [exB0]; decide), degX_full (i := 0) (show 0 < 1 by decide) (by
          show (v.at' 1).coeff 0 ≠ 0
          rw [hq 1 (by omega), divByMonic_one]
          exact s1 1 j (by omega) hj)⟩)
      exact ⟨w, hw⟩
    · obtain ⟨l, l1, l2⟩ := s2 j hj
      have hv' : (v.at' l).coeff 0 ≠ 0 := by
        rw [hq l (by omega), divByMonic_one]
        exact l2
      obtain ⟨w, hw, -⟩ := (C93_left ho (exCtx xg).g exMid_ok res v).1 hv
        (.inl ⟨degX_full (i := 1) (by decide) (show (exA.at' 0).coeff 0 ≠ 0 by rw [exA0]; decide), degX_full (i := l) (by omega) hv'⟩)
        (.inl ⟨degX_full (i := 1) (by decide) (show (exB.at' 0).coeff 0 ≠ 0 by rw [exB0]; decide), degX_full (i := l) (by omega) hv'⟩)
      exact ⟨w, hw⟩
  have := C94_high ho (exCtx xg) hx exMid_ok n1 n2 he
  rw [hn] at this
  exact ⟨xg, hx, o, ho, iM, he, this⟩

/-- `A = 1 + Y + X Y^2`, whose degree in `Y` decreases at `x = 0`. -/
noncomputable def exS : PVec (ZMod 7) := ⟨3, fun i => if i = 2 then X else 1⟩

/-- `B = Y`. -/
noncomputable def exY : PVec (ZMod 7) := ⟨2, fun i => if i = 0 then 0 else 1⟩

theorem ex_short : constPart exS = 1 + X ∧ constPart exY = X := by
  rw [← atZero_eq, ← atZero_eq]
  constructor
  · ext t
    rw [atZero_coeff]
    rcases t with _ | _ | _ | t
    · simp [exS]
    · simp [exS, coeff_one]
    · simp [exS, coeff_one, coeff_X]
    · simp [exS, coeff_one, coeff_X]
  · ext t
    rw [atZero_coeff]
    rcases t with _ | _ | t
    · simp [exY]
    · simp [exY]
    · simp [exY, coeff_X]

/-- The Sylvester matrix of dimension 3 is invertible at `x = 0`, with determinant 1; the Newton iteration ends with an error for `m ≥ 2` and
    returns a matrix of dimension 2 for `m = 1`. -/
theorem C94_short_witness : ∃ xg, Struct.XgcdOK xg ∧ ∃ o : Sylv (ZMod 7), Made exS exY o ∧ o.n = 3 ∧
    (Matrix.of fun i j : Fin 3 => (sylvEntry exS exY i j).coeff 0).det = 1 ∧ (∀ m, 2 ≤ m → newtonInv (exCtx xg) o m = .error) ∧
    ∃ iM, newtonInv (exCtx xg) o 1 = .ok iM ∧ iM.m = 2 := by
  obtain ⟨xg, hx⟩ := Struct.xgcd_exists (p := 7)
  obtain ⟨o, e, hn⟩ := (C93_make (exCtx xg).g exS exY).1 2 1 rfl rfl (show (X : (ZMod 7)[X]) ≠ 0 from X_ne_zero) (show (1 : (ZMod 7)[X]) ≠ 0 from one_ne_zero)
  have ho : Made exS exY o := ⟨_, e⟩
  have dS : (constPart exS).natDegree = 1 := by
    rw [ex_short.1, add_comm]
    exact natDegree_X_add_C (1 : ZMod 7)
  have dY : (constPart exY).natDegree = 1 := by
    rw [ex_short.2]
    exact natDegree_X
  have co : IsCoprime (constPart exS) (constPart exY) := by
    rw [ex_short.1, ex_short.2]
    exact ⟨1, -1, by ring⟩
  have key := C94_newton_short ho (exCtx xg) hx (le_refl _) (by omega) (by omega) co (.inl (by rw [dS]; decide))
  refine ⟨xg, hx, o, ho, hn, ?_, fun m hm => (key m).1 hm, ?_⟩
  · rw [Matrix.det_fin_three]
    simp only [Matrix.of_apply, sylvEntry, shift_coeff]
    simp [exS, exY]
  · obtain ⟨iM, e1, e2, -⟩ := (key 1).2 (le_refl _)
    exact ⟨iM, e1, by rw [e2, dS, dY]⟩

/-- The errors: `A = B = 1 + (2 + X) Y`, not coprime, and `A = 1 + X Y`, constant at `x = 0`. -/
example : ∃ xg, Struct.XgcdOK xg ∧ ∃ o o' o'' : Sylv (ZMod 7), Made exA exA o ∧ Made (⟨2, fun i => X ^ i⟩ : PVec (ZMod 7)) exA o' ∧
    Made exA (⟨1, fun _ => 1⟩ : PVec (ZMod 7)) o'' ∧
    newtonInv (exCtx xg) o 3 = .error ∧ newtonInv (exCtx xg) o' 3 = .error ∧ newtonInv (exCtx xg) o'' 3 = .ub := by
  obtain ⟨xg, hx⟩ := Struct.xgcd_exists (p := 7)
  have na : exA.at' 1 ≠ 0 := ne_of_coeff exA1 (by decide)
  obtain ⟨o, e, -⟩ := (C93_make (exCtx xg).g exA exA).1 1 1 rfl rfl na na
  obtain ⟨o', e', -⟩ := (C93_make (exCtx xg).g (⟨2, fun i => X ^ i⟩ : PVec (ZMod 7)) exA).1 1 1 rfl rfl (pow_ne_zero 1 X_ne_zero) na
  obtain ⟨o'', e'', -⟩ := (C93_make (exCtx xg).g exA (⟨1, fun _ => 1⟩ : PVec (ZMod 7))).1 1 0 rfl rfl na one_ne_zero
  obtain ⟨-, h2, -⟩ := ex_cop
  refine ⟨xg, hx, o, o', o'', ⟨_, e⟩, ⟨_, e'⟩, ⟨_, e''⟩, (C94_newton_errors ⟨_, e⟩ (exCtx xg) hx 3).2.1 (le_refl _) (by omega) (by omega) ?_,
    (C94_newton_errors ⟨_, e'⟩ (exCtx xg) hx 3).1 (le_refl _) (.inl ?_), (C94_newton_errors ⟨_, e''⟩ (exCtx xg) hx 3).2.2 (by decide)⟩
  · rw [isCoprime_self]
    intro hu
    rw [natDegree_eq_zero_of_isUnit hu] at h2
    omega
  · have : constPart (⟨2, fun i => X ^ i⟩ : PVec (ZMod 7)) = 1 := by
      rw [← atZero_eq]
      ext t
      rw [atZero_coeff]
      rcases t with _ | _ | t
      · simp
      · simp [coeff_one]
      · simp [coeff_one]
    rw [this]
    exact ⟨one_ne_zero, natDegree_one⟩

end PML.Ntl.NewtonX
