import Verif.Ntl.AppbasLemmas

/-!
# `appbas_iterative` computes a minimal approximant basis
-/

namespace PML.Ntl.Appbas

open Polynomial PML.Ntl.Utils PML.Ntl.Inv PML.Ntl.Solve PML.Ntl.Mbasis PML.Approx PML.Approx.Spec PML.Forms.Spec

variable {F : Type} [Field F] [DecidableEq F]

theorem getD_set (l : List Nat) (j k a : Nat) (hj : j < l.length) : (l.set j a).getD k 0 = if k = j then a else l.getD k 0 := by
  by_cases h : k = j
  · rw [if_pos h, h, List.getD_eq_getElem?_getD, List.getElem?_set_self hj]
    rfl
  · rw [if_neg h, List.getD_eq_getElem?_getD, List.getElem?_set_ne (fun e => h e.symm), ← List.getD_eq_getElem?_getD]

theorem getD_eraseIdx (l : List Nat) (j k : Nat) : (l.eraseIdx j).getD k 0 = l.getD (if k < j then k else k + 1) 0 := by
  rw [List.getD_eq_getElem?_getD, List.getElem?_eraseIdx, List.getD_eq_getElem?_getD]
  split_ifs <;> rfl

theorem sum_set (l : List Nat) : ∀ j, j < l.length → 0 < l.getD j 0 → (l.set j (l.getD j 0 - 1)).sum + 1 = l.sum := by
  induction l with
  | nil => intro j hj; exact absurd hj (by simp)
  | cons a l ih =>
    intro j hj hp
    cases j with
    | zero =>
      simp only [List.getD_cons_zero] at hp
      simp only [List.getD_cons_zero, List.set_cons_zero, List.sum_cons]
      omega
    | succ j =>
      simp only [List.getD_cons_succ] at hp
      have := ih j (by simpa using hj) hp
      simp only [List.getD_cons_succ, List.set_cons_succ, List.sum_cons]
      omega

theorem sum_eraseIdx (l : List Nat) : ∀ j, j < l.length → (l.eraseIdx j).sum + l.getD j 0 = l.sum := by
  induction l with
  | nil => intro j hj; exact absurd hj (by simp)
  | cons a l ih =>
    intro j hj
    cases j with
    | zero => simp only [List.eraseIdx_cons_zero, List.getD_cons_zero, List.sum_cons]; omega
    | succ j =>
      have := ih j (by simpa using hj)
      simp only [List.eraseIdx_cons_succ, List.getD_cons_succ, List.sum_cons]
      omega

theorem mem_of_getD (l : List Nat) (k : Nat) (h : k < l.length) : l.getD k 0 ∈ l := by
  rw [List.getD_eq_getElem?_getD, List.getElem?_eq_getElem h]
  exact List.getElem_mem h

theorem getD_of_mem (l : List Nat) (a : Nat) (h : a ∈ l) : ∃ k, k < l.length ∧ l.getD k 0 = a := by
  obtain ⟨k, hk, e⟩ := List.mem_iff_getElem.1 h
  exact ⟨k, hk, by rw [List.getD_eq_getElem?_getD, List.getElem?_eq_getElem hk, ← e]; rfl⟩

/-- `advance` records that column `j` was treated. -/
theorem advance_ok {pmat : PMat F[X]} {order : List Nat} {s0 : List Int} {o o' : Nat → Nat} {st : St F} (j : Nat)
    (hj : j < st.remOrder.length) (hL : Lists pmat.cols order o st)
    (hC : Core pmat order s0 o' st)
    (ho : o' = Function.update o (st.remIndex.getD j 0) (o (st.remIndex.getD j 0) + 1)) :
    ∃ st', advance j st = .ok st' ∧ Lists pmat.cols order o' st' ∧ Core pmat order s0 o' st' ∧
      st'.remOrder.sum + 1 = st.remOrder.sum := by
  have hll := hL.llen
  have hne : st.remOrder ≠ [] := by intro e; rw [e] at hj; exact absurd hj (by simp)
  have hrc := hL.rcols hne
  have hord := hL.ord j hj
  have hother : ∀ k, k < st.remOrder.length → k ≠ j → o' (st.remIndex.getD k 0) = o (st.remIndex.getD k 0) := by
    intro k hk hkj
    rw [ho, Function.update_of_ne]
    exact fun e => hkj (nodup_inj st.remIndex hL.nodup k j (by omega) (by omega) e)
  have hself : o' (st.remIndex.getD j 0) = o (st.remIndex.getD j 0) + 1 := by rw [ho, Function.update_self]
  have hmem : st.remIndex.getD j 0 ∈ st.remIndex := mem_of_getD _ _ (by omega)
  unfold advance
  by_cases h1 : 1 < st.remOrder.getD j 0
  · rw [if_pos h1]
    refine ⟨_, rfl, ⟨?_, ?_, ?_, ?_, hL.nodup, ?_⟩, ⟨hC.arows, hC.acols, hC.rrows, hC.slen, hC.gen, hC.piv, hC.resid⟩,
      sum_set _ j hj hord.1⟩
    · show st.remIndex.length = (st.remOrder.set j _).length
      rw [List.length_set]; exact hll
    · intro _
      show st.res.cols = (st.remOrder.set j _).length
      rw [List.length_set]; exact hrc
    · intro k hk
      replace hk : k < (st.remOrder.set j (st.remOrder.getD j 0 - 1)).length := hk
      rw [List.length_set] at hk
      exact hL.idx k hk
    · intro k hk
      replace hk : k < (st.remOrder.set j (st.remOrder.getD j 0 - 1)).length := hk
      rw [List.length_set] at hk
      have hk' := hL.ord k hk
      show 0 < (st.remOrder.set j (st.remOrder.getD j 0 - 1)).getD k 0 ∧
        o' (st.remIndex.getD k 0) + (st.remOrder.set j (st.remOrder.getD j 0 - 1)).getD k 0 = order.getD (st.remIndex.getD k 0) 0
      rw [getD_set _ _ _ _ hj]
      by_cases e : k = j
      · rw [if_pos e, e, hself]
        omega
      · rw [if_neg e, hother k hk e]
        exact hk'
    · intro c hc hcn
      replace hcn : c ∉ st.remIndex := hcn
      rw [ho, Function.update_of_ne (fun e => hcn (by rw [e]; exact hmem))]
      exact hL.other c hc hcn
  · rw [if_neg h1]
    dsimp only
    have hlen : (st.remOrder.eraseIdx j).length + 1 = st.remOrder.length := by
      rw [List.length_eraseIdx_of_lt hj]; omega
    have hlen' : (st.remIndex.eraseIdx j).length + 1 = st.remIndex.length := by
      rw [List.length_eraseIdx_of_lt (by omega)]; omega
    -- the lists
    have hLn : ∀ res : PMat F[X], (st.remOrder.eraseIdx j ≠ [] → res.cols = (st.remOrder.eraseIdx j).length) →
        Lists pmat.cols order o' (⟨st.app, res, st.shift, st.remOrder.eraseIdx j, st.remIndex.eraseIdx j⟩ : St F) := by
      intro res hres
      refine ⟨by show (st.remIndex.eraseIdx j).length = (st.remOrder.eraseIdx j).length; omega, hres, ?_, ?_,
        hL.nodup.eraseIdx j, ?_⟩
      · intro k hk
        show (st.remIndex.eraseIdx j).getD k 0 < _
        rw [getD_eraseIdx]
        replace hk : k < (st.remOrder.eraseIdx j).length := hk
        exact hL.idx _ (by split_ifs <;> omega)
      · intro k hk
        replace hk : k < (st.remOrder.eraseIdx j).length := hk
        show 0 < (st.remOrder.eraseIdx j).getD k 0 ∧
          o' ((st.remIndex.eraseIdx j).getD k 0) + (st.remOrder.eraseIdx j).getD k 0 = order.getD ((st.remIndex.eraseIdx j).getD k 0) 0
        rw [getD_eraseIdx, getD_eraseIdx]
        have hk2 : (if k < j then k else k + 1) < st.remOrder.length := by split_ifs <;> omega
        rw [hother _ hk2 (by split_ifs <;> omega)]
        exact hL.ord _ hk2
      · intro c hc hcn
        replace hcn : c ∉ st.remIndex.eraseIdx j := hcn
        by_cases e : c = st.remIndex.getD j 0
        · rw [e, hself]
          omega
        · rw [ho, Function.update_of_ne e]
          refine hL.other c hc fun hm => hcn ?_
          obtain ⟨k, hk, ek⟩ := getD_of_mem _ _ hm
          have hkj : k ≠ j := fun h => e (by rw [← ek, h])
          by_cases hlt : k < j
          · have := mem_of_getD (st.remIndex.eraseIdx j) k (by omega)
            rw [getD_eraseIdx, if_pos hlt, ek] at this
            exact this
          · have := mem_of_getD (st.remIndex.eraseIdx j) (k - 1) (by omega)
            rw [getD_eraseIdx, if_neg (by omega), show k - 1 + 1 = k by omega, ek] at this
            exact this
    have hsum : (st.remOrder.eraseIdx j).sum + 1 = st.remOrder.sum := by
      have := sum_eraseIdx st.remOrder j hj
      omega
    by_cases h2 : (st.remOrder.eraseIdx j).isEmpty = true
    · rw [if_pos h2]
      refine ⟨_, rfl, hLn st.res fun h => absurd (List.isEmpty_iff.1 h2) h,
        ⟨hC.arows, hC.acols, hC.rrows, hC.slen, hC.gen, hC.piv, ?_⟩, hsum⟩
      intro i k hi hk
      replace hk : k < (st.remIndex.eraseIdx j).length := hk
      rw [List.isEmpty_iff] at h2
      rw [h2] at hlen
      simp at hlen
      omega
    · rw [if_neg h2, if_neg (by omega)]
      obtain ⟨d1, d2, d3⟩ := dropColumn_spec j (st.remOrder.eraseIdx j).length st.res (by omega) (by omega)
      refine ⟨_, rfl, hLn _ fun _ => d2, ⟨hC.arows, hC.acols, by rw [← hC.rrows]; exact d1, hC.slen, hC.gen, hC.piv, ?_⟩, hsum⟩
      intro i k hi hk
      replace hk : k < (st.remIndex.eraseIdx j).length := hk
      show X ^ order.getD ((st.remIndex.eraseIdx j).getD k 0) 0 ∣ (dropColumn j (st.remOrder.eraseIdx j).length st.res).e (i, k) -
        ∑ l ∈ Finset.range pmat.rows, st.app.e (i, l) * pmat.e (l, (st.remIndex.eraseIdx j).getD k 0)
      rw [getD_eraseIdx, d3 i k (by rw [hC.rrows]; exact hi) (by omega)]
      exact hC.resid i _ hi (by split_ifs <;> omega)

/-- One iteration. -/
theorem step_ok {pmat : PMat F[X]} {order : List Nat} {s0 : List Int} (hlen : order.length = pmat.cols) (ow : Bool)
    {o : Nat → Nat} {st : St F} (hL : Lists pmat.cols order o st) (hC : Core pmat order s0 o st) (hne : st.remOrder ≠ []) :
    ∃ o' st', step ow order st = .ok st' ∧ Lists pmat.cols order o' st' ∧ Core pmat order s0 o' st' ∧
      st'.remOrder.sum + 1 = st.remOrder.sum := by
  have hll := hL.llen
  have hrc := hL.rcols hne
  obtain ⟨j, hjd, hj⟩ : ∃ j, (if ow then maxIndex st.remOrder else 0) = j ∧ j < st.remOrder.length := by
    refine ⟨_, rfl, ?_⟩
    split_ifs
    · exact maxIndex_lt _ hne
    · exact List.length_pos_of_ne_nil hne
  unfold step
  rw [hjd]
  dsimp only
  have hidx := hL.idx j hj
  have hord := hL.ord j hj
  rw [if_neg (by omega)]
  have hdeg : order.getD (st.remIndex.getD j 0) 0 - st.remOrder.getD j 0 = o (st.remIndex.getD j 0) := by omega
  have hlt : o (st.remIndex.getD j 0) < order.getD (st.remIndex.getD j 0) 0 := by omega
  rw [hdeg]
  set c := st.remIndex.getD j 0 with hc
  rcases findPiv_spec (fun i => (st.res.e (i, j)).coeff (o c)) st.shift st.res.rows (by rw [hC.rrows, hC.slen]) with
    ⟨h1, h2⟩ | ⟨piv, hp, h1, h2, h3⟩
  · rw [h1]
    dsimp only
    have hC' : Core pmat order s0 (Function.update o c (o c + 1)) st := by
      refine ⟨hC.arows, hC.acols, hC.rrows, hC.slen, ?_, hC.piv, hC.resid⟩
      have hsk := approx_skip hC.gen ⟨c, hidx⟩ (fun i => by
        show ((mat pmat.rows pmat.rows st.app * mat pmat.rows pmat.cols pmat) i ⟨c, hidx⟩).coeff (o c) = 0
        rw [sum_mat, ← coeff_of_dvd_sub (hC.resid i j i.2 (by omega)) hlt]
        exact h2 i (by rw [hC.rrows]; exact i.2))
      have eo : (fun k : Fin pmat.cols => Function.update o c (o c + 1) k) =
          Function.update (fun k : Fin pmat.cols => o k) ⟨c, hidx⟩ (o c + 1) := by
        funext k
        by_cases e : (k : Nat) = c
        · have : k = ⟨c, hidx⟩ := Fin.ext e
          rw [this, Function.update_self, Function.update_self]
        · rw [Function.update_of_ne e, Function.update_of_ne (fun h => e (congrArg Fin.val h))]
      rw [eo]
      exact hsk
    obtain ⟨st', k1, k2, k3, k4⟩ := advance_ok j hj hL hC' rfl
    exact ⟨_, st', k1, k2, k3, k4⟩
  · rw [h1]
    dsimp only
    rw [hC.rrows] at hp h3
    obtain ⟨st1, u1, u2, u3, u4, u5⟩ := update_ok hC (by omega) (fun k hk => by
      rw [hlen]; exact hL.idx k (by omega)) j (by omega) hidx hlt piv hp h2 h3
    rw [u1]
    have hL1 : Lists pmat.cols order o st1 := by
      refine ⟨by rw [u2, u3]; exact hL.llen, by rw [u3, u4]; exact hL.rcols, by rw [u2, u3]; exact hL.idx,
        by rw [u2, u3]; exact hL.ord, by rw [u2]; exact hL.nodup, by rw [u2]; exact hL.other⟩
    obtain ⟨st', k1, k2, k3, k4⟩ := advance_ok j (by rw [u3]; exact hj) hL1 u5 (by rw [u2])
    exact ⟨_, st', k1, k2, k3, by rw [← u3]; exact k4⟩

theorem loop_ok {pmat : PMat F[X]} {order : List Nat} {s0 : List Int} (hlen : order.length = pmat.cols) (ow : Bool) :
    ∀ (fuel : Nat) (o : Nat → Nat) (st : St F), st.remOrder.sum ≤ fuel → Lists pmat.cols order o st → Core pmat order s0 o st →
    ∃ st', loop ow order fuel st = .ok st' ∧ Core pmat order s0 (fun c => order.getD c 0) st'
  | fuel, o, st, hf, hL, hC => by
    unfold loop
    by_cases he : st.remOrder.isEmpty = true
    · rw [if_pos he]
      refine ⟨st, rfl, ⟨hC.arows, hC.acols, hC.rrows, hC.slen, ?_, hC.piv, hC.resid⟩⟩
      have hnil : st.remIndex = [] := by
        have := hL.llen
        rw [List.isEmpty_iff.1 he] at this
        exact List.length_eq_zero_iff.1 this
      have e : (fun j : Fin pmat.cols => order.getD j 0) = fun j : Fin pmat.cols => o j := by
        funext j
        exact (hL.other j j.2 (by rw [hnil]; simp)).symm
      rw [e]
      exact hC.gen
    · rw [if_neg he]
      have hne : st.remOrder ≠ [] := fun e => he (by rw [e]; rfl)
      obtain ⟨o', st', k1, k2, k3, k4⟩ := step_ok hlen ow hL hC hne
      cases fuel with
      | zero => omega
      | succ fuel =>
        dsimp only
        rw [k1]
        exact loop_ok hlen ow fuel o' st' (by omega) k2 k3

/-- The state before the loop. -/
theorem start_core (app0 pmat : PMat F[X]) (order : List Nat) (shift : List Int) (hlen : order.length = pmat.cols)
    (hpos : ∀ x ∈ order, 0 < x) (hs : shift.length = pmat.rows) :
    Lists pmat.cols order (fun _ => 0) (⟨ident app0 pmat.rows, pmat, shift, order, List.range pmat.cols⟩ : St F) ∧
    Core pmat order shift (fun _ => 0) (⟨ident app0 pmat.rows, pmat, shift, order, List.range pmat.cols⟩ : St F) := by
  obtain ⟨i1, i2, i3⟩ := C65_ident app0 pmat.rows
  have hone : mat pmat.rows pmat.rows (ident app0 pmat.rows) = 1 := by
    funext i j
    rw [Matrix.one_apply]
    show (ident app0 pmat.rows).e (i, j) = _
    rw [i3 i j i.2 j.2]
    simp only [Fin.ext_iff]
  have hrange : ∀ k, k < pmat.cols → (List.range pmat.cols).getD k 0 = k := by
    intro k hk
    rw [List.getD_eq_getElem?_getD, List.getElem?_range hk]
    rfl
  refine ⟨⟨by simp [hlen], fun _ => hlen.symm, ?_, ?_, List.nodup_range, ?_⟩, ⟨i1, i2, rfl, hs, ?_, ⟨0, ?_⟩, ?_⟩⟩
  · intro k hk
    replace hk : k < order.length := hk
    show (List.range pmat.cols).getD k 0 < _
    rw [hrange k (by omega)]
    omega
  · intro k hk
    replace hk : k < order.length := hk
    show 0 < order.getD k 0 ∧ 0 + order.getD k 0 = order.getD ((List.range pmat.cols).getD k 0) 0
    rw [hrange k (by omega), Nat.zero_add]
    exact ⟨hpos _ (mem_of_getD _ _ hk), rfl⟩
  · intro c hc hcn
    exact absurd (List.mem_range.2 hc) hcn
  · show GenBy _ (mat pmat.rows pmat.rows (ident app0 pmat.rows))
    rw [hone]
    exact genBy_zero _ _ fun _ => rfl
  · show DiagPivots 0 _ (mat pmat.rows pmat.rows (ident app0 pmat.rows)) _
    rw [hone]
    exact DiagPivots.one _
  · intro i k hi hk
    replace hk : k < (List.range pmat.cols).length := hk
    rw [List.length_range] at hk
    show X ^ _ ∣ pmat.e (i, k) - ∑ l ∈ Finset.range pmat.rows, (ident app0 pmat.rows).e (i, l) * pmat.e (l, (List.range pmat.cols).getD k 0)
    rw [hrange k hk, Finset.sum_eq_single i, i3 i i hi hi, if_pos rfl, one_mul, sub_self]
    · exact dvd_zero _
    · intro l hl hli
      rw [i3 i l hi (Finset.mem_range.1 hl), if_neg (Ne.symm hli), zero_mul]
    · intro h; exact absurd (Finset.mem_range.2 hi) h

/-- The result of `appbas_iterative`, with pivots. -/
structure GoodO (pmat : PMat F[X]) (order : List Nat) (s : List Int) (P : PMat F[X]) (t : List Int) : Prop where
  rows : P.rows = pmat.rows
  cols : P.cols = pmat.rows
  tlen : t.length = pmat.rows
  gen : GenBy (IsApproximantO (mat pmat.rows pmat.cols pmat) (orderOf pmat.cols order)) (mat pmat.rows pmat.rows P)
  piv : ∃ d, DiagPivots d (fun i : Fin pmat.rows => entryOf s i) (mat pmat.rows pmat.rows P) (fun i : Fin pmat.rows => entryOf t i)

theorem iterative_good (app0 pmat : PMat F[X]) (order : List Nat) (shift : List Int) (ow : Bool)
    (hlen : order.length = pmat.cols) (hpos : ∀ x ∈ order, 0 < x) (hs : shift.length = pmat.rows) :
    ∃ P t, iterative app0 pmat order shift ow = .ok (P, t) ∧ GoodO pmat order shift P t := by
  obtain ⟨h1, h2⟩ := start_core app0 pmat order shift hlen hpos hs
  obtain ⟨st, k1, k2⟩ := loop_ok hlen ow ((order.map fun o => max o 1).sum) _ _ (by
    show order.sum ≤ _
    exact le_of_eq (by
      congr 1
      conv_lhs => rw [← List.map_id order]
      refine List.map_congr_left fun x hx => ?_
      have := hpos x hx
      show x = max x 1
      omega)) h1 h2
  unfold iterative
  rw [k1]
  exact ⟨_, _, rfl, k2.arows, k2.acols, k2.slen, k2.gen, k2.piv⟩

/-- Pivots on the diagonal, in the terms of the specification. -/
theorem pivots_spec {m : Nat} {s0 s : Nat → Int} {P : Nat → Nat → F[X]}
    (h : Pivots (fun i : Fin m => s0 i) (tm m m P) (fun i : Fin m => s i) id) (i : Nat) (hi : i < m) :
    PivotLower m s0 (P i) i (s i - s0 i).toNat ∧ ShiftedDegree m s0 (P i) (s i) ∧ s0 i ≤ s i := by
  have hrow := h.row ⟨i, hi⟩
  have hge : s0 i ≤ s i := hrow.ge
  have hlead : (P i i).coeff (s i - s0 i).toNat ≠ 0 := hrow.lead
  have hne : P i i ≠ 0 := by intro e; rw [e] at hlead; exact hlead (by simp)
  have hle : ∀ j, j < m → P i j ≠ 0 → ((P i j).natDegree : Int) + s0 j ≤ s i := fun j hj hn =>
    degLE_iff.1 (hrow.le ⟨j, hj⟩) hn
  have hdeg : (P i i).natDegree = (s i - s0 i).toNat := by
    have h1 := hle i hi hne
    have h2 := le_natDegree_of_ne_zero hlead
    omega
  refine ⟨⟨hi, hne, hdeg, fun j hj hn => ?_, fun j hj hij hn => ?_⟩, ⟨hle, i, hi, hne, ?_⟩, hge⟩
  · have := hle j hj hn; omega
  · have : ((P i j).natDegree : Int) + s0 j ≤ s i - 1 := degLE_iff.1 (hrow.after ⟨j, hj⟩ hij) hn
    omega
  · omega

theorem GoodO.minBasis {pmat : PMat F[X]} {order : List Nat} {s t : List Int} {P : PMat F[X]} (h : GoodO pmat order s P t) :
    IsMinBasisO pmat order (entryOf s) P (entryOf t) := by
  obtain ⟨d, hd⟩ := h.piv
  have key := fun i hi => pivots_spec (P := fun i j => P.e (i, j)) hd.pivots i hi
  exact ⟨h.rows, h.cols, h.gen.isBasisO, ⟨fun i => i, _, fun i hi => (key i hi).1, fun i j hij _ => hij⟩,
    fun i hi => (key i hi).1, fun i hi => (key i hi).2.1, fun i hi => (key i hi).2.2⟩

end PML.Ntl.Appbas
