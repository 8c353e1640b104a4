import Verif.Hermite.Maxdeg

/-! # Reverse lexicographic pivoting -/

namespace PML.Hermite

open PML.MatOps PML.MatOps.Spec PML.MatPoly PML.Forms PML.Forms.Spec PML.RowOps PML.RowOps.Spec
open PML.WeakPopov PML.Hermite.Spec PML.PolyMul.Spec Polynomial

set_option linter.unusedSectionVars false

variable {K : Type} [Field K] [DecidableEq K]

/-- Invariant of the loop which cancels the entries below the pivot of column `j`. -/
structure KillInv (r j rk pi : Nat) (s0 : Pair K) (st : Pair K × Nat) : Prop where
  tr : Tr r 1 s0 st.1
  above : ∀ k, k < rk → st.1.1 k = s0.1 k
  left : ∀ k jj, jj < j → st.1.1 k jj = s0.1 k jj
  pivot : st.1.1 pi j ≠ 0
  zero : ∀ k, rk ≤ k → k < st.2 → k ≠ pi → st.1.1 k j = 0
  lt : pi < st.2
  le : st.2 ≤ r

noncomputable def killMeas (r j : Nat) (st : Pair K × Nat) : Nat :=
  2 * (r - st.2) + (if st.2 < r ∧ st.1.1 st.2 j ≠ 0 then 1 else 0)

theorem kill_step {xg : XgcdFn K} (hx : XgcdContract xg) {r j rk pi : Nat} {s0 : Pair K} {st : Pair K × Nat}
    (hrk : rk ≤ pi) (hb : ∀ k, rk ≤ k → k < r → ∀ jj, jj < j → s0.1 k jj = 0)
    (h : KillInv r j rk pi s0 st) (hc : decide (st.2 < r) = true) :
    KillInv r j rk pi s0 (killBody xg r pi j st) ∧ killMeas r j (killBody xg r pi j st) < killMeas r j st := by
  have hlt : st.2 < r := by simpa using hc
  obtain ⟨q, ii⟩ := st
  simp only at hlt
  obtain ⟨f1, f2, f3, f4⟩ := findFrom_spec (fun i => decide (q.1 i j ≠ 0)) (r - ii) ii
  have h1 := h.lt
  simp only at h1
  unfold killBody
  simp only
  generalize findFrom (fun i => decide (q.1 i j ≠ 0)) (r - ii) ii = i' at *
  have hbefore : ∀ k, ii ≤ k → k < i' → q.1 k j = 0 := fun k hk hk' => by
    have := f3 k hk hk'; simpa using this
  by_cases c1 : i' < r
  · rw [if_pos c1]
    have hne : q.1 i' j ≠ 0 := by have := f4 (by omega); simpa using this
    obtain ⟨x1, x2, x3, x4, x5, x6, _⟩ := xgcdCollision_spec hx (m := r) (pi := pi) (ii := i') (j := j) (s := q)
      (by omega) c1 (by omega) (fun jj hjj => by have := h.left pi jj hjj; simp only at this; rw [this]; exact hb pi hrk (by omega) jj hjj)
      (fun jj hjj => by have := h.left i' jj hjj; simp only at this; rw [this]; exact hb i' (by omega) c1 jj hjj) h.pivot
    refine ⟨⟨h.tr.trans_one x1, fun k hk => ?_, fun k jj hjj => ?_, x5.ne_zero, fun k hk hk' hne' => ?_, by simp only; omega, by simp only; omega⟩, ?_⟩
    · rw [x2 k (by omega) (by omega)]; exact h.above k hk
    · rw [x3 k jj hjj]; exact h.left k jj hjj
    · simp only at hk' ⊢
      rw [x2 k hne' (by omega)]
      by_cases hki : k < ii
      · exact h.zero k hk hki hne'
      · exact hbefore k (by omega) hk'
    · simp only [killMeas, x4, ne_eq, not_true_eq_false, and_false, if_false]
      by_cases hi : i' = ii
      · subst hi
        rw [if_pos ⟨hlt, hne⟩]; omega
      · omega
  · rw [if_neg c1]
    refine ⟨⟨h.tr, h.above, h.left, h.pivot, fun k hk hk' hne' => ?_, by simp only; omega, by simp only; omega⟩, ?_⟩
    · simp only at hk' ⊢
      by_cases hki : k < ii
      · exact h.zero k hk hki hne'
      · exact hbefore k (by omega) hk'
    · simp only [killMeas]
      rw [if_neg (by omega : ¬(i' < r ∧ q.1 i' j ≠ 0))]
      omega

/-- Rotation of a pivot row to position `rk`. -/
theorem ech_rot {r j rk pi : Nat} {piv : Nat → Nat} {q : Pair K} (he : Ech r j rk piv q.1) (h1 : rk ≤ pi) (h2 : pi < r)
    (hne : q.1 pi j ≠ 0) (hz : ∀ k, rk ≤ k → k < r → k ≠ pi → q.1 k j = 0) :
    Ech r (j + 1) (rk + 1) (Function.update piv rk j) (rotPair q rk pi).1 := by
  have ea : ∀ k, (rotPair q rk pi).1 k = q.1 (if k = rk then pi else if rk < k ∧ k ≤ pi then k - 1 else k) := by
    intro k
    show rotDown rk pi q.1 k = _
    rw [rotDown_apply h1]
    split_ifs <;> rfl
  have he' : Ech r j rk piv (rotPair q rk pi).1 := by
    refine he.congr (fun i hi => ?_) fun i hi hir jj hjj => ?_
    · rw [ea, if_neg (by omega), if_neg (by omega)]
    · rw [ea]
      split_ifs
      · exact he.below _ h1 h2 jj hjj
      · exact he.below _ (by omega) (by omega) jj hjj
      · exact he.below _ hi hir jj hjj
  refine he'.push (by omega) ?_ fun i hi hir => ?_
  · rw [ea, if_pos rfl]; exact hne
  · rw [ea, if_neg (by omega)]
    split_ifs
    · exact hz _ (by omega) (by omega) (by omega)
    · exact hz _ (by omega) hir (by omega)

theorem revlexCol_spec {xg : XgcdFn K} (hx : XgcdContract xg) {r j : Nat} {s : RState K}
    (he : Ech r j s.rk s.pivind s.pair.1) :
    ∃ s', Ends (fun fuel => revlexCol xg fuel r j s) s' ∧ Ech r (j + 1) s'.rk s'.pivind s'.pair.1 ∧
      TrS r s.pair s'.pair ∧ s.rk ≤ s'.rk ∧ ∀ i, s'.rk ≤ i → s'.pivind i = s.pivind i := by
  have hr := he.le
  obtain ⟨f1, f2, f3, f4⟩ := findFrom_spec (fun i => decide (s.pair.1 i j ≠ 0)) (r - s.rk) s.rk
  unfold revlexCol
  simp only
  generalize findFrom (fun i => decide (s.pair.1 i j ≠ 0)) (r - s.rk) s.rk = pi at *
  have hbefore : ∀ k, s.rk ≤ k → k < pi → s.pair.1 k j = 0 := fun k hk hk' => by
    have := f3 k hk hk'; simpa using this
  by_cases c1 : pi < r
  · simp only [if_pos c1]
    have hne : s.pair.1 pi j ≠ 0 := by have := f4 (by omega); simpa using this
    obtain ⟨st, h1, h2, h3⟩ := whileLoop_ends (c := fun st : Pair K × Nat => decide (st.2 < r))
      (b := killBody xg r pi j) (KillInv r j s.rk pi s.pair) (killMeas r j)
      (fun st h hc => kill_step hx f1 (fun k hk hkr jj hjj => he.below k hk hkr jj hjj) h hc) (s.pair, pi + 1)
      ⟨Tr.refl r _, fun _ _ => rfl, fun _ _ _ => rfl, hne, fun k hk hk' hne' => hbefore k hk (by simp only at hk'; omega),
        by simp, by simp only; omega⟩
    have hend : st.2 = r := by
      have := h2.le
      simp at h3; omega
    refine ⟨_, h1.map _, ?_, h2.tr.toS.trans (rotPair_tr f1 c1 _), by simp only; omega, fun i hi => ?_⟩
    · refine ech_rot (he.congr h2.above fun i hi hir jj hjj => ?_) f1 c1 h2.pivot fun k hk hkr hne' => ?_
      · rw [h2.left i jj hjj]; exact he.below i hi hir jj hjj
      · exact h2.zero k hk (by omega) hne'
    · simp only at hi ⊢
      rw [Function.update_of_ne (by omega)]
  · simp only [if_neg c1]
    exact ⟨s, Ends.pure fun _ => rfl, he.skip fun k hk hkr => hbefore k hk (by omega), TrS.refl r _, le_rfl, fun _ _ => rfl⟩

theorem urefRevlexXgcd_spec {xg : XgcdFn K} (hx : XgcdContract xg) (r c : Nat) (A : Mat K[X])
    (T : Option (Mat K[X])) (piv0 : Nat → Nat) (mrp0 : Nat → Int) :
    ∃ s, Ends (fun fuel => urefRevlexXgcd xg fuel r c A T piv0 mrp0) s ∧
      EchelonForm r c s.pair.1 s.rk s.pivind ∧ TrS r (A, T) s.pair ∧
      ∀ i, s.rk ≤ i → s.pivind i = piv0 i := by
  unfold urefRevlexXgcd
  simp only
  by_cases h0 : r = 0 ∨ c = 0
  · simp only [if_pos h0]
    refine ⟨_, Ends.pure fun _ => rfl, ⟨by simp, fun i hi => by simp at hi, fun i k _ hk => by simp at hk,
      fun i _ hi j hj => by omega⟩, TrS.refl r _, fun i _ => rfl⟩
  · simp only [if_neg h0]
    obtain ⟨s, h1, h2, h3, h4⟩ := colsLoop_ends (fun fuel => revlexCol (K := K) xg fuel r)
      (fun j s => Ech r j s.rk s.pivind s.pair.1 ∧ TrS r (A, T) s.pair ∧
        ∀ i, s.rk ≤ i → s.pivind i = piv0 i)
      (fun j s ⟨a1, a2, a4⟩ => by
        obtain ⟨s', b1, b2, b3, b5, b6⟩ := revlexCol_spec hx a1
        exact ⟨s', b1, b2, a2.trans b3, fun i hi => by rw [b6 i hi, a4 i (by omega)]⟩)
      { pair := (A, T), pivind := piv0, mrp := mrpInit r mrp0, perm := id, rk := 0 }
      ⟨Ech.zero r _ _, TrS.refl r _, fun i _ => rfl⟩ c
    exact ⟨s, h1, h2.form, h3, h4⟩

end PML.Hermite
