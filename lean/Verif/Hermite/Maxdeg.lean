import Verif.Hermite.Echelon

/-! # Maximum degree pivoting -/

namespace PML.Hermite

open PML.MatOps PML.MatOps.Spec PML.MatPoly PML.Forms PML.Forms.Spec PML.RowOps PML.RowOps.Spec
open PML.WeakPopov PML.Hermite.Spec PML.PolyMul.Spec Polynomial

set_option linter.unusedSectionVars false

variable {K : Type} [Field K] [DecidableEq K]

/-- `p.1` and `p.2` have largest and second largest lengths among `a..b-1`. -/
structure TwoLargest (f : Nat → K[X]) (a b : Nat) (p : Nat × Nat) : Prop where
  ne : p.1 ≠ p.2
  fst : a ≤ p.1 ∧ p.1 < b
  snd : a ≤ p.2 ∧ p.2 < b
  le : polyLength (f p.2) ≤ polyLength (f p.1)
  max : ∀ i, a ≤ i → i < b → i ≠ p.1 → polyLength (f i) ≤ polyLength (f p.2)

theorem twoLargestStep_spec {f : Nat → K[X]} {a b : Nat} {p : Nat × Nat} (h : TwoLargest f a b p) :
    TwoLargest f a (b + 1) (twoLargestStep f p b) := by
  have h1 := h.fst
  have h2 := h.snd
  have hab : a ≤ b := by omega
  unfold twoLargestStep
  split_ifs with c1 c2
  · refine ⟨by simp only; omega, by simp only; omega, by simp only; omega, by simp only; omega, fun i hi hi' hne => ?_⟩
    simp only at hne ⊢
    by_cases hip : i = p.1
    · rw [hip]
    · have := h.max i hi (by omega) hip
      have := h.le
      omega
  · refine ⟨by simp only; omega, by simp only; omega, by simp only; omega, by simp only; omega, fun i hi hi' hne => ?_⟩
    simp only at hne ⊢
    by_cases hib : i = b
    · rw [hib]
    · have := h.max i hi (by omega) hne
      omega
  · refine ⟨h.ne, by omega, by omega, h.le, fun i hi hi' hne => ?_⟩
    by_cases hib : i = b
    · rw [hib]; omega
    · exact h.max i hi (by omega) hne

theorem twoLargest_fold {f : Nat → K[X]} {a : Nat} : ∀ n b p, TwoLargest f a b p →
    TwoLargest f a (b + n) ((List.range' b n).foldl (twoLargestStep f) p) := by
  intro n
  induction n with
  | zero => intro b p h; simpa using h
  | succ n ih =>
    intro b p h
    rw [List.range'_succ, List.foldl_cons]
    have := ih (b + 1) _ (twoLargestStep_spec h)
    rwa [show b + 1 + n = b + (n + 1) by omega] at this

theorem twoLargest_spec {f : Nat → K[X]} {r a : Nat} (h : a + 1 < r) :
    TwoLargest f a r (twoLargest f r a) := by
  unfold twoLargest
  simp only
  by_cases hc : polyLength (f a) < polyLength (f (a + 1))
  · rw [if_pos hc]
    simp only
    rw [show max (a + 1) a + 1 = a + 2 by omega]
    have := twoLargest_fold (f := f) (a := a) (r - (a + 2)) (a + 2) (a + 1, a)
      ⟨by simp, by simp, by simp, by simp only; omega, fun i hi hi' hne => by
        simp only at hne ⊢
        have : i = a := by omega
        rw [this]⟩
    rwa [show a + 2 + (r - (a + 2)) = r by omega] at this
  · rw [if_neg hc]
    simp only
    rw [show max a (a + 1) + 1 = a + 2 by omega]
    have := twoLargest_fold (f := f) (a := a) (r - (a + 2)) (a + 2) (a, a + 1)
      ⟨by simp, by simp, by simp, by simp only; omega, fun i hi hi' hne => by
        simp only at hne ⊢
        have : i = a + 1 := by omega
        rw [this]⟩
    rwa [show a + 2 + (r - (a + 2)) = r by omega] at this

/-- The invariant of the loop on one column. -/
def MaxdegInv (r j : Nat) (s0 : UState K) (st : UState K × Bool) : Prop :=
  st.1.oob = false ∧ TrS r s0.pair st.1.pair ∧
    (if st.2 then Ech r j st.1.rk st.1.pivind st.1.pair.1 ∧ st.1.rk = s0.rk ∧ st.1.pivind = s0.pivind
     else Ech r (j + 1) st.1.rk st.1.pivind st.1.pair.1 ∧ s0.rk ≤ st.1.rk ∧
      ∀ i, st.1.rk ≤ i → st.1.pivind i = s0.pivind i)

noncomputable def maxdegMeas (r j : Nat) (st : UState K × Bool) : Nat :=
  (if st.2 then 1 else 0) + ∑ i ∈ Finset.range r, polyLength (st.1.pair.1 i j)

theorem sum_colLength_swap (r j a b : Nat) (ha : a < r) (hb : b < r) (s : Pair K) :
    ∑ i ∈ Finset.range r, polyLength ((swapPair s a b).1 i j) =
      ∑ i ∈ Finset.range r, polyLength (s.1 i j) :=
  sum_swapAt r a b ha hb (fun row => polyLength (row j)) s.1

/-- Exchanging row `rk` with a row holding the only nonzero entry. -/
theorem maxdeg_found {r j pi1 : Nat} {s : UState K} {s0 : UState K}
    (h0 : s.rk = s0.rk) (hp0 : s.pivind = s0.pivind) (ho : s.oob = false) (ht : TrS r s0.pair s.pair)
    (he : Ech r j s.rk s.pivind s.pair.1) (h1 : s.rk ≤ pi1) (h2 : pi1 < r) (hne : s.pair.1 pi1 j ≠ 0)
    (hz : ∀ i, s.rk ≤ i → i < r → i ≠ pi1 → s.pair.1 i j = 0) :
    MaxdegInv r j s0 ({ s with pair := swapPair s.pair pi1 s.rk
                               pivind := Function.update s.pivind s.rk j
                               rk := s.rk + 1 }, false) := by
  have ea : ∀ k, (swapPair s.pair pi1 s.rk).1 k = s.pair.1 (if k = pi1 then s.rk else if k = s.rk then pi1 else k) := by
    intro k
    show swapAt pi1 s.rk s.pair.1 k = _
    rw [MatOps.swapAt_apply]
    split_ifs <;> rfl
  refine ⟨ho, ht.trans (swapPair_tr h2 (by omega) _), ?_⟩
  simp only [Bool.false_eq_true, if_false]
  refine ⟨?_, by omega, fun i hi => ?_⟩
  · have he' : Ech r j s.rk s.pivind (swapPair s.pair pi1 s.rk).1 := by
      refine he.congr (fun i hi => ?_) fun i hi hir jj hjj => ?_
      · rw [ea, if_neg (by omega), if_neg (by omega)]
      · rw [ea]
        split_ifs
        · exact he.below _ le_rfl (by omega) jj hjj
        · exact he.below _ h1 h2 jj hjj
        · exact he.below _ hi hir jj hjj
    refine he'.push (by omega) ?_ fun i hi hir => ?_
    · rw [ea]
      by_cases hk : s.rk = pi1
      · rw [if_pos hk]; rw [hk]; exact hne
      · rw [if_neg hk, if_pos rfl]; exact hne
    · rw [ea, if_neg (by omega : i ≠ s.rk)]
      split_ifs with hk
      · exact hz _ le_rfl (by omega) (by omega)
      · exact hz _ (by omega) hir hk
  · rw [Function.update_of_ne (by omega), hp0]

theorem maxdeg_step {r j : Nat} {s0 : UState K} {st : UState K × Bool} (h : MaxdegInv r j s0 st)
    (hc : (st.2 && !st.1.oob) = true) :
    MaxdegInv r j s0 (maxdegBody r j st) ∧ maxdegMeas r j (maxdegBody r j st) < maxdegMeas r j st := by
  obtain ⟨s, b⟩ := st
  obtain ⟨ho, ht, h3⟩ := h
  simp only at ho ht h3 hc
  have hb : b = true := by cases b <;> simp_all
  subst hb
  simp only [if_true] at h3
  obtain ⟨he, h0, hp0⟩ := h3
  have hr := he.le
  obtain ⟨f1, f2, f3, f4⟩ := findFrom_spec (fun i => decide (s.pair.1 i j ≠ 0)) (r - s.rk) s.rk
  unfold maxdegBody
  simp only
  generalize findFrom (fun i => decide (s.pair.1 i j ≠ 0)) (r - s.rk) s.rk = pi1 at *
  have hbefore : ∀ i, s.rk ≤ i → i < pi1 → s.pair.1 i j = 0 := fun i hi hi' => by
    have := f3 i hi hi'; simpa using this
  by_cases c1 : pi1 = r
  · rw [if_pos c1]
    refine ⟨⟨ho, ht, ?_⟩, ?_⟩
    · simp only [Bool.false_eq_true, if_false]
      exact ⟨he.skip fun i hi hir => hbefore i hi (by omega), by omega, fun i _ => by rw [hp0]⟩
    · simp [maxdegMeas]
  · rw [if_neg c1]
    have hne1 : s.pair.1 pi1 j ≠ 0 := by
      have := f4 (by omega); simpa using this
    by_cases c2 : pi1 = r - 1
    · rw [if_pos c2]
      refine ⟨maxdeg_found h0 hp0 ho ht he f1 (by omega) hne1 fun i hi hir hne => hbefore i hi (by omega), ?_⟩
      simp only [maxdegMeas]
      rw [sum_colLength_swap r j pi1 s.rk (by omega) (by omega)]
      simp
    · rw [if_neg c2]
      have ht2 := twoLargest_spec (f := fun i => s.pair.1 i j) (r := r) (a := pi1) (by omega)
      generalize twoLargest (fun i => s.pair.1 i j) r pi1 = p at *
      have t1 := ht2.fst
      have t2 := ht2.snd
      have t3 := ht2.ne
      by_cases c3 : s.pair.1 p.2 j = 0
      · rw [if_pos c3]
        have hz : ∀ i, s.rk ≤ i → i < r → i ≠ p.1 → s.pair.1 i j = 0 := by
          intro i hi hir hne
          by_cases hlt : i < pi1
          · exact hbefore i hi hlt
          · have := ht2.max i (by omega) hir hne
            simp only [c3] at this
            rw [polyLength_zero_iff.2 (rfl : (0 : K[X]) = 0)] at this
            exact polyLength_zero_iff.1 (by omega)
        have hne' : s.pair.1 p.1 j ≠ 0 := by
          intro e
          by_cases hp1 : pi1 = p.1
          · exact hne1 (by rw [hp1]; exact e)
          · exact hne1 (hz pi1 f1 (by omega) hp1)
        refine ⟨maxdeg_found h0 hp0 ho ht he (by omega) (by omega) hne' hz, ?_⟩
        simp only [maxdegMeas]
        rw [sum_colLength_swap r j p.1 s.rk (by omega) (by omega)]
        simp
      · rw [if_neg c3]
        obtain ⟨q, q1, q2, q3, q4, q5⟩ := atomicCollision_spec (m := r) (pi1 := p.1) (pi2 := p.2) (j := j) (s := s.pair)
          (by omega) (by omega) t3 (fun jj hjj => he.below _ (by omega) (by omega) jj hjj) c3 ht2.le
        simp only [q1]
        refine ⟨⟨ho, ht.trans q2.toS, ?_⟩, ?_⟩
        · simp only [if_true]
          refine ⟨he.congr (fun i hi => q3 i (by omega)) fun i hi hir jj hjj => ?_, h0, hp0⟩
          rw [q4 i jj hjj]; exact he.below i hi hir jj hjj
        · simp only [maxdegMeas]
          have : ∑ i ∈ Finset.range r, polyLength (q.1 i j) < ∑ i ∈ Finset.range r, polyLength (s.pair.1 i j) := by
            refine Finset.sum_lt_sum (fun i _ => ?_) ⟨p.1, Finset.mem_range.2 (by omega), q5⟩
            by_cases hi : i = p.1
            · subst hi; exact q5.le
            · rw [q3 i hi]
          omega

theorem maxdegCol_spec {r j : Nat} {s : UState K} (he : Ech r j s.rk s.pivind s.pair.1) (ho : s.oob = false) :
    ∃ s', Ends (fun fuel => maxdegCol fuel r j s) s' ∧ Ech r (j + 1) s'.rk s'.pivind s'.pair.1 ∧
      TrS r s.pair s'.pair ∧ s'.oob = false ∧ s.rk ≤ s'.rk ∧ ∀ i, s'.rk ≤ i → s'.pivind i = s.pivind i := by
  obtain ⟨st, h1, ⟨k1, k2, k3⟩, h3⟩ := whileLoop_ends (c := fun st : UState K × Bool => st.2 && !st.1.oob)
    (b := maxdegBody r j) (MaxdegInv r j s) (maxdegMeas r j) (fun st h hc => maxdeg_step h hc) (s, true)
    ⟨ho, TrS.refl r _, by simp only [if_true]; exact ⟨he, trivial, trivial⟩⟩
  have hf : st.2 = false := by
    simp only [k1] at h3
    simpa using h3
  simp only [hf, Bool.false_eq_true, if_false] at k3
  refine ⟨st.1, ?_, k3.1, k2, k1, k3.2.1, k3.2.2⟩
  exact h1.map (fun st => st.1)

/-- The loop over the columns. -/
theorem colsLoop_ends {σ : Type} (f : Nat → Nat → σ → Option σ) (P : Nat → σ → Prop)
    (hf : ∀ j s, P j s → ∃ s', Ends (fun fuel => f fuel j s) s' ∧ P (j + 1) s') (s : σ) (h0 : P 0 s) :
    ∀ n, ∃ s', Ends (fun fuel => colsLoop (f fuel) n s) s' ∧ P n s' := by
  intro n
  induction n with
  | zero => exact ⟨s, Ends.pure fun _ => rfl, h0⟩
  | succ n ih =>
    obtain ⟨s1, h1, h2⟩ := ih
    obtain ⟨s2, h3, h4⟩ := hf n s1 h2
    exact ⟨s2, h1.bind (g := fun fuel => f fuel n) h3, h4⟩

theorem urefMaxdegAtomic_spec (r c : Nat) (A : Mat K[X]) (T : Option (Mat K[X])) (piv0 : Nat → Nat) :
    ∃ s, Ends (fun fuel => urefMaxdegAtomic fuel r c A T piv0) s ∧
      EchelonForm r c s.pair.1 s.rk s.pivind ∧ TrS r (A, T) s.pair ∧ s.oob = false ∧
      ∀ i, s.rk ≤ i → s.pivind i = piv0 i := by
  unfold urefMaxdegAtomic
  simp only
  by_cases h0 : r = 0 ∨ c = 0
  · simp only [if_pos h0]
    refine ⟨_, Ends.pure fun _ => rfl, ⟨by simp, fun i hi => by simp at hi, fun i k _ hk => by simp at hk,
      fun i _ hi j hj => by omega⟩, TrS.refl r _, rfl, fun i _ => rfl⟩
  · simp only [if_neg h0]
    obtain ⟨s, h1, h2, h3, h4, h5⟩ := colsLoop_ends (fun fuel => maxdegCol (K := K) fuel r)
      (fun j s => Ech r j s.rk s.pivind s.pair.1 ∧ TrS r (A, T) s.pair ∧ s.oob = false ∧
        ∀ i, s.rk ≤ i → s.pivind i = piv0 i)
      (fun j s ⟨a1, a2, a3, a4⟩ => by
        obtain ⟨s', b1, b2, b3, b4, b5, b6⟩ := maxdegCol_spec a1 a3
        exact ⟨s', b1, b2, a2.trans b3, b4, fun i hi => by rw [b6 i hi, a4 i (by omega)]⟩)
      { pair := (A, T), pivind := piv0, rk := 0, oob := false }
      ⟨Ech.zero r _ _, TrS.refl r _, rfl, fun i _ => rfl⟩ c
    exact ⟨s, h1, h2.form, h3, h4, h5⟩

end PML.Hermite
