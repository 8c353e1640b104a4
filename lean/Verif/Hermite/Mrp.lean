import Verif.Hermite.Bachem
import Verif.Hermite.Revlex
import Verif.Pluq.RankProfile
import Verif.Pluq.Lemmas

/-! # Matrix rank profiles -/

namespace PML.Hermite

open PML.MatOps PML.MatOps.Spec PML.MatPoly PML.Forms PML.Forms.Spec PML.RowOps PML.RowOps.Spec
open PML.WeakPopov PML.Hermite.Spec PML.PolyMul.Spec Polynomial

set_option linter.unusedSectionVars false

variable {K : Type} [Field K] [DecidableEq K]

/-- The vectors depending on the first `b` rows. -/
noncomputable abbrev Dep (A : Mat K[X]) (b : Nat) : Submodule K[X] (Nat → K[X]) := sat (rowSpan b A)

theorem Dep.mono {A : Mat K[X]} {b b' : Nat} (h : b ≤ b') : Dep A b ≤ Dep A b' := sat_mono (rowSpan_mono h A)

theorem sat_firstCols {A : Mat K[X]} {b t : Nat} {x : Nat → K[X]} (h : x ∈ Dep A b) :
    (fun j : Fin t => x j) ∈ sat (rowSpan b (firstCols t A)) := by
  obtain ⟨a, ha, hx⟩ := h
  refine ⟨a, ha, ?_⟩
  obtain ⟨u, hu⟩ := (Submodule.mem_span_range_iff_exists_fun K[X]).1 hx
  refine (Submodule.mem_span_range_iff_exists_fun K[X]).2 ⟨u, ?_⟩
  funext j
  have := congrFun hu j
  simp only [Finset.sum_apply, Pi.smul_apply] at this ⊢
  exact this

/-- `x` is a nonzero multiple of row `b`, up to the previous rows. -/
def Tri (A : Mat K[X]) (b : Nat) (x : Nat → K[X]) : Prop := ∃ a : K[X], a ≠ 0 ∧ x - a • A b ∈ Dep A b

theorem Tri.self (A : Mat K[X]) (b : Nat) : Tri A b (A b) :=
  ⟨1, one_ne_zero, by rw [one_smul, sub_self]; exact Submodule.zero_mem _⟩

theorem Tri.mem {A : Mat K[X]} {b b' : Nat} {x : Nat → K[X]} (h : Tri A b x) (hb : b < b') : x ∈ Dep A b' := by
  obtain ⟨a, _, hx⟩ := h
  have h1 : x - a • A b ∈ Dep A b' := Dep.mono hb.le hx
  have h2 : a • A b ∈ Dep A b' := Submodule.smul_mem _ _ (le_sat _ (row_mem_rowSpan hb A))
  have := Submodule.add_mem _ h1 h2
  rwa [sub_add_cancel] at this

theorem Tri.comb {A : Mat K[X]} {b : Nat} {x y : Nat → K[X]} {w z : K[X]} (h : Tri A b x) (hy : y ∈ Dep A b)
    (hz : z ≠ 0) : Tri A b (w • y + z • x) := by
  obtain ⟨a, ha, hx⟩ := h
  refine ⟨z * a, mul_ne_zero hz ha, ?_⟩
  have : w • y + z • x - (z * a) • A b = w • y + z • (x - a • A b) := by
    rw [mul_smul, smul_sub]; abel
  rw [this]
  exact Submodule.add_mem _ (Submodule.smul_mem _ _ hy) (Submodule.smul_mem _ _ hx)

/-- What relates the current rows, the pivots and `mrp` to the input matrix `A`; `G` gives
    the rows where pivots have been found, at that time. -/
structure MrpInv (r i : Nat) (piv perm : Nat → Nat) (mrp mrp0 : Nat → Int) (A cur G : Mat K[X]) : Prop where
  isPerm : IsPerm r perm
  inc : ∀ k l, i ≤ k → k < l → l < r → perm k < perm l
  tri : ∀ k, k < r → Tri A (perm k) (G k)
  cur : ∀ k, i ≤ k → k < r → G k = cur k
  nonzero : ∀ k, k < i → G k (piv k) ≠ 0
  before : ∀ k, k < i → ∀ l, l < piv k → G k l = 0
  found : ∀ k, k < i → mrp (perm k) = piv k
  others : ∀ k, i ≤ k → k < r → mrp (perm k) = -1
  tail : ∀ k, r ≤ k → mrp k = mrp0 k

theorem MrpInv.init (r : Nat) (piv : Nat → Nat) (mrp0 : Nat → Int) (A : Mat K[X]) :
    MrpInv r 0 piv id (mrpInit r mrp0) mrp0 A A A :=
  ⟨⟨fun _ h => h, fun _ _ _ _ h => h⟩, fun _ _ _ h _ => h, fun k _ => Tri.self A k, fun _ _ _ => rfl,
    fun k hk => by omega, fun k hk => by omega, fun k hk => by omega, fun k _ hk => by simp [mrpInit, hk],
    fun k hk => by simp [mrpInit, show ¬ k < r by omega]⟩

/-- Changes which keep the rows triangular, without a new pivot. -/
theorem MrpInv.keep {r i : Nat} {piv perm : Nat → Nat} {mrp mrp0 : Nat → Int} {A cur cur' G : Mat K[X]}
    (h : MrpInv r i piv perm mrp mrp0 A cur G) (h' : ∀ k, i ≤ k → k < r → Tri A (perm k) (cur' k)) :
    MrpInv r i piv perm mrp mrp0 A cur' (fun k => if k < i then G k else cur' k) :=
  ⟨h.isPerm, h.inc, fun k hk => by
      by_cases hki : k < i
      · simp only [if_pos hki]; exact h.tri k hk
      · simp only [if_neg hki]; exact h' k (by omega) hk,
    fun k hk _ => by simp only [if_neg (by omega : ¬ k < i)],
    fun k hk => by simp only [if_pos hk]; exact h.nonzero k hk,
    fun k hk => by simp only [if_pos hk]; exact h.before k hk, h.found, h.others, h.tail⟩

/-- A new pivot. -/
theorem MrpInv.push {r i ii j : Nat} {piv perm : Nat → Nat} {mrp mrp0 : Nat → Int} {A cur G q cur' : Mat K[X]}
    (h : MrpInv r i piv perm mrp mrp0 A cur G) (h1 : i ≤ ii) (h2 : ii < r) {g : Nat → K[X]}
    (hg : Tri A (perm ii) g) (hne : g j ≠ 0) (hz : ∀ l, l < j → g l = 0)
    (hq : ∀ k, i ≤ k → k < r → k ≠ ii → Tri A (perm k) (q k))
    (hcur : ∀ k, i + 1 ≤ k → k < r → cur' k = q (if k ≤ ii then k - 1 else k)) :
    ∃ G', MrpInv r (i + 1) (Function.update piv i j) (rotDown i ii perm)
      (Function.update mrp (rotDown i ii perm i) (j : Int)) mrp0 A cur' G' := by
  have hp : IsPerm r (rotDown i ii perm) := PML.Pluq.IsPerm.rotDown h.isPerm h1 h2
  have hpi : rotDown i ii perm i = perm ii := by rw [rotDown_apply h1, if_pos rfl]
  have hpk : ∀ k, k < i → rotDown i ii perm k = perm k := fun k hk => by
    rw [rotDown_apply h1, if_neg (by omega), if_neg (by omega)]
  have hpl : ∀ k, i + 1 ≤ k → rotDown i ii perm k = perm (if k ≤ ii then k - 1 else k) := fun k hk => by
    rw [rotDown_apply h1, if_neg (by omega)]
    by_cases hki : k ≤ ii
    · rw [if_pos ⟨by omega, hki⟩, if_pos hki]
    · rw [if_neg (by omega), if_neg hki]
  have hmrp : ∀ k, k < r → k ≠ i → Function.update mrp (rotDown i ii perm i) (j : Int) (rotDown i ii perm k) =
      mrp (rotDown i ii perm k) := fun k hk hki =>
    Function.update_of_ne (fun e => hki (hp.2 k i hk (by omega) e)) _ _
  refine ⟨fun k => if k < i then G k else if k = i then g else cur' k, hp, fun k l hk hkl hl => ?_, fun k hk => ?_,
    fun k hk hkr => ?_, fun k hk => ?_, fun k hk l hl => ?_, fun k hk => ?_, fun k hk hkr => ?_, fun k hk => ?_⟩
  · rw [hpl k hk, hpl l (by omega)]
    exact h.inc _ _ (by split_ifs <;> omega) (by split_ifs <;> omega) (by split_ifs <;> omega)
  · rcases Nat.lt_trichotomy k i with e | e | e
    · simp only [if_pos e]; rw [hpk k e]; exact h.tri k hk
    · simp only [if_neg (by omega : ¬ k < i), if_pos e]; rw [e, hpi]; exact hg
    · simp only [if_neg (by omega : ¬ k < i), if_neg (by omega : ¬ k = i)]
      rw [hpl k e, hcur k e hk]
      exact hq _ (by split_ifs <;> omega) (by split_ifs <;> omega) (by split_ifs <;> omega)
  · simp only [if_neg (by omega : ¬ k < i), if_neg (by omega : ¬ k = i)]
  · rcases Nat.eq_or_lt_of_le (by omega : k ≤ i) with e | e
    · simp only [if_neg (by omega : ¬ k < i), if_pos e]; rw [e, Function.update_self]; exact hne
    · simp only [if_pos e]; rw [Function.update_of_ne (by omega)]; exact h.nonzero k e
  · rcases Nat.eq_or_lt_of_le (by omega : k ≤ i) with e | e
    · rw [e, Function.update_self] at hl
      simp only [if_neg (by omega : ¬ k < i), if_pos e]; exact hz l hl
    · rw [Function.update_of_ne (by omega)] at hl
      simp only [if_pos e]; exact h.before k e l hl
  · rcases Nat.eq_or_lt_of_le (by omega : k ≤ i) with e | e
    · rw [e, Function.update_self, Function.update_self]
    · rw [hmrp k (by omega) (by omega), Function.update_of_ne (by omega : k ≠ i), hpk k e]; exact h.found k e
  · rw [hmrp k hkr (by omega), hpl k hk]
    exact h.others _ (by split_ifs <;> omega) (by split_ifs <;> omega)
  · have : rotDown i ii perm i < r := hp.1 i (by omega)
    rw [Function.update_of_ne (by omega)]
    exact h.tail k hk

/-- Rows depending on the rows of a set. -/
theorem rankOf_le_card {m t : Nat} {A B : Mat K[X]} (S : Finset Nat)
    (h : ∀ b, b < m → firstCols t A b ∈ sat (Submodule.span K[X] ((fun k => firstCols t B k) '' (S : Set Nat)))) :
    rankOf m t A ≤ S.card := by
  let f : Nat → Nat := fun i => if h : i < S.card then (S.equivFin.symm ⟨i, h⟩ : Nat) else 0
  refine (rankOf_le_of_sat (m' := S.card) (B := fun i => B (f i)) fun i hi => ?_).trans (rankOf_le _ _ _)
  refine sat_mono (Submodule.span_le.2 ?_) (h i hi)
  rintro _ ⟨k, hk, rfl⟩
  have hlt := (S.equivFin ⟨k, hk⟩).2
  have e : f (S.equivFin ⟨k, hk⟩) = k := by
    simp only [f, dif_pos hlt, Fin.eta, Equiv.symm_apply_apply]
  have := row_mem_rowSpan hlt (firstCols t fun i => B (f i))
  have e2 : firstCols t (fun i => B (f i)) (S.equivFin ⟨k, hk⟩) = firstCols t B k := by
    funext l
    show B (f _) l = B k l
    rw [e]
  rw [e2] at this
  exact this

/-- The matrix rank profile, at the end: the rows without pivots depend on the previous
    rows of the input. -/
theorem MrpInv.profile {r c i : Nat} {piv perm : Nat → Nat} {mrp mrp0 : Nat → Int} {A cur G : Mat K[X]}
    (h : MrpInv r i piv perm mrp mrp0 A cur G) (hi : i ≤ r) (hlt : ∀ k, k < i → piv k < c)
    (hinc : ∀ k l, k < l → l < i → piv k < piv l)
    (hrest : ∀ t, t ≤ c → ∀ k, i ≤ k → k < r →
      (fun j : Fin t => cur k j) ∈ sat (rowSpan (perm k) (firstCols t A))) :
    MatrixRankProfile r c A mrp := by
  have hsurj : ∀ b, b < r → ∃ k, k < r ∧ perm k = b := fun b hb => PML.Pluq.IsPerm.surj h.isPerm b hb
  have hpinj : ∀ k l, k < i → l < i → piv k = piv l → k = l := fun k l hk hl e => by
    by_contra hne
    rcases Nat.lt_or_gt_of_ne hne with a | a
    · have := hinc k l a hl; omega
    · have := hinc l k a hk; omega
  refine ⟨fun b hb => ?_, fun b b' hbb hb' h0 e => ?_, fun s t hs ht => ?_⟩
  · obtain ⟨k, hk, rfl⟩ := hsurj b hb
    by_cases hki : k < i
    · right; rw [h.found k hki]; have := hlt k hki; omega
    · left; exact h.others k (by omega) hk
  · obtain ⟨k, hk, rfl⟩ := hsurj b (by omega)
    obtain ⟨l, hl, rfl⟩ := hsurj b' hb'
    by_cases hki : k < i
    · by_cases hli : l < i
      · rw [h.found k hki, h.found l hli] at e
        have := hpinj k l hki hli (by omega)
        subst this; omega
      · rw [h.found k hki, h.others l (by omega) hl] at e; omega
    · rw [h.others k (by omega) hk] at h0; omega
  · let S := (Finset.range i).filter fun k => perm k < s ∧ piv k < t
    have hcard : ((Finset.range s).filter fun b => 0 ≤ mrp b ∧ mrp b < (t : Int)).card = S.card := by
      symm
      refine Finset.card_bij (fun k _ => perm k) (fun k hk => ?_) (fun k hk l hl e => ?_) (fun b hb => ?_)
      · simp only [S, Finset.mem_filter, Finset.mem_range] at hk ⊢
        rw [h.found k hk.1]
        exact ⟨hk.2.1, by omega, by omega⟩
      · simp only [S, Finset.mem_filter, Finset.mem_range] at hk hl
        exact h.isPerm.2 k l (by omega) (by omega) e
      · simp only [Finset.mem_filter, Finset.mem_range] at hb
        obtain ⟨k, hk, rfl⟩ := hsurj b (by omega)
        by_cases hki : k < i
        · rw [h.found k hki] at hb
          exact ⟨k, by simp only [S, Finset.mem_filter, Finset.mem_range]; omega, rfl⟩
        · rw [h.others k (by omega) hk] at hb; omega
    rw [hcard]
    refine le_antisymm (rankOf_le_card (B := G) S ?_) (card_le_rankOf (B := G) S piv ?_ ?_ ?_)
    · intro b
      induction b using Nat.strong_induction_on with
      | _ b ih =>
        intro hb
        obtain ⟨k, hk, rfl⟩ := hsurj b (by omega)
        have hprev : sat (rowSpan (perm k) (firstCols t A)) ≤
            sat (Submodule.span K[X] ((fun k => firstCols t G k) '' (S : Set Nat))) := by
          intro x hx
          exact sat_sat (sat_mono (PML.RowOps.rowSpan_le fun b' hb' => ih b' hb' (by omega)) hx)
        obtain ⟨a, ha, hx⟩ := h.tri k hk
        have hx' := hprev (sat_firstCols (t := t) hx)
        have hG : firstCols t G k ∈ sat (Submodule.span K[X] ((fun k => firstCols t G k) '' (S : Set Nat))) := by
          by_cases hki : k < i
          · by_cases hkt : piv k < t
            · refine le_sat _ (Submodule.subset_span ⟨k, ?_, rfl⟩)
              simp only [S, Finset.coe_filter, Finset.mem_range, Set.mem_ofPred_eq]; omega
            · have : firstCols t G k = 0 := by
                funext l
                exact h.before k hki l (by have := l.2; omega)
              rw [this]; exact Submodule.zero_mem _
          · have := hprev (hrest t ht k (by omega) hk)
            rw [← h.cur k (by omega) hk] at this
            exact this
        have := Submodule.sub_mem _ hG hx'
        refine sat_of_smul ha ?_
        have e : a • firstCols t A (perm k) = firstCols t G k - fun j : Fin t => (G k - a • A (perm k)) j := by
          funext l
          simp [firstCols]
        rw [e]; exact this
    · intro k hk
      simp only [S, Finset.mem_filter, Finset.mem_range] at hk
      exact ⟨hk.2.2, h.nonzero k hk.1, fun l _ hl => h.before k hk.1 l hl⟩
    · intro k l hk hl e
      simp only [S, Finset.mem_filter, Finset.mem_range] at hk hl
      exact hpinj k l hk.1 hl.1 e
    · intro k hk
      simp only [S, Finset.mem_filter, Finset.mem_range] at hk
      exact sat_firstCols ((h.tri k (by omega)).mem hk.2.1)

/-! ### Reverse lexicographic pivoting -/

/-- Rows during the elimination below the pivot. -/
structure KillG (r j rk pi : Nat) (perm : Nat → Nat) (A : Mat K[X]) (st : Pair K × Nat) : Prop where
  tri : ∀ k, rk ≤ k → k < r → k ≠ pi → Tri A (perm k) (st.1.1 k)
  piv : ∀ b, (∀ k, rk ≤ k → k < r → (k < st.2 ∨ (k = st.2 ∧ st.1.1 k j = 0)) → perm k < b) → st.1.1 pi ∈ Dep A b

theorem kill_stepG {xg : XgcdFn K} (hx : XgcdContract xg) {r j rk pi : Nat} {perm : Nat → Nat} {A : Mat K[X]}
    {s0 : Pair K} {st : Pair K × Nat}
    (hrk : rk ≤ pi) (hb : ∀ k, rk ≤ k → k < r → ∀ jj, jj < j → s0.1 k jj = 0)
    (hinc : ∀ k l, rk ≤ k → k < l → l < r → perm k < perm l)
    (h : KillInv r j rk pi s0 st) (hG : KillG r j rk pi perm A st) (hc : decide (st.2 < r) = true) :
    KillG r j rk pi perm A (killBody xg r pi j st) := by
  have hlt : st.2 < r := by simpa using hc
  obtain ⟨q, ii⟩ := st
  simp only at hlt
  obtain ⟨f1, f2, f3, f4⟩ := findFrom_spec (fun i => decide (q.1 i j ≠ 0)) (r - ii) ii
  have h1 := h.lt
  simp only at h1
  unfold killBody
  simp only
  generalize findFrom (fun i => decide (q.1 i j ≠ 0)) (r - ii) ii = i' at *
  by_cases c1 : i' < r
  · rw [if_pos c1]
    have hne : q.1 i' j ≠ 0 := by have := f4 (by omega); simpa using this
    have hz1 : ∀ jj, jj < j → q.1 pi jj = 0 := fun jj hjj => by
      have := h.left pi jj hjj; simp only at this; rw [this]; exact hb pi hrk (by omega) jj hjj
    have hz2 : ∀ jj, jj < j → q.1 i' jj = 0 := fun jj hjj => by
      have := h.left i' jj hjj; simp only at this; rw [this]; exact hb i' (by omega) c1 jj hjj
    obtain ⟨x1, x2, x3, x4, x5, x6, _⟩ := xgcdCollision_spec hx (m := r) (pi := pi) (ii := i') (j := j) (s := q)
      (by omega) c1 (by omega) hz1 hz2 h.pivot
    obtain ⟨u, v, w, z, _, hz, e1, e2⟩ := xgcdCollision_coeffs hx (by omega : pi ≠ i') hz1 hz2 h.pivot
    have hpm : q.1 pi ∈ Dep A (perm i') := hG.piv _ fun k hk hkr hkk => by
      refine hinc k i' hk ?_ c1
      simp only at hkk
      rcases hkk with hkk | ⟨hkk, h0⟩
      · omega
      · subst hkk
        rcases Nat.eq_or_lt_of_le f1 with e | e
        · rw [← e] at hne; exact absurd h0 hne
        · exact e
    refine ⟨fun k hk hkr hkp => ?_, fun b hbb => ?_⟩
    · simp only
      by_cases hki : k = i'
      · rw [hki, e2]
        exact (hG.tri i' (by omega) c1 (by omega)).comb hpm hz
      · rw [x2 k hkp hki]
        exact hG.tri k hk hkr hkp
    · simp only at hbb ⊢
      have hbi : perm i' < b := hbb i' (by omega) c1 (Or.inr ⟨rfl, x4⟩)
      rw [e1]
      exact Submodule.add_mem _ (Submodule.smul_mem _ _ (Dep.mono hbi.le hpm))
        (Submodule.smul_mem _ _ ((hG.tri i' (by omega) c1 (by omega)).mem hbi))
  · rw [if_neg c1]
    refine ⟨hG.tri, fun b hbb => hG.piv b fun k hk hkr hkk => hbb k hk hkr (Or.inl ?_)⟩
    simp only; omega

theorem revlexCol_mrp {xg : XgcdFn K} (hx : XgcdContract xg) {r j : Nat} {s : RState K} {mrp0 : Nat → Int}
    {A G : Mat K[X]} (he : Ech r j s.rk s.pivind s.pair.1)
    (hG : MrpInv r s.rk s.pivind s.perm s.mrp mrp0 A s.pair.1 G) :
    ∃ s', Ends (fun fuel => revlexCol xg fuel r j s) s' ∧
      ∃ G', MrpInv r s'.rk s'.pivind s'.perm s'.mrp mrp0 A s'.pair.1 G' := by
  have hr := he.le
  obtain ⟨f1, f2, f3, f4⟩ := findFrom_spec (fun i => decide (s.pair.1 i j ≠ 0)) (r - s.rk) s.rk
  unfold revlexCol
  simp only
  generalize findFrom (fun i => decide (s.pair.1 i j ≠ 0)) (r - s.rk) s.rk = pi at *
  have hbefore : ∀ k, s.rk ≤ k → k < pi → s.pair.1 k j = 0 := fun k hk hk' => by
    have := f3 k hk hk'; simpa using this
  by_cases c1 : pi < r
  · simp only [if_pos c1]
    have hne : s.pair.1 pi j ≠ 0 := by have := f4 (by omega); simpa using this
    have htri : ∀ k, s.rk ≤ k → k < r → Tri A (s.perm k) (s.pair.1 k) := fun k hk hkr => by
      rw [← hG.cur k hk hkr]; exact hG.tri k hkr
    obtain ⟨st, h1, ⟨h2, h2'⟩, h3⟩ := whileLoop_ends (c := fun st : Pair K × Nat => decide (st.2 < r))
      (b := killBody xg r pi j) (fun st => KillInv r j s.rk pi s.pair st ∧ KillG r j s.rk pi s.perm A st) (killMeas r j)
      (fun st h hc =>
        have h5 := kill_step hx f1 (fun k hk hkr jj hjj => he.below k hk hkr jj hjj) h.1 hc
        ⟨⟨h5.1, kill_stepG hx f1 (fun k hk hkr jj hjj => he.below k hk hkr jj hjj) hG.inc h.1 h.2 hc⟩, h5.2⟩) (s.pair, pi + 1)
      ⟨⟨Tr.refl r _, fun _ _ => rfl, fun _ _ _ => rfl, hne, fun k hk hk' hne' => hbefore k hk (by simp only at hk'; omega),
        by simp, by simp only; omega⟩, fun k hk hkr _ => htri k hk hkr,
        fun b hb => (htri pi f1 c1).mem (hb pi f1 c1 (Or.inl (by simp)))⟩
    refine ⟨_, h1.map _, ?_⟩
    refine hG.push (q := st.1.1) f1 c1 (htri pi f1 c1) hne (fun l hl => he.below pi f1 c1 l hl) h2'.tri fun k hk hkr => ?_
    show rotDown s.rk pi st.1.1 k = _
    rw [rotDown_apply f1, if_neg (by omega)]
    by_cases hki : k ≤ pi
    · rw [if_pos ⟨by omega, hki⟩, if_pos hki]
    · rw [if_neg (by omega), if_neg hki]
  · simp only [if_neg c1]
    exact ⟨s, Ends.pure fun _ => rfl, G, hG⟩

theorem urefRevlexXgcd_mrp {xg : XgcdFn K} (hx : XgcdContract xg) (r c : Nat) (A : Mat K[X])
    (T : Option (Mat K[X])) (piv0 : Nat → Nat) (mrp0 : Nat → Int) :
    ∃ s, Ends (fun fuel => urefRevlexXgcd xg fuel r c A T piv0 mrp0) s ∧
      MatrixRankProfile r c A s.mrp ∧ ∀ i, r ≤ i → s.mrp i = mrp0 i := by
  unfold urefRevlexXgcd
  simp only
  by_cases h0 : r = 0 ∨ c = 0
  · simp only [if_pos h0]
    have h1 := MrpInv.init r piv0 mrp0 A
    refine ⟨_, Ends.pure fun _ => rfl, h1.profile (by omega) (fun k hk => by omega) (fun k l _ hl => by omega)
      (fun t ht k _ hk => ?_), h1.tail⟩
    have : (fun j : Fin t => A k j) = 0 := by funext l; have := l.2; omega
    rw [this]; exact Submodule.zero_mem _
  · simp only [if_neg h0]
    obtain ⟨s, h1, h2, G, h3⟩ := colsLoop_ends (fun fuel => revlexCol (K := K) xg fuel r)
      (fun j s => Ech r j s.rk s.pivind s.pair.1 ∧ ∃ G, MrpInv r s.rk s.pivind s.perm s.mrp mrp0 A s.pair.1 G)
      (fun j s ⟨a1, G, a2⟩ => by
        obtain ⟨s', b1, b2, _⟩ := revlexCol_spec hx a1
        obtain ⟨s'', c1, c2⟩ := revlexCol_mrp hx a1 a2
        obtain rfl := b1.unique c1
        exact ⟨s', b1, b2, c2⟩)
      { pair := (A, T), pivind := piv0, mrp := mrpInit r mrp0, perm := id, rk := 0 }
      ⟨Ech.zero r _ _, A, MrpInv.init r piv0 mrp0 A⟩ c
    refine ⟨s, h1, h3.profile h2.le h2.lt h2.inc (fun t ht k hk hkr => ?_), h3.tail⟩
    have : (fun j : Fin t => s.pair.1 k j) = 0 := by
      funext l; exact h2.below k hk hkr l (by have := l.2; omega)
    rw [this]; exact Submodule.zero_mem _

/-! ### Kannan and Bachem's algorithm -/

theorem reduceAbove_rows {i j : Nat} : ∀ (n : Nat) {s : Pair K}, n ≤ i → (∀ jj, jj < j → s.1 i jj = 0) → s.1 i j ≠ 0 →
    ∀ k, ∃ a : K[X], (reduceAbove i j n s).1 k = s.1 k + a • s.1 i := by
  intro n
  induction n with
  | zero => intro s _ _ _ k; exact ⟨0, by simp [reduceAbove]⟩
  | succ n ih =>
    intro s hn hz hne k
    obtain ⟨_, r2, r3, _⟩ := reduceAbove_spec (m := i + 1) (i := i) (j := j) (n := n) (s := s) (by omega) (by omega) hz hne
    have ih' := ih (s := s) (by omega) hz hne
    obtain ⟨a, ha⟩ := ih' k
    have hi := r2 i (by omega)
    show ∃ a, (reduceAgainst (reduceAbove i j n s) i j n).1 k = _
    unfold reduceAgainst
    simp only
    split_ifs with hc
    · by_cases hk : k = n
      · subst hk
        generalize reduceAbove i j k s = q at *
        refine ⟨a - q.1 k j / s.1 i j, ?_⟩
        funext l
        simp only [Function.update_self, Pi.add_apply, Pi.smul_apply, smul_eq_mul]
        have hal := congrFun ha l
        simp only [Pi.add_apply, Pi.smul_apply, smul_eq_mul] at hal
        rw [hi]
        by_cases hl : l < j
        · rw [if_pos hl, hal, hz l hl]; ring
        · rw [if_neg hl]
          by_cases hl' : l = j
          · subst hl'
            rw [if_pos rfl]
            have := EuclideanDomain.div_add_mod (q.1 k l) (s.1 i l)
            linear_combination this + hal
          · rw [if_neg hl', hal]; ring
      · simp only [Function.update_of_ne hk]
        exact ⟨a, ha⟩
    · exact ⟨a, ha⟩

/-- Pivot rows only depend on rows of the input which come before the rows they meet. -/
def Junk (r i : Nat) (piv perm : Nat → Nat) (A cur : Mat K[X]) : Prop :=
  ∀ ii, i ≤ ii → ii < r → ∀ k, k < i → (∃ l, l ≤ piv k ∧ cur ii l ≠ 0) → cur k ∈ Dep A (perm ii)

/-- Same, while row `ii` is processed. -/
structure KG (r i ii : Nat) (piv perm : Nat → Nat) (A : Mat K[X]) (s p : Pair K) : Prop where
  tri : Tri A (perm ii) (p.1 ii)
  junk : ∀ i', ii < i' → i' < r → ∀ k, k < i → (∃ l, l ≤ piv k ∧ s.1 i' l ≠ 0) → p.1 k ∈ Dep A (perm i')

theorem KG.step {xg : XgcdFn K} (hx : XgcdContract xg) {r i j ii : Nat} {piv perm : Nat → Nat} {prow : Nat → Int}
    {A : Mat K[X]} {s p : Pair K} {k : Nat} (hs : KS r i j ii piv prow s) (h : KI r i ii piv s p (piv k)) (hk : k < i)
    (hinc : ∀ k l, i ≤ k → k < l → l < r → perm k < perm l) (hJ : Junk r i piv perm A s.1)
    (hfirst : ∃ l, l ≤ piv k ∧ s.1 ii l ≠ 0) (hG : KG r i ii piv perm A s p) :
    KG r i ii piv perm A s (reduceAbove k (piv k) k (xgcdCollision xg p k ii (piv k))) := by
  have hile := hs.ile
  have hiir := hs.iir
  have hki : k ≠ ii := by omega
  have hz1 : ∀ l, l < piv k → p.1 k l = 0 := h.before k hk
  have hne := (h.monic k hk).ne_zero
  obtain ⟨x1, x2, x3, x4, x5, x6, _⟩ := xgcdCollision_spec hx (m := r) (pi := k) (ii := ii) (j := piv k) (s := p)
    (by omega) hiir hki hz1 h.zero hne
  obtain ⟨u, v, w, z, hdet, hz, c1, c2⟩ := xgcdCollision_coeffs hx hki hz1 h.zero hne
  generalize xgcdCollision xg p k ii (piv k) = p1 at *
  have hz1' : ∀ l, l < piv k → p1.1 k l = 0 := fun l hl => by rw [x3 k l hl]; exact hz1 l hl
  obtain ⟨r1, r2, r3, r4⟩ := reduceAbove_spec (m := r) (i := k) (j := piv k) (n := k) (s := p1) (by omega) le_rfl
    hz1' x5.ne_zero
  have r5 := reduceAbove_rows k (s := p1) le_rfl hz1' x5.ne_zero
  generalize reduceAbove k (piv k) k p1 = q at *
  have hpk : p.1 k ∈ Dep A (perm ii) := by
    rw [h.later k hk le_rfl]
    exact hJ ii hile hiir k hk hfirst
  refine ⟨?_, fun i' hi' hir k' hk' hl => ?_⟩
  · rw [r2 ii (by omega), c2]
    exact hG.tri.comb hpk hz
  · have hp := hinc ii i' hile hi' hir
    have hp1k : k' ≤ k → p1.1 k ∈ Dep A (perm i') := fun hle => by
      rw [c1]
      refine Submodule.add_mem _ (Submodule.smul_mem _ _ (hG.junk i' hi' hir k hk ?_))
        (Submodule.smul_mem _ _ (hG.tri.mem hp))
      obtain ⟨l, hl1, hl2⟩ := hl
      refine ⟨l, ?_, hl2⟩
      rcases Nat.eq_or_lt_of_le hle with e | e
      · rw [← e]; exact hl1
      · have := hs.inc k' k e hk; omega
    rcases Nat.lt_trichotomy k' k with e | e | e
    · obtain ⟨a, ha⟩ := r5 k'
      rw [ha, x2 k' (by omega) (by omega)]
      exact Submodule.add_mem _ (hG.junk i' hi' hir k' hk' hl) (Submodule.smul_mem _ _ (hp1k e.le))
    · subst e
      rw [r2 k' le_rfl]
      exact hp1k le_rfl
    · rw [r2 k' e.le, x2 k' (by omega) (by omega)]
      exact hG.junk i' hi' hir k' hk' hl

theorem killRow_mrp {xg : XgcdFn K} (hx : XgcdContract xg) {r i j ii : Nat} {piv perm : Nat → Nat} {prow : Nat → Int}
    {A : Mat K[X]} {s : Pair K} (hs : KS r i j ii piv prow s)
    (hinc : ∀ k l, i ≤ k → k < l → l < r → perm k < perm l) (hJ : Junk r i piv perm A s.1) :
    ∀ (n jj : Nat) (p q : Pair K), jj + n ≤ j → KI r i ii piv s p jj → KG r i ii piv perm A s p →
    (0 < n → ∃ l, l ≤ jj ∧ s.1 ii l ≠ 0) → killRow xg prow ii n jj p = some q → KG r i ii piv perm A s q := by
  intro n
  induction n with
  | zero =>
    intro jj p q _ _ hG _ e
    simp only [killRow, Option.some.injEq] at e
    rw [← e]; exact hG
  | succ n ih =>
    intro jj p q hj h hG hf e
    obtain ⟨l0, hl0, hl0'⟩ := hf (by omega)
    unfold killRow at e
    by_cases h0 : p.1 ii jj = 0
    · rw [if_neg (by simpa using h0)] at e
      exact ih (jj + 1) p q (by omega) (h.skip hs h0) hG (fun _ => ⟨l0, by omega, hl0'⟩) e
    · rw [if_pos h0] at e
      obtain ⟨k, hk, rfl⟩ := KI.pivot hs h (by omega) h0
      have hp := hs.prow k hk
      rw [if_neg (by omega), hp, Int.toNat_natCast] at e
      exact ih (piv k + 1) _ q (by omega) (h.step hx hs hk) (KG.step hx hs h hk hinc hJ ⟨l0, hl0, hl0'⟩ hG)
        (fun _ => ⟨l0, by omega, hl0'⟩) e

structure KBG (r : Nat) (mrp0 : Nat → Int) (A : Mat K[X]) (s : KState K) : Prop where
  ghost : ∃ G, MrpInv r s.i s.pivind s.perm s.mrp mrp0 A s.pair.1 G
  junk : Junk r s.i s.pivind s.perm A s.pair.1

theorem kb_stepG {xg : XgcdFn K} (hx : XgcdContract xg) {r c : Nat} {s0 : Pair K} {piv0 : Nat → Nat}
    {mrp0 : Nat → Int} {A : Mat K[X]} {s : KState K} (h : KBInv r c s0 piv0 s) (hG : KBG r mrp0 A s)
    (hc : (!s.oob && decide (s.i < r ∧ s.j < c)) = true) : KBG r mrp0 A (kbBody xg r s) := by
  have hlt : s.i < r ∧ s.j < c := by
    simp only [Bool.and_eq_true, decide_eq_true_eq] at hc; exact hc.2
  obtain ⟨⟨G, hM⟩, hJ⟩ := hG
  have hiile := h.iile
  have hiir := h.iir
  have hfirst : ∀ ii, findFrom (fun jj => decide (s.pair.1 ii jj ≠ 0)) (s.j + 1) 0 ≤ s.j + 1 ∧
      (∀ l, l < findFrom (fun jj => decide (s.pair.1 ii jj ≠ 0)) (s.j + 1) 0 → s.pair.1 ii l = 0) ∧
      (findFrom (fun jj => decide (s.pair.1 ii jj ≠ 0)) (s.j + 1) 0 < s.j + 1 →
        s.pair.1 ii (findFrom (fun jj => decide (s.pair.1 ii jj ≠ 0)) (s.j + 1) 0) ≠ 0) := fun ii => by
    obtain ⟨_, f2, f3, f4⟩ := findFrom_spec (fun jj => decide (s.pair.1 ii jj ≠ 0)) (s.j + 1) 0
    refine ⟨by omega, fun l hl => ?_, fun hl => ?_⟩
    · have := f3 l (by omega) hl
      simpa using this
    · have := f4 (by omega)
      simpa using this
  unfold kbBody
  simp only
  obtain ⟨g1, g2, g3, g4⟩ := findFrom_spec
    (fun ii => decide (findFrom (fun jj => decide (s.pair.1 ii jj ≠ 0)) (s.j + 1) 0 ≠ s.j + 1)) (r - s.ii) s.ii
  generalize findFrom (fun ii => decide (findFrom (fun jj => decide (s.pair.1 ii jj ≠ 0)) (s.j + 1) 0 ≠ s.j + 1))
    (r - s.ii) s.ii = ii at *
  have hz : ∀ k, s.i ≤ k → k < ii → ∀ jj, jj ≤ s.j → s.pair.1 k jj = 0 := fun k hk hki jj hjj => by
    by_cases hkk : k < s.ii
    · exact h.zero k hk hkk jj hjj
    · have := g3 k (by omega) hki
      simp only [ne_eq, decide_not, Bool.not_eq_eq_eq_not, Bool.not_false, decide_eq_true_eq] at this
      exact (hfirst k).2.1 jj (by simp only [ne_eq, decide_not] at this ⊢; omega)
  by_cases c1 : ii = r
  · rw [if_pos c1]
    exact ⟨⟨G, hM⟩, hJ⟩
  · rw [if_neg c1]
    have hf0 := hfirst ii
    have hne0 := g4 (by omega)
    simp only [decide_eq_true_eq] at hne0
    generalize findFrom (fun jj => decide (s.pair.1 ii jj ≠ 0)) (s.j + 1) 0 = jj0 at *
    have hks : KS r s.i s.j ii s.pivind s.prow s.pair :=
      ⟨by omega, by omega, h.lt, h.inc, h.monic, h.before, h.reduced, h.rank, h.prow⟩
    have hki0 : KI r s.i ii s.pivind s.pair s.pair jj0 :=
      ⟨Tr.refl r _, fun _ _ _ => rfl, hf0.2.1, h.monic, h.before, fun _ _ _ => rfl, fun k' k a b _ => h.reduced k' k a b,
        fun _ _ => le_rfl, fun m _ _ _ l hl => Submodule.mem_sup_left (row_mem_rowSpan hl _)⟩
    have htri : ∀ k, s.i ≤ k → k < r → Tri A (s.perm k) (s.pair.1 k) := fun k hk hkr => by
      rw [← hM.cur k hk hkr]; exact hM.tri k hkr
    obtain ⟨q, hq, hki⟩ := killRow_spec hx hks (s.j - jj0) jj0 s.pair (by omega) hki0
    have hkg : KG r s.i ii s.pivind s.perm A s.pair q :=
      killRow_mrp hx hks hM.inc hJ (s.j - jj0) jj0 s.pair q (by omega) hki0
        ⟨htri ii (by omega) (by omega), fun i' hi' hir k hk hl => hJ i' (by omega) hir k hk hl⟩
        (fun _ => ⟨jj0, le_rfl, hf0.2.2 (by omega)⟩) hq
    rw [hq, show jj0 + (s.j - jj0) = s.j by omega] at *
    simp only
    have hsame : ∀ k, s.i ≤ k → k < ii → ∀ jj, jj ≤ s.j → q.1 k jj = 0 := fun k hk hki' jj hjj => by
      rw [hki.same k hk (by omega)]; exact hz k hk hki' jj hjj
    have hqtri : ∀ k, s.i ≤ k → k < r → Tri A (s.perm k) (q.1 k) := fun k hk hkr => by
      by_cases e : k = ii
      · rw [e]; exact hkg.tri
      · rw [hki.same k hk e]; exact htri k hk hkr
    by_cases c2 : q.1 ii s.j = 0
    · rw [if_pos c2]
      refine ⟨⟨_, hM.keep hqtri⟩, fun i' hi' hir k hk hl => ?_⟩
      simp only at hi' hk hl ⊢
      obtain ⟨l, hl1, hl2⟩ := hl
      have hlj := h.lt k hk
      rcases Nat.lt_trichotomy i' ii with e | e | e
      · exact absurd (hsame i' hi' e l (by omega)) hl2
      · rw [e] at hl2
        exact absurd (hki.zero l (by omega)) hl2
      · rw [hki.same i' hi' (by omega)] at hl2
        exact hkg.junk i' e hir k hk ⟨l, hl1, hl2⟩
    · rw [if_neg c2]
      have ea : ∀ k, (rotPair q s.i ii).1 k = q.1 (if k = s.i then ii else if s.i < k ∧ k ≤ ii then k - 1 else k) := by
        intro k
        show rotDown s.i ii q.1 k = _
        rw [rotDown_apply (by omega)]
        split_ifs <;> rfl
      generalize rotPair q s.i ii = q1 at *
      have e1i : q1.1 s.i = q.1 ii := by rw [ea, if_pos rfl]
      have e1k : ∀ k, k < s.i → q1.1 k = q.1 k := fun k hk => by
        rw [ea, if_neg (by omega), if_neg (by omega)]
      obtain ⟨n1, n2, n3, n4, a0, _, n5⟩ := normalizePivot_spec (m := r) (i := s.i) (j := s.j) (s := q1) (by omega)
        (fun jj hjj => by rw [e1i]; exact hki.zero jj hjj) (by rw [e1i]; exact c2)
      have e2k : ∀ k, k < s.i → (normalizePivot q1 s.i s.j).1 k = q.1 k := fun k hk => by
        rw [n2 k (by omega), e1k k hk]
      generalize normalizePivot q1 s.i s.j = q2 at *
      have e2i : q2.1 s.i = C a0 • q.1 ii := by
        funext l; rw [n5 l, e1i]; rfl
      have e2z : ∀ jj, jj < s.j → q2.1 s.i jj = 0 := fun jj hjj => by
        rw [n3 _ jj hjj, e1i]; exact hki.zero jj hjj
      obtain ⟨r1, r2, r3, r4⟩ := reduceAbove_spec (m := r) (i := s.i) (j := s.j) (n := s.i) (s := q2) (by omega) le_rfl
        e2z n4.ne_zero
      have r5 := reduceAbove_rows s.i (s := q2) le_rfl e2z n4.ne_zero
      generalize reduceAbove s.i s.j s.i q2 = q3 at *
      have e3 : ∀ k, s.i + 1 ≤ k → q3.1 k = q.1 (if k ≤ ii then k - 1 else k) := fun k hk => by
        rw [r2 k (by omega), n2 k (by omega), ea, if_neg (by omega)]
        by_cases hki' : k ≤ ii
        · rw [if_pos ⟨by omega, hki'⟩, if_pos hki']
        · rw [if_neg (by omega), if_neg hki']
      refine ⟨hM.push (q := q.1) (by omega) (by omega) hkg.tri c2 hki.zero (fun k hk hkr _ => hqtri k hk hkr)
        (fun k hk _ => e3 k hk), fun i' hi' hir k hk hl => ?_⟩
      simp only at hi' hk hl ⊢
      obtain ⟨l, hl1, hl2⟩ := hl
      rw [e3 i' hi'] at hl2
      have hlj : l ≤ s.j := by
        refine hl1.trans ?_
        rcases Nat.eq_or_lt_of_le (by omega : k ≤ s.i) with e | e
        · rw [e, Function.update_self]
        · rw [Function.update_of_ne (by omega)]; exact (h.lt k e).le
      by_cases hi2 : i' ≤ ii
      · rw [if_pos hi2] at hl2
        exact absurd (hsame (i' - 1) (by omega) (by omega) l hlj) hl2
      · rw [if_neg hi2] at hl2
        have hperm : rotDown s.i ii s.perm i' = s.perm i' := by
          rw [rotDown_apply (by omega), if_neg (by omega), if_neg (by omega)]
        rw [hperm]
        have hnew : q2.1 s.i ∈ Dep A (s.perm i') := by
          rw [e2i]
          exact Submodule.smul_mem _ _ (hkg.tri.mem (hM.inc ii i' (by omega) (by omega) hir))
        rcases Nat.eq_or_lt_of_le (by omega : k ≤ s.i) with e | e
        · rw [e, r2 _ le_rfl]; exact hnew
        · rw [Function.update_of_ne (by omega)] at hl1
          obtain ⟨a, ha⟩ := r5 k
          rw [ha, e2k k e]
          refine Submodule.add_mem _ (hkg.junk i' (by omega) hir k e ⟨l, hl1, ?_⟩) (Submodule.smul_mem _ _ hnew)
          rwa [hki.same i' (by omega) (by omega)] at hl2

/-- Rows which depend on the pivot rows only depend on those with a pivot from their first
    nonzero column on. -/
theorem dep_pivots {r i t : Nat} {piv : Nat → Nat} {cur : Mat K[X]} (hir : i ≤ r)
    (hinc : ∀ k k', k < k' → k' < i → piv k < piv k')
    (hne : ∀ k, k < i → cur k (piv k) ≠ 0) (hb : ∀ k, k < i → ∀ l, l < piv k → cur k l = 0)
    (hrank : ∀ t', t' ≤ t → rankOf r t' cur = ((Finset.range i).filter fun k => piv k < t').card)
    (M : Submodule K[X] (Fin t → K[X])) : ∀ (n jj : Nat), jj + n = t → ∀ x ∈ rowSpan r cur, (∀ l, l < jj → x l = 0) →
    (∀ k, k < i → jj ≤ piv k → (fun l : Fin t => cur k l) ∈ sat M) → (fun l : Fin t => x l) ∈ sat M := by
  intro n
  induction n with
  | zero =>
    intro jj hj x _ hz _
    have : (fun l : Fin t => x l) = 0 := by funext l; exact hz l (by have := l.2; omega)
    rw [this]; exact Submodule.zero_mem _
  | succ n ih =>
    intro jj hj x hx hz hM
    by_cases h0 : x jj = 0
    · refine ih (jj + 1) (by omega) x hx (fun l hl => ?_) fun k hk hkj => hM k hk (by omega)
      rcases Nat.eq_or_lt_of_le (by omega : l ≤ jj) with e | e
      · rw [e]; exact h0
      · exact hz l e
    · have hex : ∃ k, k < i ∧ piv k = jj := by
        by_contra hcon
        push Not at hcon
        have hni : i ∉ (Finset.range i).filter fun k => piv k < jj + 1 := fun hm => by
          have := Finset.mem_range.1 (Finset.mem_filter.1 hm).1; omega
        have h2 := card_le_rankOf (r := r) (t := jj + 1) (A := cur) (B := fun k => if k < i then cur k else x)
          (insert i ((Finset.range i).filter fun k => piv k < jj + 1)) (fun k => if k < i then piv k else jj)
          (fun k hk => by
            rcases Finset.mem_insert.1 hk with rfl | hk2
            · simp only [lt_irrefl, if_false]
              exact ⟨by omega, h0, fun l _ hl => hz l hl⟩
            · obtain ⟨a, b⟩ := Finset.mem_filter.1 hk2
              have hk := Finset.mem_range.1 a
              simp only [if_pos hk]
              exact ⟨b, hne k hk, fun l _ hl => hb k hk l hl⟩)
          (fun k l hk hl e => by
            rcases Finset.mem_insert.1 hk with rfl | hk2 <;> rcases Finset.mem_insert.1 hl with rfl | hl2
            · rfl
            · have hl' := Finset.mem_range.1 (Finset.mem_filter.1 hl2).1
              simp only [lt_irrefl, if_false, if_pos hl'] at e
              exact absurd e.symm (hcon l hl')
            · have hl' := Finset.mem_range.1 (Finset.mem_filter.1 hk2).1
              simp only [lt_irrefl, if_false, if_pos hl'] at e
              exact absurd e (hcon k hl')
            · have hk' := Finset.mem_range.1 (Finset.mem_filter.1 hk2).1
              have hl' := Finset.mem_range.1 (Finset.mem_filter.1 hl2).1
              simp only [if_pos hk', if_pos hl'] at e
              by_contra hne
              rcases Nat.lt_or_gt_of_ne hne with hlt | hgt
              · have := hinc k l hlt hl'; omega
              · have := hinc l k hgt hk'; omega)
          (fun k hk => by
            have hmem : (if k < i then cur k else x) ∈ Dep cur r := by
              split_ifs with hki
              · exact le_sat _ (row_mem_rowSpan (by omega) _)
              · exact le_sat _ hx
            have := sat_firstCols (t := jj + 1) hmem
            exact this)
        rw [Finset.card_insert_of_notMem hni, hrank _ (by omega)] at h2
        omega
      obtain ⟨k, hk, rfl⟩ := hex
      have hkM := hM k hk le_rfl
      have h1 := ih (piv k + 1) (by omega) (cur k (piv k) • x - x (piv k) • cur k)
        (Submodule.sub_mem _ (Submodule.smul_mem _ _ hx) (Submodule.smul_mem _ _ (row_mem_rowSpan (by omega) _)))
        (fun l hl => by
          simp only [Pi.sub_apply, Pi.smul_apply, smul_eq_mul]
          rcases Nat.eq_or_lt_of_le (by omega : l ≤ piv k) with e | e
          · rw [e]; ring
          · rw [hz l e, hb k hk l e]; ring)
        (fun k' hk' hkj => hM k' hk' (by omega))
      refine sat_of_smul (hne k hk) ?_
      have e : cur k (piv k) • (fun l : Fin t => x l) =
          (fun l : Fin t => (cur k (piv k) • x - x (piv k) • cur k) l) + x (piv k) • fun l : Fin t => cur k l := by
        funext l
        simp
      rw [e]
      exact Submodule.add_mem _ h1 (Submodule.smul_mem _ _ hkM)

theorem hnfDelayedZero_mrp {xg : XgcdFn K} (hx : XgcdContract xg) (r c : Nat) (A : Mat K[X])
    (T : Option (Mat K[X])) (piv0 : Nat → Nat) (mrp0 : Nat → Int) :
    ∃ s, Ends (fun fuel => hnfDelayedZero xg fuel r c A T piv0 mrp0) s ∧
      MatrixRankProfile r c A s.mrp ∧ ∀ i, r ≤ i → s.mrp i = mrp0 i := by
  obtain ⟨s', e1, e2, e3⟩ := hnfDelayedZero_spec hx r c A T piv0 mrp0
  have key : ∃ s, Ends (fun fuel => hnfDelayedZero xg fuel r c A T piv0 mrp0) s ∧ KBG r mrp0 A s := by
    unfold hnfDelayedZero
    simp only
    have hg0 : KBG r mrp0 A
        { pair := (A, T), pivind := piv0, mrp := mrpInit r mrp0, perm := id, prow := fun _ => -1,
          i := 0, j := 0, ii := 0, oob := false } :=
      ⟨⟨A, MrpInv.init r piv0 mrp0 A⟩, fun ii _ _ k hk => by simp at hk⟩
    by_cases hrc : r = 0 ∨ c = 0
    · simp only [if_pos hrc]
      exact ⟨_, Ends.pure fun _ => rfl, hg0⟩
    · simp only [if_neg hrc]
      obtain ⟨s, h1, h2, h3⟩ := whileLoop_ends
        (c := fun s : KState K => !s.oob && decide (s.i < r ∧ s.j < c)) (b := kbBody xg r)
        (fun s => KBInv r c (A, T) piv0 s ∧ KBG r mrp0 A s) (kbMeas r c)
        (fun s h hc => ⟨⟨(kb_step hx h.1 hc).1, kb_stepG hx h.1 h.2 hc⟩, (kb_step hx h.1 hc).2⟩) _ ⟨kbInv_init r c A T piv0 mrp0, hg0⟩
      exact ⟨s, h1, h2.2⟩
  obtain ⟨s, h1, ⟨G, hM⟩, hJ⟩ := key
  obtain rfl := h1.unique e1
  refine ⟨s, h1, hM.profile e2.ile (fun k hk => by have := e2.lt k hk; have := e2.jle; omega) e2.inc
    (fun t ht k hk hkr => ?_), hM.tail⟩
  have hj : s.j = c := by omega
  have hexf : ∀ n, (∃ jj, jj ≤ n ∧ (∀ l, l < jj → s.pair.1 k l = 0) ∧ (s.pair.1 k jj ≠ 0 ∨ jj = n)) := by
    intro n
    induction n with
    | zero => exact ⟨0, le_rfl, fun l hl => by omega, Or.inr rfl⟩
    | succ n ih =>
      obtain ⟨jj, a, b, c⟩ := ih
      by_cases h0 : s.pair.1 k jj = 0
      · have : jj = n := c.resolve_left (fun h => h h0)
        refine ⟨n + 1, le_rfl, fun l hl => ?_, Or.inr rfl⟩
        rcases Nat.eq_or_lt_of_le (by omega : l ≤ jj) with e | e
        · rw [e]; exact h0
        · exact b l e
      · exact ⟨jj, by omega, b, Or.inl h0⟩
  obtain ⟨jj, hjt, hz, hne⟩ := hexf t
  refine dep_pivots e2.ile e2.inc (fun k hk => (e2.monic k hk).ne_zero) e2.before
    (fun t' ht' => e2.rank t' (by omega)) (rowSpan (s.perm k) (firstCols t A)) (t - jj) jj (by omega) (s.pair.1 k)
    (row_mem_rowSpan hkr _) hz fun k' hk' hjk => ?_
  rcases hne with hne | hne
  · exact sat_firstCols (hJ k hk hkr k' hk' ⟨jj, hjk, hne⟩)
  · have : (fun l : Fin t => s.pair.1 k' l) = 0 := by
      funext l; exact e2.before k' hk' l (by have := l.2; omega)
    rw [this]; exact Submodule.zero_mem _

end PML.Hermite
