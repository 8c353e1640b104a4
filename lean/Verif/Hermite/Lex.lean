import Verif.Hermite.Maxdeg

/-! # Lexicographic pivoting -/

namespace PML.Hermite

open PML.MatOps PML.MatOps.Spec PML.MatPoly PML.Forms PML.Forms.Spec PML.RowOps PML.RowOps.Spec
open PML.WeakPopov PML.Hermite.Spec PML.PolyMul.Spec Polynomial

set_option linter.unusedSectionVars false

variable {K : Type} [Field K] [DecidableEq K]

theorem rowSpan_succ {R ι : Type} [CommRing R] (n : Nat) (A : Nat → ι → R) :
    rowSpan (n + 1) A = rowSpan n A ⊔ Submodule.span R {A n} := by
  apply le_antisymm
  · refine RowOps.rowSpan_le fun i hi => ?_
    by_cases hin : i < n
    · exact Submodule.mem_sup_left (row_mem_rowSpan hin A)
    · have : i = n := by omega
      subst this
      exact Submodule.mem_sup_right (Submodule.mem_span_singleton_self _)
  · refine sup_le (rowSpan_mono (by omega) A) ?_
    rw [Submodule.span_singleton_le_iff_mem]
    exact row_mem_rowSpan (by omega) A

theorem rowSpan_congr {R ι : Type} [CommRing R] {n : Nat} {A B : Nat → ι → R} (h : ∀ i, i < n → A i = B i) :
    rowSpan n A = rowSpan n B := by
  apply le_antisymm
  · exact RowOps.rowSpan_le fun i hi => by rw [h i hi]; exact row_mem_rowSpan hi B
  · exact RowOps.rowSpan_le fun i hi => by rw [← h i hi]; exact row_mem_rowSpan hi A

/-- Number of rows `i < t` with profile value in `[0, j)`. -/
noncomputable def mrpCount (mrp : Nat → Int) (t j : Nat) : Nat :=
  ((Finset.range t).filter fun i => 0 ≤ mrp i ∧ mrp i < (j : Int)).card

theorem mrpCount_succ (mrp : Nat → Int) (t j : Nat) :
    mrpCount mrp (t + 1) j = mrpCount mrp t j + if 0 ≤ mrp t ∧ mrp t < (j : Int) then 1 else 0 := by
  unfold mrpCount
  rw [Finset.range_add_one, Finset.filter_insert]
  split_ifs
  · rw [Finset.card_insert_of_notMem (by simp)]
  · rfl

theorem mrpCount_congr {mrp mrp' : Nat → Int} {t : Nat} (h : ∀ i, i < t → mrp i = mrp' i) (j : Nat) :
    mrpCount mrp t j = mrpCount mrp' t j := by
  unfold mrpCount
  congr 1
  refine Finset.filter_congr fun i hi => ?_
  rw [h i (Finset.mem_range.1 hi)]

/-- The first `rk` rows have leading columns `piv`, increasing. -/
structure Lead (c rk : Nat) (piv : Nat → Nat) (A : Mat K[X]) : Prop where
  lt : ∀ i, i < rk → piv i < c
  inc : ∀ i k, i < k → k < rk → piv i < piv k
  nonzero : ∀ i, i < rk → A i (piv i) ≠ 0
  before : ∀ i, i < rk → ∀ jj, jj < piv i → A i jj = 0

theorem Lead.form {c rk : Nat} {piv : Nat → Nat} {A : Mat K[X]} (h : Lead c rk piv A) :
    EchelonForm rk c A rk piv :=
  ⟨le_rfl, fun i hi => ⟨h.lt i hi, h.nonzero i hi, fun jj _ hjj => h.before i hi jj hjj⟩, h.inc,
    fun i h1 h2 => by omega⟩

/-- Invariant of the loop over the rows. -/
structure LexInv (r c : Nat) (A : Mat K[X]) (T : Option (Mat K[X])) (piv0 : Nat → Nat) (mrp0 : Nat → Int)
    (s : LState K) : Prop where
  le : s.rk + s.zr ≤ r
  tr : TrS r (A, T) s.pair
  lead : Lead c s.rk s.pivind s.pair.1
  zero : ∀ k, r - s.zr ≤ k → k < r → ∀ jj, jj < c → s.pair.1 k jj = 0
  todo : ∀ k, s.rk ≤ k → k < r - s.zr → s.pair.1 k = A (k + s.zr)
  prow : ∀ i, i < s.rk → s.prow (s.pivind i) = (i : Int)
  prow' : ∀ jj, jj < c → 0 ≤ s.prow jj → (s.prow jj).toNat < s.rk ∧ s.pivind (s.prow jj).toNat = jj
  tail : ∀ i, s.rk ≤ i → s.pivind i = piv0 i
  span : rowSpan (s.rk + s.zr) (firstCols c A) = rowSpan s.rk (firstCols c s.pair.1)
  mrp_mem : ∀ i, i < s.rk + s.zr → s.mrp i = -1 ∨ ∃ k, k < s.rk ∧ s.mrp i = (s.pivind k : Int)
  mrp_ne : ∀ i k, i < k → k < s.rk + s.zr → 0 ≤ s.mrp i → s.mrp i ≠ s.mrp k
  mrp_tail : ∀ i, s.rk + s.zr ≤ i → s.mrp i = mrp0 i
  rank : ∀ t j, t ≤ s.rk + s.zr → j ≤ c → rankOf t j A = mrpCount s.mrp t j

theorem span_cols {m m' c j : Nat} {A B : Mat K[X]} (hj : j ≤ c)
    (h : rowSpan m (firstCols c A) = rowSpan m' (firstCols c B)) :
    rowSpan m (firstCols j A) = rowSpan m' (firstCols j B) := by
  let f : (Fin c → K[X]) →ₗ[K[X]] (Fin j → K[X]) := LinearMap.funLeft K[X] K[X] (Fin.castLE hj)
  have hf : ∀ (n : Nat) (A : Mat K[X]), rowSpan n (firstCols j A) = (rowSpan n (firstCols c A)).map f := by
    intro n A
    unfold rowSpan
    rw [Submodule.map_span]
    congr 1
    ext v
    constructor
    · rintro ⟨i, rfl⟩
      exact ⟨_, ⟨i, rfl⟩, by funext k; simp [f, firstCols, LinearMap.funLeft]⟩
    · rintro ⟨_, ⟨i, rfl⟩, rfl⟩
      exact ⟨i, by funext k; simp [f, firstCols, LinearMap.funLeft]⟩
  rw [hf, hf, h]

/-- Ranks of the leading submatrices with all processed rows. -/
theorem LexInv.rank_piv {r c : Nat} {A : Mat K[X]} {T : Option (Mat K[X])} {piv0 : Nat → Nat} {mrp0 : Nat → Int}
    {s : LState K} (h : LexInv r c A T piv0 mrp0 s) {j : Nat} (hj : j ≤ c) :
    rankOf (s.rk + s.zr) j A = ((Finset.range s.rk).filter fun i => s.pivind i < j).card := by
  rw [rankOf_congr (span_cols hj h.span), h.lead.form.rank j hj]

/-- Invariant of the inner loop, while no pivot is found. -/
structure LexInner (r c : Nat) (s s' : LState K) (j : Nat) : Prop where
  pivind : s'.pivind = s.pivind
  mrp : s'.mrp = s.mrp
  prow : s'.prow = s.prow
  rk : s'.rk = s.rk
  zr : s'.zr = s.zr
  tr : Tr r 1 s.pair s'.pair
  tr' : Tr (s.rk + 1) 1 s.pair s'.pair
  lead : Lead c s.rk s.pivind s'.pair.1
  below : ∀ k, s.rk < k → s'.pair.1 k = s.pair.1 k
  zero : ∀ jj, jj < j → s'.pair.1 s.rk jj = 0
  le : j ≤ c

theorem rotDown_row {r : Nat} (i rk : Nat) (hi : i ≤ rk) (q : Pair K) (k : Nat) :
    (rotPair q i rk).1 k = q.1 (if k = i then rk else if i < k ∧ k ≤ rk then k - 1 else k) := by
  show rotDown i rk q.1 k = _
  rw [rotDown_apply hi]
  split_ifs <;> rfl

theorem span_next {r c : Nat} {A : Mat K[X]} {T : Option (Mat K[X])} {piv0 : Nat → Nat} {mrp0 : Nat → Int}
    {s s' : LState K} {j : Nat} (h : LexInv r c A T piv0 mrp0 s) (hlt : s.rk + s.zr < r)
    (h' : LexInner r c s s' j) :
    rowSpan (s.rk + s.zr + 1) (firstCols c A) = rowSpan (s.rk + 1) (firstCols c s'.pair.1) := by
  rw [(h'.tr'.cols c).rowSpan_eq isUnit_one, rowSpan_succ, rowSpan_succ, h.span]
  have : firstCols c A (s.rk + s.zr) = firstCols c s.pair.1 s.rk := by
    unfold firstCols
    rw [h.todo s.rk le_rfl (by omega)]
  rw [this]

theorem lex_found {r c : Nat} {A : Mat K[X]} {T : Option (Mat K[X])} {piv0 : Nat → Nat} {mrp0 : Nat → Int}
    {s s' : LState K} {j : Nat} (h : LexInv r c A T piv0 mrp0 s) (hlt : s.rk + s.zr < r)
    (h' : LexInner r c s s' j) (hj : j < c) (hne : s'.pair.1 s.rk j ≠ 0) (hp : ¬ s.prow j ≥ 0)
    (i : Nat) (hi : i = findFrom (fun i => decide (¬ s'.pivind i < j)) s'.rk 0) :
    LexInv r c A T piv0 mrp0
      { pair := rotPair s'.pair i s'.rk
        pivind := rotDown i s'.rk (Function.update s'.pivind s'.rk j)
        mrp := Function.update s'.mrp (s'.rk + s'.zr) (j : Int)
        prow := fun jj =>
          if jj = j then (i : Int)
          else if j < jj ∧ jj < c ∧ s'.prow jj ≥ 0 then s'.prow jj + 1
          else s'.prow jj
        rk := s'.rk + 1
        zr := s'.zr } := by
  rw [h'.pivind, h'.rk] at hi
  obtain ⟨f1, f2, f3, f4⟩ := findFrom_spec (fun i => decide (¬ s.pivind i < j)) s.rk 0
  rw [← hi] at f1 f2 f3 f4
  rw [h'.pivind, h'.mrp, h'.prow, h'.rk, h'.zr]
  have hik : i ≤ s.rk := by omega
  have hlow : ∀ k, k < i → s.pivind k < j := fun k hk => by have := f3 k (by omega) hk; simpa using this
  have hnp : ∀ k, k < s.rk → s.pivind k ≠ j := by
    intro k hk e
    have := h.prow k hk
    rw [e] at this
    omega
  have hhigh : ∀ k, i ≤ k → k < s.rk → j < s.pivind k := by
    intro k hk hkr
    have h1 : j ≤ s.pivind i := by have := f4 (by omega); simp at this; omega
    have h2 := hnp i (by omega)
    rcases Nat.lt_or_ge i k with hlt | hge
    · have := h.lead.inc i k hlt hkr; omega
    · have : k = i := by omega
      rw [this]; omega
  have ep : ∀ k, rotDown i s.rk (Function.update s.pivind s.rk j) k =
      if k = i then j else if i < k ∧ k ≤ s.rk then s.pivind (k - 1) else s.pivind k := by
    intro k
    rw [rotDown_apply hik]
    by_cases c1 : k = i
    · rw [if_pos c1, if_pos c1, Function.update_self]
    · rw [if_neg c1, if_neg c1]
      by_cases c2 : i < k ∧ k ≤ s.rk
      · rw [if_pos c2, if_pos c2, Function.update_of_ne (by omega)]
      · rw [if_neg c2, if_neg c2, Function.update_of_ne (by omega)]
  have er := rotDown_row (r := r) i s.rk hik s'.pair
  have hlead : Lead c (s.rk + 1) (rotDown i s.rk (Function.update s.pivind s.rk j)) (rotPair s'.pair i s.rk).1 := by
    refine ⟨fun k hk => ?_, fun a b hab hb => ?_, fun k hk => ?_, fun k hk jj hjj => ?_⟩
    · rw [ep]
      split_ifs with c1 c2
      · exact hj
      · exact h.lead.lt _ (by omega)
      · exact h.lead.lt _ (by omega)
    · rw [ep, ep]
      by_cases ca : a = i
      · rw [if_pos ca, if_neg (by omega), if_pos (by omega)]
        exact hhigh _ (by omega) (by omega)
      · rw [if_neg ca]
        by_cases ca2 : i < a ∧ a ≤ s.rk
        · rw [if_pos ca2, if_neg (by omega), if_pos (by omega)]
          exact h.lead.inc _ _ (by omega) (by omega)
        · rw [if_neg ca2]
          by_cases cb : b = i
          · rw [if_pos cb]; exact hlow a (by omega)
          · rw [if_neg cb]
            by_cases cb2 : i < b ∧ b ≤ s.rk
            · rw [if_pos cb2]; exact h.lead.inc _ _ (by omega) (by omega)
            · rw [if_neg cb2]; exact h.lead.inc _ _ (by omega) (by omega)
    · rw [ep, er]
      split_ifs with c1 c2
      · exact hne
      · exact h'.lead.nonzero _ (by omega)
      · exact h'.lead.nonzero _ (by omega)
    · rw [ep] at hjj
      rw [er]
      split_ifs at hjj ⊢ with c1 c2
      · exact h'.zero jj hjj
      · exact h'.lead.before _ (by omega) jj hjj
      · exact h'.lead.before _ (by omega) jj hjj
  have hspan : rowSpan (s.rk + 1 + s.zr) (firstCols c A) =
      rowSpan (s.rk + 1) (firstCols c (rotPair s'.pair i s.rk).1) := by
    rw [show s.rk + 1 + s.zr = s.rk + s.zr + 1 by omega, span_next h hlt h']
    have := (transformed_rotDown (m := s.rk + 1) hik (by omega) s'.pair.1).cols (fun k : Fin c => (k : Nat))
    exact (this.rowSpan_eq (isUnit_one.neg.pow _)).symm
  have hmrp : ∀ k, k < s.rk + s.zr → Function.update s.mrp (s.rk + s.zr) (j : Int) k = s.mrp k :=
    fun k hk => Function.update_of_ne (by omega) _ _
  refine ⟨by simp only; omega, (h.tr.trans h'.tr.toS).trans (rotPair_tr hik (by omega) _), hlead, ?_, ?_, ?_, ?_, ?_,
    hspan, ?_, ?_, ?_, ?_⟩
  · intro k hk hkr jj hjj
    simp only at hk ⊢
    rw [er, if_neg (by omega), if_neg (by omega), h'.below k (by omega)]
    exact h.zero k hk hkr jj hjj
  · intro k hk hkr
    simp only at hk hkr ⊢
    rw [er, if_neg (by omega), if_neg (by omega), h'.below k (by omega)]
    exact h.todo k (by omega) hkr
  · intro k hk
    simp only at hk ⊢
    rw [ep]
    by_cases c1 : k = i
    · rw [if_pos c1, if_pos rfl, c1]
    · rw [if_neg c1]
      by_cases c2 : i < k ∧ k ≤ s.rk
      · rw [if_pos c2]
        have h1 := hhigh (k - 1) (by omega) (by omega)
        have h2 := h.lead.lt (k - 1) (by omega)
        have h3 := h.prow (k - 1) (by omega)
        rw [if_neg (by omega), if_pos ⟨h1, h2, by omega⟩, h3]
        omega
      · rw [if_neg c2]
        have h1 := hlow k (by omega)
        rw [if_neg (by omega), if_neg (by omega)]
        exact h.prow k (by omega)
  · intro jj hjj hge
    simp only at hge ⊢
    by_cases c1 : jj = j
    · rw [if_pos c1, ep]
      simp only [Int.toNat_natCast, if_true]
      exact ⟨by omega, c1.symm⟩
    · rw [if_neg c1] at hge ⊢
      by_cases c2 : j < jj ∧ jj < c ∧ s.prow jj ≥ 0
      · rw [if_pos c2]
        obtain ⟨h1, h2⟩ := h.prow' jj hjj c2.2.2
        have e : (s.prow jj + 1).toNat = (s.prow jj).toNat + 1 := by have := c2.2.2; omega
        rw [e, ep]
        have hge' : i ≤ (s.prow jj).toNat := by
          by_contra hc
          have := hlow (s.prow jj).toNat (by omega)
          rw [h2] at this; omega
        rw [if_neg (by omega), if_pos (by omega)]
        exact ⟨by omega, by rw [Nat.add_sub_cancel]; exact h2⟩
      · rw [if_neg c2] at hge ⊢
        obtain ⟨h1, h2⟩ := h.prow' jj hjj hge
        have hlt' : jj < j := by
          by_contra hc
          exact c2 ⟨by omega, hjj, hge⟩
        have hlt2 : (s.prow jj).toNat < i := by
          by_contra hc
          have := hhigh (s.prow jj).toNat (by omega) h1
          rw [h2] at this; omega
        rw [ep, if_neg (by omega), if_neg (by omega)]
        exact ⟨by omega, h2⟩
  · intro k hk
    simp only at hk ⊢
    rw [ep, if_neg (by omega), if_neg (by omega)]
    exact h.tail k (by omega)
  · intro k hk
    simp only at hk ⊢
    by_cases hkt : k = s.rk + s.zr
    · right
      refine ⟨i, by omega, ?_⟩
      rw [hkt, Function.update_self, ep, if_pos rfl]
    · rw [hmrp k (by omega)]
      rcases h.mrp_mem k (by omega) with h1 | ⟨l, hl, h1⟩
      · exact Or.inl h1
      · right
        by_cases hli : l < i
        · exact ⟨l, by omega, by rw [h1, ep, if_neg (by omega), if_neg (by omega)]⟩
        · exact ⟨l + 1, by omega, by rw [h1, ep, if_neg (by omega), if_pos (by omega)]; simp⟩
  · intro a b hab hb ha
    simp only at hb ha ⊢
    rw [hmrp a (by omega)] at ha ⊢
    by_cases hbt : b = s.rk + s.zr
    · rw [hbt, Function.update_self]
      rcases h.mrp_mem a (by omega) with h1 | ⟨l, hl, h1⟩
      · omega
      · rw [h1]
        have := hnp l hl
        omega
    · rw [hmrp b (by omega)]
      exact h.mrp_ne a b hab (by omega) ha
  · intro k hk
    simp only at hk ⊢
    rw [Function.update_of_ne (by omega)]
    exact h.mrp_tail k (by omega)
  · intro t j' ht hj'
    simp only at ht ⊢
    by_cases htt : t = s.rk + s.zr + 1
    · subst htt
      rw [mrpCount_succ, Function.update_self, mrpCount_congr hmrp, ← h.rank _ _ le_rfl hj', h.rank_piv hj']
      rw [show s.rk + s.zr + 1 = s.rk + 1 + s.zr by omega, rankOf_congr (span_cols hj' hspan), hlead.form.rank j' hj']
      -- the pivots of the new echelon form
      have hset : (Finset.range (s.rk + 1)).filter (fun k => rotDown i s.rk (Function.update s.pivind s.rk j) k < j') =
          ((Finset.range s.rk).filter fun k => s.pivind k < j').image (fun k => if k < i then k else k + 1) ∪
            (if j < j' then {i} else ∅) := by
        ext k
        simp only [Finset.mem_filter, Finset.mem_range, Finset.mem_union, Finset.mem_image, ep]
        constructor
        · rintro ⟨hk, hk'⟩
          by_cases c1 : k = i
          · rw [if_pos c1] at hk'
            right; rw [if_pos hk', c1]; simp
          · rw [if_neg c1] at hk'
            left
            by_cases c2 : i < k ∧ k ≤ s.rk
            · rw [if_pos c2] at hk'
              exact ⟨k - 1, ⟨by omega, hk'⟩, by rw [if_neg (by omega)]; omega⟩
            · rw [if_neg c2] at hk'
              exact ⟨k, ⟨by omega, hk'⟩, by rw [if_pos (by omega)]⟩
        · rintro (⟨l, ⟨hl, hl'⟩, rfl⟩ | hk)
          · by_cases c1 : l < i
            · rw [if_pos c1, if_neg (by omega), if_neg (by omega)]; exact ⟨by omega, hl'⟩
            · rw [if_neg c1, if_neg (by omega), if_pos (by omega)]; exact ⟨by omega, by simpa using hl'⟩
          · split_ifs at hk with hjj
            · rw [Finset.mem_singleton] at hk
              rw [hk, if_pos rfl]; exact ⟨by omega, hjj⟩
            · simp at hk
      rw [hset, Finset.card_union_of_disjoint, Finset.card_image_of_injective]
      · have : (0 ≤ (j : Int) ∧ (j : Int) < (j' : Int)) ↔ j < j' := by omega
        by_cases hjj : j < j'
        · rw [if_pos hjj, if_pos (this.2 hjj)]; simp
        · rw [if_neg hjj, if_neg (fun h => hjj (this.1 h))]; simp
      · intro a b hab
        simp only at hab
        split_ifs at hab <;> omega
      · rw [Finset.disjoint_left]
        intro k hk hk'
        simp only [Finset.mem_image] at hk
        obtain ⟨l, _, hl⟩ := hk
        split_ifs at hk' with hjj
        · rw [Finset.mem_singleton] at hk'
          split_ifs at hl <;> omega
        · simp at hk'
    · rw [h.rank t j' (by omega) hj']
      exact mrpCount_congr (fun k hk => (hmrp k (by omega)).symm) j'

theorem lex_zero {r c : Nat} {A : Mat K[X]} {T : Option (Mat K[X])} {piv0 : Nat → Nat} {mrp0 : Nat → Int}
    {s s' : LState K} (h : LexInv r c A T piv0 mrp0 s) (hlt : s.rk + s.zr < r) (h' : LexInner r c s s' c) :
    LexInv r c A T piv0 mrp0
      { s' with
        mrp := Function.update s'.mrp (s'.rk + s'.zr) (-1)
        zr := s'.zr + 1
        pair := rotUpPair s'.pair s'.rk (r - 1) } := by
  rw [h'.mrp, h'.rk, h'.zr]
  have er : ∀ k, (rotUpPair s'.pair s.rk (r - 1)).1 k =
      s'.pair.1 (if k = r - 1 then s.rk else if s.rk ≤ k ∧ k < r - 1 then k + 1 else k) := by
    intro k
    show rotUp s.rk (r - 1) s'.pair.1 k = _
    rw [rotUp_apply (by omega)]
    split_ifs <;> rfl
  have hsame : ∀ k, k < s.rk → (rotUpPair s'.pair s.rk (r - 1)).1 k = s'.pair.1 k := fun k hk => by
    rw [er, if_neg (by omega), if_neg (by omega)]
  have hlead : Lead c s.rk s.pivind (rotUpPair s'.pair s.rk (r - 1)).1 :=
    ⟨h.lead.lt, h.lead.inc, fun k hk => by rw [hsame k hk]; exact h'.lead.nonzero k hk,
      fun k hk jj hjj => by rw [hsame k hk]; exact h'.lead.before k hk jj hjj⟩
  have hz0 : firstCols c s'.pair.1 s.rk = 0 := by
    funext k
    exact h'.zero k k.2
  have hspan : rowSpan (s.rk + s.zr + 1) (firstCols c A) =
      rowSpan s.rk (firstCols c (rotUpPair s'.pair s.rk (r - 1)).1) := by
    rw [span_next h hlt h', rowSpan_succ, hz0]
    rw [rowSpan_congr (B := firstCols c (rotUpPair s'.pair s.rk (r - 1)).1) fun i hi => by
      unfold firstCols; rw [hsame i hi]]
    simp
  have hmrp : ∀ k, k < s.rk + s.zr → Function.update s.mrp (s.rk + s.zr) (-1) k = s.mrp k :=
    fun k hk => Function.update_of_ne (by omega) _ _
  refine ⟨by simp only [h'.rk]; omega, (h.tr.trans h'.tr.toS).trans (rotUpPair_tr (by omega) (by omega) _),
    by simp only [h'.rk, h'.pivind]; exact hlead, ?_, ?_, ?_, ?_, ?_, ?_, ?_, ?_, ?_, ?_⟩
  · intro k hk hkr jj hjj
    simp only at hk ⊢
    rw [er]
    by_cases c1 : k = r - 1
    · rw [if_pos c1]; exact h'.zero jj hjj
    · rw [if_neg c1, if_pos (by omega), h'.below _ (by omega)]
      exact h.zero (k + 1) (by omega) (by omega) jj hjj
  · intro k hk hkr
    simp only [h'.rk] at hk hkr ⊢
    rw [er, if_neg (by omega), if_pos (by omega), h'.below _ (by omega), h.todo (k + 1) (by omega) (by omega)]
    congr 1; omega
  · simp only [h'.rk, h'.pivind, h'.prow]; exact h.prow
  · simp only [h'.rk, h'.pivind, h'.prow]; exact h.prow'
  · simp only [h'.rk, h'.pivind]; exact h.tail
  · simp only [h'.rk]; exact hspan
  · intro k hk
    simp only [h'.rk, h'.pivind] at hk ⊢
    by_cases hkt : k = s.rk + s.zr
    · left; rw [hkt, Function.update_self]
    · rw [hmrp k (by omega)]; exact h.mrp_mem k (by omega)
  · intro a b hab hb ha
    simp only [h'.rk] at hb ha ⊢
    rw [hmrp a (by omega)] at ha ⊢
    by_cases hbt : b = s.rk + s.zr
    · rw [hbt, Function.update_self]; omega
    · rw [hmrp b (by omega)]
      exact h.mrp_ne a b hab (by omega) ha
  · intro k hk
    simp only [h'.rk] at hk ⊢
    rw [Function.update_of_ne (by omega)]
    exact h.mrp_tail k (by omega)
  · intro t j' ht hj'
    simp only [h'.rk] at ht ⊢
    by_cases htt : t = s.rk + s.zr + 1
    · subst htt
      rw [mrpCount_succ, Function.update_self, mrpCount_congr hmrp, ← h.rank _ _ le_rfl hj', h.rank_piv hj']
      rw [rankOf_congr (span_cols hj' hspan), hlead.form.rank j' hj', if_neg (by omega), Nat.add_zero]
    · rw [h.rank t j' (by omega) hj']
      exact mrpCount_congr (fun k hk => (hmrp k (by omega)).symm) j'

/-- Invariant of the inner loop. -/
def LexIn (r c : Nat) (A : Mat K[X]) (T : Option (Mat K[X])) (piv0 : Nat → Nat) (mrp0 : Nat → Int)
    (s : LState K) (st : LState K × Nat × Bool) : Prop :=
  if st.2.2 then st.2.1 < c ∧ LexInv r c A T piv0 mrp0 st.1 ∧ st.1.rk + st.1.zr = s.rk + s.zr + 1
  else LexInner r c s st.1 st.2.1

theorem lexInner_step {xg : XgcdFn K} (hx : XgcdContract xg) {r c : Nat} {A : Mat K[X]}
    {T : Option (Mat K[X])} {piv0 : Nat → Nat} {mrp0 : Nat → Int} {s : LState K}
    (h : LexInv r c A T piv0 mrp0 s) (hlt : s.rk + s.zr < r)
    {st : LState K × Nat × Bool} (hi : LexIn r c A T piv0 mrp0 s st)
    (hc : (decide (st.2.1 < c) && !st.2.2) = true) :
    LexIn r c A T piv0 mrp0 s (lexInnerBody xg c st) ∧
      (if (lexInnerBody xg c st).2.2 then 0 else c + 1 - (lexInnerBody xg c st).2.1) <
        (if st.2.2 then 0 else c + 1 - st.2.1) := by
  obtain ⟨s', j, b⟩ := st
  have hb : b = false := by cases b <;> simp_all
  subst hb
  have hj : j < c := by simpa using hc
  simp only [LexIn, Bool.false_eq_true, if_false] at hi
  have erk := hi.rk
  unfold lexInnerBody
  simp only
  by_cases c1 : s'.pair.1 s'.rk j = 0
  · rw [if_pos c1]
    refine ⟨?_, by simp only [Bool.false_eq_true, if_false]; omega⟩
    simp only [LexIn, Bool.false_eq_true, if_false]
    refine { hi with zero := fun jj hjj => ?_, le := by omega }
    by_cases hjj' : jj = j
    · rw [hjj', ← erk]; exact c1
    · exact hi.zero jj (by omega)
  · rw [if_neg c1]
    by_cases c2 : s'.prow j ≥ 0
    · rw [if_pos c2]
      refine ⟨?_, by simp only [Bool.false_eq_true, if_false]; omega⟩
      simp only [LexIn, Bool.false_eq_true, if_false]
      rw [hi.prow] at c2 ⊢
      rw [erk]
      obtain ⟨p1, p2⟩ := h.prow' j hj c2
      generalize (s.prow j).toNat = pi at *
      have hz1 : ∀ jj, jj < j → s'.pair.1 pi jj = 0 := fun jj hjj => hi.lead.before pi p1 jj (by rw [p2]; exact hjj)
      have hne : s'.pair.1 pi j ≠ 0 := by rw [← p2]; exact hi.lead.nonzero pi p1
      obtain ⟨x1, x2, x3, x4, x5, _, _⟩ := xgcdCollision_spec hx (m := r) (pi := pi) (ii := s.rk) (j := j) (s := s'.pair)
        (by omega) (by omega) (by omega) hz1 hi.zero hne
      obtain ⟨y1, _⟩ := xgcdCollision_spec hx (m := s.rk + 1) (pi := pi) (ii := s.rk) (j := j) (s := s'.pair)
        (by omega) (by omega) (by omega) hz1 hi.zero hne
      generalize xgcdCollision xg s'.pair pi s.rk j = q at *
      refine ⟨hi.pivind, hi.mrp, rfl, rfl, hi.zr, hi.tr.trans_one x1, hi.tr'.trans_one y1,
        ⟨hi.lead.lt, hi.lead.inc, fun k hk => ?_, fun k hk jj hjj => ?_⟩, fun k hk => ?_, fun jj hjj => ?_, hj⟩
      · by_cases hkp : k = pi
        · rw [hkp, p2]; exact x5.ne_zero
        · simp only; rw [x2 k hkp (by omega)]; exact hi.lead.nonzero k hk
      · by_cases hkp : k = pi
        · rw [hkp, p2] at hjj
          simp only; rw [x3 k jj hjj, hkp]; exact hz1 jj hjj
        · simp only; rw [x2 k hkp (by omega)]; exact hi.lead.before k hk jj hjj
      · simp only; rw [x2 k (by omega) (by omega)]; exact hi.below k hk
      · simp only
        by_cases hjj' : jj = j
        · rw [hjj']; exact x4
        · rw [x3 _ jj (by omega)]; exact hi.zero jj (by omega)
    · rw [if_neg c2]
      refine ⟨?_, by simp only [if_true, Bool.false_eq_true, if_false]; omega⟩
      simp only [LexIn, if_true]
      rw [hi.prow] at c2
      refine ⟨hj, ?_, ?_⟩
      · have := lex_found h hlt hi hj (by rw [← erk]; exact c1) c2 _ rfl
        exact this
      · rw [erk, hi.zr]; omega

theorem lexRow_spec {xg : XgcdFn K} (hx : XgcdContract xg) {r c : Nat} {A : Mat K[X]}
    {T : Option (Mat K[X])} {piv0 : Nat → Nat} {mrp0 : Nat → Int} {s : LState K}
    (h : LexInv r c A T piv0 mrp0 s) (hlt : s.rk + s.zr < r) :
    ∃ s', Ends (fun fuel => lexRow xg fuel r c s) s' ∧ LexInv r c A T piv0 mrp0 s' ∧
      s'.rk + s'.zr = s.rk + s.zr + 1 := by
  obtain ⟨st, h1, h2, h3⟩ := whileLoop_ends
    (c := fun st : LState K × Nat × Bool => decide (st.2.1 < c) && !st.2.2) (b := lexInnerBody xg c)
    (LexIn r c A T piv0 mrp0 s) (fun st => if st.2.2 then 0 else c + 1 - st.2.1)
    (fun st hi hc => lexInner_step hx h hlt hi hc) (s, 0, false)
    (by
      simp only [LexIn, Bool.false_eq_true, if_false]
      exact ⟨rfl, rfl, rfl, rfl, rfl, Tr.refl r _, Tr.refl _ _, h.lead, fun _ _ => rfl, fun jj hjj => by omega, by omega⟩)
  refine ⟨_, h1.map _, ?_⟩
  obtain ⟨s', j, b⟩ := st
  simp only [LexIn] at h2 ⊢
  cases b with
  | true =>
    simp only [if_true] at h2
    rw [if_neg (by omega)]
    exact ⟨h2.2.1, h2.2.2⟩
  | false =>
    simp only [Bool.false_eq_true, if_false] at h2
    have hj : j = c := by
      have := h2.le
      simp at h3; omega
    subst hj
    rw [if_pos rfl]
    refine ⟨lex_zero h hlt h2, ?_⟩
    simp only [h2.rk, h2.zr]; omega

theorem lexLoop_spec {xg : XgcdFn K} (hx : XgcdContract xg) {r c : Nat} {A : Mat K[X]}
    {T : Option (Mat K[X])} {piv0 : Nat → Nat} {mrp0 : Nat → Int} : ∀ (n : Nat) {s : LState K},
    LexInv r c A T piv0 mrp0 s → s.rk + s.zr + n = r →
    ∃ s' N, (∀ fuel n', N ≤ fuel → n ≤ n' → lexLoop xg fuel r c n' s = some s') ∧
      LexInv r c A T piv0 mrp0 s' ∧ s'.rk + s'.zr = r := by
  intro n
  induction n with
  | zero =>
    intro s h hn
    refine ⟨s, 0, fun fuel n' _ _ => ?_, h, by omega⟩
    cases n' with
    | zero => rfl
    | succ n' => simp only [lexLoop]; rw [if_neg (by omega)]
  | succ n ih =>
    intro s h hn
    obtain ⟨s1, ⟨N1, h1⟩, h2, h3⟩ := lexRow_spec hx h (by omega)
    obtain ⟨s2, N2, k1, k2, k3⟩ := ih h2 (by omega)
    refine ⟨s2, max N1 N2, fun fuel n' hf hn' => ?_, k2, k3⟩
    cases n' with
    | zero => omega
    | succ n' =>
      have e := h1 fuel (by omega)
      simp only at e
      simp only [lexLoop]
      rw [if_pos (by omega), e]
      exact k1 fuel n' (by omega) (by omega)

theorem urefLexXgcd_spec {xg : XgcdFn K} (hx : XgcdContract xg) (r c : Nat) (A : Mat K[X])
    (T : Option (Mat K[X])) (piv0 : Nat → Nat) (mrp0 : Nat → Int) :
    ∃ s, Ends (fun fuel => urefLexXgcd xg fuel r c A T piv0 mrp0) s ∧
      EchelonForm r c s.pair.1 s.rk s.pivind ∧ TrS r (A, T) s.pair ∧
      (∀ i, s.rk ≤ i → s.pivind i = piv0 i) ∧ MatrixRankProfile r c A s.mrp ∧
      ∀ i, r ≤ i → s.mrp i = mrp0 i := by
  unfold urefLexXgcd
  simp only
  by_cases h0 : r = 0 ∨ c = 0
  · simp only [if_pos h0]
    refine ⟨_, Ends.pure fun _ => rfl, ⟨by simp, fun i hi => by simp at hi, fun i k _ hk => by simp at hk,
      fun i _ hi j hj => by omega⟩, TrS.refl r _, fun i _ => rfl, ⟨fun i hi => ?_, fun i k hik hk h => ?_, fun s t hs ht => ?_⟩,
      fun i hi => ?_⟩
    · left; simp [mrpInit, hi]
    · have : i < r := by omega
      simp [mrpInit, this] at h
    · have hz : rankOf s t A = 0 := by
        rcases h0 with rfl | rfl
        · have := rankOf_le s t A; omega
        · have := rankOf_le_width s t A; omega
      rw [hz]
      symm
      rw [Finset.card_eq_zero, Finset.filter_eq_empty_iff]
      intro i hi
      have : i < r := by have := Finset.mem_range.1 hi; omega
      simp [mrpInit, this]
    · simp only [mrpInit]; rw [if_neg (by omega)]
  · simp only [if_neg h0]
    have hinit : LexInv r c A T piv0 mrp0
        { pair := (A, T), pivind := piv0, mrp := mrp0, prow := fun _ => -1, rk := 0, zr := 0 } := by
      refine ⟨by simp, TrS.refl r _, ⟨fun i hi => by simp at hi, fun i k _ hk => by simp at hk,
        fun i hi => by simp at hi, fun i hi => by simp at hi⟩, fun k hk hkr => ?_, fun k _ _ => rfl, fun i hi => by simp at hi,
        fun jj _ h => by simp at h, fun _ _ => rfl, ?_, fun i hi => by simp at hi, fun i k _ hk => by simp at hk,
        fun _ _ => rfl, fun t j ht _ => ?_⟩
      · simp only at hk; omega
      · simp only [Nat.add_zero]
      · have : t = 0 := by simpa using ht
        subst this
        have := rankOf_le 0 j A
        simp only [mrpCount]
        simp; omega
    obtain ⟨s, N, h1, h2, h3⟩ := lexLoop_spec hx r hinit (by simp)
    refine ⟨s, ⟨max N r, fun fuel hf => ?_⟩, ⟨by have := h2.le; omega, fun i hi => ⟨h2.lead.lt i hi, h2.lead.nonzero i hi,
      fun jj _ hjj => h2.lead.before i hi jj hjj⟩, h2.lead.inc, fun i hi hir jj hjj => h2.zero i (by omega) hir jj hjj⟩,
      h2.tr, h2.tail, ⟨fun i hi => ?_, fun i k hik hk => h2.mrp_ne i k hik (by omega), fun a b ha hb => h2.rank a b (by omega) hb⟩,
      fun i hi => h2.mrp_tail i (by omega)⟩
    · simp only
      rw [h1 fuel fuel (by omega) (by omega)]
      simp [h3]
    · rcases h2.mrp_mem i (by omega) with h | ⟨k, hk, h⟩
      · exact Or.inl h
      · right
        have := h2.lead.lt k hk
        rw [h]; omega

end PML.Hermite
