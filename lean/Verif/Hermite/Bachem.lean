import Verif.Hermite.Rank

/-! # Kannan and Bachem's algorithm -/

namespace PML.Hermite

open PML.MatOps PML.MatOps.Spec PML.MatPoly PML.Forms PML.Forms.Spec PML.RowOps PML.RowOps.Spec
open PML.WeakPopov PML.Hermite.Spec PML.PolyMul.Spec Polynomial

set_option linter.unusedSectionVars false

variable {K : Type} [Field K] [DecidableEq K]

/-- The two rows changed by a gcd step, as combinations of the previous ones. -/
theorem xgcdCollision_coeffs {xg : XgcdFn K} (hx : XgcdContract xg) {pi ii j : Nat} {s : Pair K}
    (h12 : pi ≠ ii) (hz1 : ∀ jj, jj < j → s.1 pi jj = 0)
    (hz2 : ∀ jj, jj < j → s.1 ii jj = 0) (hne : s.1 pi j ≠ 0) :
    ∃ u v w z : K[X], u * z - v * w = 1 ∧ z ≠ 0 ∧
      (xgcdCollision xg s pi ii j).1 pi = u • s.1 pi + v • s.1 ii ∧
      (xgcdCollision xg s pi ii j).1 ii = w • s.1 pi + z • s.1 ii := by
  obtain ⟨A, T⟩ := s
  simp only at hz1 hz2 hne ⊢
  unfold xgcdCollision
  simp only
  by_cases hone : A pi j = 1
  · rw [if_pos hone]
    refine ⟨1, 0, -A ii j, 1, by ring, one_ne_zero, ?_, ?_⟩
    · simp only [Function.update_of_ne h12, one_smul, zero_smul, add_zero]
    · funext l
      simp only [Function.update_self, Pi.add_apply, Pi.smul_apply, smul_eq_mul]
      by_cases hl : l < j
      · rw [if_pos hl, hz1 l hl]; ring
      · rw [if_neg hl]
        by_cases hl' : l = j
        · subst hl'; rw [if_pos rfl, hone]; ring
        · rw [if_neg hl']; ring
  · rw [if_neg hone]
    obtain ⟨hm, hd1, hd2, heq⟩ := hx (A pi j) (A ii j) (Or.inl hne)
    generalize (xg (A pi j) (A ii j)).1 = g at *
    generalize (xg (A pi j) (A ii j)).2.1 = u at *
    generalize (xg (A pi j) (A ii j)).2.2 = v at *
    have hg0 : g ≠ 0 := hm.ne_zero
    have e1 : A pi j = g * (A pi j / g) := (EuclideanDomain.mul_div_cancel' hg0 hd1).symm
    have e2 : A ii j = g * (A ii j / g) := (EuclideanDomain.mul_div_cancel' hg0 hd2).symm
    generalize A pi j / g = pivg at *
    generalize A ii j / g = nonzg at *
    have hdet : u * pivg - v * (-nonzg) = 1 := by
      apply mul_left_cancel₀ hg0
      have : g = u * (g * pivg) + v * (g * nonzg) := by rw [← e1, ← e2]; exact heq
      linear_combination -this
    refine ⟨u, v, -nonzg, pivg, hdet, fun h => hne (by rw [e1, h, mul_zero]), ?_, ?_⟩
    · funext l
      simp only [Function.update_of_ne h12, Function.update_self, Pi.add_apply, Pi.smul_apply, smul_eq_mul]
      by_cases hl : l < j
      · rw [if_pos hl, hz1 l hl, hz2 l hl]; ring
      · rw [if_neg hl]
        by_cases hl' : l = j
        · subst hl'; rw [if_pos rfl]; exact heq
        · rw [if_neg hl']
    · funext l
      simp only [Function.update_self, Pi.add_apply, Pi.smul_apply, smul_eq_mul]
      by_cases hl : l < j
      · rw [if_pos hl, hz1 l hl, hz2 l hl]; ring
      · rw [if_neg hl]
        by_cases hl' : l = j
        · subst hl'; rw [if_pos rfl]; linear_combination nonzg * e1 - pivg * e2
        · rw [if_neg hl']; ring

theorem Tr.rowSpan {m : Nat} {s s' : Pair K} (h : Tr m 1 s s') : rowSpan m s'.1 = rowSpan m s.1 :=
  (h.2.cols (κ := Nat) Sum.inl).rowSpan_eq isUnit_one

/-- The situation when row `ii` is about to be processed. -/
structure KS (r i j ii : Nat) (piv : Nat → Nat) (prow : Nat → Int) (s : Pair K) : Prop where
  ile : i ≤ ii
  iir : ii < r
  lt : ∀ k, k < i → piv k < j
  inc : ∀ k k', k < k' → k' < i → piv k < piv k'
  monic : ∀ k, k < i → (s.1 k (piv k)).Monic
  before : ∀ k, k < i → ∀ jj, jj < piv k → s.1 k jj = 0
  reduced : ∀ k' k, k' < k → k < i → (s.1 k' (piv k)).degree < (s.1 k (piv k)).degree
  rank : ∀ t, t ≤ j → rankOf r t s.1 = ((Finset.range i).filter fun k => piv k < t).card
  prow : ∀ k, k < i → prow (piv k) = k

/-- Invariant of the loop on `jj`, with matrix `s` before the loop. -/
structure KI (r i ii : Nat) (piv : Nat → Nat) (s p : Pair K) (jj : Nat) : Prop where
  tr : Tr r 1 s p
  same : ∀ k, i ≤ k → k ≠ ii → p.1 k = s.1 k
  zero : ∀ l, l < jj → p.1 ii l = 0
  monic : ∀ k, k < i → (p.1 k (piv k)).Monic
  before : ∀ k, k < i → ∀ l, l < piv k → p.1 k l = 0
  later : ∀ k, k < i → jj ≤ piv k → p.1 k = s.1 k
  reduced : ∀ k' k, k' < k → k < i → piv k < jj → (p.1 k' (piv k)).degree < (p.1 k (piv k)).degree
  degle : ∀ k, k < i → (p.1 k (piv k)).degree ≤ (s.1 k (piv k)).degree
  span : ∀ m, m ≤ i → (∀ k, k < m → piv k < jj) → (∀ k, m ≤ k → k < i → jj ≤ piv k) →
    ∀ l, l < m → s.1 l ∈ rowSpan m p.1 ⊔ Submodule.span K[X] {p.1 ii}

theorem mem_rowSpan_sup {ι : Type} {m : Nat} {A : Nat → ι → K[X]} {v x : ι → K[X]}
    (h : x ∈ rowSpan m A ⊔ Submodule.span K[X] {v}) :
    ∃ (u : Fin m → K[X]) (a : K[X]), ∀ l, x l = ∑ t, u t * A t l + a * v l := by
  obtain ⟨y, hy, w, hw, rfl⟩ := Submodule.mem_sup.1 h
  obtain ⟨u, rfl⟩ := (Submodule.mem_span_range_iff_exists_fun K[X]).1 hy
  obtain ⟨a, rfl⟩ := Submodule.mem_span_singleton.1 hw
  exact ⟨u, a, fun l => by simp⟩

/-- A column of pivot index which needs no elimination stays reduced. -/
theorem KI.column {r i j ii : Nat} {piv : Nat → Nat} {prow : Nat → Int} {s p : Pair K} {k : Nat}
    (hs : KS r i j ii piv prow s) (h : KI r i ii piv s p (piv k)) (hk : k < i) (h0 : p.1 ii (piv k) = 0) :
    ∀ k', k' < k → (p.1 k' (piv k)).degree < (p.1 k (piv k)).degree := by
  have hsp := h.span k (by omega) (fun k' hk' => hs.inc k' k hk' hk)
    (fun k' hk' hk'i => by
      rcases Nat.eq_or_lt_of_le hk' with e | e
      · rw [e]
      · exact (hs.inc k k' e hk'i).le)
  have hii : ∀ l, l ≤ piv k → p.1 ii l = 0 := fun l hl => by
    rcases Nat.eq_or_lt_of_le hl with e | e
    · rw [e]; exact h0
    · exact h.zero l e
  have hrow : ∀ l : Fin k, ∃ u : Fin k → K[X], ∀ t, t ≤ piv k → s.1 l t = ∑ m, u m * p.1 m t := fun l => by
    obtain ⟨u, a, e⟩ := mem_rowSpan_sup (hsp l l.2)
    exact ⟨u, fun t ht => by rw [e t, hii t ht, mul_zero, add_zero]⟩
  choose P hP using hrow
  intro k' hk'
  rw [h.later k hk le_rfl]
  refine stays_reduced (k := k) (O := Matrix.of fun l m => s.1 l (piv m)) (N := Matrix.of fun l m => p.1 l (piv m))
    (P := Matrix.of P) (z := fun l => s.1 l (piv k)) (y := fun l => p.1 l (piv k)) ?_ ?_ ?_ ?_ ?_ ?_ ?_ ⟨k', hk'⟩
  · ext1 l m
    rw [Matrix.mul_apply]
    exact hP l _ (hs.inc m k m.2 hk).le
  · funext l
    rw [Matrix.mulVec, dotProduct]
    exact hP l _ le_rfl
  · intro l m hml
    exact hs.before l (by have := l.2; omega) _ (hs.inc m l hml (by have := l.2; omega))
  · intro m
    exact (hs.monic m (by have := m.2; omega)).ne_zero
  · intro l m hlm
    exact hs.reduced l m hlm (by have := m.2; omega)
  · intro l m
    have hm : (m : Nat) < i := by have := m.2; omega
    refine le_trans ?_ (h.degle m hm)
    rcases Nat.lt_trichotomy l m with e | e | e
    · exact (h.reduced l m e hm (hs.inc m k m.2 hk)).le
    · simp only [Matrix.of_apply, e]; exact le_rfl
    · have : p.1 l (piv m) = 0 := h.before l (by have := l.2; omega) _ (hs.inc m l e (by have := l.2; omega))
      simp [this]
  · intro l
    exact hs.reduced l k l.2 hk

/-- A nonzero entry left of column `j` in the row being processed is in a pivot column. -/
theorem KI.pivot {r i j ii : Nat} {piv : Nat → Nat} {prow : Nat → Int} {s p : Pair K} {jj : Nat}
    (hs : KS r i j ii piv prow s) (h : KI r i ii piv s p jj) (hj : jj < j) (h0 : p.1 ii jj ≠ 0) :
    ∃ k, k < i ∧ piv k = jj := by
  by_contra hcon
  push Not at hcon
  have h1 : rankOf r (jj + 1) p.1 = ((Finset.range i).filter fun k => piv k < jj + 1).card := by
    rw [h.tr.rank isUnit_one, hs.rank _ (by omega)]
  have hni : ii ∉ (Finset.range i).filter fun k => piv k < jj + 1 := fun hm => by
    have := Finset.mem_range.1 (Finset.mem_filter.1 hm).1
    have := hs.ile; omega
  have h2 := card_le_rankOf (r := r) (t := jj + 1) (A := p.1) (B := p.1)
    (insert ii ((Finset.range i).filter fun k => piv k < jj + 1)) (fun k => if k < i then piv k else jj)
    (fun k hk => by
      rcases Finset.mem_insert.1 hk with rfl | hk
      · rw [if_neg (by have := hs.ile; omega)]
        exact ⟨by omega, h0, fun l _ hl => h.zero l hl⟩
      · obtain ⟨a, b⟩ := Finset.mem_filter.1 hk
        have hk := Finset.mem_range.1 a
        rw [if_pos hk]
        exact ⟨b, (h.monic k hk).ne_zero, fun l _ hl => h.before k hk l hl⟩)
    (fun k l hk hl e => by
      rcases Finset.mem_insert.1 hk with rfl | hk2 <;> rcases Finset.mem_insert.1 hl with rfl | hl2
      · rfl
      · have hl' := Finset.mem_range.1 (Finset.mem_filter.1 hl2).1
        rw [if_neg (by have := hs.ile; omega), if_pos hl'] at e
        exact absurd e.symm (hcon l hl')
      · have hl' := Finset.mem_range.1 (Finset.mem_filter.1 hk2).1
        rw [if_pos hl', if_neg (by have := hs.ile; omega)] at e
        exact absurd e (hcon k hl')
      · have hk' := Finset.mem_range.1 (Finset.mem_filter.1 hk2).1
        have hl' := Finset.mem_range.1 (Finset.mem_filter.1 hl2).1
        rw [if_pos hk', if_pos hl'] at e
        by_contra hne
        rcases Nat.lt_or_gt_of_ne hne with hlt | hgt
        · have := hs.inc k l hlt hl'; omega
        · have := hs.inc l k hgt hk'; omega)
    (fun k hk => by
      refine le_sat _ (row_mem_rowSpan ?_ _)
      rcases Finset.mem_insert.1 hk with rfl | hk
      · exact hs.iir
      · have := Finset.mem_range.1 (Finset.mem_filter.1 hk).1
        have := hs.ile; have := hs.iir; omega)
  rw [Finset.card_insert_of_notMem hni, h1] at h2
  omega

/-- A column without elimination. -/
theorem KI.skip {r i j ii : Nat} {piv : Nat → Nat} {prow : Nat → Int} {s p : Pair K} {jj : Nat}
    (hs : KS r i j ii piv prow s) (h : KI r i ii piv s p jj) (h0 : p.1 ii jj = 0) :
    KI r i ii piv s p (jj + 1) := by
  refine ⟨h.tr, h.same, fun l hl => ?_, h.monic, h.before, fun k hk hkj => h.later k hk (by omega),
    fun k' k hk' hk hkj => ?_, h.degle, fun m hm h1 h2 l hl => ?_⟩
  · rcases Nat.eq_or_lt_of_le (by omega : l ≤ jj) with e | e
    · rw [e]; exact h0
    · exact h.zero l e
  · rcases Nat.eq_or_lt_of_le (by omega : piv k ≤ jj) with e | e
    · subst e
      exact KI.column hs h hk h0 k' hk'
    · exact h.reduced k' k hk' hk e
  · by_cases hex : ∃ k, k < i ∧ piv k = jj
    · obtain ⟨k, hk, e⟩ := hex
      have hkm : m = k + 1 := by
        have h3 : k < m := by
          by_contra hc
          have := h2 k (by omega) hk; omega
        by_contra hc
        have h4 := hs.inc k (k + 1) (by omega) (by omega)
        have h5 := h1 (k + 1) (by omega)
        omega
      subst hkm
      rcases Nat.eq_or_lt_of_le (by omega : l ≤ k) with e' | e'
      · subst e'
        rw [← h.later l hk (by omega)]
        exact Submodule.mem_sup_left (row_mem_rowSpan (by omega) _)
      · refine sup_le_sup_right (rowSpan_mono (by omega) p.1) _ (h.span k (by omega) (fun k' hk' => ?_) (fun k' hk' hki => ?_) l e')
        · rw [← e]; exact hs.inc k' k hk' hk
        · rcases Nat.eq_or_lt_of_le hk' with e2 | e2
          · rw [← e2, e]
          · rw [← e]; exact (hs.inc k k' e2 hki).le
    · push Not at hex
      refine h.span m hm (fun k hk => ?_) (fun k hk hki => ?_) l hl
      · have := h1 k hk
        have := hex k (by omega)
        omega
      · have := h2 k hk hki; omega

/-- A column with elimination. -/
theorem KI.step {xg : XgcdFn K} (hx : XgcdContract xg) {r i j ii : Nat} {piv : Nat → Nat} {prow : Nat → Int}
    {s p : Pair K} {k : Nat} (hs : KS r i j ii piv prow s) (h : KI r i ii piv s p (piv k)) (hk : k < i) :
    KI r i ii piv s (reduceAbove k (piv k) k (xgcdCollision xg p k ii (piv k))) (piv k + 1) := by
  have hile := hs.ile
  have hiir := hs.iir
  have hki : k ≠ ii := by omega
  have hz1 : ∀ l, l < piv k → p.1 k l = 0 := h.before k hk
  have hne := (h.monic k hk).ne_zero
  obtain ⟨x1, x2, x3, x4, x5, x6, _⟩ := xgcdCollision_spec hx (m := r) (pi := k) (ii := ii) (j := piv k) (s := p)
    (by omega) hiir hki hz1 h.zero hne
  obtain ⟨u, v, w, z, hdet, _, c1, c2⟩ := xgcdCollision_coeffs hx hki hz1 h.zero hne
  generalize xgcdCollision xg p k ii (piv k) = p1 at *
  have hz1' : ∀ l, l < piv k → p1.1 k l = 0 := fun l hl => by rw [x3 k l hl]; exact hz1 l hl
  obtain ⟨r1, r2, r3, r4⟩ := reduceAbove_spec (m := r) (i := k) (j := piv k) (n := k) (s := p1) (by omega) le_rfl
    hz1' x5.ne_zero
  obtain ⟨r1', _⟩ := reduceAbove_spec (m := k + 1) (i := k) (j := piv k) (n := k) (s := p1) (by omega) le_rfl
    hz1' x5.ne_zero
  generalize reduceAbove k (piv k) k p1 = q at *
  have hpivot : q.1 k = p1.1 k := r2 k le_rfl
  have hgt : ∀ k', k < k' → k' ≠ ii → q.1 k' = p.1 k' := fun k' h1 h2 => by
    rw [r2 k' h1.le, x2 k' (by omega) h2]
  have hcols : ∀ k' l, l < piv k → q.1 k' l = p.1 k' l := fun k' l hl => by rw [r3 k' l hl, x3 k' l hl]
  have hqii : q.1 ii = p1.1 ii := r2 ii (by omega)
  refine ⟨(h.tr.trans_one x1).trans_one r1, fun k' hk' hne' => ?_, fun l hl => ?_, fun k' hk' => ?_, fun k' hk' l hl => ?_,
    fun k' hk' hle => ?_, fun k'' k' hk'' hk' hle => ?_, fun k' hk' => ?_, fun m hm h1 h2 l hl => ?_⟩
  · rw [hgt k' (by omega) hne', h.same k' hk' hne']
  · rw [hqii]
    rcases Nat.eq_or_lt_of_le (by omega : l ≤ piv k) with e | e
    · rw [e]; exact x4
    · rw [x3 ii l e]; exact h.zero l e
  · rcases Nat.lt_trichotomy k' k with e | e | e
    · rw [hcols k' _ (hs.inc k' k e hk)]; exact h.monic k' hk'
    · rw [e, hpivot]; exact x5
    · rw [hgt k' e (by omega)]; exact h.monic k' hk'
  · rcases Nat.lt_trichotomy k' k with e | e | e
    · rw [hcols k' _ (by have := hs.inc k' k e hk; omega)]; exact h.before k' hk' l hl
    · rw [e] at hl ⊢; rw [hcols k l hl]; exact hz1 l hl
    · rw [hgt k' e (by omega)]; exact h.before k' hk' l hl
  · have : k < k' := by
      by_contra hc
      rcases Nat.eq_or_lt_of_le (by omega : k' ≤ k) with e | e
      · rw [e] at hle; omega
      · have := hs.inc k' k e hk; omega
    rw [hgt k' this (by omega)]
    exact h.later k' hk' (by omega)
  · rcases Nat.lt_trichotomy k' k with e | e | e
    · have hlt := hs.inc k' k e hk
      rw [hcols k'' _ hlt, hcols k' _ hlt]
      exact h.reduced k'' k' hk'' hk' hlt
    · subst e
      rw [hpivot]
      exact r4 k'' hk''
    · have := hs.inc k k' e hk'; omega
  · rcases Nat.lt_trichotomy k' k with e | e | e
    · rw [hcols k' _ (hs.inc k' k e hk)]; exact h.degle k' hk'
    · subst e
      rw [hpivot]
      exact le_trans (degree_le_of_dvd x6 hne) (h.degle k' hk)
    · rw [hgt k' e (by omega)]; exact h.degle k' hk'
  · have hkm : m = k + 1 := by
      have h3 : k < m := by
        by_contra hc
        have := h2 k (by omega) hk; omega
      by_contra hc
      have h4 := hs.inc k (k + 1) (by omega) (by omega)
      have h5 := h1 (k + 1) (by omega)
      omega
    subst hkm
    have hspan : rowSpan (k + 1) q.1 = rowSpan (k + 1) p1.1 := r1'.rowSpan
    rw [hspan, hqii]
    have m1 : p1.1 k ∈ rowSpan (k + 1) p1.1 ⊔ Submodule.span K[X] {p1.1 ii} :=
      Submodule.mem_sup_left (row_mem_rowSpan (by omega) _)
    have m2 : p1.1 ii ∈ rowSpan (k + 1) p1.1 ⊔ Submodule.span K[X] {p1.1 ii} :=
      Submodule.mem_sup_right (Submodule.mem_span_singleton_self _)
    have m3 : p.1 k ∈ rowSpan (k + 1) p1.1 ⊔ Submodule.span K[X] {p1.1 ii} := by
      have : p.1 k = z • p1.1 k + (-v) • p1.1 ii := by
        rw [c1, c2]
        funext l
        simp only [Pi.add_apply, Pi.smul_apply, smul_eq_mul]
        linear_combination -(p.1 k l) * hdet
      rw [this]
      exact Submodule.add_mem _ (Submodule.smul_mem _ _ m1) (Submodule.smul_mem _ _ m2)
    have m4 : p.1 ii ∈ rowSpan (k + 1) p1.1 ⊔ Submodule.span K[X] {p1.1 ii} := by
      have : p.1 ii = (-w) • p1.1 k + u • p1.1 ii := by
        rw [c1, c2]
        funext l
        simp only [Pi.add_apply, Pi.smul_apply, smul_eq_mul]
        linear_combination -(p.1 ii l) * hdet
      rw [this]
      exact Submodule.add_mem _ (Submodule.smul_mem _ _ m1) (Submodule.smul_mem _ _ m2)
    rcases Nat.eq_or_lt_of_le (by omega : l ≤ k) with e' | e'
    · subst e'
      rw [← h.later l hk le_rfl]
      exact m3
    · have hold := h.span k (by omega) (fun k' hk' => hs.inc k' k hk' hk) (fun k' hk' hki' => by
        rcases Nat.eq_or_lt_of_le hk' with e2 | e2
        · rw [← e2]
        · exact (hs.inc k k' e2 hki').le) l e'
      refine (sup_le ?_ ?_ : rowSpan k p.1 ⊔ Submodule.span K[X] {p.1 ii} ≤ _) hold
      · refine PML.RowOps.rowSpan_le fun i' hi' => ?_
        rw [← x2 i' (by omega) (by omega)]
        exact Submodule.mem_sup_left (row_mem_rowSpan (by omega) _)
      · rw [Submodule.span_singleton_le_iff_mem]
        exact m4

theorem killRow_spec {xg : XgcdFn K} (hx : XgcdContract xg) {r i j ii : Nat} {piv : Nat → Nat} {prow : Nat → Int}
    {s : Pair K} (hs : KS r i j ii piv prow s) : ∀ (n jj : Nat) (p : Pair K), jj + n ≤ j → KI r i ii piv s p jj →
    ∃ q, killRow xg prow ii n jj p = some q ∧ KI r i ii piv s q (jj + n) := by
  intro n
  induction n with
  | zero => intro jj p _ h; exact ⟨p, rfl, h⟩
  | succ n ih =>
    intro jj p hj h
    unfold killRow
    rw [show jj + (n + 1) = jj + 1 + n by omega]
    by_cases h0 : p.1 ii jj = 0
    · rw [if_neg (by simpa using h0)]
      exact ih (jj + 1) p (by omega) (h.skip hs h0)
    · rw [if_pos h0]
      obtain ⟨k, hk, rfl⟩ := KI.pivot hs h (by omega) h0
      have hp := hs.prow k hk
      rw [if_neg (by omega), hp, Int.toNat_natCast]
      exact ih (piv k + 1) _ (by omega) (h.step hx hs hk)

/-- Invariant of the main loop. -/
structure KBInv (r c : Nat) (s0 : Pair K) (piv0 : Nat → Nat) (s : KState K) : Prop where
  oob : s.oob = false
  ile : s.i ≤ r
  jle : s.j ≤ c
  iile : s.i ≤ s.ii
  iir : s.ii ≤ r
  tr : TrU r s0 s.pair
  lt : ∀ k, k < s.i → s.pivind k < s.j
  inc : ∀ k k', k < k' → k' < s.i → s.pivind k < s.pivind k'
  monic : ∀ k, k < s.i → (s.pair.1 k (s.pivind k)).Monic
  before : ∀ k, k < s.i → ∀ jj, jj < s.pivind k → s.pair.1 k jj = 0
  reduced : ∀ k' k, k' < k → k < s.i → (s.pair.1 k' (s.pivind k)).degree < (s.pair.1 k (s.pivind k)).degree
  zero : ∀ k, s.i ≤ k → k < s.ii → ∀ jj, jj ≤ s.j → s.pair.1 k jj = 0
  rank : ∀ t, t ≤ s.j → rankOf r t s.pair.1 = ((Finset.range s.i).filter fun k => s.pivind k < t).card
  prow : ∀ k, k < s.i → s.prow (s.pivind k) = k
  tail : ∀ k, s.i ≤ k → s.pivind k = piv0 k
  last : s.j = c → (∀ k, s.i ≤ k → k < r → ∀ jj, jj < c → s.pair.1 k jj = 0) ∨
    (0 < s.i ∧ s.pivind (s.i - 1) + 1 = c)

def kbMeas (r c : Nat) (s : KState K) : Nat := (c - s.j) * (r + 1) + (r - s.ii)

theorem KBInv.skip {r c : Nat} {s0 : Pair K} {piv0 : Nat → Nat} {s : KState K} (h : KBInv r c s0 piv0 s)
    (hj : s.j < c) (hz : ∀ k, s.i ≤ k → k < r → ∀ jj, jj ≤ s.j → s.pair.1 k jj = 0) :
    KBInv r c s0 piv0 { s with ii := s.i, j := s.j + 1 } := by
  have he : EchelonForm r (s.j + 1) s.pair.1 s.i s.pivind :=
    ⟨h.ile, fun k hk => ⟨by have := h.lt k hk; omega, (h.monic k hk).ne_zero, fun jj _ hjj => h.before k hk jj hjj⟩, h.inc,
      fun k hk hkr jj hjj => hz k hk hkr jj (by omega)⟩
  refine ⟨h.oob, h.ile, hj, le_rfl, h.ile, h.tr, fun k hk => ?_, h.inc, h.monic, h.before, h.reduced,
    fun k hk hk' => ?_, fun t ht => he.rank t ht, h.prow, h.tail, fun e => Or.inl fun k hk hkr jj hjj => ?_⟩
  · have := h.lt k hk; simp only; omega
  · simp only at hk hk'; omega
  · simp only at e hk
    exact hz k hk hkr jj (by omega)

theorem kb_step {xg : XgcdFn K} (hx : XgcdContract xg) {r c : Nat} {s0 : Pair K} {piv0 : Nat → Nat} {s : KState K}
    (h : KBInv r c s0 piv0 s) (hc : (!s.oob && decide (s.i < r ∧ s.j < c)) = true) :
    KBInv r c s0 piv0 (kbBody xg r s) ∧ kbMeas r c (kbBody xg r s) < kbMeas r c s := by
  have hlt : s.i < r ∧ s.j < c := by
    simp only [Bool.and_eq_true, decide_eq_true_eq] at hc; exact hc.2
  have hiile := h.iile
  have hiir := h.iir
  have hmulj : (c - s.j) * (r + 1) = (c - (s.j + 1)) * (r + 1) + (r + 1) := by
    rw [show c - s.j = c - (s.j + 1) + 1 by omega]; ring
  have hfirst : ∀ ii, findFrom (fun jj => decide (s.pair.1 ii jj ≠ 0)) (s.j + 1) 0 ≤ s.j + 1 ∧
      (∀ l, l < findFrom (fun jj => decide (s.pair.1 ii jj ≠ 0)) (s.j + 1) 0 → s.pair.1 ii l = 0) := fun ii => by
    obtain ⟨_, f2, f3, f4⟩ := findFrom_spec (fun jj => decide (s.pair.1 ii jj ≠ 0)) (s.j + 1) 0
    refine ⟨by omega, fun l hl => ?_⟩
    have := f3 l (by omega) hl
    simpa using this
  unfold kbBody
  simp only
  obtain ⟨g1, g2, g3, g4⟩ := findFrom_spec
    (fun ii => decide (findFrom (fun jj => decide (s.pair.1 ii jj ≠ 0)) (s.j + 1) 0 ≠ s.j + 1)) (r - s.ii) s.ii
  generalize findFrom (fun ii => decide (findFrom (fun jj => decide (s.pair.1 ii jj ≠ 0)) (s.j + 1) 0 ≠ s.j + 1))
    (r - s.ii) s.ii = ii at *
  have hz : ∀ k, s.i ≤ k → k < ii → ∀ jj, jj ≤ s.j → s.pair.1 k jj = 0 := fun k hk hki jj hjj => by
    by_cases hkk : k < s.ii
    · exact h.zero k hk hkk jj hjj
    · have := g3 k (by omega) hki
      simp only [ne_eq, decide_not, Bool.not_eq_eq_eq_not, Bool.not_false, decide_eq_true_eq] at this
      exact (hfirst k).2 jj (by simp only [ne_eq, decide_not] at this ⊢; omega)
  by_cases c1 : ii = r
  · rw [if_pos c1]
    refine ⟨h.skip hlt.2 fun k hk hkr => hz k hk (by omega), ?_⟩
    simp only [kbMeas]
    rw [hmulj]
    have : r - s.i < r + 1 := by omega
    omega
  · rw [if_neg c1]
    have hf0 := hfirst ii
    have hne0 := g4 (by omega)
    simp only [decide_eq_true_eq] at hne0
    generalize findFrom (fun jj => decide (s.pair.1 ii jj ≠ 0)) (s.j + 1) 0 = jj0 at *
    have hks : KS r s.i s.j ii s.pivind s.prow s.pair :=
      ⟨by omega, by omega, h.lt, h.inc, h.monic, h.before, h.reduced, h.rank, h.prow⟩
    have hki0 : KI r s.i ii s.pivind s.pair s.pair jj0 :=
      ⟨Tr.refl r _, fun _ _ _ => rfl, hf0.2, h.monic, h.before, fun _ _ _ => rfl, fun k' k a b _ => h.reduced k' k a b,
        fun _ _ => le_rfl, fun m _ _ _ l hl => Submodule.mem_sup_left (row_mem_rowSpan hl _)⟩
    obtain ⟨q, hq, hki⟩ := killRow_spec hx hks (s.j - jj0) jj0 s.pair (by omega) hki0
    rw [hq, show jj0 + (s.j - jj0) = s.j by omega] at *
    simp only
    have hrank : ∀ t, t ≤ s.j → rankOf r t q.1 = ((Finset.range s.i).filter fun k => s.pivind k < t).card :=
      fun t ht => by rw [hki.tr.rank isUnit_one, h.rank t ht]
    have hsame : ∀ k, s.i ≤ k → k < ii → ∀ jj, jj ≤ s.j → q.1 k jj = 0 := fun k hk hki' jj hjj => by
      rw [hki.same k hk (by omega)]; exact hz k hk hki' jj hjj
    have hqtr : TrU r s0 q := h.tr.trans hki.tr.toS.toU
    by_cases c2 : q.1 ii s.j = 0
    · rw [if_pos c2]
      refine ⟨⟨h.oob, h.ile, h.jle, by simp only; omega, by simp only; omega, hqtr, h.lt, h.inc, hki.monic, hki.before,
        fun k' k hk' hk => hki.reduced k' k hk' hk (h.lt k hk), fun k hk hk' jj hjj => ?_, hrank, h.prow, h.tail,
        fun e => absurd e (by simp only; omega)⟩, ?_⟩
      · simp only at hk hk' hjj ⊢
        rcases Nat.eq_or_lt_of_le (by omega : k ≤ ii) with e | e
        · rw [e]
          rcases Nat.eq_or_lt_of_le hjj with e' | e'
          · rw [e']; exact c2
          · exact hki.zero jj e'
        · exact hsame k hk e jj hjj
      · simp only [kbMeas]; omega
    · rw [if_neg c2]
      have ea : ∀ k, (rotPair q s.i ii).1 k = q.1 (if k = s.i then ii else if s.i < k ∧ k ≤ ii then k - 1 else k) := by
        intro k
        show rotDown s.i ii q.1 k = _
        rw [rotDown_apply (by omega)]
        split_ifs <;> rfl
      have et : TrU r q (rotPair q s.i ii) := (rotPair_tr (by omega) (by omega) q).toU
      generalize rotPair q s.i ii = q1 at *
      have e1i : q1.1 s.i = q.1 ii := by rw [ea, if_pos rfl]
      have e1k : ∀ k, k < s.i → q1.1 k = q.1 k := fun k hk => by
        rw [ea, if_neg (by omega), if_neg (by omega)]
      obtain ⟨n1, n2, n3, n4, _⟩ := normalizePivot_spec (m := r) (i := s.i) (j := s.j) (s := q1) (by omega)
        (fun jj hjj => by rw [e1i]; exact hki.zero jj hjj) (by rw [e1i]; exact c2)
      have e2k : ∀ k, k < s.i → (normalizePivot q1 s.i s.j).1 k = q.1 k := fun k hk => by
        rw [n2 k (by omega), e1k k hk]
      generalize normalizePivot q1 s.i s.j = q2 at *
      have e2z : ∀ jj, jj < s.j → q2.1 s.i jj = 0 := fun jj hjj => by
        rw [n3 _ jj hjj, e1i]; exact hki.zero jj hjj
      obtain ⟨r1, r2, r3, r4⟩ := reduceAbove_spec (m := r) (i := s.i) (j := s.j) (n := s.i) (s := q2) (by omega) le_rfl
        e2z n4.ne_zero
      generalize reduceAbove s.i s.j s.i q2 = q3 at *
      have e3k : ∀ k, k < s.i → ∀ jj, jj < s.j → q3.1 k jj = q.1 k jj := fun k hk jj hjj => by
        rw [r3 k jj hjj, e2k k hk]
      have e3i : q3.1 s.i = q2.1 s.i := r2 _ le_rfl
      have htr : TrU r q q3 := (et.trans n1).trans r1.toS.toU
      have hup : ∀ k, k < s.i → Function.update s.pivind s.i s.j k = s.pivind k := fun k hk =>
        Function.update_of_ne (by omega) _ _
      have hmonic : ∀ k, k < s.i + 1 → (q3.1 k (Function.update s.pivind s.i s.j k)).Monic := fun k hk => by
        rcases Nat.eq_or_lt_of_le (by omega : k ≤ s.i) with e | e
        · rw [e, Function.update_self, e3i]; exact n4
        · rw [hup k e, e3k k e _ (h.lt k e)]; exact hki.monic k e
      have hbefore : ∀ k, k < s.i + 1 → ∀ jj, jj < Function.update s.pivind s.i s.j k → q3.1 k jj = 0 := fun k hk jj hjj => by
        rcases Nat.eq_or_lt_of_le (by omega : k ≤ s.i) with e | e
        · rw [e, Function.update_self] at hjj
          rw [e, e3i]; exact e2z jj hjj
        · rw [hup k e] at hjj
          rw [e3k k e _ (by have := h.lt k e; omega)]; exact hki.before k e jj hjj
      have hltn : ∀ k, k < s.i + 1 → Function.update s.pivind s.i s.j k < s.j + 1 := fun k hk => by
        rcases Nat.eq_or_lt_of_le (by omega : k ≤ s.i) with e | e
        · rw [e, Function.update_self]; omega
        · rw [hup k e]; have := h.lt k e; omega
      have hincn : ∀ k k', k < k' → k' < s.i + 1 →
          Function.update s.pivind s.i s.j k < Function.update s.pivind s.i s.j k' := fun k k' hkk hk' => by
        rw [hup k (by omega)]
        rcases Nat.eq_or_lt_of_le (by omega : k' ≤ s.i) with e | e
        · rw [e, Function.update_self]; exact h.lt k (by omega)
        · rw [hup k' e]; exact h.inc k k' hkk e
      have hcount : ∀ t, t ≤ s.j → ((Finset.range (s.i + 1)).filter fun k => Function.update s.pivind s.i s.j k < t) =
          (Finset.range s.i).filter fun k => s.pivind k < t := fun t ht => by
        ext k
        simp only [Finset.mem_filter, Finset.mem_range]
        constructor
        · rintro ⟨a, b⟩
          rcases Nat.eq_or_lt_of_le (by omega : k ≤ s.i) with e | e
          · rw [e, Function.update_self] at b; omega
          · rw [hup k e] at b; exact ⟨e, b⟩
        · rintro ⟨a, b⟩
          rw [hup k a]; exact ⟨by omega, b⟩
      have hall : ((Finset.range (s.i + 1)).filter fun k => Function.update s.pivind s.i s.j k < s.j + 1) =
          Finset.range (s.i + 1) :=
        Finset.filter_true_of_mem fun k hk => hltn k (Finset.mem_range.1 hk)
      have hall' : ((Finset.range s.i).filter fun k => s.pivind k < s.j) = Finset.range s.i :=
        Finset.filter_true_of_mem fun k hk => h.lt k (Finset.mem_range.1 hk)
      refine ⟨⟨h.oob, by simp only; omega, by simp only; omega, le_rfl, by simp only; omega, hqtr.trans htr, hltn, hincn, hmonic, hbefore,
        fun k' k hk' hk => ?_, fun k hk hk' => ?_, fun t ht => ?_, fun k hk => ?_, fun k hk => ?_, fun e => Or.inr ⟨?_, ?_⟩⟩, ?_⟩
      · simp only at hk ⊢
        rcases Nat.eq_or_lt_of_le (by omega : k ≤ s.i) with e | e
        · rw [e, Function.update_self, e3i]; exact r4 k' (by omega)
        · have := h.lt k e
          rw [hup k e, e3k k' (by omega) _ this, e3k k e _ this]
          exact hki.reduced k' k hk' e this
      · simp only at hk hk'; omega
      · simp only at ht ⊢
        rcases Nat.eq_or_lt_of_le ht with e | e
        · rw [e, hall, Finset.card_range]
          refine le_antisymm ?_ ?_
          · rw [htr.rank]
            refine (rankOf_succ_le r s.j q.1).trans ?_
            rw [hrank _ le_rfl, hall', Finset.card_range]
          · have := card_le_rankOf (r := r) (t := s.j + 1) (A := q3.1) (B := q3.1) (Finset.range (s.i + 1))
              (Function.update s.pivind s.i s.j) (fun k hk => ⟨hltn k (Finset.mem_range.1 hk),
                (hmonic k (Finset.mem_range.1 hk)).ne_zero, fun l _ hl => hbefore k (Finset.mem_range.1 hk) l hl⟩)
              (fun k l hk hl e => by
                by_contra hne
                rcases Nat.lt_or_gt_of_ne hne with hlt | hgt
                · have := hincn k l hlt (Finset.mem_range.1 hl); omega
                · have := hincn l k hgt (Finset.mem_range.1 hk); omega)
              (fun k hk => le_sat _ (row_mem_rowSpan (by have := Finset.mem_range.1 hk; omega) _))
            rwa [Finset.card_range] at this
        · rw [hcount t (by omega), htr.rank]
          exact hrank t (by omega)
      · simp only at hk ⊢
        rcases Nat.eq_or_lt_of_le (by omega : k ≤ s.i) with e | e
        · rw [e, Function.update_self, Function.update_self]
        · rw [hup k e, Function.update_of_ne (by have := h.lt k e; omega)]
          exact h.prow k e
      · simp only at hk ⊢
        rw [Function.update_of_ne (by omega)]
        exact h.tail k (by omega)
      · simp only; omega
      · simp only at e ⊢
        rw [Nat.add_sub_cancel, Function.update_self]; exact e
      · simp only [kbMeas]
        rw [hmulj]
        have : r - (s.i + 1) < r + 1 := by omega
        omega

theorem kbInv_init (r c : Nat) (A : Mat K[X]) (T : Option (Mat K[X])) (piv0 : Nat → Nat) (mrp0 : Nat → Int) :
    KBInv r c (A, T) piv0
      { pair := (A, T), pivind := piv0, mrp := mrpInit r mrp0, perm := id, prow := fun _ => -1,
        i := 0, j := 0, ii := 0, oob := false } :=
    ⟨rfl, by simp, by simp, le_rfl, by simp, (TrS.refl r _).toU, fun k hk => by simp at hk, fun k k' _ hk => by simp at hk,
      fun k hk => by simp at hk, fun k hk => by simp at hk, fun k k' _ hk => by simp at hk, fun k _ hk => by simp at hk,
      fun t ht => by
        have ht : t = 0 := by simpa using ht
        subst ht
        have := rankOf_le_width r 0 A
        simp only [Finset.range_zero, Finset.filter_empty, Finset.card_empty]
        omega,
      fun k hk => by simp at hk, fun _ _ => rfl, fun e => Or.inl fun k _ _ jj hjj => by simp only at e; omega⟩

theorem hnfDelayedZero_spec {xg : XgcdFn K} (hx : XgcdContract xg) (r c : Nat) (A : Mat K[X])
    (T : Option (Mat K[X])) (piv0 : Nat → Nat) (mrp0 : Nat → Int) :
    ∃ s, Ends (fun fuel => hnfDelayedZero xg fuel r c A T piv0 mrp0) s ∧ KBInv r c (A, T) piv0 s ∧
      (s.i = r ∨ s.j = c) := by
  unfold hnfDelayedZero
  simp only
  have h0 := kbInv_init r c A T piv0 mrp0
  by_cases hrc : r = 0 ∨ c = 0
  · simp only [if_pos hrc]
    exact ⟨_, Ends.pure fun _ => rfl, h0, by simp only; omega⟩
  · simp only [if_neg hrc]
    obtain ⟨s, h1, h2, h3⟩ := whileLoop_ends
      (c := fun s : KState K => !s.oob && decide (s.i < r ∧ s.j < c)) (b := kbBody xg r)
      (KBInv r c (A, T) piv0) (kbMeas r c) (fun s h hc => kb_step hx h hc) _ h0
    refine ⟨s, h1, h2, ?_⟩
    have := h2.oob
    have := h2.ile
    have := h2.jle
    simp_all
    omega

end PML.Hermite
