import Verif.Hermite.Lemmas

/-! # Rank and column rank profile of echelon forms; normalisation -/

namespace PML.Hermite

open PML.MatOps PML.MatOps.Spec PML.MatPoly PML.Forms PML.Forms.Spec PML.RowOps PML.RowOps.Spec
open PML.WeakPopov PML.Hermite.Spec PML.PolyMul.Spec Polynomial

set_option linter.unusedSectionVars false

variable {K : Type} [Field K] [DecidableEq K]

/-- Rows with nonzero entries at `piv`, zero before, `piv` injective: independent. -/
theorem independent_of_leading {n c : Nat} {B : Mat K[X]} {piv : Nat → Nat}
    (hp : ∀ i, i < n → FirstNonzero c (B i) (piv i)) (hinj : ∀ i k, i < n → k < n → piv i = piv k → i = k)
    (u : Nat → K[X]) (h : ∀ j, j < c → ∑ i ∈ Finset.range n, u i * B i j = 0) : ∀ i, i < n → u i = 0 := by
  have key : ∀ t, ∀ i, i < n → piv i < t → u i = 0 := by
    intro t
    induction t with
    | zero => intro i _ h; omega
    | succ t ih =>
      intro i hi hit
      by_cases hlt : piv i < t
      · exact ih i hi hlt
      · have hpt : piv i = t := by omega
        have := h (piv i) (hp i hi).lt
        rw [Finset.sum_eq_single i] at this
        · exact (mul_eq_zero.1 this).resolve_right (hp i hi).nonzero
        · intro k hk hki
          have hkn := Finset.mem_range.1 hk
          by_cases hk1 : piv k < piv i
          · rw [ih k hkn (by omega), zero_mul]
          · have hne : piv k ≠ piv i := fun e => hki (hinj k i hkn hi e)
            rw [(hp k hkn).before _ (hp i hi).lt (by omega), mul_zero]
        · intro hn; exact absurd (Finset.mem_range.2 hi) hn
  intro i hi
  exact key (piv i + 1) i hi (by omega)

theorem rowSpan_mono {R ι : Type} [CommRing R] {n m : Nat} (h : n ≤ m) (A : Nat → ι → R) :
    rowSpan n A ≤ rowSpan m A :=
  RowOps.rowSpan_le fun i hi => row_mem_rowSpan (by omega) A

theorem Spec.EchelonForm.count {r c : Nat} {B : Mat K[X]} {rk : Nat} {piv : Nat → Nat}
    (h : EchelonForm r c B rk piv) (t : Nat) :
    ∃ n, n ≤ rk ∧ (∀ i, i < n → piv i < t) ∧ ∀ i, n ≤ i → i < rk → t ≤ piv i := by
  by_cases hex : ∃ i, i < rk ∧ t ≤ piv i
  · classical
    have hsp := Nat.find_spec hex
    refine ⟨Nat.find hex, hsp.1.le, fun i hi => ?_, fun i hi hi' => ?_⟩
    · have := Nat.find_min hex hi
      by_contra hc
      exact this ⟨by omega, by omega⟩
    · rcases Nat.lt_or_ge (Nat.find hex) i with hlt | hge
      · have := h.increasing _ i hlt hi'
        omega
      · have : i = Nat.find hex := by omega
        rw [this]; exact hsp.2
  · push Not at hex
    exact ⟨rk, le_rfl, hex, fun i h1 h2 => by omega⟩

/-- Rank of the first `t` columns: the number of pivots among them. -/
theorem Spec.EchelonForm.rank {r c : Nat} {B : Mat K[X]} {rk : Nat} {piv : Nat → Nat}
    (h : EchelonForm r c B rk piv) (t : Nat) (ht : t ≤ c) :
    rankOf r t B = ((Finset.range rk).filter fun i => piv i < t).card := by
  obtain ⟨n, h1, h2, h3⟩ := h.count t
  have hspan : rowSpan r (firstCols t B) = rowSpan n (firstCols t B) := by
    refine le_antisymm (RowOps.rowSpan_le fun i hi => ?_) (rowSpan_mono (h1.trans h.le) _)
    by_cases hin : i < n
    · exact row_mem_rowSpan hin _
    · have : firstCols t B i = 0 := by
        funext j
        show B i j = 0
        by_cases hir : i < rk
        · exact (h.pivot i hir).before j (by omega) (by have := h3 i (by omega) hir; omega)
        · exact h.zero i (by omega) hi j (by omega)
      rw [this]; exact Submodule.zero_mem _
  rw [rankOf_congr hspan, rankOf_independent]
  · have : (Finset.range rk).filter (fun i => piv i < t) = Finset.range n := by
      ext i
      simp only [Finset.mem_filter, Finset.mem_range]
      constructor
      · rintro ⟨a, b⟩
        by_contra hc
        have := h3 i (by omega) a
        omega
      · intro hi
        exact ⟨by omega, h2 i hi⟩
    rw [this, Finset.card_range]
  · refine independent_of_leading (piv := piv) (fun i hi => ⟨h2 i hi, (h.pivot i (by omega)).nonzero,
      fun j hj hjp => (h.pivot i (by omega)).before j (by omega) hjp⟩) (fun i k hi hk e => ?_)
    rcases Nat.lt_trichotomy i k with hlt | heq | hgt
    · have := h.increasing i k hlt (by omega); omega
    · exact heq
    · have := h.increasing k i hgt (by omega); omega

theorem Spec.EchelonForm.rank_full {r c : Nat} {B : Mat K[X]} {rk : Nat} {piv : Nat → Nat}
    (h : EchelonForm r c B rk piv) : rankOf r c B = rk := by
  rw [h.rank c le_rfl, card_filter_of_all _ _ fun i hi => (h.pivot i hi).lt]

/-- The pivots of an echelon form left equivalent to `A` are the column rank profile of `A`. -/
theorem Spec.EchelonForm.profile {r c : Nat} {A B : Mat K[X]} {rk : Nat} {piv : Nat → Nat}
    (h : EchelonForm r c B rk piv) (hr : ∀ t, rankOf r t B = rankOf r t A) :
    ColRankProfile r c A rk piv := by
  refine ⟨fun l hl => (h.pivot l hl).lt, h.increasing, fun j hj => ?_⟩
  rw [← hr, ← hr, h.rank j (by omega), h.rank (j + 1) (by omega)]
  have hsub : (Finset.range rk).filter (fun l => piv l < j) ⊆
      (Finset.range rk).filter (fun l => piv l < j + 1) := by
    intro l
    simp only [Finset.mem_filter]
    exact fun ⟨a, b⟩ => ⟨a, by omega⟩
  constructor
  · rintro ⟨l, hl, rfl⟩
    refine Finset.card_lt_card (Finset.ssubset_iff_subset_ne.2 ⟨hsub, fun e => ?_⟩)
    have : l ∈ (Finset.range rk).filter (fun l' => piv l' < piv l + 1) := by simp [hl]
    rw [← e] at this
    simp at this
  · intro hlt
    by_contra hc
    push Not at hc
    refine absurd (congrArg Finset.card ?_) hlt.ne
    refine Finset.filter_congr fun l hl => ?_
    have := hc l (Finset.mem_range.1 hl)
    omega

/-! ### Normalisation -/

/-- Reducing the rows above a pivot. -/
theorem reduceAbove_spec {m i j n : Nat} {s : Pair K} (h1 : i < m) (hn : n ≤ i)
    (hz : ∀ jj, jj < j → s.1 i jj = 0) (hne : s.1 i j ≠ 0) :
    Tr m 1 s (reduceAbove i j n s) ∧ (∀ k, n ≤ k → (reduceAbove i j n s).1 k = s.1 k) ∧
      (∀ k jj, jj < j → (reduceAbove i j n s).1 k jj = s.1 k jj) ∧
      ∀ k, k < n → ((reduceAbove i j n s).1 k j).degree < (s.1 i j).degree := by
  induction n with
  | zero => exact ⟨Tr.refl m s, fun _ _ => rfl, fun _ _ _ => rfl, fun k hk => by omega⟩
  | succ n ih =>
    obtain ⟨a1, a2, a3, a4⟩ := ih (by omega)
    have ei : (reduceAbove i j n s).1 i = s.1 i := a2 i (by omega)
    obtain ⟨b1, b2, b3, b4⟩ := reduceAgainst_spec (m := m) (i := i) (j := j) (ii := n)
      (s := reduceAbove i j n s) h1 (by omega) (by omega) (fun jj hjj => by rw [ei]; exact hz jj hjj)
      (by rw [ei]; exact hne)
    simp only [reduceAbove]
    refine ⟨a1.trans_one b1, fun k hk => ?_, fun k jj hjj => ?_, fun k hk => ?_⟩
    · rw [b2 k (by omega), a2 k (by omega)]
    · rw [b3 k jj hjj, a3 k jj hjj]
    · by_cases hkn : k = n
      · subst hkn; rw [ei] at b4; exact b4
      · rw [b2 k hkn]; exact a4 k (by omega)

theorem normalizeUref_spec {r c : Nat} {s : Pair K} {rk : Nat} {piv : Nat → Nat}
    (h : EchelonForm r c s.1 rk piv) (n : Nat) (hn : n ≤ rk) :
    TrU r s (normalizeUref piv n s) ∧ EchelonForm r c (normalizeUref piv n s).1 rk piv ∧
      (∀ i, i < n → ((normalizeUref piv n s).1 i (piv i)).Monic) ∧
      ∀ i k, k < i → i < n → ((normalizeUref piv n s).1 k (piv i)).degree <
        ((normalizeUref piv n s).1 i (piv i)).degree := by
  induction n with
  | zero => exact ⟨(TrS.refl r s).toU, h, fun i hi => by omega, fun i k _ hi => by omega⟩
  | succ n ih =>
    obtain ⟨a1, a2, a3, a4⟩ := ih (by omega)
    simp only [normalizeUref]
    generalize normalizeUref piv n s = s1 at *
    have hr := a2.le
    have hnr : n < rk := by omega
    have hpn := a2.pivot n hnr
    obtain ⟨b1, b2, b3, b4, b5⟩ := normalizePivot_spec (m := r) (i := n) (j := piv n) (s := s1) (by omega)
      (fun jj hjj => hpn.before jj (by have := hpn.lt; omega) hjj) hpn.nonzero
    generalize normalizePivot s1 n (piv n) = s2 at *
    obtain ⟨d1, d2, d3, d4⟩ := reduceAbove_spec (m := r) (i := n) (j := piv n) (n := n) (s := s2) (by omega) le_rfl
      (fun jj hjj => by rw [b3 _ _ hjj]; exact hpn.before jj (by have := hpn.lt; omega) hjj) b4.ne_zero
    generalize reduceAbove n (piv n) n s2 = s3 at *
    have left : ∀ k jj, jj < piv n → s3.1 k jj = s1.1 k jj := fun k jj hjj => by rw [d3 k jj hjj, b3 k jj hjj]
    have below : ∀ k, n < k → s3.1 k = s1.1 k := fun k hk => by rw [d2 k (by omega), b2 k (by omega)]
    have en : s3.1 n = s2.1 n := d2 n le_rfl
    have ech : EchelonForm r c s3.1 rk piv := by
      refine ⟨a2.le, fun i hi => ?_, a2.increasing, fun i h1 h2 => by rw [below i (by omega)]; exact a2.zero i h1 h2⟩
      have hpi := a2.pivot i hi
      rcases Nat.lt_trichotomy i n with hlt | heq | hgt
      · have hpl := a2.increasing i n hlt hnr
        refine ⟨hpi.lt, by rw [left i _ hpl]; exact hpi.nonzero, fun jj hj hjp => ?_⟩
        rw [left i jj (by omega)]
        exact hpi.before jj hj hjp
      · subst heq
        refine ⟨hpi.lt, by rw [en]; exact b4.ne_zero, fun jj hj hjp => ?_⟩
        rw [left i jj hjp]
        exact hpi.before jj hj hjp
      · rw [below i hgt]; exact hpi
    refine ⟨(a1.trans b1).trans d1.toS.toU, ech, fun i hi => ?_, fun i k hki hi => ?_⟩
    · by_cases hin : i = n
      · subst hin; rw [en]; exact b4
      · rw [left i _ (a2.increasing i n (by omega) hnr)]; exact a3 i (by omega)
    · by_cases hin : i = n
      · subst hin; rw [en]; exact d4 k hki
      · have hpl := a2.increasing i n (by omega) hnr
        rw [left i _ hpl, left k _ hpl]; exact a4 i k hki (by omega)

theorem normalizeUref_hermite {r c : Nat} {s : Pair K} {rk : Nat} {piv : Nat → Nat}
    (h : EchelonForm r c s.1 rk piv) :
    TrU r s (normalizeUref piv rk s) ∧ HermiteForm r c (normalizeUref piv rk s).1 rk piv := by
  obtain ⟨h1, h2, h3, h4⟩ := normalizeUref_spec h rk le_rfl
  exact ⟨h1, ⟨h2, h3, h4⟩⟩

/-- Echelon form on the first `j` columns, the rows from `rk` being zero there. -/
structure Ech (r j rk : Nat) (piv : Nat → Nat) (A : Mat K[X]) : Prop where
  le : rk ≤ r
  lt : ∀ i, i < rk → piv i < j
  inc : ∀ i k, i < k → k < rk → piv i < piv k
  nonzero : ∀ i, i < rk → A i (piv i) ≠ 0
  before : ∀ i, i < rk → ∀ jj, jj < piv i → A i jj = 0
  below : ∀ i, rk ≤ i → i < r → ∀ jj, jj < j → A i jj = 0

theorem Ech.form {r c rk : Nat} {piv : Nat → Nat} {A : Mat K[X]} (h : Ech r c rk piv A) :
    EchelonForm r c A rk piv :=
  ⟨h.le, fun i hi => ⟨h.lt i hi, h.nonzero i hi, fun jj _ hjj => h.before i hi jj hjj⟩, h.inc,
    fun i h1 h2 jj hjj => h.below i h1 h2 jj hjj⟩

theorem Ech.zero (r : Nat) (piv : Nat → Nat) (A : Mat K[X]) : Ech r 0 0 piv A :=
  ⟨by omega, fun i hi => by omega, fun i k _ hk => by omega, fun i hi => by omega,
    fun i hi => by omega, fun i _ _ jj hjj => by omega⟩

/-- Column `j` brings no pivot. -/
theorem Ech.skip {r j rk : Nat} {piv : Nat → Nat} {A : Mat K[X]} (h : Ech r j rk piv A)
    (hz : ∀ i, rk ≤ i → i < r → A i j = 0) : Ech r (j + 1) rk piv A :=
  ⟨h.le, fun i hi => by have := h.lt i hi; omega, h.inc, h.nonzero, h.before, fun i h1 h2 jj hjj => by
    by_cases hj : jj = j
    · subst hj; exact hz i h1 h2
    · exact h.below i h1 h2 jj (by omega)⟩

/-- Column `j` brings a pivot, already at row `rk`. -/
theorem Ech.push {r j rk : Nat} {piv : Nat → Nat} {A : Mat K[X]} (h : Ech r j rk piv A) (hr : rk < r)
    (hne : A rk j ≠ 0) (hz : ∀ i, rk < i → i < r → A i j = 0) :
    Ech r (j + 1) (rk + 1) (Function.update piv rk j) A := by
  have e : ∀ i, i < rk → Function.update piv rk j i = piv i := fun i hi => Function.update_of_ne (by omega) _ _
  refine ⟨by omega, fun i hi => ?_, fun i k hik hk => ?_, fun i hi => ?_, fun i hi jj hjj => ?_, fun i h1 h2 jj hjj => ?_⟩
  · by_cases hi' : i = rk
    · subst hi'; rw [Function.update_self]; omega
    · rw [e i (by omega)]; have := h.lt i (by omega); omega
  · rw [e i (by omega)]
    by_cases hk' : k = rk
    · subst hk'; rw [Function.update_self]; exact h.lt i hik
    · rw [e k (by omega)]; exact h.inc i k hik (by omega)
  · by_cases hi' : i = rk
    · subst hi'; rw [Function.update_self]; exact hne
    · rw [e i (by omega)]; exact h.nonzero i (by omega)
  · by_cases hi' : i = rk
    · subst hi'; rw [Function.update_self] at hjj; exact h.below i le_rfl hr jj hjj
    · rw [e i (by omega)] at hjj; exact h.before i (by omega) jj hjj
  · by_cases hj : jj = j
    · subst hj; exact hz i (by omega) h2
    · exact h.below i (by omega) h2 jj (by omega)

/-- Changes in rows from `rk` which keep the zero part. -/
theorem Ech.congr {r j rk : Nat} {piv : Nat → Nat} {A B : Mat K[X]} (h : Ech r j rk piv A)
    (h1 : ∀ i, i < rk → B i = A i) (h2 : ∀ i, rk ≤ i → i < r → ∀ jj, jj < j → B i jj = 0) : Ech r j rk piv B :=
  ⟨h.le, h.lt, h.inc, fun i hi => by rw [h1 i hi]; exact h.nonzero i hi,
    fun i hi jj hjj => by rw [h1 i hi]; exact h.before i hi jj hjj, h2⟩

end PML.Hermite
