import Verif.Forms.Lemmas

/-! # Reducedness: leading matrix, rank and predictable degree -/

namespace PML.Forms

open PML.MatOps PML.MatPoly PML.Forms.Spec Polynomial

set_option linter.unusedSectionVars false

variable {K : Type} [Field K] [DecidableEq K]

theorem ShiftedDegree.unique {n : Nat} {s : Nat → Int} {p : Nat → K[X]} {d d' : Int}
    (h : ShiftedDegree n s p d) (h' : ShiftedDegree n s p d') : d = d' := by
  obtain ⟨j, hj, hne, e⟩ := h.attained
  obtain ⟨j', hj', hne', e'⟩ := h'.attained
  have := h.le j' hj' hne'
  have := h'.le j hj hne
  omega

theorem leadCoeff_eq (shift : Option (Nat → Int)) (d : Int) (j : Nat) (p : Nat → K[X]) :
    leadCoeff shift d j (p j) = leadRow (shiftOf shift) d p j := by
  cases shift with
  | none => simp [leadCoeff, leadRow, shiftOf]
  | some s =>
    simp only [leadCoeff, leadRow, shiftOf, Option.getD_some, ge_iff_le]
    congr

/-- Product of two leading coefficients. -/
theorem coeff_lead_mul (u m : K[X]) (D d s : Int) (hs : s ≤ D)
    (hu : u ≠ 0 → (u.natDegree : Int) + d ≤ D) (hm : m ≠ 0 → (m.natDegree : Int) + s ≤ d) :
    (u * m).coeff (D - s).toNat =
      (if d ≤ D then u.coeff (D - d).toNat else 0) * (if s ≤ d then m.coeff (d - s).toNat else 0) := by
  by_cases hu0 : u = 0
  · subst hu0; simp
  by_cases hm0 : m = 0
  · subst hm0; simp
  have h1 := hu hu0
  have h2 := hm hm0
  rw [if_pos (by omega), if_pos (by omega),
    show (D - s).toNat = (D - d).toNat + (d - s).toNat by omega]
  exact coeff_mul_add_eq_of_natDegree_le (by omega) (by omega)

/-- The coefficients at the top shifted degree of a combination of rows. -/
theorem coeff_comb (r n : Nat) (s d : Nat → Int) (M : Nat → Nat → K[X]) (u : Nat → K[X]) (D : Int)
    (hM : ∀ i, i < r → ∀ j, j < n → M i j ≠ 0 → ((M i j).natDegree : Int) + s j ≤ d i)
    (hu : ∀ i, i < r → u i ≠ 0 → ((u i).natDegree : Int) + d i ≤ D) (j : Nat) (hj : j < n)
    (hs : s j ≤ D) :
    (∑ i ∈ Finset.range r, u i * M i j).coeff (D - s j).toNat =
      ∑ i ∈ Finset.range r, leadRow d D u i * leadRow s (d i) (M i) j := by
  rw [finsetSum_coeff]
  refine Finset.sum_congr rfl fun i hi => ?_
  have hi : i < r := by simpa using hi
  exact coeff_lead_mul (u i) (M i j) D (d i) (s j) hs (hu i hi) (hM i hi j hj)

theorem reduced_predictable (r n : Nat) (s : Nat → Int) (M : Nat → Nat → K[X])
    (h : RowReduced r n s M) : PredictableDegree r n s M := by
  obtain ⟨d, hd, hind⟩ := h
  refine ⟨d, hd, fun u D hu => ?_⟩
  have hM : ∀ i, i < r → ∀ j, j < n → M i j ≠ 0 → ((M i j).natDegree : Int) + s j ≤ d i :=
    fun i hi j hj hne => (hd i hi).le j hj hne
  constructor
  · intro j hj hne
    by_contra hc
    have hc : D < ((∑ i ∈ Finset.range r, u i * M i j).natDegree : Int) + s j := by omega
    apply hne
    have hlead := mt leadingCoeff_eq_zero.1 hne
    exfalso
    apply hlead
    unfold leadingCoeff
    generalize hN : (∑ i ∈ Finset.range r, u i * M i j).natDegree = N at hc
    rw [finsetSum_coeff]
    refine Finset.sum_eq_zero fun i hi => ?_
    have hi : i < r := by simpa using hi
    by_cases hu0 : u i = 0
    · rw [hu0]; simp
    by_cases hm0 : M i j = 0
    · rw [hm0]; simp
    apply coeff_eq_zero_of_natDegree_lt
    rw [natDegree_mul hu0 hm0]
    have := hu.le i hi hu0
    have := hM i hi j hj hm0
    omega
  · obtain ⟨i0, hi0, hne0, e0⟩ := hu.attained
    have hnz : ¬ ∀ j, j < n → ∑ i ∈ Finset.range r, leadRow d D u i * leadRow s (d i) (M i) j = 0 := by
      intro hz
      have := hind (leadRow d D u) hz i0 hi0
      unfold leadRow at this
      rw [if_pos (by omega), show (D - d i0).toNat = (u i0).natDegree by omega] at this
      exact hne0 (leadingCoeff_eq_zero.1 this)
    push Not at hnz
    obtain ⟨j, hj, hjne⟩ := hnz
    have hsD : s j ≤ D := by
      by_contra hc
      apply hjne
      refine Finset.sum_eq_zero fun i hi => ?_
      have hi : i < r := by simpa using hi
      unfold leadRow
      by_cases h1 : d i ≤ D
      · rw [if_neg (by omega : ¬ s j ≤ d i), mul_zero]
      · rw [if_neg h1, zero_mul]
    have hco := coeff_comb r n s d M u D hM (fun i hi hne => hu.le i hi hne) j hj hsD
    rw [← hco] at hjne
    refine ⟨j, hj, fun h0 => hjne (by rw [h0, coeff_zero]), ?_⟩
    have h1 : (D - s j).toNat ≤ (∑ i ∈ Finset.range r, u i * M i j).natDegree :=
      le_natDegree_of_ne_zero hjne
    have h2 : (∑ i ∈ Finset.range r, u i * M i j).natDegree ≤ (D - s j).toNat := by
      refine natDegree_sum_le_of_forall_le _ _ fun i hi => ?_
      have hi : i < r := by simpa using hi
      by_cases hu0 : u i = 0
      · rw [hu0]; simp
      by_cases hm0 : M i j = 0
      · rw [hm0]; simp
      rw [natDegree_mul hu0 hm0]
      have := hu.le i hi hu0
      have := hM i hi j hj hm0
      omega
    have h3 : (∑ i ∈ Finset.range r, u i * M i j).natDegree = (D - s j).toNat := le_antisymm h2 h1
    show ((∑ i ∈ Finset.range r, u i * M i j).natDegree : Int) + s j = D
    rw [h3]
    omega

/-- Largest value over a nonempty set of indices. -/
theorem exists_max (P : Nat → Prop) (d : Nat → Int) (r : Nat) (h : ∃ i, i < r ∧ P i) :
    ∃ i, i < r ∧ P i ∧ ∀ k, k < r → P k → d k ≤ d i := by
  induction r with
  | zero => obtain ⟨i, hi, _⟩ := h; omega
  | succ r ih =>
    by_cases hex : ∃ i, i < r ∧ P i
    · obtain ⟨i, hi, hp, hm⟩ := ih hex
      by_cases hr : P r ∧ d i < d r
      · refine ⟨r, by omega, hr.1, fun k hk hpk => ?_⟩
        by_cases e : k = r
        · rw [e]
        · have := hm k (by omega) hpk; omega
      · refine ⟨i, by omega, hp, fun k hk hpk => ?_⟩
        by_cases e : k = r
        · subst e
          by_contra hc
          exact hr ⟨hpk, by omega⟩
        · exact hm k (by omega) hpk
    · obtain ⟨i, hi, hp⟩ := h
      have e : i = r := by
        by_contra hc
        exact hex ⟨i, by omega, hp⟩
      subst e
      refine ⟨i, by omega, hp, fun k hk hpk => ?_⟩
      by_cases e : k = i
      · rw [e]
      · exact absurd ⟨k, by omega, hpk⟩ hex

theorem predictable_reduced (r n : Nat) (s : Nat → Int) (M : Nat → Nat → K[X])
    (h : PredictableDegree r n s M) : RowReduced r n s M := by
  obtain ⟨d, hd, hpred⟩ := h
  refine ⟨d, hd, fun c hc => ?_⟩
  by_contra hcon
  push Not at hcon
  obtain ⟨i1, hi1, hne1⟩ := hcon
  obtain ⟨i0, hi0, hne0, hmax⟩ := exists_max (fun i => c i ≠ 0) d r ⟨i1, hi1, hne1⟩
  let u : Nat → K[X] := fun i => C (c i) * X ^ (d i0 - d i).toNat
  have hu0 : ∀ i, u i ≠ 0 → c i ≠ 0 := by
    intro i h1 h2
    apply h1
    show C (c i) * X ^ _ = 0
    rw [h2]; simp
  have hdeg : ∀ i, c i ≠ 0 → (u i).natDegree = (d i0 - d i).toNat :=
    fun i h => natDegree_C_mul_X_pow _ _ h
  have hu : ShiftedDegree r d u (d i0) := by
    constructor
    · intro i hi hne
      rw [hdeg i (hu0 i hne)]
      have := hmax i hi (hu0 i hne)
      omega
    · refine ⟨i0, hi0, ?_, ?_⟩
      · show C (c i0) * X ^ _ ≠ 0
        simp [hne0]
      · rw [hdeg i0 hne0]; omega
  obtain ⟨j, hj, hjne, ej⟩ := (hpred u (d i0) hu).attained
  have hco := coeff_comb r n s d M u (d i0) (fun i hi j hj hne => (hd i hi).le j hj hne)
    (fun i hi hne => hu.le i hi hne) j hj (by omega)
  have hz : ∑ i ∈ Finset.range r, leadRow d (d i0) u i * leadRow s (d i) (M i) j = 0 := by
    rw [← hc j hj]
    refine Finset.sum_congr rfl fun i hi => ?_
    have hi : i < r := by simpa using hi
    congr 1
    unfold leadRow
    by_cases h0 : c i = 0
    · have : u i = 0 := by show C (c i) * X ^ _ = 0; rw [h0]; simp
      rw [this, h0]; simp
    · rw [if_pos (hmax i hi h0)]
      show (C (c i) * X ^ (d i0 - d i).toNat).coeff _ = c i
      rw [coeff_C_mul_X_pow, if_pos rfl]
  rw [hz, show (d i0 - s j).toNat = (∑ i ∈ Finset.range r, u i * M i j).natDegree by omega] at hco
  exact hjne (leadingCoeff_eq_zero.1 hco)

/-- Rank equal to the number of rows means no relation between the rows. -/
theorem rank_rows_iff (r n : Nat) (L : Nat → Nat → K) :
    r = (Matrix.of fun (i : Fin r) (j : Fin n) => L i j : Matrix (Fin r) (Fin n) K).rank ↔
    ∀ u : Nat → K, (∀ j, j < n → ∑ i ∈ Finset.range r, u i * L i j = 0) → ∀ i, i < r → u i = 0 := by
  have h1 : r = (Matrix.of fun (i : Fin r) (j : Fin n) => L i j : Matrix (Fin r) (Fin n) K).rank ↔
      LinearIndependent K (Matrix.of fun (i : Fin r) (j : Fin n) => L i j).row := by
    rw [linearIndependent_iff_card_eq_finrank_span, Matrix.rank_eq_finrank_span_row, Fintype.card_fin]
    rfl
  rw [h1, Fintype.linearIndependent_iff]
  constructor
  · intro h u hu i hi
    refine h (fun k => u k) ?_ ⟨i, hi⟩
    funext j
    rw [Finset.sum_apply]
    have := hu j j.2
    rw [Finset.sum_range] at this
    simpa [Matrix.row] using this
  · intro h g hg i
    have := h (fun k => if hk : k < r then g ⟨k, hk⟩ else 0) (fun j hj => by
      rw [Finset.sum_range]
      have := congrFun hg ⟨j, hj⟩
      rw [Finset.sum_apply] at this
      simpa [Matrix.row] using this) i i.2
    simpa using this

theorem isReduced_iff (o : Orient) (r c : Nat) (M : Mat K[X]) (shift : Option (Nat → Int)) :
    isReduced o r c M shift = true ↔
      RowReduced (lineNum o.isRow r c) (lineLen o.isRow r c) (shiftOf shift) (line o.isRow M) := by
  have hrank : ((Matrix.of fun (i : Fin r) (j : Fin c) =>
        leadingMatrix o r c M shift (fun _ _ => 0) i j : Matrix (Fin r) (Fin c) K)).rank =
      (Matrix.of fun (k : Fin (lineNum o.isRow r c)) (l : Fin (lineLen o.isRow r c)) =>
        leadRow (shiftOf shift) (vecDegree shift (lineLen o.isRow r c) (line o.isRow M k)).1
          (line o.isRow M k) l).rank := by
    cases hr : o.isRow
    · rw [← Matrix.rank_transpose]
      congr 1
      ext j i
      have hi : (i : Nat) < r := i.2
      have hj : (j : Nat) < c := j.2
      simp only [Matrix.transpose_apply, Matrix.of_apply, leadingMatrix, hr, lineDegrees, lineNum,
        Bool.false_eq_true, if_false, if_pos (And.intro hi hj), if_pos hj]
      exact leadCoeff_eq shift _ i (fun i => M i j)
    · congr 1
      ext i j
      have hi : (i : Nat) < r := i.2
      have hj : (j : Nat) < c := j.2
      simp only [Matrix.of_apply, leadingMatrix, hr, lineDegrees, lineNum,
        if_true, if_pos (And.intro hi hj), if_pos hi]
      exact leadCoeff_eq shift _ j (M i)
  unfold isReduced
  simp only [hrank, decide_eq_true_eq]
  rw [rank_rows_iff _ _ (fun k l => leadRow (shiftOf shift)
    (vecDegree shift (lineLen o.isRow r c) (line o.isRow M k)).1 (line o.isRow M k) l)]
  generalize lineNum o.isRow r c = dim
  generalize lineLen o.isRow r c = n
  generalize line o.isRow M = L
  constructor
  · intro h
    refine ⟨fun k => (vecDegree shift n (L k)).1, fun i hi => ?_, h⟩
    obtain ⟨m, hm, hv, _⟩ := vecDegree_spec shift n (L i)
    refine hv.2 fun hz => ?_
    have := h (fun k => if k = i then 1 else 0) (fun j hj => by
      rw [Finset.sum_eq_single i]
      · unfold leadRow
        rw [hz j hj]
        simp
      · intro k _ hk
        rw [if_neg hk, zero_mul]
      · intro hc
        exact absurd hi (by simpa using hc)) i hi
    simp at this
  · rintro ⟨d, hd, hind⟩
    have he : ∀ i, i < dim → (vecDegree shift n (L i)).1 = d i := by
      intro i hi
      obtain ⟨m, hm, hv, _⟩ := vecDegree_spec shift n (L i)
      refine ShiftedDegree.unique (hv.2 ?_) (hd i hi)
      intro hz
      obtain ⟨j, hj, hne, _⟩ := (hd i hi).attained
      exact hne (hz j hj)
    intro u hu
    refine hind u fun j hj => ?_
    rw [← hu j hj]
    refine Finset.sum_congr rfl fun i hi => ?_
    rw [he i (by simpa using hi)]

/-- Weak Popov implies reduced. -/
theorem weakPopov_reduced (right : Bool) (r n : Nat) (s : Nat → Int) (M : Nat → Nat → K[X])
    (h : WeakPopov right r n s M) : RowReduced r n s M := by
  obtain ⟨piv, δ, hp, hinj⟩ := h
  refine ⟨fun i => (δ i : Int) + s (piv i), fun i hi => ?_, fun u hu => ?_⟩
  · have hc := (hp i hi).core
    exact ⟨hc.2.2.2, piv i, hc.1, hc.2.1, by rw [hc.2.2.1]⟩
  · by_contra hcon
    push Not at hcon
    obtain ⟨i1, hi1, hne1⟩ := hcon
    obtain ⟨i0, hi0, hne0, hmax⟩ := exists_max (fun i => u i ≠ 0)
      (fun i => if right then (piv i : Int) else -(piv i : Int)) r ⟨i1, hi1, hne1⟩
    have hc0 := (hp i0 hi0).core
    have hsum := hu (piv i0) hc0.1
    rw [Finset.sum_eq_single i0] at hsum
    · rcases mul_eq_zero.1 hsum with h | h
      · exact hne0 h
      · unfold leadRow at h
        simp only at h
        rw [if_pos (by omega), show (((δ i0 : Int) + s (piv i0)) - s (piv i0)).toNat =
          (M i0 (piv i0)).natDegree by rw [hc0.2.2.1]; omega] at h
        exact hc0.2.1 (leadingCoeff_eq_zero.1 h)
    · intro k hk hne
      have hk : k < r := by simpa using hk
      by_cases huk : u k = 0
      · rw [huk, zero_mul]
      · have hm := hmax k hk huk
        have hnp : piv k ≠ piv i0 := fun e => hne (hinj k i0 hk hi0 e)
        have hlt : M k (piv i0) ≠ 0 →
            ((M k (piv i0)).natDegree : Int) + s (piv i0) < δ k + s (piv k) := by
          intro hn0
          cases right
          · simp only [Bool.false_eq_true, if_false] at hm
            exact PivotUpper.before (hp k hk) (piv i0) hc0.1 (by omega) hn0
          · simp only [if_true] at hm
            exact PivotLower.after (hp k hk) (piv i0) hc0.1 (by omega) hn0
        have : leadRow s ((δ k : Int) + s (piv k)) (M k) (piv i0) = 0 := by
          unfold leadRow
          split_ifs with hle
          · by_cases hn0 : M k (piv i0) = 0
            · rw [hn0]; simp
            · apply coeff_eq_zero_of_natDegree_lt
              have := hlt hn0
              omega
          · rfl
        rw [this, mul_zero]
    · intro hc
      exact absurd hi0 (by simpa using hc)

end PML.Forms
