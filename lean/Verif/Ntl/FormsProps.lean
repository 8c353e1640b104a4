import Verif.Ntl.FormsLemmas
import Verif.Ntl.FormsSpec
import Verif.Common.Prime

/-!
# C78: degrees, pivots, leading matrices and forms of polynomial matrices (ntl-extras)
-/

namespace PML.Ntl.Forms

open Polynomial PML.Ntl.Utils PML.Ntl.Inv PML.Ntl.Solve PML.Forms.Spec

variable {K : Type} [Field K] [DecidableEq K]

omit [DecidableEq K] in
theorem line_eq (row : Bool) (M : PMat K[X]) : line row M = linesOf row M := by
  cases row <;> rfl

theorem addShift_eq (s : Option (List Int)) : addShift s = shiftOf s := by
  cases s <;> rfl

theorem good_iff (n : Nat) (s : Option (List Int)) : Good n s ↔ ValidShift n s := Iff.rfl

/-! ### Degrees -/

/-- **C78.** `row_degree` and `col_degree` return one entry per row (column): the shifted degree of this row,
    with the value -1 (without shift) or `min(shift) - 1` for a zero row. -/
theorem C78_degree (row : Bool) (M : PMat K[X]) (s : Option (List Int)) (hs : ValidShift (len row M) s) :
    ∃ (d : List Int) (z : Int), degrees row M s = .ok d ∧ d.length = num row M ∧
      (s = none → z = -1) ∧ (∀ l, s = some l → IsMin (len row M) (shiftOf s) (z + 1)) ∧
      ∀ k, k < num row M → IsVecDegree (len row M) (shiftOf s) (linesOf row M k) z (d.getD k 0) := by
  obtain ⟨d, z, h1, h2, h3, _, h5⟩ := degrees_spec row M s hs
  refine ⟨_, z, h1, by simp, h2, fun l hl => ?_, fun k hk => ?_⟩
  · have := h3 l hl
    rw [hl]
    exact this
  · rw [getD_map _ _ _ hk, ← line_eq, ← addShift_eq]
    exact h5 k

/-- **C78.** `row_pivots` and `col_pivots` return the rightmost pivot index and the pivot degree of each
    nonzero row (column), and -1, -1 for a zero one. -/
theorem C78_pivots (row : Bool) (M : PMat K[X]) (s : Option (List Int)) (hs : ValidShift (len row M) s) :
    ∃ pivind pivdeg : List Int, pivots row M s = .ok (pivind, pivdeg) ∧
      pivind.length = num row M ∧ pivdeg.length = num row M ∧
      ∀ k, k < num row M →
        (ZeroVec (len row M) (linesOf row M k) → pivind.getD k 0 = -1 ∧ pivdeg.getD k 0 = -1) ∧
        (¬ ZeroVec (len row M) (linesOf row M k) → ∃ π δ : Nat, pivind.getD k 0 = π ∧ pivdeg.getD k 0 = δ ∧
          PivotLower (len row M) (shiftOf s) (linesOf row M k) π δ) := by
  obtain ⟨pi, pd, h1, h2⟩ := pivots_spec row M s hs
  refine ⟨_, _, h1, by simp, by simp, fun k hk => ?_⟩
  rw [getD_map _ _ _ hk, getD_map _ _ _ hk, ← line_eq, ← addShift_eq]
  rcases h2 k with ⟨a, b, c⟩ | ⟨a, π, δ, b, c, e⟩
  · exact ⟨fun _ => ⟨b, c⟩, fun h => absurd a h⟩
  · exact ⟨fun h => absurd h a, fun _ => ⟨π, δ, b, c, e⟩⟩

/-- **C78.** A shift of another length is refused by all functions. -/
theorem C78_wrong_shift (row : Bool) (M : PMat K[X]) (s : List Int) (hs : s.length ≠ len row M) :
    degrees row M (some s) = .error ∧ pivots row M (some s) = .error ∧ degreeMatrixShift row M s = .error ∧
    leadingMatrix row M (some s) = .error ∧ isReduced row M (some s) = .error ∧
    isWeakPopov row M (some s) = .error ∧ isOrdWeakPopov row M (some s) = .error ∧
    isPopov row M (some s) = .error ∧ getForm row M (some s) = .error := by
  have h : ∀ {α : Type} (f : Int → α), withMin s (len row M) f = .error := fun f => by
    unfold withMin; rw [if_pos hs]
  have h1 : degrees row M (some s) = .error := h _
  have h2 : pivots row M (some s) = .error := h _
  have h3 : leadingMatrix row M (some s) = .error := by unfold leadingMatrix; rw [h1]; rfl
  have h4 : isPopov row M (some s) = .error := by unfold isPopov; rw [h2]; rfl
  refine ⟨h1, h2, h _, h3, ?_, ?_, ?_, h4, ?_⟩
  · unfold isReduced; rw [h3]; rfl
  · unfold isWeakPopov; rw [h2]; rfl
  · unfold isOrdWeakPopov; rw [h2]; rfl
  · unfold getForm; rw [h4]; rfl

/-- **C78, violated.** The empty shift has the right length if the rows are empty: the functions then
    dereference the end of the shift, although the functions without shift are defined. -/
theorem C78_empty_shift (row : Bool) (M : PMat K[X]) (h0 : len row M = 0) :
    degrees row M (some []) = .ub ∧ pivots row M (some []) = .ub ∧ degreeMatrixShift row M [] = .ub ∧
    leadingMatrix row M (some []) = .ub ∧ isReduced row M (some []) = .ub ∧
    isWeakPopov row M (some []) = .ub ∧ isOrdWeakPopov row M (some []) = .ub ∧
    isPopov row M (some []) = .ub ∧ getForm row M (some []) = .ub ∧ amplitude [] = .ub ∧
    ∃ d, degrees row M none = .ok d := by
  have h : ∀ {α : Type} (f : Int → α), withMin [] (len row M) f = .ub := fun f => by
    unfold withMin; rw [if_neg (by simp [h0])]; rfl
  have h1 : degrees row M (some []) = .ub := by unfold degrees; exact h _
  have h2 : pivots row M (some []) = .ub := by unfold pivots; exact h _
  have h3 : leadingMatrix row M (some []) = .ub := by unfold leadingMatrix; rw [h1]; rfl
  have h4 : isPopov row M (some []) = .ub := by unfold isPopov; rw [h2]; rfl
  refine ⟨h1, h2, by unfold degreeMatrixShift; exact h _, h3, ?_, ?_, ?_, h4, ?_, rfl, _, rfl⟩
  · unfold isReduced; rw [h3]; rfl
  · unfold isWeakPopov; rw [h2]; rfl
  · unfold isOrdWeakPopov; rw [h2]; rfl
  · unfold getForm; rw [h4]; rfl

/-- **C78.** `amplitude` is the difference between the largest and the smallest entry. -/
theorem C78_amplitude (s : List Int) (h : s ≠ []) :
    ∃ a b, amplitude s = .ok (b - a) ∧ a ∈ s ∧ b ∈ s ∧ ∀ x ∈ s, a ≤ x ∧ x ≤ b := by
  obtain ⟨a, h1, h2, h3⟩ := minElement_spec s h
  obtain ⟨b, h4, h5, h6⟩ := maxElement_spec s h
  exact ⟨a, b, by unfold amplitude; rw [h1, h4], h2, h5, fun x hx => ⟨h3 x hx, h6 x hx⟩⟩

/-- **C78.** `degree_matrix`: the degrees of the entries, -1 for zero. -/
theorem C78_degree_matrix (M : PMat K[X]) :
    (degreeMatrix M).rows = M.rows ∧ (degreeMatrix M).cols = M.cols ∧
      ∀ i j, i < M.rows → j < M.cols → (degreeMatrix M).e (i, j) = degreeZ (M.e (i, j)) := by
  refine ⟨rfl, rfl, fun i j _ _ => ?_⟩
  show pdeg (M.e (i, j)) = _
  unfold degreeZ
  split_ifs with h
  · rw [h, pdeg_zero]
  · rw [pdeg_ne _ h]

/-- **C78.** `degree_matrix_rowshifted`, `degree_matrix_colshifted`: the shifted degrees of the entries,
    `min(shift) - 1` for zero. -/
theorem C78_degree_matrix_shifted (row : Bool) (M : PMat K[X]) (s : List Int)
    (hs : ValidShift (len row M) (some s)) :
    ∃ (D : PMat Int) (m : Int), degreeMatrixShift row M s = .ok D ∧ D.rows = M.rows ∧ D.cols = M.cols ∧
      IsMin (len row M) (shiftOf (some s)) m ∧
      ∀ i j, i < M.rows → j < M.cols →
        (M.e (i, j) = 0 → D.e (i, j) = m - 1) ∧
        (M.e (i, j) ≠ 0 → D.e (i, j) = (M.e (i, j)).natDegree + shiftOf (some s) (if row then j else i)) := by
  obtain ⟨h1, h2⟩ := hs s rfl
  obtain ⟨m, hm, h3, h4⟩ := withMin_ok s (len row M) (fun m => (⟨M.rows, M.cols, fun x =>
      if M.e x = 0 then m - 1 else pdeg (M.e x) + s.getD (if row then x.2 else x.1) 0⟩ : PMat Int)) h1 h2
  refine ⟨_, m, hm, rfl, rfl, by rw [← h1]; exact isMin_of s m h3 h4, fun i j _ _ => ⟨fun h => ?_, fun h => ?_⟩⟩
  · show (if _ then _ else _) = _
    rw [if_pos h]
  · show (if _ then _ else _) = _
    rw [if_neg h, pdeg_ne _ h]
    rfl

/-! ### Leading matrices -/

theorem lead_eq (n : Nat) (s : Nat → Int) (p : Nat → K[X]) (z d : Int) (j : Nat) (hj : j < n)
    (h : IsVecDegree n s p z d) :
    (if p j ≠ 0 ∧ pdeg (p j) + s j = d then (p j).coeff (pdeg (p j)).toNat else 0) = leadRow s d p j := by
  unfold leadRow
  by_cases hp : p j = 0
  · rw [if_neg (by simp [hp]), hp]
    simp
  · have hn : ¬ ZeroVec n p := fun hz => hp (hz j hj)
    have hle := (h.2 hn).le j hj hp
    rw [pdeg_ne _ hp]
    by_cases he : ((p j).natDegree : Int) + s j = d
    · rw [if_pos ⟨hp, he⟩, if_pos (by omega)]
      congr 1
      omega
    · rw [if_neg (by tauto)]
      split_ifs with hc
      · rw [coeff_eq_zero_of_natDegree_lt]
        omega
      · rfl

/-- **C78.** `row_leading_matrix`, `col_leading_matrix`: in line `k`, at position `j`, the coefficient of
    degree `d - shift[j]` of the entry, where `d` is the shifted degree of the line; zero for a zero line. -/
theorem C78_leading_matrix (row : Bool) (M : PMat K[X]) (s : Option (List Int)) (hs : ValidShift (len row M) s) :
    ∃ L : PMat K, leadingMatrix row M s = .ok L ∧ L.rows = M.rows ∧ L.cols = M.cols ∧
      ∀ k j, k < num row M → j < len row M →
        (ZeroVec (len row M) (linesOf row M k) → L.e (if row then (k, j) else (j, k)) = 0) ∧
        ∀ d, ShiftedDegree (len row M) (shiftOf s) (linesOf row M k) d →
          L.e (if row then (k, j) else (j, k)) = leadRow (shiftOf s) d (linesOf row M k) j := by
  obtain ⟨d, z, h1, _, _, _, h5⟩ := degrees_spec row M s hs
  unfold leadingMatrix
  rw [h1]
  refine ⟨_, rfl, rfl, rfl, fun k j hk hj => ?_⟩
  have he : ∀ L : Nat × Nat → K, (L = fun x => if M.e x ≠ 0 ∧ pdeg (M.e x) + addShift s (if row then x.2 else x.1) =
          ((List.range (num row M)).map d).getD (if row then x.1 else x.2) 0
      then (M.e x).coeff (pdeg (M.e x)).toNat else 0) →
      L (if row then (k, j) else (j, k)) = leadRow (addShift s) (d k) (line row M k) j := by
    rintro L rfl
    rw [← lead_eq (len row M) (addShift s) (line row M k) z (d k) j hj (h5 k)]
    cases row
    · simp only [Bool.false_eq_true, if_false, getD_map _ _ _ hk]
      rfl
    · simp only [if_true, getD_map _ _ _ hk]
      rfl
  rw [← line_eq, ← addShift_eq]
  have he' := he _ rfl
  refine ⟨fun hz => he'.trans ?_, fun d' hd' => he'.trans ?_⟩
  · unfold leadRow
    rw [hz j hj]
    simp
  · have hn : ¬ ZeroVec (len row M) (line row M k) := fun hz => by
      obtain ⟨j', hj', hne, _⟩ := hd'.attained
      exact hne (hz j' hj')
    rw [PML.Forms.ShiftedDegree.unique ((h5 k).2 hn) hd']

/-! ### Forms -/

theorem isReduced_spec (row : Bool) (M : PMat K[X]) (s : Option (List Int)) (hs : Good (len row M) s) :
    ∃ b, isReduced row M s = .ok b ∧
      (b = true ↔ RowReduced (num row M) (len row M) (addShift s) (line row M)) := by
  obtain ⟨L, hL, hr, hc, hLe⟩ := C78_leading_matrix row M s hs
  obtain ⟨d, z, _, _, _, _, h5⟩ := degrees_spec row M s hs
  rw [← addShift_eq, ← line_eq] at hLe
  unfold isReduced
  rw [hL]
  refine ⟨_, rfl, ?_⟩
  rw [decide_eq_true_eq]
  have hrank : gauss L = (Matrix.of fun (k : Fin (num row M)) (j : Fin (len row M)) =>
      L.e (if row then ((k : Nat), (j : Nat)) else ((j : Nat), (k : Nat)))).rank := by
    obtain ⟨Lr, Lc, Le⟩ := L
    simp only at hr hc
    subst hr hc
    unfold gauss
    cases row
    · rw [← Matrix.rank_transpose]
      rfl
    · rfl
  rw [hrank, eq_comm, PML.Forms.rank_rows_iff _ _ (fun k j => L.e (if row then (k, j) else (j, k)))]
  constructor
  · intro h
    have hnz : ∀ i, i < num row M → ¬ ZeroVec (len row M) (line row M i) := by
      intro i hi hz
      have := h (fun k => if k = i then 1 else 0) (fun j hj => by
        rw [Finset.sum_eq_single i]
        · rw [(hLe i j hi hj).1 hz, mul_zero]
        · intro k _ hk
          rw [if_neg hk, zero_mul]
        · intro hc
          exact absurd hi (by simpa using hc)) i hi
      simp at this
    refine ⟨d, fun i hi => (h5 i).2 (hnz i hi), fun u hu => h u fun j hj => ?_⟩
    rw [← hu j hj]
    refine Finset.sum_congr rfl fun i hi => ?_
    rw [Finset.mem_range] at hi
    rw [(hLe i j hi hj).2 (d i) ((h5 i).2 (hnz i hi))]
  · rintro ⟨d', hd', hind⟩ u hu
    refine hind u fun j hj => ?_
    rw [← hu j hj]
    refine Finset.sum_congr rfl fun i hi => ?_
    rw [Finset.mem_range] at hi
    rw [(hLe i j hi hj).2 (d' i) (hd' i hi)]

/-- **C78.** `is_row_reduced`, `is_col_reduced`: true exactly for the matrices in shifted reduced form. -/
theorem C78_reduced (row : Bool) (M : PMat K[X]) (s : Option (List Int)) (hs : ValidShift (len row M) s) :
    ∃ b, isReduced row M s = .ok b ∧
      (b = true ↔ RowReduced (num row M) (len row M) (shiftOf s) (linesOf row M)) := by
  rw [← line_eq, ← addShift_eq]
  exact isReduced_spec row M s hs

/-- **C78.** The answer true of `is_row_reduced` implies the predictable degree property: no cancellation of
    leading terms in combinations of the rows. -/
theorem C78_predictable_degree (row : Bool) (M : PMat K[X]) (s : Option (List Int))
    (hs : ValidShift (len row M) s) :
    isReduced row M s = .ok true ↔
      PredictableDegree (num row M) (len row M) (shiftOf s) (linesOf row M) := by
  obtain ⟨b, h1, h2⟩ := C78_reduced row M s hs
  rw [h1]
  constructor
  · intro h
    cases h
    exact PML.Forms.reduced_predictable _ _ _ _ (h2.1 rfl)
  · intro h
    rw [h2.2 (PML.Forms.predictable_reduced _ _ _ _ h)]

/-- **C78.** `is_row_weak_popov`, `is_col_weak_popov`. -/
theorem C78_weak_popov (row : Bool) (M : PMat K[X]) (s : Option (List Int)) (hs : ValidShift (len row M) s) :
    ∃ b, isWeakPopov row M s = .ok b ∧
      (b = true ↔ WeakPopovLower (num row M) (len row M) (shiftOf s) (linesOf row M)) := by
  rw [← line_eq, ← addShift_eq]
  exact isWeakPopov_spec row M s hs

/-- **C78.** `is_row_ordered_weak_popov`, `is_col_ordered_weak_popov`. -/
theorem C78_ordered_weak_popov (row : Bool) (M : PMat K[X]) (s : Option (List Int))
    (hs : ValidShift (len row M) s) :
    ∃ b, isOrdWeakPopov row M s = .ok b ∧
      (b = true ↔ OrderedWeakPopovLower (num row M) (len row M) (shiftOf s) (linesOf row M)) := by
  rw [← line_eq, ← addShift_eq]
  exact isOrdWeakPopov_spec row M s hs

/-- **C78.** `is_row_popov`. -/
theorem C78_row_popov (M : PMat K[X]) (s : Option (List Int)) (hs : ValidShift M.cols s) :
    ∃ b, isPopov true M s = .ok b ∧ (b = true ↔ PopovLower M.rows M.cols (shiftOf s) (rowsOf M)) := by
  have := isPopov_spec true M s hs (Or.inl rfl)
  rw [line_eq, addShift_eq] at this
  exact this

/-- **C78, partial.** `is_col_popov`, for matrices with at most as many rows as columns.  What is missing:
    matrices with more rows than columns, see `C78_col_popov_out_of_bounds`. -/
theorem C78_col_popov_partial (M : PMat K[X]) (s : Option (List Int)) (hs : ValidShift M.rows s)
    (hdim : M.rows ≤ M.cols) :
    ∃ b, isPopov false M s = .ok b ∧ (b = true ↔ PopovLower M.cols M.rows (shiftOf s) (colsOf M)) := by
  have := isPopov_spec false M s hs (Or.inr hdim)
  rw [line_eq, addShift_eq] at this
  exact this

theorem allFrom_true (t : Nat → Out Bool) (count i : Nat) (h : allFrom t count i = .ok true) :
    ∀ k, i ≤ k → k < i + count → t k = .ok true := by
  induction count generalizing i with
  | zero => intro k h1 h2; omega
  | succ count ih =>
    rw [allFrom] at h
    cases ht : t i with
    | ok b =>
      rw [ht] at h
      cases b
      · exact absurd h (by simp [andThen])
      · intro k h1 h2
        by_cases e : k = i
        · rw [e]; exact ht
        · exact ih (i + 1) h k (by omega) (by omega)
    | error => rw [ht] at h; exact absurd h (by simp [andThen])
    | ub => rw [ht] at h; exact absurd h (by simp [andThen])
    | loops => rw [ht] at h; exact absurd h (by simp [andThen])

/-- **C78, violated.** For a matrix with more rows than columns (and at least one column), `is_col_popov`
    never answers true; and if the matrix is in column Popov form, then the function reads outside of the
    matrix. -/
theorem C78_col_popov_out_of_bounds (M : PMat K[X]) (s : Option (List Int)) (hs : ValidShift M.rows s)
    (h0 : 0 < M.cols) (hdim : M.cols < M.rows) :
    isPopov false M s ≠ .ok true ∧
    (PopovLower M.cols M.rows (shiftOf s) (colsOf M) → isPopov false M s = .ub) := by
  obtain ⟨pi, pd, h1, h2⟩ := pivots_spec false M s hs
  have hd : Describes (num false M) (len false M) (addShift s) (line false M) pi pd := fun k _ => h2 k
  have hub : ∀ (j : Nat) (x : Int), (andThen (entry false M M.cols x) fun f : K[X] =>
      (.ok (decide (¬ pdeg f ≥ pd j)) : Out Bool)) = .ub := by
    intro j x
    unfold entry
    rw [if_neg (by rintro ⟨a, _⟩; exact absurd a (lt_irrefl _))]
    rfl
  unfold isPopov
  rw [h1]
  dsimp only [andThen]
  rcases ord_tests _ _ _ _ pi pd hd with ⟨h, hn⟩ | ⟨h3, h4, piv, δ, hp, hinc⟩
  · constructor
    · rcases h with h | h
      · rw [if_pos h]; simp
      · rw [if_pos h, ite_self]; simp
    · rintro ⟨piv, δ, a, b, _⟩
      refine absurd ⟨piv, δ, ?_, b⟩ hn
      rw [line_eq, addShift_eq]
      exact a
  · rw [if_neg h3, if_neg h4]
    have hnum : num false M = M.cols := rfl
    constructor
    · intro hc
      cases hm : monicTests false M ((List.range (num false M)).map pi) with
      | error => rw [hm] at hc; simp at hc
      | ub => rw [hm] at hc; simp at hc
      | loops => rw [hm] at hc; simp at hc
      | ok b =>
        rw [hm] at hc
        cases b
        · simp at hc
        · simp only [if_true] at hc
          have := allFrom_true _ _ _ hc 0 (le_refl _) (by omega)
          dsimp only [allFrom, andThen] at this
          rw [if_pos rfl] at this
          have h6 := allFrom_true _ _ _ this M.cols (by omega) (by omega)
          have h7 := hub 0 (((List.range (num false M)).map pi).getD 0 0)
          rw [getD_map pd _ 0 (by omega)] at h6
          have h8 := h6.symm.trans h7
          simp at h8
    · rintro ⟨piv', δ', hp', hinc', hm', ho'⟩
      have hpl : ∀ k, k < num false M → PivotLower (len false M) (addShift s) (line false M k) (piv' k) (δ' k) := by
        rw [line_eq, addShift_eq]
        exact hp'
      have e : ∀ k, k < num false M → piv' k = piv k ∧ δ' k = δ k := fun k hk =>
        PML.Forms.Pivot.unique (right := true) (hpl k hk) (hp k hk).1
      have hmt : monicTests false M ((List.range (num false M)).map pi) = .ok true := by
        obtain ⟨b, hb, hb'⟩ := allFrom_ok
          (fun k => andThen (entry false M k (((List.range (num false M)).map pi).getD k 0)) fun f =>
            .ok (decide (pdeg f ≥ 0 ∧ f.coeff (pdeg f).toNat = 1)))
          (fun k => (line false M k (piv k)).Monic) (num false M) 0 (fun k _ hk => by
            rw [getD_map _ _ _ (by omega), (hp k (by omega)).2.1,
              entry_ok _ _ _ _ (by omega) (hp k (by omega)).1.lt]
            exact ⟨_, rfl, by rw [decide_eq_true_eq, monic_iff]⟩)
        rw [monicTests, hb, hb'.2]
        intro k _ hk
        rw [← (e k (by omega)).1]
        exact hm' k (by omega)
      rw [hmt]
      dsimp only
      rw [if_pos rfl, offTests]
      refine allFrom_ub _ _ 0 0 (by omega) (fun k hk => by omega) ?_
      dsimp only [allFrom, Nat.add_zero]
      dsimp only [andThen]
      rw [if_pos rfl]
      refine allFrom_ub _ _ 1 (M.cols - 1) (by omega) (fun k hk => ?_) ?_
      · rw [getD_map _ _ _ (by omega), getD_map _ _ _ (by omega), (hp 0 (by omega)).2.1, (hp 0 (by omega)).2.2,
          entry_ok _ _ _ _ (by omega) (hp 0 (by omega)).1.lt]
        show Out.ok _ = _
        congr 1
        rw [decide_eq_true_eq, not_ge_iff _ _ _ (hp 0 (by omega)).1.nonzero (hp 0 (by omega)).1.degree]
        have := ho' 0 (1 + k) (by omega) (by omega) (by omega)
        rw [(e 0 (by omega)).1] at this
        exact this
      · rw [show 1 + (M.cols - 1) = M.cols by omega, getD_map pd _ 0 (by omega)]
        exact hub 0 _

/-- The forms are ordered by their strength. -/
theorem form_mono (r n : Nat) (s : Nat → Int) (L : Nat → Nat → K[X]) (f g : Form) (hg : g.num ≤ f.num)
    (h : HasForm r n s L f) : HasForm r n s L g := by
  have h43 : HasForm r n s L .popov → HasForm r n s L .ordWeakPopov := by
    rintro ⟨piv, δ, a, b, _⟩; exact ⟨piv, δ, a, b⟩
  have h32 : HasForm r n s L .ordWeakPopov → HasForm r n s L .weakPopov := by
    rintro ⟨piv, δ, a, b⟩
    refine ⟨piv, δ, a, fun i j hi hj e => ?_⟩
    by_contra hne
    rcases Nat.lt_or_gt_of_ne hne with hlt | hlt
    · have := b i j hlt hj; omega
    · have := b j i hlt hi; omega
  have h21 : HasForm r n s L .weakPopov → HasForm r n s L .reduced := fun h =>
    PML.Forms.weakPopov_reduced true r n s L h
  cases f <;> cases g <;> first | exact h | exact trivial | (simp [Form.num] at hg; done) | skip
  all_goals first | exact absurd h id | exact h21 h | exact h32 h | exact h43 h | exact h21 (h32 h) | exact h32 (h43 h) | exact h21 (h32 (h43 h))

/-- **C78.** Popov form implies ordered weak Popov, which implies weak Popov, which implies reduced: the
    comparison of the numbers of the `enum` is the comparison of the strengths of the forms. -/
theorem C78_strength (r n : Nat) (s : Nat → Int) (L : Nat → Nat → K[X]) (f g : Form) (hg : g.num ≤ f.num)
    (h : HasForm r n s L f) : HasForm r n s L g := form_mono r n s L f g hg h

theorem isForm_spec (row : Bool) (M : PMat K[X]) (s : Option (List Int)) (hs : ValidShift (len row M) s)
    (hdim : row = true ∨ M.rows ≤ M.cols) (f : Form) (hf : f ≠ .other) :
    ∃ b, isForm row f M s = .ok b ∧
      (b = true ↔ HasForm (num row M) (len row M) (shiftOf s) (linesOf row M) f) := by
  cases f with
  | none => exact ⟨true, rfl, by simp [HasForm]⟩
  | reduced => exact C78_reduced row M s hs
  | weakPopov => exact C78_weak_popov row M s hs
  | ordWeakPopov => exact C78_ordered_weak_popov row M s hs
  | popov =>
    have := isPopov_spec row M s hs hdim
    rw [line_eq, addShift_eq] at this
    exact this
  | other => exact absurd rfl hf

/-- **C78.** `is_row_polmatform`: true exactly for the matrices in the form asked for; other values of the
    argument are refused. -/
theorem C78_row_form (M : PMat K[X]) (s : Option (List Int)) (hs : ValidShift M.cols s) (f : Form) :
    (f = .other → isForm true f M s = .error) ∧
    (f ≠ .other → ∃ b, isForm true f M s = .ok b ∧
      (b = true ↔ HasForm M.rows M.cols (shiftOf s) (rowsOf M) f)) :=
  ⟨fun h => by rw [h]; rfl, fun h => isForm_spec true M s hs (Or.inl rfl) f h⟩

/-- **C78, partial.** `is_col_polmatform`, for matrices with at most as many rows as columns or a form other
    than Popov.  What is missing: see `C78_col_popov_out_of_bounds`. -/
theorem C78_col_form_partial (M : PMat K[X]) (s : Option (List Int)) (hs : ValidShift M.rows s) (f : Form)
    (hdim : M.rows ≤ M.cols ∨ f ≠ .popov) :
    (f = .other → isForm false f M s = .error) ∧
    (f ≠ .other → ∃ b, isForm false f M s = .ok b ∧
      (b = true ↔ HasForm M.cols M.rows (shiftOf s) (colsOf M) f)) := by
  refine ⟨fun h => by rw [h]; rfl, fun h => ?_⟩
  rcases hdim with hd | hd
  · exact isForm_spec false M s hs (Or.inr hd) f h
  · cases f with
    | none => exact ⟨true, rfl, by simp [HasForm]⟩
    | reduced => exact C78_reduced false M s hs
    | weakPopov => exact C78_weak_popov false M s hs
    | ordWeakPopov => exact C78_ordered_weak_popov false M s hs
    | popov => exact absurd rfl hd
    | other => exact absurd rfl h

theorem getForm_spec (row : Bool) (M : PMat K[X]) (s : Option (List Int)) (hs : ValidShift (len row M) s)
    (hdim : row = true ∨ M.rows ≤ M.cols) :
    ∃ f, getForm row M s = .ok f ∧ f ≠ .other ∧
      ∀ g, HasForm (num row M) (len row M) (shiftOf s) (linesOf row M) g ↔ g.num ≤ f.num := by
  obtain ⟨b4, e4, i4⟩ := isForm_spec row M s hs hdim .popov (by simp)
  obtain ⟨b3, e3, i3⟩ := isForm_spec row M s hs hdim .ordWeakPopov (by simp)
  obtain ⟨b2, e2, i2⟩ := isForm_spec row M s hs hdim .weakPopov (by simp)
  obtain ⟨b1, e1, i1⟩ := isForm_spec row M s hs hdim .reduced (by simp)
  have key : ∀ (f : Form), f ≠ .other → HasForm (num row M) (len row M) (shiftOf s) (linesOf row M) f →
      (∀ g, g.num = f.num + 1 → ¬ HasForm (num row M) (len row M) (shiftOf s) (linesOf row M) g) →
      ∀ g, HasForm (num row M) (len row M) (shiftOf s) (linesOf row M) g ↔ g.num ≤ f.num := by
    intro f hf h1 h2 g
    constructor
    · intro h
      by_contra hc
      obtain ⟨g', hg'⟩ : ∃ g' : Form, g'.num = f.num + 1 := by
        cases f
        · exact ⟨.reduced, rfl⟩
        · exact ⟨.weakPopov, rfl⟩
        · exact ⟨.ordWeakPopov, rfl⟩
        · exact ⟨.popov, rfl⟩
        · exact ⟨.other, rfl⟩
        · exact absurd rfl hf
      exact h2 g' hg' (form_mono _ _ _ _ g g' (by omega) h)
    · exact fun h => form_mono _ _ _ _ f g h h1
  have only : ∀ (f g : Form), f.num = g.num → f = g := by
    intro f g
    cases f <;> cases g <;> simp [Form.num]
  simp only [isForm] at e1 e2 e3 e4
  unfold getForm
  rw [e4]
  cases b4
  · rw [e3]
    cases b3
    · rw [e2]
      cases b2
      · rw [e1]
        cases b1
        · exact ⟨.none, rfl, by simp, key _ (by simp) trivial fun g hg => by
            rw [only g .reduced hg]; exact fun h => absurd (i1.2 h) (by decide)⟩
        · exact ⟨.reduced, rfl, by simp, key _ (by simp) (i1.1 rfl) fun g hg => by
            rw [only g .weakPopov hg]; exact fun h => absurd (i2.2 h) (by decide)⟩
      · exact ⟨.weakPopov, rfl, by simp, key _ (by simp) (i2.1 rfl) fun g hg => by
          rw [only g .ordWeakPopov hg]; exact fun h => absurd (i3.2 h) (by decide)⟩
    · exact ⟨.ordWeakPopov, rfl, by simp, key _ (by simp) (i3.1 rfl) fun g hg => by
        rw [only g .popov hg]; exact fun h => absurd (i4.2 h) (by decide)⟩
  · exact ⟨.popov, rfl, by simp, key _ (by simp) (i4.1 rfl) fun g hg => by
      rw [only g .other hg]; exact id⟩

/-- **C78.** `get_row_polmatform` returns the strongest form: the matrix is in exactly the forms which are not
    stronger than the answer. -/
theorem C78_get_row_form (M : PMat K[X]) (s : Option (List Int)) (hs : ValidShift M.cols s) :
    ∃ f, getForm true M s = .ok f ∧ f ≠ .other ∧
      ∀ g, HasForm M.rows M.cols (shiftOf s) (rowsOf M) g ↔ g.num ≤ f.num :=
  getForm_spec true M s hs (Or.inl rfl)

/-- **C78, partial.** `get_col_polmatform`, for matrices with at most as many rows as columns.  What is
    missing: see `C78_col_popov_out_of_bounds`. -/
theorem C78_get_col_form_partial (M : PMat K[X]) (s : Option (List Int)) (hs : ValidShift M.rows s)
    (hdim : M.rows ≤ M.cols) :
    ∃ f, getForm false M s = .ok f ∧ f ≠ .other ∧
      ∀ g, HasForm M.cols M.rows (shiftOf s) (colsOf M) g ↔ g.num ≤ f.num :=
  getForm_spec false M s hs (Or.inr hdim)

/-! ### The hypotheses are satisfiable -/

/-- The matrix with rows `[X, 0]` and `[0, 1]` over the field with 5 elements. -/
noncomputable def sample : PMat (ZMod 5)[X] :=
  ⟨2, 2, fun x => if x = (0, 0) then X else if x = (1, 1) then 1 else 0⟩

/-- The column with entries `1` and `0`: more rows than columns. -/
noncomputable def tall : PMat (ZMod 5)[X] := ⟨2, 1, fun x => if x = (0, 0) then 1 else 0⟩

example : ValidShift (len true sample) (some [3, -2]) := fun l h => by cases h; exact ⟨rfl, by decide⟩

example : ValidShift (len false sample) none := fun l h => by cases h

/-- `sample` is in Popov form for the shift `[3, -2]`: the tests of the code accept some matrices. -/
theorem sample_popov : PopovLower 2 2 (shiftOf (some [3, -2])) (rowsOf sample) := by
  have e00 : rowsOf sample 0 0 = X := rfl
  have e11 : rowsOf sample 1 1 = 1 := rfl
  have e01 : rowsOf sample 0 1 = 0 := rfl
  have e10 : rowsOf sample 1 0 = 0 := rfl
  have two : ∀ j, j < 2 → j = 0 ∨ j = 1 := fun j hj => by omega
  refine ⟨id, fun i => if i = 0 then 1 else 0, fun i hi => ?_, fun i j h _ => h, fun i hi => ?_, fun i k hi hk hne => ?_⟩
  · rcases two i hi with rfl | rfl
    · refine ⟨hi, by show rowsOf sample 0 0 ≠ 0; rw [e00]; exact X_ne_zero, by
        show (rowsOf sample 0 0).natDegree = 1; rw [e00]; exact natDegree_X, fun j hj hne => ?_, fun j hj hlt hne => ?_⟩
      · rcases two j hj with rfl | rfl
        · rw [e00, natDegree_X]; exact le_refl _
        · exact absurd e01 hne
      · rcases two j hj with rfl | rfl
        · exact absurd hlt (lt_irrefl _)
        · exact absurd e01 hne
    · refine ⟨hi, by show rowsOf sample 1 1 ≠ 0; rw [e11]; exact one_ne_zero, by
        show (rowsOf sample 1 1).natDegree = 0; rw [e11]; exact natDegree_one, fun j hj hne => ?_, fun j hj hlt hne => ?_⟩
      · rcases two j hj with rfl | rfl
        · exact absurd e10 hne
        · rw [e11, natDegree_one]; exact le_refl _
      · change 1 < j at hlt
        omega
  · rcases two i hi with rfl | rfl
    · show (rowsOf sample 0 0).Monic; rw [e00]; exact monic_X
    · show (rowsOf sample 1 1).Monic; rw [e11]; exact monic_one
  · rcases two i hi with rfl | rfl <;> rcases two k hk with rfl | rfl
    · exact absurd rfl hne
    · show (rowsOf sample 1 0).degree < (rowsOf sample 0 0).degree
      rw [e10, e00, degree_zero, degree_X]; exact WithBot.bot_lt_coe _
    · show (rowsOf sample 0 1).degree < (rowsOf sample 1 1).degree
      rw [e01, e11, degree_zero, degree_one]; exact WithBot.bot_lt_coe _
    · exact absurd rfl hne

/-- `is_row_popov` answers true for `sample`. -/
example : isPopov true sample (some [3, -2]) = .ok true := by
  obtain ⟨b, h1, h2⟩ := C78_row_popov sample (some [3, -2]) (fun l h => by cases h; exact ⟨rfl, by decide⟩)
  rw [h1, h2.2 sample_popov]

theorem tall_popov : PopovLower 1 2 (shiftOf none) (colsOf tall) := by
  have e0 : colsOf tall 0 0 = 1 := rfl
  have e1 : colsOf tall 0 1 = 0 := rfl
  refine ⟨fun _ => 0, fun _ => 0, fun i hi => ?_, fun i j _ _ => by omega, fun i hi => ?_, fun i k hi hk hne => by omega⟩
  · obtain rfl : i = 0 := by omega
    refine ⟨by decide, by rw [e0]; exact one_ne_zero, by rw [e0]; exact natDegree_one, fun j hj hne => ?_, fun j hj hlt hne => ?_⟩
    · rcases (by omega : j = 0 ∨ j = 1) with rfl | rfl
      · rw [e0, natDegree_one]
      · exact absurd e1 hne
    · obtain rfl : j = 1 := by omega
      exact absurd e1 hne
  · obtain rfl : i = 0 := by omega
    rw [e0]; exact monic_one

/-- A column in Popov form on which `is_col_popov` and `get_col_polmatform` read outside of the matrix. -/
theorem C78_tall_column : isPopov false tall none = .ub ∧ getForm false tall none = .ub := by
  have h : isPopov false tall none = .ub :=
    (C78_col_popov_out_of_bounds tall none (fun l h => by cases h) (by decide) (by decide)).2 tall_popov
  exact ⟨h, by unfold getForm; rw [h]; rfl⟩

example : ∃ M : PMat (ZMod 5)[X], len true M = 0 ∧ 0 < num true M := ⟨⟨2, 0, fun _ => 0⟩, rfl, by decide⟩

example : amplitude [3, -2, 7] = .ok 9 := rfl

end PML.Ntl.Forms
