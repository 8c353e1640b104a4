import Verif.WeakPopov.Lemmas
import Verif.Sort.Props

/-! # C32, C33: weak Popov and ordered weak Popov forms -/

namespace PML.WeakPopov

open PML.MatOps PML.MatOps.Spec PML.MatPoly PML.Forms PML.Forms.Spec PML.RowOps PML.RowOps.Spec
open PML.Sort PML.Sort.Spec Polynomial

set_option linter.unusedSectionVars false

variable {K : Type} [Field K] [DecidableEq K]

/-- At the end without early exit. -/
theorem WPInv.final {o : Orient} {shift : Option (Nat → Int)} {m c : Nat} {A : Mat K[X]}
    {T : Option (Mat K[X])} {det0 : Int} {piv0 : Nat → Int} {rrp0 : Nat → Nat} {s : WPState K}
    (h : WPInv o shift m c A T det0 piv0 rrp0 s) :
    rankOf (s.rk + s.zr) c A = s.rk ∧ RowRankProfile (s.rk + s.zr) c A s.rk s.rrp := by
  have hr : rankOf (s.rk + s.zr) c A = s.rk := by
    rw [h.rank _ le_rfl, card_filter_of_all _ _ h.rrp_lt]
  refine ⟨hr, h.rrp_lt, h.rrp_inc, fun i hi => ?_⟩
  rw [h.rank i (by omega), h.rank (i + 1) (by omega)]
  have hsub : (Finset.range s.rk).filter (fun l => s.rrp l < i) ⊆
      (Finset.range s.rk).filter (fun l => s.rrp l < i + 1) := by
    intro l
    simp only [Finset.mem_filter]
    exact fun ⟨a, b⟩ => ⟨a, by omega⟩
  constructor
  · rintro ⟨l, hl, rfl⟩
    refine Finset.card_lt_card (Finset.ssubset_iff_subset_ne.2 ⟨hsub, fun e => ?_⟩)
    have : l ∈ (Finset.range s.rk).filter (fun l' => s.rrp l' < s.rrp l + 1) := by simp [hl]
    rw [← e] at this
    simp at this
  · intro hlt
    by_contra hc
    push Not at hc
    refine absurd (congrArg Finset.card ?_) hlt.ne
    refine Finset.filter_congr fun l hl => ?_
    have := hc l (Finset.mem_range.1 hl)
    omega

theorem weakPopovIter_spec {o : Orient} {shift : Option (Nat → Int)} {r c : Nat} {A : Mat K[X]}
    {T : Option (Mat K[X])} {piv0 : Nat → Int} {rrp0 : Nat → Nat} (hg : GoodOrient o shift r c A) :
    ∃ s : WPState K,
      Ends (fun fuel => weakPopovIter fuel o shift r c A T piv0 rrp0)
        (s, (s.rk : Int)) ∧
      WPInv o shift r c A T 1 piv0 rrp0 s ∧ s.rk = rankOf r c A ∧ RowRankProfile r c A s.rk s.rrp ∧
      (∀ i, s.rk ≤ i → i < r → ZeroVec c (s.mat i)) := by
  by_cases h0 : r = 0 ∨ c = 0
  · refine ⟨wpInit A T 1 piv0 rrp0, ?_, WPInv.init .., ?_, ?_, ?_⟩
    · refine Ends.pure fun fuel => ?_
      unfold weakPopovIter weakPopovSubmat
      rw [if_pos h0]
      rfl
    · have h1 := rankOf_le r c A
      have h2 := rankOf_le_width r c A
      simp only [wpInit]
      omega
    · refine ⟨fun l hl => by simp [wpInit] at hl, fun l l' _ hl => by simp [wpInit] at hl, fun i hi => ?_⟩
      have h1 := rankOf_le_width (i + 1) c A
      constructor
      · rintro ⟨l, hl, _⟩
        simp [wpInit] at hl
      · intro h
        omega
    · intro i _ hi j hj
      omega
  · push Not at h0
    obtain ⟨s, h1, h2, h3, h4⟩ := weakPopovSubmat_spec (o := o) (shift := shift) (m := r) (c := c) (A := A) (T := T)
      (det0 := 1) (piv0 := piv0) (rrp0 := rrp0) hg r (by omega) (by omega)
    have hsum := h2.sum
    have he : s.rk + s.zr = r := by omega
    have hfin := h2.final
    rw [he] at hfin
    refine ⟨s, ?_, h2, hfin.1.symm, hfin.2, fun i hi hir => h2.zero i (by omega) hir⟩
    have e : (if s.zr ≥ r then -(s.rk : Int) else (s.rk : Int)) = s.rk := by split_ifs <;> omega
    rw [e] at h1
    exact h1

/-- **C32** (`ROW_LOWER`). `nmod_poly_mat_weak_popov_iter` terminates for every
    matrix and every shift, accesses nothing out of bounds, returns the rank,
    transforms `mat` and `tsf` by one and the same matrix of determinant `±1` (the
    value tracked in `det`), leaves the nonzero rows first with pairwise distinct
    shifted pivots given by `pivind`, the zero rows at the bottom, and fills `rrp`
    with the row rank profile of the input. -/
theorem C32_weak_popov_lower (shift : Option (Nat → Int)) (r c : Nat) (A : Mat K[X])
    (T : Option (Mat K[X])) (piv0 : Nat → Int) (rrp0 : Nat → Nat) :
    ∃ (s : WPState K) (rk : Nat),
      Ends (fun fuel => weakPopovIter fuel .rowLower shift r c A T piv0 rrp0)
        (s, (rk : Int)) ∧
      s.oob = false ∧ rk = rankOf r c A ∧
      (∃ σ : Int, (σ = 1 ∨ σ = -1) ∧ s.det = σ ∧
        Transformed r ((σ : Int) : K[X]) (beside A T) (beside s.mat s.tsf)) ∧
      s.tsf.isSome = T.isSome ∧
      (∀ i, i < rk → ∃ π δ : Nat, s.pivind i = π ∧ PivotLower c (shiftOf shift) (s.mat i) π δ) ∧
      (∀ i j, i < j → j < rk → s.pivind i ≠ s.pivind j) ∧
      (∀ i, rk ≤ i → i < r → ZeroVec c (s.mat i)) ∧
      RowRankProfile r c A rk s.rrp ∧
      (∀ i, rk < i ∨ r ≤ i → s.pivind i = piv0 i) ∧ (∀ i, rk ≤ i → s.rrp i = rrp0 i) := by
  obtain ⟨s, h1, h2, h3, h4, h5⟩ := weakPopovIter_spec (K := K) (o := .rowLower) (shift := shift) (r := r) (c := c) (A := A)
    (T := T) (piv0 := piv0) (rrp0 := rrp0) (Or.inl rfl)
  refine ⟨s, s.rk, h1, h2.noOob, h3, ?_, h2.shape, h2.piv, fun i j hij hj he => ?_, h5, h4, h2.pivout,
    h2.rrp_out⟩
  · obtain ⟨σ, a1, a2, a3⟩ := h2.trans
    exact ⟨σ, a1, by rw [a2, mul_one], a3⟩
  · have := h2.inj i j (by omega) hj he; omega

/-- **C32** (`ROW_UPPER`), partial: the same, without a shift or for a matrix of
    full row rank; `C32_weak_popov_upper_oob` shows it fails in every other case. -/
theorem C32_weak_popov_upper_partial (shift : Option (Nat → Int)) (r c : Nat) (A : Mat K[X])
    (T : Option (Mat K[X])) (piv0 : Nat → Int) (rrp0 : Nat → Nat)
    (hs : shift = none ∨ rankOf r c A = r) :
    ∃ (s : WPState K) (rk : Nat),
      Ends (fun fuel => weakPopovIter fuel .rowUpper shift r c A T piv0 rrp0)
        (s, (rk : Int)) ∧
      s.oob = false ∧ rk = rankOf r c A ∧
      (∃ σ : Int, (σ = 1 ∨ σ = -1) ∧ s.det = σ ∧
        Transformed r ((σ : Int) : K[X]) (beside A T) (beside s.mat s.tsf)) ∧
      s.tsf.isSome = T.isSome ∧
      (∀ i, i < rk → ∃ π δ : Nat, s.pivind i = π ∧ PivotUpper c (shiftOf shift) (s.mat i) π δ) ∧
      (∀ i j, i < j → j < rk → s.pivind i ≠ s.pivind j) ∧
      (∀ i, rk ≤ i → i < r → ZeroVec c (s.mat i)) ∧
      RowRankProfile r c A rk s.rrp ∧
      (∀ i, rk < i ∨ r ≤ i → s.pivind i = piv0 i) ∧ (∀ i, rk ≤ i → s.rrp i = rrp0 i) := by
  obtain ⟨s, h1, h2, h3, h4, h5⟩ := weakPopovIter_spec (K := K) (o := .rowUpper) (shift := shift) (r := r) (c := c) (A := A)
    (T := T) (piv0 := piv0) (rrp0 := rrp0) (Or.inr ⟨rfl, hs⟩)
  refine ⟨s, s.rk, h1, h2.noOob, h3, ?_, h2.shape, h2.piv, fun i j hij hj he => ?_, h5, h4, h2.pivout,
    h2.rrp_out⟩
  · obtain ⟨σ, a1, a2, a3⟩ := h2.trans
    exact ⟨σ, a1, by rw [a2, mul_one], a3⟩
  · have := h2.inj i j (by omega) hj he; omega

/-- **C32** refutation: `ROW_UPPER` with a shift and a matrix without full row rank
    always ends with an access out of bounds (`pivot_row[-1]`): the pivot index
    reported for the zero row is -1, and the loop tests for `cdim`. -/
theorem C32_weak_popov_upper_oob (sh : Nat → Int) (r c : Nat) (hc : 0 < c) (A : Mat K[X])
    (T : Option (Mat K[X])) (piv0 : Nat → Int) (rrp0 : Nat → Nat) (hr : rankOf r c A < r) :
    ∃ (s : WPState K) (ret : Int),
      Ends (fun fuel => weakPopovIter fuel .rowUpper (some sh) r c A T piv0 rrp0) (s, ret) ∧ s.oob = true :=
  weakPopovSubmat_upper_oob sh r (by omega) (by omega) hc hr

/-- **C32** (early exit, as in the determinant): when the function stops at the
    `early_exit_zr`-th zero row, it returns minus the number of pivots found so far,
    which is the rank of the rows it has looked at. -/
theorem C32_early_exit (shift : Option (Nat → Int)) (r c ez : Nat) (hr : 0 < r) (hc : 0 < c) (A : Mat K[X])
    (T : Option (Mat K[X])) (det0 : Int) (piv0 : Nat → Int) (rrp0 : Nat → Nat) :
    ∃ (s : WPState K) (ret : Int),
      Ends (fun fuel => weakPopovSubmat fuel .rowLower shift A T det0 piv0 rrp0 r c ez) (s, ret) ∧ s.oob = false ∧
      ((s.zr < ez ∧ ret = rankOf r c A ∧ s.rk + s.zr = r) ∨
        (s.zr = ez ∧ s.rk + ez ≤ r ∧ ret = -(rankOf (s.rk + ez) c A : Int))) ∧
      (∃ σ : Int, (σ = 1 ∨ σ = -1) ∧ s.det = σ * det0 ∧
        Transformed r ((σ : Int) : K[X]) (beside A T) (beside s.mat s.tsf)) ∧
      (∀ i, i < s.rk → ∃ π δ : Nat, s.pivind i = π ∧ PivotLower c (shiftOf shift) (s.mat i) π δ) ∧
      (∀ i j, i < j → j < s.rk → s.pivind i ≠ s.pivind j) ∧
      (∀ i, r - s.zr ≤ i → i < r → ZeroVec c (s.mat i)) := by
  obtain ⟨s, h1, h2, h3, h4⟩ := weakPopovSubmat_spec (o := .rowLower) (shift := shift) (m := r) (c := c) (A := A) (T := T)
    (det0 := det0) (piv0 := piv0) (rrp0 := rrp0) (Or.inl rfl) ez hr hc
  refine ⟨s, _, h1, h2.noOob, ?_, h2.trans, h2.piv, fun i j hij hj he => ?_, h2.zero⟩
  · have hf := h2.final.1
    have hs := h2.sum
    by_cases hz : s.zr ≥ ez
    · have e : s.zr = ez := by omega
      rw [if_pos hz]
      rw [e] at hf hs
      exact Or.inr ⟨e, hs, by rw [hf]⟩
    · have e : s.rk + s.zr = r := by omega
      rw [if_neg hz]
      rw [e] at hf
      exact Or.inl ⟨by omega, by rw [hf], e⟩
  · have := h2.inj i j (by omega) hj he; omega

/-- A case meeting the hypotheses of the upper theorem with a shift, and one meeting
    those of the refutation. -/
example : rankOf 1 2 (fun _ _ => (X : ℚ[X])) = 1 := by
  refine rankOf_independent fun u hu i hi => ?_
  have := hu 0 (by omega)
  have hi0 : i = 0 := by omega
  subst hi0
  simpa using this

example : rankOf 1 2 (fun _ _ => (0 : ℚ[X])) < 1 :=
  rankOf_zeroRow (k := 0) (by omega) fun _ _ => rfl

/-! ## C33 -/

/-- A permutation array as a permutation. -/
noncomputable def toPerm {n : Nat} {p : Nat → Nat} (h : IsPerm n p) : Equiv.Perm (Fin n) :=
  Equiv.ofBijective (fun i : Fin n => (⟨p i, h.1 i i.2⟩ : Fin n)) (Finite.injective_iff_bijective.1 fun i j e => by
    simp only [Fin.mk.injEq] at e
    exact Fin.ext (h.2 i j i.2 j.2 e))

theorem toPerm_apply {n : Nat} {p : Nat → Nat} (h : IsPerm n p) (i : Fin n) : (toPerm h i : Nat) = p i := rfl

theorem permuteRows_transformed (r : Nat) {ι : Type} (A B : Nat → ι → K[X]) (p : Nat → Nat)
    (hp : IsPerm r p) (hB : ∀ i, i < r → B i = A (p i)) (hout : ∀ i, r ≤ i → B i = A i) :
    Transformed r ((Equiv.Perm.sign (toPerm hp) : ℤ) : K[X]) A B :=
  Transformed.perm (toPerm hp) (fun i => by rw [hB i i.2]; rfl) hout

theorem permuteRows_beside (r : Nat) (A : Mat K[X]) (T : Option (Mat K[X])) (p : Nat → Nat)
    (hp : IsPerm r p) :
    Transformed r ((Equiv.Perm.sign (toPerm hp) : ℤ) : K[X]) (beside A T)
      (beside (permuteRows r A p none).1 (T.map fun T => (permuteRows r T p none).1)) := by
  refine permuteRows_transformed r _ _ p hp (fun i hi => ?_) (fun i hi => ?_)
  · funext l
    cases l with
    | inl l => simp [beside, permuteRows, hi]
    | inr l => cases T <;> simp [beside, permuteRows, hi]
  · have hi' : ¬ i < r := by omega
    funext l
    cases l with
    | inl l => simp [beside, permuteRows, hi']
    | inr l => cases T <;> simp [beside, permuteRows, hi']

theorem sign_cases {n : Nat} (p : Equiv.Perm (Fin n)) :
    ((Equiv.Perm.sign p : ℤ) = 1 ∨ (Equiv.Perm.sign p : ℤ) = -1) := by
  rcases Int.units_eq_one_or (Equiv.Perm.sign p) with h | h <;> rw [h] <;> simp

theorem ordWeakPopov_of_piv {right : Bool} {n c : Nat} {sh : Nat → Int} {M : Mat K[X]} {pivind : Nat → Int}
    (hpiv : ∀ i, i < n → ∃ π δ : Nat, pivind i = π ∧ Pivot right c sh (M i) π δ)
    (hinc : ∀ i j, i < j → j < n → pivind i < pivind j) :
    OrdWeakPopov right n c sh M := by
  have hex : ∀ i, ∃ πδ : Nat × Nat, i < n → pivind i = πδ.1 ∧ Pivot right c sh (M i) πδ.1 πδ.2 := by
    intro i
    by_cases hi : i < n
    · obtain ⟨π, δ, h1, h2⟩ := hpiv i hi
      exact ⟨(π, δ), fun _ => ⟨h1, h2⟩⟩
    · exact ⟨(0, 0), fun h => absurd h hi⟩
  choose f hf using hex
  refine ⟨fun i => (f i).1, fun i => (f i).2, fun i hi => (hf i hi).2, fun i j hij hj => ?_⟩
  have h1 := (hf i (by omega)).1
  have h2 := (hf j hj).1
  have := hinc i j hij hj
  simp only
  omega

theorem orderedWeakPopovIter_spec (qs : QsortFn) (hqs : QsortContract qs) {o : Orient}
    {shift : Option (Nat → Int)} {r c : Nat} {A : Mat K[X]}
    {T : Option (Mat K[X])} {piv0 : Nat → Int} {rrp0 : Nat → Nat} {perm0 : Nat → Nat}
    (hg : GoodOrient o shift r c A) :
    ∃ (B : Mat K[X]) (T' : Option (Mat K[X])) (piv : Nat → Int) (rrp : Nat → Nat)
        (rk : Nat),
      Ends (fun fuel => orderedWeakPopovIter qs fuel o shift r c A T piv0 rrp0 perm0)
        (B, T', piv, rrp, (rk : Int), false) ∧
      rk = rankOf r c A ∧
      (∃ σ : Int, (σ = 1 ∨ σ = -1) ∧ Transformed r ((σ : Int) : K[X]) (beside A T) (beside B T')) ∧
      T'.isSome = T.isSome ∧
      (∀ i, i < rk → ∃ π δ : Nat, piv i = π ∧ Pivot o.isRight c (shiftOf shift) (B i) π δ) ∧
      (∀ i j, i < j → j < rk → piv i < piv j) ∧
      (∀ i, rk ≤ i → i < r → ZeroVec c (B i)) ∧ RowRankProfile r c A rk rrp := by
  obtain ⟨s, h1, h2, h3, h4, h5⟩ := weakPopovIter_spec (K := K) (o := o) (shift := shift) (r := r) (c := c) (A := A)
    (T := T) (piv0 := piv0) (rrp0 := rrp0) hg
  have hrk : s.rk ≤ r := by have := h2.sum; omega
  obtain ⟨k1, k2, k3, k4, k5, k6, k7, k8⟩ := C48_permute_rows_by_sorting qs hqs r s.mat s.rk hrk s.pivind perm0
  refine ⟨(permuteRowsBySorting qs r s.mat s.rk s.pivind perm0).1,
    s.tsf.map fun T => (permuteRows r T (permuteRowsBySorting qs r s.mat s.rk s.pivind perm0).2.2 none).1,
    (permuteRowsBySorting qs r s.mat s.rk s.pivind perm0).2.1, s.rrp, s.rk, ?_, h3, ?_, ?_,
    fun i hi => ?_, fun i j hij hj => ?_, fun i hi hir => ?_, h4⟩
  · obtain ⟨N, hN⟩ := h1
    refine ⟨N, fun fuel hf => ?_⟩
    have h := hN fuel hf
    unfold weakPopovIter at h
    unfold orderedWeakPopovIter
    simp only at h ⊢
    rw [h]
    simp only [Option.map_some, Int.toNat_natCast, h2.noOob]
  · obtain ⟨σ, a1, _, a3⟩ := h2.trans
    have b3 := permuteRows_beside r s.mat s.tsf _ k5
    refine ⟨(Equiv.Perm.sign (toPerm k5) : ℤ) * σ, ?_, ?_⟩
    · rcases a1 with rfl | rfl <;> rcases sign_cases (toPerm k5) with e | e <;> rw [e] <;> simp
    · rw [Int.cast_mul]
      exact a3.trans b3
  · rw [Option.isSome_map]; exact h2.shape
  · obtain ⟨π, δ, e1, e2⟩ := h2.piv _ (k1.isPerm.1 i hi)
    refine ⟨π, δ, ?_, ?_⟩
    · rw [k2 i hi]; exact e1
    · rw [k7 i (by omega)]; exact e2
  · have := k4 i j hij hj
    rcases lt_or_eq_of_le this with h | he
    · exact h
    · exfalso
      rw [k2 i (by omega), k2 j hj] at he
      have := k1.isPerm.2 i j (by omega) hj (h2.inj _ _ (k1.isPerm.1 i (by omega)) (k1.isPerm.1 j hj) he)
      omega
  · rw [k8 i hi]; exact h5 i hi hir

/-- **C33** (`ROW_LOWER`). `nmod_poly_mat_ordered_weak_popov_iter` terminates and
    returns the rank `rk`; `mat` and `tsf` undergo one and the same transformation of
    determinant `±1`; the first `rk` rows are in ordered weak Popov form, `pivind` is
    the increasing list of their pivots, and the other rows are zero. -/
theorem C33_ordered_weak_popov_lower (qs : QsortFn) (hqs : QsortContract qs)
    (shift : Option (Nat → Int)) (r c : Nat) (A : Mat K[X])
    (T : Option (Mat K[X])) (piv0 : Nat → Int) (rrp0 : Nat → Nat) (perm0 : Nat → Nat) :
    ∃ (B : Mat K[X]) (T' : Option (Mat K[X])) (piv : Nat → Int) (rrp : Nat → Nat)
        (rk : Nat),
      Ends (fun fuel => orderedWeakPopovIter qs fuel .rowLower shift r c A T piv0 rrp0 perm0)
        (B, T', piv, rrp, (rk : Int), false) ∧
      rk = rankOf r c A ∧
      (∃ σ : Int, (σ = 1 ∨ σ = -1) ∧ Transformed r ((σ : Int) : K[X]) (beside A T) (beside B T')) ∧
      T'.isSome = T.isSome ∧
      OrderedWeakPopovLower rk c (shiftOf shift) B ∧
      (∀ i, i < rk → ∃ π δ : Nat, piv i = π ∧ PivotLower c (shiftOf shift) (B i) π δ) ∧
      (∀ i, rk ≤ i → i < r → ZeroVec c (B i)) ∧ RowRankProfile r c A rk rrp := by
  obtain ⟨B, T', piv, rrp, rk, h1, h2, h3, h4, h5, h6, h7, h8⟩ := orderedWeakPopovIter_spec (K := K) qs hqs (o := .rowLower) (shift := shift) (r := r) (c := c)
    (A := A) (T := T) (piv0 := piv0) (rrp0 := rrp0) (perm0 := perm0) (Or.inl rfl)
  exact ⟨B, T', piv, rrp, rk, h1, h2, h3, h4, ordWeakPopov_of_piv h5 h6, h5, h7, h8⟩

/-- **C33** (`ROW_UPPER`), partial: the same without a shift or for full row rank
    (otherwise `C32_weak_popov_upper_oob` applies to the first step). -/
theorem C33_ordered_weak_popov_upper_partial (qs : QsortFn) (hqs : QsortContract qs)
    (shift : Option (Nat → Int)) (r c : Nat) (A : Mat K[X])
    (T : Option (Mat K[X])) (piv0 : Nat → Int) (rrp0 : Nat → Nat) (perm0 : Nat → Nat)
    (hs : shift = none ∨ rankOf r c A = r) :
    ∃ (B : Mat K[X]) (T' : Option (Mat K[X])) (piv : Nat → Int) (rrp : Nat → Nat)
        (rk : Nat),
      Ends (fun fuel => orderedWeakPopovIter qs fuel .rowUpper shift r c A T piv0 rrp0 perm0)
        (B, T', piv, rrp, (rk : Int), false) ∧
      rk = rankOf r c A ∧
      (∃ σ : Int, (σ = 1 ∨ σ = -1) ∧ Transformed r ((σ : Int) : K[X]) (beside A T) (beside B T')) ∧
      T'.isSome = T.isSome ∧
      OrderedWeakPopovUpper rk c (shiftOf shift) B ∧
      (∀ i, i < rk → ∃ π δ : Nat, piv i = π ∧ PivotUpper c (shiftOf shift) (B i) π δ) ∧
      (∀ i, rk ≤ i → i < r → ZeroVec c (B i)) ∧ RowRankProfile r c A rk rrp := by
  obtain ⟨B, T', piv, rrp, rk, h1, h2, h3, h4, h5, h6, h7, h8⟩ := orderedWeakPopovIter_spec (K := K) qs hqs (o := .rowUpper) (shift := shift) (r := r) (c := c)
    (A := A) (T := T) (piv0 := piv0) (rrp0 := rrp0) (perm0 := perm0) (Or.inr ⟨rfl, hs⟩)
  exact ⟨B, T', piv, rrp, rk, h1, h2, h3, h4, ordWeakPopov_of_piv h5 h6, h5, h7, h8⟩

/-- **C33** refutation: in the remaining case (`ROW_UPPER`, a shift, no full row rank)
    an access out of bounds always happens. -/
theorem C33_ordered_weak_popov_upper_oob (qs : QsortFn) (sh : Nat → Int) (r c : Nat) (hc : 0 < c)
    (A : Mat K[X]) (T : Option (Mat K[X])) (piv0 : Nat → Int) (rrp0 perm0 : Nat → Nat)
    (hr : rankOf r c A < r) :
    ∃ res, Ends (fun fuel => orderedWeakPopovIter qs fuel .rowUpper (some sh) r c A T piv0 rrp0 perm0) res ∧
      res.2.2.2.2.2 = true := by
  obtain ⟨s, ret, h1, h2⟩ := C32_weak_popov_upper_oob sh r c hc A T piv0 rrp0 hr
  exact ⟨_, h1.map _, h2⟩

/-- The contract of `qsort` can be met. -/
example : ∃ qs, QsortContract qs := ⟨insQsort, insQsort_contract⟩

end PML.WeakPopov
