import Verif.Rand.Lemmas
import Verif.Forms.Props
import Verif.Common.Prime

/-!
# Properties of the random polynomial matrices

Nothing is assumed on the generator: the first group holds for any function `g` of an
arbitrary state. The second group says that nothing is missed: for the generator that
reads its values in a list (`listGen`), every matrix meeting the requirements is reached
from some list.
-/

namespace PML.Rand

open PML.MatOps PML.Forms PML.Forms.Spec Polynomial

variable {K : Type} [Field K] {σ : Type}

/-- A Popov form with given pivot indices and degrees. -/
structure PopovWith (r n : Nat) (s : Nat → Int) (piv : Nat → Nat) (δ : Nat → Int) (M : Nat → Nat → K[X]) : Prop where
  pivot : ∀ i, i < r → ∃ d : Nat, (d : Int) = δ i ∧ PivotLower n s (M i) (piv i) d
  monic : ∀ i, i < r → (M i (piv i)).Monic
  reduced : ∀ i k, i < r → k < r → k ≠ i → (M k (piv i)).degree < (M i (piv i)).degree

theorem PopovWith.popov {r n : Nat} {s : Nat → Int} {piv : Nat → Nat} {δ : Nat → Int} {M : Nat → Nat → K[X]}
    (h : PopovWith r n s piv δ M) (hinc : ∀ i j, i < j → j < r → piv i < piv j) : PopovLower r n s M := by
  refine ⟨piv, fun i => (δ i).toNat, fun i hi => ?_, hinc, h.monic, h.reduced⟩
  obtain ⟨d, h1, h2⟩ := h.pivot i hi
  have : (δ i).toNat = d := by omega
  show PivotLower n s (M i) (piv i) (δ i).toNat
  rw [this]
  exact h2

theorem popovWith_iff {r n : Nat} {s : Nat → Int} {piv : Nat → Nat} {δ : Nat → Int} {M : Nat → Nat → K[X]}
    (hpi : ∀ i, i < r → piv i < n) (hinj : ∀ i j, i < r → j < r → piv i = piv j → i = j) :
    PopovWith r n s piv δ M ↔ ∀ i, i < r → LineOK piv δ s r n i (M i) := by
  constructor
  · intro h i hi
    obtain ⟨d, h1, h2⟩ := h.pivot i hi
    refine ⟨h.monic i hi, by rw [h2.degree, h1], fun j hj hne hnz => ⟨?_, fun hlt => ?_⟩,
      fun j hj hne hnz ii hii e => ?_⟩
    · rw [← h1]; exact h2.le j hj hnz
    · rw [← h1]; exact h2.after j hj hlt hnz
    · subst e
      obtain ⟨d', h1', h2'⟩ := h.pivot ii hii
      have := h.reduced ii i hii hi (fun e => hne (by rw [e]))
      rw [degree_eq_natDegree hnz, degree_eq_natDegree h2'.nonzero, Nat.cast_lt, h2'.degree] at this
      omega
  · intro h
    refine ⟨fun i hi => ?_, fun i hi => (h i hi).monic, fun i k hi hk hne => ?_⟩
    · refine ⟨(M i (piv i)).natDegree, (h i hi).degree, hpi i hi, (h i hi).monic.ne_zero, rfl, fun j hj hnz => ?_,
        fun j hj hlt hnz => ?_⟩
      · rw [(h i hi).degree]
        by_cases hjp : j = piv i
        · rw [hjp, (h i hi).degree]
        · exact ((h i hi).row j hj hjp hnz).1
      · rw [(h i hi).degree]
        exact ((h i hi).row j hj (by omega) hnz).2 hlt
    · by_cases hz : M k (piv i) = 0
      · rw [hz, degree_zero, bot_lt_iff_ne_bot, Ne, degree_eq_bot]
        exact (h i hi).monic.ne_zero
      · have := (h k hk).col (piv i) (hpi i hi) (fun e => hne (hinj _ _ hk hi e.symm)) hz i hi rfl
        rw [degree_eq_natDegree hz, degree_eq_natDegree (h i hi).monic.ne_zero, Nat.cast_lt]
        have h2 := (h i hi).degree
        omega

theorem inj_of_inc {r : Nat} {piv : Nat → Nat} (hinc : ∀ i j, i < j → j < r → piv i < piv j) :
    ∀ i j, i < r → j < r → piv i = piv j → i = j := by
  intro i j hi hj h
  by_contra hne
  rcases Nat.lt_or_gt_of_ne hne with a | a
  · have := hinc i j a hj; omega
  · have := hinc j i a hi; omega

theorem line_true (M : Mat K[X]) : line true M = M := rfl
theorem line_false (M : Mat K[X]) : line false M = tr M := rfl

theorem shiftOf_eq (shift : Option (Nat → Int)) : shift.getD (fun _ => 0) = shiftOf shift := by
  cases shift <;> rfl

/-- **C47**. `ROW_LOWER`: whatever the generator, the result is in shifted Popov form with exactly the
    requested pivot indices and degrees, `nmod_poly_mat_is_popov` accepts it, and entries
    outside of the matrix are not written. A `NULL` shift stands for zero, and
    a `NULL` `pivind` for `0, 1, 2, ...`. -/
theorem C47_rand_popov_row_lower [DecidableEq K] (g : σ → K × σ) (r c : Nat) (pivind : Option (Nat → Nat))
    (pivdeg : Nat → Int) (shift : Option (Nat → Int)) (dvec0 : Nat → Int) (M : Mat K[X]) (st : σ)
    (hpi : ∀ i, i < r → pivind.getD (fun i => i) i < c)
    (hinc : ∀ i j, i < j → j < r → pivind.getD (fun i => i) i < pivind.getD (fun i => i) j)
    (hpd : ∀ i, i < r → 0 ≤ pivdeg i) :
    ∃ M' st', randPopov .rowLower g r c pivind pivdeg shift dvec0 M st = some (M', st') ∧
      PopovWith r c (shiftOf shift) (pivind.getD fun i => i) pivdeg M' ∧
      PopovLower r c (shiftOf shift) M' ∧
      isPopov .rowLower r c M' shift = some true ∧
      ∀ i j, ¬(i < r ∧ j < c) → M' i j = M i j := by
  obtain ⟨h1, h2⟩ := popovLoop_spec true g (pivind.getD fun i => i) pivdeg (shiftOf shift) hpi hpd
    ((M, st), dvec0) r (le_refl _)
  have hw : PopovWith r c (shiftOf shift) (pivind.getD fun i => i) pivdeg
      (popovLoop true g (pivind.getD fun i => i) pivdeg (shiftOf shift) r c r ((M, st), dvec0)).1.1 :=
    (popovWith_iff hpi (inj_of_inc hinc)).2 h1
  refine ⟨_, _, by rw [randPopov, if_pos rfl, shiftOf_eq], hw, hw.popov hinc, ?_, h2⟩
  obtain ⟨b, hb1, hb2⟩ := (C31_is_popov_partial r c (popovLoop true g (pivind.getD fun i => i) pivdeg
    (shiftOf shift) r c r ((M, st), dvec0)).1.1 shift).1
  rw [hb1, hb2.2 (hw.popov hinc)]

/-- **C47**. `COL_UPPER`: the same on columns. -/
theorem C47_rand_popov_col_upper [DecidableEq K] (g : σ → K × σ) (r c : Nat) (pivind : Option (Nat → Nat))
    (pivdeg : Nat → Int) (shift : Option (Nat → Int)) (dvec0 : Nat → Int) (M : Mat K[X]) (st : σ)
    (hpi : ∀ j, j < c → pivind.getD (fun i => i) j < r)
    (hinc : ∀ i j, i < j → j < c → pivind.getD (fun i => i) i < pivind.getD (fun i => i) j)
    (hpd : ∀ j, j < c → 0 ≤ pivdeg j) :
    ∃ M' st', randPopov .colUpper g r c pivind pivdeg shift dvec0 M st = some (M', st') ∧
      PopovWith c r (shiftOf shift) (pivind.getD fun i => i) pivdeg (tr M') ∧
      PopovLower c r (shiftOf shift) (tr M') ∧
      isPopov .colUpper r c M' shift = some true ∧
      ∀ i j, ¬(i < r ∧ j < c) → M' i j = M i j := by
  obtain ⟨h1, h2⟩ := popovLoop_spec false g (pivind.getD fun i => i) pivdeg (shiftOf shift) hpi hpd
    ((M, st), dvec0) c (le_refl _)
  have hw : PopovWith c r (shiftOf shift) (pivind.getD fun i => i) pivdeg
      (tr (popovLoop false g (pivind.getD fun i => i) pivdeg (shiftOf shift) c r c ((M, st), dvec0)).1.1) :=
    (popovWith_iff hpi (inj_of_inc hinc)).2 h1
  refine ⟨_, _, by rw [randPopov, if_neg (by simp), if_pos rfl, shiftOf_eq], hw, hw.popov hinc, ?_,
    fun i j hij => h2 j i (by tauto)⟩
  obtain ⟨b, hb1, hb2⟩ := (C31_is_popov_partial r c (popovLoop false g (pivind.getD fun i => i) pivdeg
    (shiftOf shift) c r c ((M, st), dvec0)).1.1 shift).2.1
  rw [hb1, hb2.2 (hw.popov hinc)]

/-- C47: `nmod_poly_rand_monic` gives a monic polynomial of degree `len - 1`, or zero without drawing if `len ≤ 0`. -/
theorem C47_poly_rand_monic (g : σ → K × σ) (len : Int) (st : σ) :
    (len ≤ 0 → polyRandMonic g len st = (0, st)) ∧
    (0 < len → (polyRandMonic g len st).1.Monic ∧ ((polyRandMonic g len st).1.natDegree : Int) = len - 1) :=
  ⟨fun h => by unfold polyRandMonic; rw [if_pos h], fun h => polyRandMonic_spec g len h st⟩

/-- C47: the loops on degree constraints write within the `n` entries of `dvec`. -/
theorem C47_constraints_frame (pivind : Nat → Nat) (pivdeg shift : Nat → Int) (m n i : Nat) (d : Nat → Int)
    (hp : ∀ ii, ii < m → pivind ii < n) (hi : i < m) (j : Nat) (hj : n ≤ j) :
    constraints pivind pivdeg shift m n i d j = d j := by
  have hcap : ∀ k, k ≤ m → ∀ e : Nat → Int, capLoop pivind pivdeg k e j = e j := by
    intro k
    induction k with
    | zero => intro _ e; rfl
    | succ k ih =>
      intro hk e
      have := hp k (by omega)
      rw [capLoop]
      split_ifs
      · rw [Function.update_of_ne (by omega), ih (by omega)]
      · exact ih (by omega) e
  have := hp i hi
  unfold constraints
  rw [hcap m (le_refl _), setRange_apply, if_neg (by omega), setRange_apply, if_neg (by omega)]

/-- **C47**. The other orientations are rejected. -/
theorem C47_rand_popov_others (o : Orient) (ho : o = .rowUpper ∨ o = .colLower) (g : σ → K × σ) (r c : Nat)
    (pivind : Option (Nat → Nat)) (pivdeg : Nat → Int) (shift : Option (Nat → Int)) (dvec0 : Nat → Int)
    (M : Mat K[X]) (st : σ) : randPopov o g r c pivind pivdeg shift dvec0 M st = none := by
  rcases ho with rfl | rfl <;> rfl

/-- **C47**. No Popov form is missed (`ROW_LOWER`): each one with the requested profile is
    obtained from some sequence of values of the generator. -/
theorem C47_rand_popov_row_lower_reaches (r c : Nat) (pivind : Option (Nat → Nat))
    (pivdeg : Nat → Int) (shift : Option (Nat → Int)) (dvec0 : Nat → Int) (M : Mat K[X])
    (hpi : ∀ i, i < r → pivind.getD (fun i => i) i < c)
    (hinc : ∀ i j, i < j → j < r → pivind.getD (fun i => i) i < pivind.getD (fun i => i) j)
    (T : Mat K[X]) (hT : PopovWith r c (shiftOf shift) (pivind.getD fun i => i) pivdeg T) :
    ∃ (l : List K) (M' : Mat K[X]), randPopov .rowLower listGen r c pivind pivdeg shift dvec0 M l = some (M', []) ∧
      ∀ i j, i < r → j < c → M' i j = T i j := by
  obtain ⟨l, h⟩ := popovLoop_reach true (pivind.getD fun i => i) pivdeg (shiftOf shift) hpi T
    ((popovWith_iff hpi (inj_of_inc hinc)).1 hT) dvec0 M r (le_refl _)
  obtain ⟨M', h1, h2⟩ := h []
  refine ⟨l, M', ?_, h2⟩
  rw [List.append_nil] at h1
  rw [randPopov, if_pos rfl, shiftOf_eq]
  simp only [h1]

/-- **C47**. No Popov form is missed (`COL_UPPER`). -/
theorem C47_rand_popov_col_upper_reaches (r c : Nat) (pivind : Option (Nat → Nat))
    (pivdeg : Nat → Int) (shift : Option (Nat → Int)) (dvec0 : Nat → Int) (M : Mat K[X])
    (hpi : ∀ j, j < c → pivind.getD (fun i => i) j < r)
    (hinc : ∀ i j, i < j → j < c → pivind.getD (fun i => i) i < pivind.getD (fun i => i) j)
    (T : Mat K[X]) (hT : PopovWith c r (shiftOf shift) (pivind.getD fun i => i) pivdeg (tr T)) :
    ∃ (l : List K) (M' : Mat K[X]), randPopov .colUpper listGen r c pivind pivdeg shift dvec0 M l = some (M', []) ∧
      ∀ i j, i < r → j < c → M' i j = T i j := by
  obtain ⟨l, h⟩ := popovLoop_reach false (pivind.getD fun i => i) pivdeg (shiftOf shift) hpi (tr T)
    ((popovWith_iff hpi (inj_of_inc hinc)).1 hT) dvec0 M c (le_refl _)
  obtain ⟨M', h1, h2⟩ := h []
  refine ⟨l, M', ?_, fun i j hi hj => h2 j i hj hi⟩
  rw [List.append_nil] at h1
  rw [randPopov, if_neg (by simp), if_pos rfl, shiftOf_eq]
  simp only [h1]

/-! ### Degree bounds -/

theorem randRow_eq (g : σ → K × σ) (len : Nat → Int) (i k : Nat) (s : Mat K[X] × σ) :
    randRow g len i k s = fillLoop true g (fun j => len j - 1) i 0 k s := by
  induction k with
  | zero => rfl
  | succ k ih =>
    unfold randRow fillLoop
    simp only [ih, Nat.zero_add]
    rw [show 1 + (len k - 1) = len k by omega]

/-- **C54**. Matrices with prescribed lengths (one bound, or a bound per row, per column or per
    entry): each entry is zero or has degree less than its length, and nothing else is written. -/
theorem C54_rand_degree (g : σ → K × σ) (len : Nat → Nat → Int) (r c : Nat) (M : Mat K[X]) (st : σ) :
    (∀ i j, i < r → j < c → (randMat g len c r (M, st)).1 i j ≠ 0 →
      (((randMat g len c r (M, st)).1 i j).natDegree : Int) < len i j) ∧
    ∀ i j, ¬(i < r ∧ j < c) → (randMat g len c r (M, st)).1 i j = M i j := by
  induction r with
  | zero => exact ⟨fun i j hi => by omega, fun _ _ _ => rfl⟩
  | succ r ih =>
    have e : randMat g len c (r + 1) (M, st) = fillLoop true g (fun j => len r j - 1) r 0 c (randMat g len c r (M, st)) :=
      randRow_eq _ _ _ _ _
    rw [e]
    have sp := fillLoop_spec true g (fun j => len r j - 1) r 0 c (randMat g len c r (M, st))
    refine ⟨fun i j hi hj hnz => ?_, fun i j hij => ?_⟩
    · by_cases hir : i = r
      · subst hir
        have := (sp i j).1 ⟨rfl, by omega, by omega⟩ hnz
        rw [line_true] at this
        omega
      · have := (sp i j).2 (by omega)
        rw [line_true, line_true] at this
        rw [this] at hnz ⊢
        exact ih.1 i j (by omega) hj hnz
    · have := (sp i j).2 (by omega)
      rw [line_true, line_true] at this
      rw [this]
      exact ih.2 i j (by omega)

/-- **C54**. No matrix is missed. -/
theorem C54_rand_degree_reaches (len : Nat → Nat → Int) (r c : Nat) (M T : Mat K[X])
    (hT : ∀ i j, i < r → j < c → T i j ≠ 0 → ((T i j).natDegree : Int) < len i j) :
    ∃ l : List K, ∀ rest, ∃ M', randMat listGen len c r (M, l ++ rest) = (M', rest) ∧
      ∀ i j, i < r → j < c → M' i j = T i j := by
  induction r with
  | zero => exact ⟨[], fun rest => ⟨M, rfl, fun i j hi => by omega⟩⟩
  | succ r ih =>
    obtain ⟨l1, h1⟩ := ih fun i j hi => hT i j (by omega)
    obtain ⟨l2, h2⟩ := fillLoop_reach true (fun j => len r j - 1) r 0 (T r) c fun j _ hj hnz => by
      have := hT r j (by omega) (by omega) hnz
      omega
    refine ⟨l1 ++ l2, fun rest => ?_⟩
    obtain ⟨M1, e1, e2⟩ := h1 (l2 ++ rest)
    obtain ⟨M2, f1, f2⟩ := h2 M1 rest
    have e : randMat listGen len c (r + 1) (M, l1 ++ l2 ++ rest) = (M2, rest) := by
      rw [List.append_assoc]
      refine Eq.trans (randRow_eq _ _ _ _ _) ?_
      rw [e1, f1]
    refine ⟨M2, e, fun i j hi hj => ?_⟩
    by_cases hir : i = r
    · subst hir; exact f2 j (by omega) (by omega)
    · have := (fillLoop_spec true listGen (fun j => len r j - 1) r 0 c (M1, l2 ++ rest) i j).2 (by omega)
      rw [f1] at this
      exact Eq.trans this (e2 i j (by omega) hj)

/-! ### Concrete instances -/

/-- A 2 × 3 instance over `Z/5Z` with pivots 0 and 2, degrees 1 and 2, and shift `(0, 3, 1)`. -/
example : ∃ M' st', randPopov .rowLower (fun n : Nat => ((n : ZMod 5), n + 1)) 2 3 (some fun i => 2 * i)
    (fun i => (i : Int) + 1) (some fun j => if j = 1 then 3 else if j = 2 then 1 else 0) (fun _ => 7) (fun _ _ => 0) 0 =
      some (M', st') ∧ ((M' 1 2).Monic ∧ (M' 1 2).natDegree = 2) := by
  obtain ⟨M', st', h1, h2, -⟩ := C47_rand_popov_row_lower (fun n : Nat => ((n : ZMod 5), n + 1)) 2 3
    (some fun i => 2 * i) (fun i => (i : Int) + 1) (some fun j => if j = 1 then 3 else if j = 2 then 1 else 0)
    (fun _ => 7) (fun _ _ => 0) 0 (fun i hi => by show 2 * i < 3; omega) (fun i j h _ => by show 2 * i < 2 * j; omega)
    (fun i _ => by omega)
  obtain ⟨d, e1, e2⟩ := h2.pivot 1 (by omega)
  have e3 := e2.degree
  have e4 : (M' 1 2).natDegree = d := e3
  exact ⟨M', st', h1, h2.monic 1 (by omega), by omega⟩

/-- The identity is a Popov form with pivot degrees 0: the hypotheses of the converse are met. -/
example : ∃ (l : List (ZMod 5)) (M' : Mat (ZMod 5)[X]),
    randPopov .rowLower listGen 2 2 none (fun _ => 0) none (fun _ => 0) (fun _ _ => 0) l = some (M', []) ∧
      ∀ i j, i < 2 → j < 2 → M' i j = if i = j then 1 else 0 := by
  refine C47_rand_popov_row_lower_reaches 2 2 none (fun _ => 0) none (fun _ => 0) (fun _ _ => 0)
    (fun i hi => hi) (fun i j h _ => h) (fun i j => if i = j then 1 else 0)
    ((popovWith_iff (fun i hi => hi) (fun i j _ _ h => h)).2 fun i hi => ⟨?_, ?_, fun j hj hne hnz => ?_,
      fun j hj hne hnz => ?_⟩)
  · show Polynomial.Monic (if i = i then (1 : (ZMod 5)[X]) else 0)
    rw [if_pos rfl]; exact monic_one
  · show (((if i = i then (1 : (ZMod 5)[X]) else 0)).natDegree : Int) = 0
    rw [if_pos rfl]; simp
  · exact absurd (if_neg (fun h => hne h.symm)) hnz
  · exact absurd (if_neg (fun h => hne h.symm)) hnz

example : ∃ l : List (ZMod 5), ∀ rest, ∃ M' : Mat (ZMod 5)[X],
    randMat listGen (fun i j => (i : Int) - j + 1) 2 2 (fun _ _ => 0, l ++ rest) = (M', rest) ∧
      ∀ i j, i < 2 → j < 2 → M' i j = if j ≤ i then X ^ (i - j) else 0 :=
  C54_rand_degree_reaches _ 2 2 _ _ fun i j _ _ hnz => by
    by_cases h : j ≤ i
    · simp only [if_pos h]
      rw [natDegree_X_pow]; omega
    · simp only [if_neg h] at hnz; exact absurd rfl hnz

end PML.Rand
