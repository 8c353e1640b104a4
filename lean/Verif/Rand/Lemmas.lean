import Verif.Rand.Model
import Verif.Forms.Spec
import Mathlib.Algebra.Polynomial.Monic
import Mathlib.Data.List.GetD
import Mathlib.Algebra.Polynomial.Degree.Lemmas

/-!
# Lemmas on the random generators
-/

namespace PML.Rand

open PML.MatOps PML.Forms Polynomial

variable {K : Type} [Field K] {σ : Type}

theorem ofCoeffs_coeff (l : List K) (n : Nat) : (ofCoeffs l).coeff n = l.getD n 0 := by
  induction l generalizing n with
  | nil => simp [ofCoeffs]
  | cons a l ih =>
    cases n with
    | zero => simp [ofCoeffs]
    | succ n => simp [ofCoeffs, coeff_X_mul, ih, coeff_C_succ]

theorem vecRand_length (g : σ → K × σ) (n : Nat) (st : σ) : (vecRand g n st).1.length = n := by
  induction n generalizing st with
  | zero => rfl
  | succ n ih => simp [vecRand, ih]

theorem polyRand_spec (g : σ → K × σ) (len : Int) (st : σ) (h : (polyRand g len st).1 ≠ 0) :
    ((polyRand g len st).1.natDegree : Int) < len := by
  unfold polyRand at h ⊢
  by_cases hl : len ≤ 0
  · rw [if_pos hl] at h; exact absurd rfl h
  · rw [if_neg hl] at h ⊢
    have : (ofCoeffs (vecRand g len.toNat st).1).natDegree < len.toNat := by
      by_contra hc
      have h1 := ofCoeffs_coeff (vecRand g len.toNat st).1 (ofCoeffs (vecRand g len.toNat st).1).natDegree
      rw [List.getD_eq_default _ _ (by rw [vecRand_length]; omega), coeff_natDegree, leadingCoeff_eq_zero] at h1
      exact h h1
    show ((ofCoeffs (vecRand g len.toNat st).1).natDegree : Int) < len
    omega

theorem polyRandMonic_spec (g : σ → K × σ) (len : Int) (hl : 0 < len) (st : σ) :
    (polyRandMonic g len st).1.Monic ∧ ((polyRandMonic g len st).1.natDegree : Int) = len - 1 := by
  unfold polyRandMonic
  rw [if_neg (by omega)]
  have hlen := vecRand_length g (len.toNat - 1) st
  have hc : ∀ n, len.toNat - 1 < n → (ofCoeffs ((vecRand g (len.toNat - 1) st).1 ++ [1])).coeff n = 0 := by
    intro n hn
    rw [ofCoeffs_coeff, List.getD_eq_default]
    simp [hlen]; omega
  have h1 : (ofCoeffs ((vecRand g (len.toNat - 1) st).1 ++ [1])).coeff (len.toNat - 1) = 1 := by
    rw [ofCoeffs_coeff, List.getD_append_right _ _ _ _ (by omega)]
    simp [hlen]
  have hd : (ofCoeffs ((vecRand g (len.toNat - 1) st).1 ++ [1])).natDegree = len.toNat - 1 := by
    apply le_antisymm
    · rw [natDegree_le_iff_coeff_eq_zero]
      exact hc
    · apply le_natDegree_of_ne_zero
      rw [h1]; exact one_ne_zero
  refine ⟨?_, ?_⟩
  · show (ofCoeffs _).leadingCoeff = 1
    rw [leadingCoeff, hd, h1]
  · show ((ofCoeffs _).natDegree : Int) = _
    rw [hd]; omega

theorem line_put (row : Bool) (M : Mat K[X]) (k j : Nat) (p : K[X]) (a b : Nat) :
    line row (put row M k j p) a b = if a = k ∧ b = j then p else line row M a b := by
  cases row
  · simp only [line, put]
    by_cases h : a = k ∧ b = j
    · simp [h]
    · rw [if_neg h]
      simp only [Bool.false_eq_true, if_false]
      rw [if_neg (by tauto)]
  · simp only [line, put, if_true]

theorem setRange_apply (f : Nat → Int) (j0 k : Nat) (d : Nat → Int) (j : Nat) :
    setRange f j0 k d j = if j0 ≤ j ∧ j < j0 + k then f j else d j := by
  induction k with
  | zero => rw [if_neg (by omega)]; rfl
  | succ k ih =>
    unfold setRange
    by_cases hj : j = j0 + k
    · subst hj; simp
    · rw [Function.update_of_ne hj, ih]
      congr 1
      simp only [eq_iff_iff]
      omega

theorem le_capLoop (pivind : Nat → Nat) (pivdeg : Nat → Int) (k : Nat) (d : Nat → Int) (j : Nat) (e : Int) :
    e ≤ capLoop pivind pivdeg k d j ↔ e ≤ d j ∧ ∀ ii, ii < k → pivind ii = j → e < pivdeg ii := by
  induction k with
  | zero => simp [capLoop]
  | succ k ih =>
    have step : e ≤ capLoop pivind pivdeg (k + 1) d j ↔
        e ≤ capLoop pivind pivdeg k d j ∧ (pivind k = j → e < pivdeg k) := by
      show e ≤ (if capLoop pivind pivdeg k d (pivind k) ≥ pivdeg k then
          Function.update (capLoop pivind pivdeg k d) (pivind k) (pivdeg k - 1)
          else capLoop pivind pivdeg k d) j ↔ _
      by_cases hj : pivind k = j
      · subst hj
        by_cases hc : capLoop pivind pivdeg k d (pivind k) ≥ pivdeg k
        · simp only [if_pos hc, Function.update_self]
          constructor
          · intro h; exact ⟨by omega, fun _ => by omega⟩
          · rintro ⟨-, h⟩; have := h trivial; omega
        · simp only [if_neg hc]
          constructor
          · intro h; exact ⟨h, fun _ => by omega⟩
          · exact fun h => h.1
      · have : (if capLoop pivind pivdeg k d (pivind k) ≥ pivdeg k then
          Function.update (capLoop pivind pivdeg k d) (pivind k) (pivdeg k - 1)
          else capLoop pivind pivdeg k d) j = capLoop pivind pivdeg k d j := by
          split_ifs
          · rw [Function.update_of_ne (fun h => hj h.symm)]
          · rfl
        simp only [this]
        constructor
        · exact fun h => ⟨h, fun h' => absurd h' hj⟩
        · exact fun h => h.1
    rw [step, ih]
    constructor
    · rintro ⟨⟨h1, h2⟩, h3⟩
      refine ⟨h1, fun ii hii e1 => ?_⟩
      by_cases h : ii = k
      · subst h; exact h3 e1
      · exact h2 ii (by omega) e1
    · rintro ⟨h1, h2⟩
      exact ⟨⟨h1, fun ii hii => h2 ii (by omega)⟩, h2 k (by omega)⟩

/-- The degrees allowed by the constraints. -/
theorem le_constraints (pivind : Nat → Nat) (pivdeg shift : Nat → Int) (m n i : Nat) (d : Nat → Int) {j : Nat}
    (hj : j < n) (hji : j ≠ pivind i) (e : Int) :
    e ≤ constraints pivind pivdeg shift m n i d j ↔
      (e + shift j ≤ pivdeg i + shift (pivind i) ∧ (pivind i < j → e + shift j < pivdeg i + shift (pivind i))) ∧
      ∀ ii, ii < m → pivind ii = j → e < pivdeg ii := by
  unfold constraints
  simp only [le_capLoop, setRange_apply]
  refine and_congr_left fun _ => ?_
  by_cases h : j < pivind i
  · rw [if_neg (by omega), if_pos (by omega)]
    constructor
    · intro h1; exact ⟨by omega, by omega⟩
    · rintro ⟨h1, -⟩; omega
  · rw [if_pos (by omega)]
    constructor
    · intro h1; exact ⟨by omega, by omega⟩
    · rintro ⟨-, h1⟩; have := h1 (by omega); omega

/-! ### Loops: what is written -/

theorem fillLoop_spec (row : Bool) (g : σ → K × σ) (dvec : Nat → Int) (i j0 k : Nat) (s : Mat K[X] × σ) (a b : Nat) :
    (a = i ∧ j0 ≤ b ∧ b < j0 + k → line row (fillLoop row g dvec i j0 k s).1 a b ≠ 0 →
      ((line row (fillLoop row g dvec i j0 k s).1 a b).natDegree : Int) ≤ dvec b) ∧
    (¬(a = i ∧ j0 ≤ b ∧ b < j0 + k) → line row (fillLoop row g dvec i j0 k s).1 a b = line row s.1 a b) := by
  induction k with
  | zero => exact ⟨fun h => by omega, fun _ => rfl⟩
  | succ k ih =>
    have e : line row (fillLoop row g dvec i j0 (k + 1) s).1 a b = if a = i ∧ b = j0 + k then
        (polyRand g (1 + dvec (j0 + k)) (fillLoop row g dvec i j0 k s).2).1
        else line row (fillLoop row g dvec i j0 k s).1 a b := line_put _ _ _ _ _ _ _
    rw [e]
    by_cases h : a = i ∧ b = j0 + k
    · simp only [if_pos h]
      refine ⟨fun _ hp => ?_, fun hn => absurd ⟨h.1, by omega, by omega⟩ hn⟩
      have := polyRand_spec _ _ _ hp
      rw [h.2]; omega
    · simp only [if_neg h]
      refine ⟨fun h1 => ih.1 ⟨h1.1, h1.2.1, ?_⟩, fun h1 => ih.2 fun h2 => h1 ⟨h2.1, h2.2.1, by omega⟩⟩
      have : b ≠ j0 + k := fun hb => h ⟨h1.1, hb⟩
      omega

/-- Requirements on line `i`. -/
structure LineOK (pivind : Nat → Nat) (pivdeg shift : Nat → Int) (m n i : Nat) (p : Nat → K[X]) : Prop where
  monic : (p (pivind i)).Monic
  degree : ((p (pivind i)).natDegree : Int) = pivdeg i
  row : ∀ j, j < n → j ≠ pivind i → p j ≠ 0 →
    ((p j).natDegree : Int) + shift j ≤ pivdeg i + shift (pivind i) ∧
    (pivind i < j → ((p j).natDegree : Int) + shift j < pivdeg i + shift (pivind i))
  col : ∀ j, j < n → j ≠ pivind i → p j ≠ 0 → ∀ ii, ii < m → pivind ii = j → ((p j).natDegree : Int) < pivdeg ii

theorem fillLine_spec (row : Bool) (g : σ → K × σ) (pivind : Nat → Nat) (pivdeg shift : Nat → Int) {m n i : Nat}
    (hpi : pivind i < n) (hpd : 0 ≤ pivdeg i) (d : Nat → Int) (s : Mat K[X] × σ) :
    LineOK pivind pivdeg shift m n i
      (line row (fillLine row g pivind pivdeg (constraints pivind pivdeg shift m n i d) n i s).1 i) ∧
    ∀ a b, ¬(a = i ∧ b < n) →
      line row (fillLine row g pivind pivdeg (constraints pivind pivdeg shift m n i d) n i s).1 a b =
        line row s.1 a b := by
  generalize hdv : constraints pivind pivdeg shift m n i d = dvec
  unfold fillLine
  dsimp only
  have e1 := fillLoop_spec row g dvec i 0 (pivind i) s
  generalize fillLoop row g dvec i 0 (pivind i) s = s1 at e1 ⊢
  obtain ⟨hm1, hm2⟩ := polyRandMonic_spec g (1 + pivdeg i) (by omega) s1.2
  generalize polyRandMonic g (1 + pivdeg i) s1.2 = q at hm1 hm2 ⊢
  have e2 : ∀ a b, line row (put row s1.1 i (pivind i) q.1) a b =
      if a = i ∧ b = pivind i then q.1 else line row s1.1 a b := line_put _ _ _ _ _
  have e3 := fillLoop_spec row g dvec i (pivind i + 1) (n - (pivind i + 1)) (put row s1.1 i (pivind i) q.1, q.2)
  generalize fillLoop row g dvec i (pivind i + 1) (n - (pivind i + 1)) (put row s1.1 i (pivind i) q.1, q.2) = s3
    at e3 ⊢
  have hpiv : line row s3.1 i (pivind i) = q.1 := by
    rw [(e3 i (pivind i)).2 (by omega)]
    show line row (put row s1.1 i (pivind i) q.1) _ _ = _
    rw [e2, if_pos ⟨rfl, rfl⟩]
  have hother : ∀ j, j < n → j ≠ pivind i → line row s3.1 i j ≠ 0 →
      ((line row s3.1 i j).natDegree : Int) ≤ dvec j := by
    intro j hj hne hnz
    by_cases h : j < pivind i
    · have e4 := (e3 i j).2 (by omega)
      have e5 : line row s3.1 i j = line row s1.1 i j := by
        rw [e4]
        show line row (put row s1.1 i (pivind i) q.1) _ _ = _
        rw [e2, if_neg (fun h => hne h.2)]
      rw [e5] at hnz ⊢
      exact (e1 i j).1 ⟨rfl, by omega, by omega⟩ hnz
    · exact (e3 i j).1 ⟨rfl, by omega, by omega⟩ hnz
  refine ⟨⟨by rw [hpiv]; exact hm1, by rw [hpiv, hm2]; omega, fun j hj hne hnz => ?_, fun j hj hne hnz => ?_⟩,
    fun a b hab => ?_⟩
  · have := hother j hj hne hnz
    rw [← hdv, le_constraints pivind pivdeg shift m n i d hj hne] at this
    exact this.1
  · have := hother j hj hne hnz
    rw [← hdv, le_constraints pivind pivdeg shift m n i d hj hne] at this
    exact this.2
  · rw [(e3 a b).2 (by omega)]
    show line row (put row s1.1 i (pivind i) q.1) _ _ = _
    rw [e2, if_neg (by omega), (e1 a b).2 (by omega)]

theorem popovLoop_spec (row : Bool) (g : σ → K × σ) (pivind : Nat → Nat) (pivdeg shift : Nat → Int) {m n : Nat}
    (hpi : ∀ i, i < m → pivind i < n) (hpd : ∀ i, i < m → 0 ≤ pivdeg i) (s : (Mat K[X] × σ) × (Nat → Int)) :
    ∀ k, k ≤ m →
    (∀ i, i < k → LineOK pivind pivdeg shift m n i
      (line row (popovLoop row g pivind pivdeg shift m n k s).1.1 i)) ∧
    ∀ a b, ¬(a < k ∧ b < n) →
      line row (popovLoop row g pivind pivdeg shift m n k s).1.1 a b = line row s.1.1 a b := by
  intro k
  induction k with
  | zero => exact fun _ => ⟨fun i hi => by omega, fun _ _ _ => rfl⟩
  | succ k ih =>
    intro hk
    obtain ⟨h1, h2⟩ := ih (by omega)
    unfold popovLoop
    obtain ⟨h3, h4⟩ := fillLine_spec row g pivind pivdeg shift (m := m) (hpi k (by omega)) (hpd k (by omega))
      (popovLoop row g pivind pivdeg shift m n k s).2 (popovLoop row g pivind pivdeg shift m n k s).1
    refine ⟨fun i hi => ?_, fun a b hab => ?_⟩
    · by_cases hik : i = k
      · subst hik; exact h3
      · have : line row (fillLine row g pivind pivdeg (constraints pivind pivdeg shift m n k
          (popovLoop row g pivind pivdeg shift m n k s).2) n k (popovLoop row g pivind pivdeg shift m n k s).1).1 i =
          line row (popovLoop row g pivind pivdeg shift m n k s).1.1 i := by
          funext b
          exact h4 i b (by omega)
        show LineOK _ _ _ _ _ _ (line row (fillLine _ _ _ _ _ _ _ _).1 i)
        rw [this]
        exact h1 i (by omega)
    · show line row (fillLine _ _ _ _ _ _ _ _).1 a b = _
      rw [h4 a b (by omega), h2 a b (by omega)]

/-! ### Loops: what can be reached -/

/-- Generator reading a list. -/
def listGen : List K → K × List K
  | [] => (0, [])
  | a :: l => (a, l)

theorem vecRand_listGen (l rest : List K) : vecRand listGen l.length (l ++ rest) = (l, rest) := by
  induction l with
  | nil => rfl
  | cons a l ih => simp [vecRand, listGen, ih]

/-- The first `n` coefficients. -/
def coeffList (p : K[X]) (n : Nat) : List K := (List.range n).map p.coeff

theorem coeffList_length (p : K[X]) (n : Nat) : (coeffList p n).length = n := by simp [coeffList]

theorem coeffList_getD (p : K[X]) (n k : Nat) : (coeffList p n).getD k 0 = if k < n then p.coeff k else 0 := by
  unfold coeffList
  by_cases h : k < n
  · rw [if_pos h, List.getD_eq_getElem _ _ (by simpa using h)]; simp
  · rw [if_neg h, List.getD_eq_default _ _ (by simpa using h)]

theorem polyRand_reach (p : K[X]) (len : Int) (h : p ≠ 0 → (p.natDegree : Int) < len) :
    ∃ l : List K, ∀ rest, polyRand listGen len (l ++ rest) = (p, rest) := by
  by_cases hl : len ≤ 0
  · have hp : p = 0 := by by_contra hp; have := h hp; omega
    exact ⟨[], fun rest => by simp [polyRand, hl, hp]⟩
  · refine ⟨coeffList p len.toNat, fun rest => ?_⟩
    unfold polyRand
    rw [if_neg hl]
    have := vecRand_listGen (coeffList p len.toNat) rest
    rw [coeffList_length] at this
    rw [this]
    refine Prod.ext ?_ rfl
    show ofCoeffs (coeffList p len.toNat) = p
    ext k
    rw [ofCoeffs_coeff, coeffList_getD]
    split_ifs with hk
    · rfl
    · by_cases hp : p = 0
      · rw [hp, coeff_zero]
      · have := h hp
        exact (coeff_eq_zero_of_natDegree_lt (by omega)).symm

theorem polyRandMonic_reach (p : K[X]) (len : Int) (hm : p.Monic) (h : (p.natDegree : Int) = len - 1) :
    ∃ l : List K, ∀ rest, polyRandMonic listGen len (l ++ rest) = (p, rest) := by
  refine ⟨coeffList p (len.toNat - 1), fun rest => ?_⟩
  unfold polyRandMonic
  rw [if_neg (by omega)]
  have := vecRand_listGen (coeffList p (len.toNat - 1)) rest
  rw [coeffList_length] at this
  rw [this]
  refine Prod.ext ?_ rfl
  show ofCoeffs (coeffList p (len.toNat - 1) ++ [1]) = p
  ext k
  rw [ofCoeffs_coeff]
  by_cases hk : k < len.toNat - 1
  · rw [List.getD_append _ _ _ _ (by rw [coeffList_length]; exact hk), coeffList_getD, if_pos hk]
  · rw [List.getD_append_right _ _ _ _ (by rw [coeffList_length]; omega), coeffList_length]
    by_cases hk' : k = len.toNat - 1
    · subst hk'
      have : p.coeff (len.toNat - 1) = 1 := by
        have e : len.toNat - 1 = p.natDegree := by omega
        rw [e, coeff_natDegree]; exact hm
      simp [this]
    · rw [List.getD_eq_default _ _ (by simp; omega)]
      exact (coeff_eq_zero_of_natDegree_lt (by omega)).symm

theorem fillLoop_reach (row : Bool) (dvec : Nat → Int) (i j0 : Nat) (T : Nat → K[X]) :
    ∀ k, (∀ j, j0 ≤ j → j < j0 + k → T j ≠ 0 → ((T j).natDegree : Int) ≤ dvec j) →
    ∃ l : List K, ∀ M rest, ∃ M', fillLoop row listGen dvec i j0 k (M, l ++ rest) = (M', rest) ∧
      ∀ j, j0 ≤ j → j < j0 + k → line row M' i j = T j := by
  intro k
  induction k with
  | zero => exact fun _ => ⟨[], fun M rest => ⟨M, rfl, fun j h1 h2 => by omega⟩⟩
  | succ k ih =>
    intro h
    obtain ⟨l1, h1⟩ := ih fun j a b => h j a (by omega)
    obtain ⟨l2, h2⟩ := polyRand_reach (T (j0 + k)) (1 + dvec (j0 + k)) fun hp => by
      have := h (j0 + k) (by omega) (by omega) hp; omega
    refine ⟨l1 ++ l2, fun M rest => ?_⟩
    obtain ⟨M', e1, e2⟩ := h1 M (l2 ++ rest)
    rw [List.append_assoc]
    unfold fillLoop
    simp only [e1, h2]
    refine ⟨_, rfl, fun j a b => ?_⟩
    rw [line_put]
    by_cases hj : j = j0 + k
    · subst hj; simp
    · rw [if_neg (fun h => hj h.2)]
      exact e2 j a (by omega)

theorem fillLine_reach (row : Bool) (pivind : Nat → Nat) (pivdeg shift : Nat → Int) {m n i : Nat}
    (hpi : pivind i < n) (d : Nat → Int) (T : Nat → K[X])
    (hT : LineOK pivind pivdeg shift m n i T) :
    ∃ l : List K, ∀ M rest, ∃ M',
      fillLine row listGen pivind pivdeg (constraints pivind pivdeg shift m n i d) n i (M, l ++ rest) = (M', rest) ∧
      ∀ j, j < n → line row M' i j = T j := by
  have hle : ∀ j, j < n → j ≠ pivind i → T j ≠ 0 →
      ((T j).natDegree : Int) ≤ constraints pivind pivdeg shift m n i d j := fun j hj hne hnz =>
    (le_constraints pivind pivdeg shift m n i d hj hne _).2 ⟨hT.row j hj hne hnz, hT.col j hj hne hnz⟩
  generalize constraints pivind pivdeg shift m n i d = dvec at hle
  obtain ⟨l1, h1⟩ := fillLoop_reach row dvec i 0 T (pivind i) fun j _ hj => hle j (by omega) (by omega)
  obtain ⟨l2, h2⟩ := polyRandMonic_reach (T (pivind i)) (1 + pivdeg i) hT.monic (by rw [hT.degree]; omega)
  obtain ⟨l3, h3⟩ := fillLoop_reach row dvec i (pivind i + 1) T (n - (pivind i + 1))
    fun j hj hj' => hle j (by omega) (by omega)
  refine ⟨l1 ++ (l2 ++ l3), fun M rest => ?_⟩
  obtain ⟨M1, a1, a2⟩ := h1 M (l2 ++ (l3 ++ rest))
  obtain ⟨M3, b1, b2⟩ := h3 (put row M1 i (pivind i) (T (pivind i))) rest
  refine ⟨M3, ?_, fun j hj => ?_⟩
  · unfold fillLine
    simp only [List.append_assoc, a1, h2, b1]
  · by_cases hjp : pivind i < j
    · exact b2 j (by omega) (by omega)
    · have sp := (fillLoop_spec row listGen dvec i (pivind i + 1) (n - (pivind i + 1))
        (put row M1 i (pivind i) (T (pivind i)), l3 ++ rest) i j).2 (by omega)
      rw [b1] at sp
      have sp' : line row M3 i j = line row (put row M1 i (pivind i) (T (pivind i))) i j := sp
      rw [sp', line_put]
      by_cases hj' : j = pivind i
      · subst hj'; simp
      · rw [if_neg (fun h => hj' h.2)]
        exact a2 j (by omega) (by omega)

/-- Successive contents of `dvec`. -/
def conLoop (pivind : Nat → Nat) (pivdeg shift : Nat → Int) (m n : Nat) (d : Nat → Int) : Nat → (Nat → Int)
  | 0 => d
  | i + 1 => constraints pivind pivdeg shift m n i (conLoop pivind pivdeg shift m n d i)

theorem popovLoop_reach (row : Bool) (pivind : Nat → Nat) (pivdeg shift : Nat → Int) {m n : Nat}
    (hpi : ∀ i, i < m → pivind i < n) (T : Nat → Nat → K[X])
    (hT : ∀ i, i < m → LineOK pivind pivdeg shift m n i (T i)) (d0 : Nat → Int) (M : Mat K[X]) :
    ∀ k, k ≤ m → ∃ l : List K, ∀ rest, ∃ M',
      popovLoop row listGen pivind pivdeg shift m n k ((M, l ++ rest), d0) =
        ((M', rest), conLoop pivind pivdeg shift m n d0 k) ∧
      ∀ i j, i < k → j < n → line row M' i j = T i j := by
  intro k
  induction k with
  | zero => exact fun _ => ⟨[], fun rest => ⟨M, rfl, fun i j hi => by omega⟩⟩
  | succ k ih =>
    intro hk
    obtain ⟨l1, h1⟩ := ih (by omega)
    obtain ⟨l2, h2⟩ := fillLine_reach row pivind pivdeg shift (hpi k (by omega))
      (conLoop pivind pivdeg shift m n d0 k) (T k) (hT k (by omega))
    refine ⟨l1 ++ l2, fun rest => ?_⟩
    obtain ⟨M1, e1, e2⟩ := h1 (l2 ++ rest)
    obtain ⟨M2, f1, f2⟩ := h2 M1 rest
    refine ⟨M2, ?_, fun i j hi hj => ?_⟩
    · unfold popovLoop
      simp only [List.append_assoc, e1, f1]
      rfl
    · by_cases hik : i = k
      · subst hik; exact f2 j hj
      · have hd := (hT k (by omega)).degree
        have := (fillLine_spec row listGen pivind pivdeg shift (m := m) (hpi k (by omega)) (by omega)
          (conLoop pivind pivdeg shift m n d0 k) (M1, l2 ++ rest)).2 i j (by omega)
        rw [f1] at this
        rw [show line row M2 i j = line row M1 i j from this]
        exact e2 i j (by omega) hj

end PML.Rand
