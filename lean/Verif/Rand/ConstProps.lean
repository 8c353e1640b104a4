import Verif.Rand.ConstModel
import Verif.Forms.Props
import Verif.PolyMul.Spec
import Verif.Common.Prime
import Mathlib.LinearAlgebra.Matrix.Rank

/-!
# Properties of the random echelon forms
-/

namespace PML.Rand

open PML.MatOps PML.Forms PML.PolyMul.Spec

set_option linter.unusedSectionVars false

variable {K : Type} [Field K] {σ : Type}

/-! ### Specification -/

/-- Lower row echelon form of rank `rk`: in the first `rk` rows the rightmost nonzero
    entries are at the increasing positions `piv`, the other rows are zero. -/
structure LowerEchelon (r c rk : Nat) (piv : Nat → Nat) (M : Mat K) : Prop where
  le : rk ≤ r
  lt : ∀ i, i < rk → piv i < c
  increasing : ∀ i k, i < k → k < rk → piv i < piv k
  nonzero : ∀ i, i < rk → M i (piv i) ≠ 0
  after : ∀ i j, i < rk → piv i < j → j < c → M i j = 0
  zeroRows : ∀ i j, rk ≤ i → i < r → j < c → M i j = 0

/-- Upper row echelon form of rank `rk`: leftmost nonzero entries. -/
structure UpperEchelon (r c rk : Nat) (piv : Nat → Nat) (M : Mat K) : Prop where
  le : rk ≤ r
  lt : ∀ i, i < rk → piv i < c
  increasing : ∀ i k, i < k → k < rk → piv i < piv k
  nonzero : ∀ i, i < rk → M i (piv i) ≠ 0
  before : ∀ i j, i < rk → j < piv i → M i j = 0
  zeroRows : ∀ i j, rk ≤ i → i < r → j < c → M i j = 0

/-- Unit pivots, alone in their columns. -/
structure ReducedPivots (rk : Nat) (piv : Nat → Nat) (M : Mat K) : Prop where
  one : ∀ i, i < rk → M i (piv i) = 1
  clear : ∀ i k, i < rk → k < rk → k ≠ i → M k (piv i) = 0

/-! ### Rank -/

/-- Independent rows followed by zero rows. -/
theorem rank_of_rows {r c rk : Nat} {M : Mat K} (hle : rk ≤ r)
    (hz : ∀ i j, rk ≤ i → i < r → j < c → M i j = 0)
    (hind : ∀ u : Nat → K, (∀ j, j < c → ∑ i ∈ Finset.range rk, u i * M i j = 0) → ∀ i, i < rk → u i = 0) :
    (asMatrix r c M).rank = rk := by
  have hli : LinearIndependent K (fun i : Fin rk => (asMatrix r c M).row ⟨i, by omega⟩) := by
    rw [Fintype.linearIndependent_iff]
    intro g hg i
    have := hind (fun k => if hk : k < rk then g ⟨k, hk⟩ else 0) (fun j hj => by
      have := congrFun hg ⟨j, hj⟩
      rw [Finset.sum_apply] at this
      rw [Finset.sum_range]
      simpa [Matrix.row, asMatrix] using this) i i.2
    simpa using this
  rw [Matrix.rank_eq_finrank_span_row]
  have hs : Submodule.span K (Set.range (asMatrix r c M).row) =
      Submodule.span K (Set.range fun i : Fin rk => (asMatrix r c M).row ⟨i, by omega⟩) := by
    apply le_antisymm
    · refine Submodule.span_le.2 ?_
      rintro _ ⟨i, rfl⟩
      by_cases hi : (i : Nat) < rk
      · exact Submodule.subset_span ⟨⟨i, hi⟩, rfl⟩
      · have : (asMatrix r c M).row i = 0 := by
          funext j
          exact hz i j (by omega) i.2 j.2
        rw [this]
        exact Submodule.zero_mem _
    · refine Submodule.span_mono ?_
      rintro _ ⟨i, rfl⟩
      exact ⟨_, rfl⟩
  rw [hs, finrank_span_eq_card hli, Fintype.card_fin]

theorem LowerEchelon.rank {r c rk : Nat} {piv : Nat → Nat} {M : Mat K} (h : LowerEchelon r c rk piv M) :
    (asMatrix r c M).rank = rk := by
  refine rank_of_rows h.le h.zeroRows fun u hu => ?_
  have key : ∀ n, ∀ i, i < rk → rk ≤ i + n → u i = 0 := by
    intro n
    induction n with
    | zero => intro i h1 h2; omega
    | succ n ih =>
      intro i hi hn
      have := hu (piv i) (h.lt i hi)
      rw [Finset.sum_eq_single i] at this
      · exact (mul_eq_zero.1 this).resolve_right (h.nonzero i hi)
      · intro k hk hki
        have hk := Finset.mem_range.1 hk
        rcases Nat.lt_or_gt_of_ne hki with hlt | hgt
        · rw [h.after k (piv i) hk (h.increasing k i hlt hi) (h.lt i hi), mul_zero]
        · rw [ih k hk (by omega), zero_mul]
      · intro hni; exact absurd (Finset.mem_range.2 hi) hni
  exact fun i hi => key rk i hi (by omega)

theorem UpperEchelon.rank {r c rk : Nat} {piv : Nat → Nat} {M : Mat K} (h : UpperEchelon r c rk piv M) :
    (asMatrix r c M).rank = rk := by
  refine rank_of_rows h.le h.zeroRows fun u hu => ?_
  have key : ∀ n, ∀ i, i < rk → i < n → u i = 0 := by
    intro n
    induction n with
    | zero => intro i h1 h2; omega
    | succ n ih =>
      intro i hi hn
      have := hu (piv i) (h.lt i hi)
      rw [Finset.sum_eq_single i] at this
      · exact (mul_eq_zero.1 this).resolve_right (h.nonzero i hi)
      · intro k hk hki
        have hk := Finset.mem_range.1 hk
        rcases Nat.lt_or_gt_of_ne hki with hlt | hgt
        · rw [ih k hk (by omega), zero_mul]
        · rw [h.before k (piv i) hk (h.increasing i k hgt hk), mul_zero]
      · intro hni; exact absurd (Finset.mem_range.2 hi) hni
  exact fun i hi => key rk i hi hi

/-! ### Loops -/

theorem setEntry_apply (M : Mat K) (i j : Nat) (x : K) (a b : Nat) :
    setEntry M i j x a b = if a = i ∧ b = j then x else M a b := rfl

theorem rndLoop_other (g : σ → K × σ) (i j0 k : Nat) (s : Mat K × σ) (a b : Nat)
    (h : ¬(a = i ∧ j0 ≤ b ∧ b < j0 + k)) : (rndLoop g i j0 k s).1 a b = s.1 a b := by
  induction k with
  | zero => rfl
  | succ k ih =>
    show setEntry _ _ _ _ _ _ = _
    rw [setEntry_apply, if_neg (by omega), ih (by omega)]

theorem zeroLoop_apply (i j0 k : Nat) (M : Mat K) (a b : Nat) :
    zeroLoop i j0 k M a b = if a = i ∧ j0 ≤ b ∧ b < j0 + k then 0 else M a b := by
  induction k with
  | zero => rw [if_neg (by omega)]; rfl
  | succ k ih =>
    show setEntry _ _ _ _ _ _ = _
    rw [setEntry_apply, ih]
    split_ifs <;> first | rfl | omega

theorem zeroCol_apply (j i0 k : Nat) (M : Mat K) (a b : Nat) :
    zeroCol j i0 k M a b = if b = j ∧ i0 ≤ a ∧ a < i0 + k then 0 else M a b := by
  induction k with
  | zero => rw [if_neg (by omega)]; rfl
  | succ k ih =>
    show setEntry _ _ _ _ _ _ = _
    rw [setEntry_apply, ih]
    split_ifs <;> first | rfl | omega

theorem zeroRows_apply (c i0 k : Nat) (M : Mat K) (a b : Nat) :
    zeroRows c i0 k M a b = if i0 ≤ a ∧ a < i0 + k ∧ b < c then 0 else M a b := by
  induction k with
  | zero => rw [if_neg (by omega)]; rfl
  | succ k ih =>
    show zeroLoop _ _ _ _ _ _ = _
    rw [zeroLoop_apply, ih]
    split_ifs <;> first | rfl | omega

variable [DecidableEq K]

theorem pivotEntry_spec (g : σ → K × σ) (unit : Bool) (M : Mat K) (i j : Nat) (st : σ) :
    (pivotEntry g unit M i j st).1 i j ≠ 0 ∧ (unit = true → (pivotEntry g unit M i j st).1 i j = 1) ∧
    ∀ a b, ¬(a = i ∧ b = j) → (pivotEntry g unit M i j st).1 a b = M a b := by
  unfold pivotEntry
  simp only
  split_ifs with h
  · refine ⟨?_, fun _ => ?_, fun a b hab => ?_⟩
    · rw [setEntry_apply, if_pos ⟨rfl, rfl⟩]; exact one_ne_zero
    · rw [setEntry_apply, if_pos ⟨rfl, rfl⟩]
    · rw [setEntry_apply, if_neg hab, setEntry_apply, if_neg hab]
  · push Not at h
    refine ⟨h.2, fun hu => absurd hu h.1, fun a b hab => ?_⟩
    rw [setEntry_apply, if_neg hab]

/-! ### Pivots -/

theorem choosePivots_spec {pr : PermFn σ} (hpr : PermOK pr) {qs : QsortIntFn} (hqs : QsortIntContract qs) {c rank : Nat}
    (h : rank ≤ c) (st : σ) : (∀ i, i < rank → (choosePivots pr qs c rank st).1 i < c) ∧
    ∀ i k, i < k → k < rank → (choosePivots pr qs c rank st).1 i < (choosePivots pr qs c rank st).1 k := by
  obtain ⟨h1, h2⟩ := hpr c st
  unfold choosePivots
  dsimp only
  generalize (pr c st).1 = t at h1 h2 ⊢
  obtain ⟨hp, hs⟩ := hqs ((List.range rank).map fun i => (t i : Int))
  generalize qs ((List.range rank).map fun i => (t i : Int)) = l at hp hs ⊢
  have hlen : l.length = rank := by rw [hp.length_eq]; simp
  have hnd : l.Nodup := by
    rw [hp.nodup_iff]
    refine List.Nodup.map_on (fun x hx y hy hxy => ?_) List.nodup_range
    simp only [List.mem_range] at hx hy
    exact h2 x y (by omega) (by omega) (by exact_mod_cast hxy)
  have hmem : ∀ x, x ∈ l → 0 ≤ x ∧ x < c := by
    intro x hx
    rw [hp.mem_iff, List.mem_map] at hx
    obtain ⟨i, hi, rfl⟩ := hx
    have := h1 i (by have := List.mem_range.1 hi; omega)
    omega
  have hget : ∀ i (hi : i < rank), l.getD i 0 = l[i]'(by omega) := fun i hi => by
    simp [List.getD, hlen, hi]
  have hin : ∀ i, i < rank → 0 ≤ l.getD i 0 ∧ l.getD i 0 < c := fun i hi => by
    rw [hget i hi]; exact hmem _ (List.getElem_mem _)
  refine ⟨fun i hi => ?_, fun i k hik hk => ?_⟩
  · show (l.getD i 0).toNat < c
    have := hin i hi
    omega
  · show (l.getD i 0).toNat < (l.getD k 0).toNat
    have a := hin i (by omega)
    have b := hin k hk
    have hle : l.getD i 0 ≤ l.getD k 0 := by
      rw [hget i (by omega), hget k hk]
      exact List.pairwise_iff_getElem.1 hs i k (by omega) (by omega) hik
    have hne : l.getD i 0 ≠ l.getD k 0 := by
      rw [hget i (by omega), hget k hk]
      intro e
      have := (List.Nodup.getElem_inj_iff hnd).1 e
      omega
    omega

/-! ### Rows -/

theorem upLoop_rows {P : Nat → (Nat → K) → Prop} {row : Nat → Mat K × σ → Mat K × σ} {c n : Nat}
    (h1 : ∀ i s, i < n → P i ((row i s).1 i))
    (h2 : ∀ i s a b, i < n → ¬(a = i ∧ b < c) → (row i s).1 a b = s.1 a b) (s : Mat K × σ) :
    ∀ k, k ≤ n → (∀ i, i < k → P i ((upLoop row k s).1 i)) ∧
      ∀ a b, ¬(a < k ∧ b < c) → (upLoop row k s).1 a b = s.1 a b := by
  intro k
  induction k with
  | zero => exact fun _ => ⟨fun i hi => by omega, fun _ _ _ => rfl⟩
  | succ k ih =>
    intro hk
    obtain ⟨a1, a2⟩ := ih (by omega)
    refine ⟨fun i hi => ?_, fun a b hab => ?_⟩
    · show P i ((row k (upLoop row k s)).1 i)
      by_cases hik : i = k
      · subst hik; exact h1 i _ (by omega)
      · have : (row k (upLoop row k s)).1 i = (upLoop row k s).1 i := by
          funext b
          exact h2 k _ i b (by omega) (by omega)
        rw [this]
        exact a1 i (by omega)
    · show (row k (upLoop row k s)).1 a b = _
      rw [h2 k _ a b (by omega) (by omega), a2 a b (by omega)]

/-- **C55**. `nmod_mat_rand_lref` gives a lower row echelon form of the requested rank, with unit
    pivots if `unit`, and writes only entries of the matrix; an impossible rank is rejected. -/
theorem C55_rand_lref {pr : PermFn σ} (hpr : PermOK pr) {qs : QsortIntFn} (hqs : QsortIntContract qs)
    (g : σ → K × σ) (r c : Nat) (rank : Int) (unit : Bool) (M : Mat K) (st : σ) :
    (¬(0 ≤ rank ∧ rank ≤ r ∧ rank ≤ c) → randLref pr qs g r c rank unit M st = none) ∧
    (0 ≤ rank → rank ≤ r → rank ≤ c → ∃ M' st' piv, randLref pr qs g r c rank unit M st = some ((M', st'), piv) ∧
      LowerEchelon r c rank.toNat piv M' ∧ ((asMatrix r c M').rank : Int) = rank ∧
      (unit = true → ∀ i, i < rank.toNat → M' i (piv i) = 1) ∧
      ∀ i j, ¬(i < r ∧ j < c) → M' i j = M i j) := by
  unfold randLref randEchelon
  refine ⟨fun h => if_pos (by omega), fun h0 h1 h2 => ?_⟩
  rw [if_neg (by omega)]
  dsimp only
  obtain ⟨p1, p2⟩ := choosePivots_spec hpr hqs (rank := rank.toNat) (by omega : rank.toNat ≤ c) st
  generalize choosePivots pr qs c rank.toNat st = piv at p1 p2 ⊢
  obtain ⟨a1, a2⟩ := upLoop_rows (n := rank.toNat) (c := c) (row := lrefRow g unit c piv.1)
    (P := fun i p => p (piv.1 i) ≠ 0 ∧ (unit = true → p (piv.1 i) = 1) ∧ ∀ j, piv.1 i < j → j < c → p j = 0)
    (fun i s hi => by
      have hpi := p1 i hi
      unfold lrefRow
      obtain ⟨e1, e2, e3⟩ := pivotEntry_spec g unit (rndLoop g i 0 (piv.1 i) s).1 i (piv.1 i)
        (rndLoop g i 0 (piv.1 i) s).2
      refine ⟨?_, fun hu => ?_, fun j hj hjc => ?_⟩
      · simp only [zeroLoop_apply]; rw [if_neg (by omega)]; exact e1
      · simp only [zeroLoop_apply]; rw [if_neg (by omega)]; exact e2 hu
      · show zeroLoop _ _ _ _ i j = 0
        rw [zeroLoop_apply, if_pos ⟨rfl, by omega, by omega⟩])
    (fun i s a b hi hab => by
      have hpi := p1 i hi
      unfold lrefRow
      obtain ⟨e1, e2, e3⟩ := pivotEntry_spec g unit (rndLoop g i 0 (piv.1 i) s).1 i (piv.1 i)
        (rndLoop g i 0 (piv.1 i) s).2
      simp only [zeroLoop_apply]
      rw [if_neg (by omega), e3 a b (by omega), rndLoop_other _ _ _ _ _ _ _ (by omega)])
    (M, piv.2) rank.toNat (le_refl _)
  generalize upLoop (lrefRow g unit c piv.1) rank.toNat (M, piv.2) = s at a1 a2 ⊢
  have hE : LowerEchelon r c rank.toNat piv.1 (zeroRows c rank.toNat (r - rank.toNat) s.1) := by
    refine ⟨by omega, p1, p2, fun i hi => ?_, fun i j hi hj hjc => ?_, fun i j hi hir hj => ?_⟩
    · rw [zeroRows_apply, if_neg (by omega)]; exact (a1 i hi).1
    · rw [zeroRows_apply, if_neg (by omega)]; exact (a1 i hi).2.2 j hj hjc
    · rw [zeroRows_apply, if_pos (by omega)]
  refine ⟨_, _, _, rfl, hE, by rw [hE.rank]; omega, fun hu i hi => ?_, fun i j hij => ?_⟩
  · rw [zeroRows_apply, if_neg (by omega)]; exact (a1 i hi).2.1 hu
  · rw [zeroRows_apply, if_neg (by omega)]; exact a2 i j (by omega)

/-- **C55**. `nmod_mat_rand_uref`. -/
theorem C55_rand_uref {pr : PermFn σ} (hpr : PermOK pr) {qs : QsortIntFn} (hqs : QsortIntContract qs)
    (g : σ → K × σ) (r c : Nat) (rank : Int) (unit : Bool) (M : Mat K) (st : σ) :
    (¬(0 ≤ rank ∧ rank ≤ r ∧ rank ≤ c) → randUref pr qs g r c rank unit M st = none) ∧
    (0 ≤ rank → rank ≤ r → rank ≤ c → ∃ M' st' piv, randUref pr qs g r c rank unit M st = some ((M', st'), piv) ∧
      UpperEchelon r c rank.toNat piv M' ∧ ((asMatrix r c M').rank : Int) = rank ∧
      (unit = true → ∀ i, i < rank.toNat → M' i (piv i) = 1) ∧
      ∀ i j, ¬(i < r ∧ j < c) → M' i j = M i j) := by
  unfold randUref randEchelon
  refine ⟨fun h => if_pos (by omega), fun h0 h1 h2 => ?_⟩
  rw [if_neg (by omega)]
  dsimp only
  obtain ⟨p1, p2⟩ := choosePivots_spec hpr hqs (rank := rank.toNat) (by omega : rank.toNat ≤ c) st
  generalize choosePivots pr qs c rank.toNat st = piv at p1 p2 ⊢
  obtain ⟨a1, a2⟩ := upLoop_rows (n := rank.toNat) (c := c) (row := urefRow g unit c piv.1)
    (P := fun i p => p (piv.1 i) ≠ 0 ∧ (unit = true → p (piv.1 i) = 1) ∧ ∀ j, j < piv.1 i → p j = 0)
    (fun i s hi => by
      have hpi := p1 i hi
      unfold urefRow
      obtain ⟨e1, e2, e3⟩ := pivotEntry_spec g unit (zeroLoop i 0 (piv.1 i) s.1) i (piv.1 i) s.2
      refine ⟨?_, fun hu => ?_, fun j hj => ?_⟩
      · rw [rndLoop_other _ _ _ _ _ _ _ (by omega)]; exact e1
      · rw [rndLoop_other _ _ _ _ _ _ _ (by omega)]; exact e2 hu
      · rw [rndLoop_other _ _ _ _ _ _ _ (by omega), e3 i j (by omega), zeroLoop_apply, if_pos (by omega)])
    (fun i s a b hi hab => by
      have hpi := p1 i hi
      unfold urefRow
      obtain ⟨e1, e2, e3⟩ := pivotEntry_spec g unit (zeroLoop i 0 (piv.1 i) s.1) i (piv.1 i) s.2
      rw [rndLoop_other _ _ _ _ _ _ _ (by omega), e3 a b (by omega), zeroLoop_apply, if_neg (by omega)])
    (M, piv.2) rank.toNat (le_refl _)
  generalize upLoop (urefRow g unit c piv.1) rank.toNat (M, piv.2) = s at a1 a2 ⊢
  have hE : UpperEchelon r c rank.toNat piv.1 (zeroRows c rank.toNat (r - rank.toNat) s.1) := by
    refine ⟨by omega, p1, p2, fun i hi => ?_, fun i j hi hj => ?_, fun i j hi hir hj => ?_⟩
    · rw [zeroRows_apply, if_neg (by omega)]; exact (a1 i hi).1
    · rw [zeroRows_apply, if_neg (by omega)]; exact (a1 i hi).2.2 j hj
    · rw [zeroRows_apply, if_pos (by omega)]
  refine ⟨_, _, _, rfl, hE, by rw [hE.rank]; omega, fun hu i hi => ?_, fun i j hij => ?_⟩
  · rw [zeroRows_apply, if_neg (by omega)]; exact (a1 i hi).2.1 hu
  · rw [zeroRows_apply, if_neg (by omega)]; exact a2 i j (by omega)

/-- Rows processed in increasing order by `nmod_mat_rand_urref`. -/
theorem urref_loop (g : σ → K × σ) {c n : Nat} {piv : Nat → Nat} (p1 : ∀ i, i < n → piv i < c)
    (p2 : ∀ i k, i < k → k < n → piv i < piv k) (s : Mat K × σ) : ∀ k, k ≤ n →
    (∀ i, i < k → (upLoop (urrefRow g c piv) k s).1 i (piv i) = 1 ∧
      ∀ j, j < piv i → (upLoop (urrefRow g c piv) k s).1 i j = 0) ∧
    (∀ i i', i < k → i' < k → i' ≠ i → (upLoop (urrefRow g c piv) k s).1 i' (piv i) = 0) ∧
    ∀ a b, ¬(a < k ∧ b < c) → (upLoop (urrefRow g c piv) k s).1 a b = s.1 a b := by
  intro k
  induction k with
  | zero => exact fun _ => ⟨fun i hi => by omega, fun i i' hi => by omega, fun _ _ _ => rfl⟩
  | succ k ih =>
    intro hk
    obtain ⟨a1, a2, a3⟩ := ih (by omega)
    show (∀ i, i < k + 1 → (urrefRow g c piv k (upLoop (urrefRow g c piv) k s)).1 i (piv i) = 1 ∧
      ∀ j, j < piv i → (urrefRow g c piv k (upLoop (urrefRow g c piv) k s)).1 i j = 0) ∧
      (∀ i i', i < k + 1 → i' < k + 1 → i' ≠ i →
        (urrefRow g c piv k (upLoop (urrefRow g c piv) k s)).1 i' (piv i) = 0) ∧
      ∀ a b, ¬(a < k + 1 ∧ b < c) → (urrefRow g c piv k (upLoop (urrefRow g c piv) k s)).1 a b = s.1 a b
    generalize upLoop (urrefRow g c piv) k s = t at a1 a2 a3
    have hpk := p1 k (by omega)
    -- entries of the new matrix
    have e : ∀ a b, (a ≠ k ∨ b ≤ piv k ∨ c ≤ b) → (urrefRow g c piv k t).1 a b =
        if b = piv k ∧ a < k then 0 else if a = k ∧ b = piv k then 1 else if a = k ∧ b < piv k then 0 else t.1 a b := by
      intro a b hab
      unfold urrefRow
      simp only
      rw [zeroCol_apply, rndLoop_other _ _ _ _ _ _ _ (by omega)]
      simp only [setEntry_apply, zeroLoop_apply]
      split_ifs <;> first | rfl | omega
    refine ⟨fun i hi => ?_, fun i i' hi hi' hne => ?_, fun a b hab => ?_⟩
    · by_cases hik : i = k
      · subst hik
        refine ⟨?_, fun j hj => ?_⟩
        · rw [e i (piv i) (by omega), if_neg (by omega), if_pos (by omega)]
        · rw [e i j (by omega), if_neg (by omega), if_neg (by omega), if_pos (by omega)]
      · have := p2 i k (by omega) (by omega)
        refine ⟨?_, fun j hj => ?_⟩
        · rw [e i (piv i) (by omega), if_neg (by omega), if_neg (by omega), if_neg (by omega)]
          exact (a1 i (by omega)).1
        · rw [e i j (by omega), if_neg (by omega), if_neg (by omega), if_neg (by omega)]
          exact (a1 i (by omega)).2 j hj
    · by_cases hi'k : i' = k
      · subst hi'k
        have := p2 i i' (by omega) (by omega)
        rw [e i' (piv i) (by omega), if_neg (by omega), if_neg (by omega), if_pos (by omega)]
      · rw [e i' (piv i) (by omega)]
        by_cases hik : i = k
        · subst hik; rw [if_pos (by omega)]
        · have := p2 i k (by omega) (by omega)
          rw [if_neg (by omega), if_neg (by omega), if_neg (by omega)]
          exact a2 i i' (by omega) (by omega) hne
    · rw [e a b (by omega), if_neg (by omega), if_neg (by omega), if_neg (by omega)]
      exact a3 a b (by omega)

/-- Rows processed in decreasing order by `nmod_mat_rand_lrref`. -/
theorem lrref_loop (g : σ → K × σ) {c n : Nat} {piv : Nat → Nat} (p1 : ∀ i, i < n → piv i < c)
    (p2 : ∀ i k, i < k → k < n → piv i < piv k) : ∀ k, k ≤ n → ∀ s : Mat K × σ,
    (∀ i, k ≤ i → i < n → s.1 i (piv i) = 1 ∧ ∀ j, piv i < j → j < c → s.1 i j = 0) →
    (∀ i i', k ≤ i → k ≤ i' → i < n → i' < n → i' ≠ i → s.1 i' (piv i) = 0) →
    (∀ i, i < n → (downLoop (lrrefRow g c n piv) k s).1 i (piv i) = 1 ∧
      ∀ j, piv i < j → j < c → (downLoop (lrrefRow g c n piv) k s).1 i j = 0) ∧
    (∀ i i', i < n → i' < n → i' ≠ i → (downLoop (lrrefRow g c n piv) k s).1 i' (piv i) = 0) ∧
    ∀ a b, ¬(a < n ∧ b < c) → (downLoop (lrrefRow g c n piv) k s).1 a b = s.1 a b := by
  intro k
  induction k with
  | zero => exact fun _ s h1 h2 => ⟨fun i hi => h1 i (by omega) hi, fun i i' hi hi' => h2 i i' (by omega) (by omega) hi hi',
      fun _ _ _ => rfl⟩
  | succ k ih =>
    intro hk s h1 h2
    have hpk := p1 k (by omega)
    have e : ∀ a b, (a ≠ k ∨ piv k ≤ b) → (lrrefRow g c n piv k s).1 a b =
        if b = piv k ∧ k < a ∧ a < n then 0 else if a = k ∧ piv k < b ∧ b < c then 0
        else if a = k ∧ b = piv k then 1 else s.1 a b := by
      intro a b hab
      unfold lrrefRow
      simp only
      rw [zeroCol_apply]
      simp only [zeroLoop_apply, setEntry_apply]
      rw [rndLoop_other _ _ _ _ _ _ _ (by omega)]
      split_ifs <;> first | rfl | omega
    obtain ⟨b1, b2, b3⟩ := ih (by omega) (lrrefRow g c n piv k s) (fun i hki hi => by
      by_cases hik : i = k
      · subst hik
        refine ⟨?_, fun j hj hjc => ?_⟩
        · rw [e i (piv i) (by omega), if_neg (by omega), if_neg (by omega), if_pos (by omega)]
        · rw [e i j (by omega), if_neg (by omega), if_pos (by omega)]
      · have := p2 k i (by omega) hi
        refine ⟨?_, fun j hj hjc => ?_⟩
        · rw [e i (piv i) (by omega), if_neg (by omega), if_neg (by omega), if_neg (by omega)]
          exact (h1 i (by omega) hi).1
        · rw [e i j (by omega), if_neg (by omega), if_neg (by omega), if_neg (by omega)]
          exact (h1 i (by omega) hi).2 j hj hjc) (fun i i' hki hki' hi hi' hne => by
      by_cases hi'k : i' = k
      · subst hi'k
        have := p2 i' i (by omega) hi
        have := p1 i hi
        rw [e i' (piv i) (by omega), if_neg (by omega), if_pos (by omega)]
      · rw [e i' (piv i) (by omega)]
        by_cases hik : i = k
        · subst hik; rw [if_pos (by omega)]
        · have := p2 k i (by omega) hi
          rw [if_neg (by omega), if_neg (by omega), if_neg (by omega)]
          exact h2 i i' (by omega) (by omega) hi hi' hne)
    refine ⟨b1, b2, fun a b hab => ?_⟩
    refine (b3 a b hab).trans ?_
    rw [e a b (by omega), if_neg (by omega), if_neg (by omega), if_neg (by omega)]

/-- **C55**. `nmod_mat_rand_lrref` gives a reduced lower row echelon form of the requested rank. -/
theorem C55_rand_lrref {pr : PermFn σ} (hpr : PermOK pr) {qs : QsortIntFn} (hqs : QsortIntContract qs)
    (g : σ → K × σ) (r c : Nat) (rank : Int) (M : Mat K) (st : σ) :
    (¬(0 ≤ rank ∧ rank ≤ r ∧ rank ≤ c) → randLrref pr qs g r c rank M st = none) ∧
    (0 ≤ rank → rank ≤ r → rank ≤ c → ∃ M' st' piv, randLrref pr qs g r c rank M st = some ((M', st'), piv) ∧
      LowerEchelon r c rank.toNat piv M' ∧ ((asMatrix r c M').rank : Int) = rank ∧
      ReducedPivots rank.toNat piv M' ∧
      ∀ i j, ¬(i < r ∧ j < c) → M' i j = M i j) := by
  unfold randLrref randEchelon
  refine ⟨fun h => if_pos (by omega), fun h0 h1 h2 => ?_⟩
  rw [if_neg (by omega)]
  dsimp only
  obtain ⟨p1, p2⟩ := choosePivots_spec hpr hqs (rank := rank.toNat) (by omega : rank.toNat ≤ c) st
  generalize choosePivots pr qs c rank.toNat st = piv at p1 p2 ⊢
  obtain ⟨a1, a2, a3⟩ := lrref_loop g p1 p2 rank.toNat (le_refl _) (M, piv.2) (fun i hi hi' => by omega)
    (fun i i' hi _ hi' => by omega)
  generalize downLoop (lrrefRow g c rank.toNat piv.1) rank.toNat (M, piv.2) = s at a1 a2 a3 ⊢
  have hE : LowerEchelon r c rank.toNat piv.1 (zeroRows c rank.toNat (r - rank.toNat) s.1) := by
    refine ⟨by omega, p1, p2, fun i hi => ?_, fun i j hi hj hjc => ?_, fun i j hi hir hj => ?_⟩
    · rw [zeroRows_apply, if_neg (by omega), (a1 i hi).1]; exact one_ne_zero
    · rw [zeroRows_apply, if_neg (by omega)]; exact (a1 i hi).2 j hj hjc
    · rw [zeroRows_apply, if_pos (by omega)]
  refine ⟨_, _, _, rfl, hE, by rw [hE.rank]; omega, ⟨fun i hi => ?_, fun i k hi hk hne => ?_⟩, fun i j hij => ?_⟩
  · rw [zeroRows_apply, if_neg (by omega)]; exact (a1 i hi).1
  · rw [zeroRows_apply, if_neg (by omega)]; exact a2 i k hi hk hne
  · rw [zeroRows_apply, if_neg (by omega)]; exact a3 i j (by omega)

/-- **C55**. `nmod_mat_rand_urref` gives a reduced upper row echelon form of the requested rank. -/
theorem C55_rand_urref {pr : PermFn σ} (hpr : PermOK pr) {qs : QsortIntFn} (hqs : QsortIntContract qs)
    (g : σ → K × σ) (r c : Nat) (rank : Int) (M : Mat K) (st : σ) :
    (¬(0 ≤ rank ∧ rank ≤ r ∧ rank ≤ c) → randUrref pr qs g r c rank M st = none) ∧
    (0 ≤ rank → rank ≤ r → rank ≤ c → ∃ M' st' piv, randUrref pr qs g r c rank M st = some ((M', st'), piv) ∧
      UpperEchelon r c rank.toNat piv M' ∧ ((asMatrix r c M').rank : Int) = rank ∧
      ReducedPivots rank.toNat piv M' ∧
      ∀ i j, ¬(i < r ∧ j < c) → M' i j = M i j) := by
  unfold randUrref randEchelon
  refine ⟨fun h => if_pos (by omega), fun h0 h1 h2 => ?_⟩
  rw [if_neg (by omega)]
  dsimp only
  obtain ⟨p1, p2⟩ := choosePivots_spec hpr hqs (rank := rank.toNat) (by omega : rank.toNat ≤ c) st
  generalize choosePivots pr qs c rank.toNat st = piv at p1 p2 ⊢
  obtain ⟨a1, a2, a3⟩ := urref_loop g p1 p2 (M, piv.2) rank.toNat (le_refl _)
  generalize upLoop (urrefRow g c piv.1) rank.toNat (M, piv.2) = s at a1 a2 a3 ⊢
  have hE : UpperEchelon r c rank.toNat piv.1 (zeroRows c rank.toNat (r - rank.toNat) s.1) := by
    refine ⟨by omega, p1, p2, fun i hi => ?_, fun i j hi hj => ?_, fun i j hi hir hj => ?_⟩
    · rw [zeroRows_apply, if_neg (by omega), (a1 i hi).1]; exact one_ne_zero
    · rw [zeroRows_apply, if_neg (by omega)]; exact (a1 i hi).2 j hj
    · rw [zeroRows_apply, if_pos (by omega)]
  refine ⟨_, _, _, rfl, hE, by rw [hE.rank]; omega, ⟨fun i hi => ?_, fun i k hi hk hne => ?_⟩, fun i j hij => ?_⟩
  · rw [zeroRows_apply, if_neg (by omega)]; exact (a1 i hi).1
  · rw [zeroRows_apply, if_neg (by omega)]; exact a2 i k hi hk hne
  · rw [zeroRows_apply, if_neg (by omega)]; exact a3 i j (by omega)

/-! ### Concrete instances -/

/-- The contract of the permutation generator is satisfiable (here by the reversal). -/
theorem permOK_satisfiable : ∃ pr : PermFn Nat, PermOK pr :=
  ⟨fun n st => (fun i => n - 1 - i, st), fun n st => ⟨fun i hi => by show n - 1 - i < n; omega,
    fun i j hi hj h => by
      have : n - 1 - i = n - 1 - j := h
      omega⟩⟩

example : ∃ (pr : PermFn Nat) (qs : QsortIntFn) (M' : Mat (ZMod 5)) (st' : Nat) (piv : Nat → Nat),
    randLrref pr qs (fun n => ((n : ZMod 5), n + 1)) 3 4 2 (fun _ _ => 3) 0 = some ((M', st'), piv) ∧
    (asMatrix 3 4 M').rank = 2 ∧ ReducedPivots 2 piv M' := by
  obtain ⟨pr, hpr⟩ := permOK_satisfiable
  obtain ⟨qs, hqs⟩ := qsort_satisfiable
  obtain ⟨M', st', piv, h1, -, h2, h3, -⟩ := (C55_rand_lrref hpr hqs (fun n : Nat => ((n : ZMod 5), n + 1)) 3 4 2
    (fun _ _ => 3) 0).2 (by omega) (by omega) (by omega)
  exact ⟨pr, qs, M', st', piv, h1, by exact_mod_cast h2, h3⟩

end PML.Rand
