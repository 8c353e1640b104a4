import Verif.Sort.Model
import Verif.Sort.Spec
import Mathlib.Data.List.Nodup
import Mathlib.Data.List.GetD
import Mathlib.Data.List.Sort
import Mathlib.Data.Nat.Basic

/-! # C48: sorting rows by a key -/

namespace PML.Sort

open PML.MatOps PML.MatOps.Spec Spec

theorem pairs_length (n : Nat) (vec : Nat → Int) : (pairs n vec).length = n := by simp [pairs]

theorem mem_pairs {n : Nat} {vec : Nat → Int} {a : Int × Nat} (h : a ∈ pairs n vec) :
    a.2 < n ∧ a.1 = vec a.2 := by
  simp only [pairs, List.mem_map, List.mem_range] at h
  obtain ⟨i, hi, rfl⟩ := h
  exact ⟨hi, rfl⟩

theorem pairs_nodup (n : Nat) (vec : Nat → Int) : (pairs n vec).Nodup :=
  List.Nodup.map (fun _ _ h => congrArg Prod.snd h) List.nodup_range

/-- The permutation computed is the stable sorting permutation. -/
theorem sortPerm_spec (qs : QsortFn) (hqs : QsortContract qs) (n : Nat) (vec : Nat → Int)
    (perm : Nat → Nat) :
    StableSort n vec (sortPerm qs n vec perm) ∧
    ∀ i, i < n → sortedVec qs n vec i = vec (sortPerm qs n vec perm i) := by
  obtain ⟨hp, hs⟩ := hqs (pairs n vec)
  have hlen : (qs (pairs n vec)).length = n := by rw [hp.length_eq, pairs_length]
  have hnd : (qs (pairs n vec)).Nodup := hp.nodup_iff.2 (pairs_nodup n vec)
  have hget : ∀ i (hi : i < n), (qs (pairs n vec)).getD i (0, 0) =
      (qs (pairs n vec))[i]'(by omega) := fun i hi => List.getD_eq_getElem _ _ (by omega)
  have hmem : ∀ i, i < n → ((qs (pairs n vec)).getD i (0, 0)).2 < n ∧
      ((qs (pairs n vec)).getD i (0, 0)).1 = vec ((qs (pairs n vec)).getD i (0, 0)).2 := by
    intro i hi
    rw [hget i hi]
    exact mem_pairs (hp.mem_iff.1 (List.getElem_mem _))
  have hinj : ∀ i j, i < n → j < n → ((qs (pairs n vec)).getD i (0, 0)).2 =
      ((qs (pairs n vec)).getD j (0, 0)).2 → i = j := by
    intro i j hi hj e
    have e' : (qs (pairs n vec)).getD i (0, 0) = (qs (pairs n vec)).getD j (0, 0) :=
      Prod.ext (by rw [(hmem i hi).2, (hmem j hj).2, e]) e
    rw [hget i hi, hget j hj] at e'
    exact (hnd.getElem_inj_iff).1 e'
  have hcmp : ∀ i j, i < j → j < n →
      pairCompare ((qs (pairs n vec)).getD i (0, 0)) ((qs (pairs n vec)).getD j (0, 0)) ≤ 0 := by
    intro i j hij hj
    rw [hget i (by omega), hget j hj]
    exact List.pairwise_iff_getElem.1 hs i j (by omega) (by omega) hij
  refine ⟨⟨⟨?_, ?_⟩, ?_, ?_⟩, ?_⟩
  · intro i hi; simp only [sortPerm, if_pos hi]; exact (hmem i hi).1
  · intro i j hi hj e; simp only [sortPerm, if_pos hi, if_pos hj] at e; exact hinj i j hi hj e
  · intro i j hij hj
    have hi : i < n := by omega
    have h := hcmp i j hij hj
    simp only [sortPerm, if_pos hi, if_pos hj]
    rw [← (hmem i hi).2, ← (hmem j hj).2]
    unfold pairCompare at h
    split_ifs at h <;> omega
  · intro i j hij hj
    have hi : i < n := by omega
    have h := hcmp i j hij hj
    have hne : ((qs (pairs n vec)).getD i (0, 0)).2 ≠ ((qs (pairs n vec)).getD j (0, 0)).2 :=
      fun e => absurd (hinj i j hi hj e) (by omega)
    simp only [sortPerm, if_pos hi, if_pos hj]
    rw [← (hmem i hi).2, ← (hmem j hj).2]
    intro e
    unfold pairCompare at h
    rw [if_pos e] at h
    split_ifs at h <;> omega
  · intro i hi; simp only [sortPerm, sortedVec, if_pos hi]; exact (hmem i hi).2

/-- The stable sorting permutation is unique (so the choice of `qsort` is
    irrelevant). -/
theorem StableSort.unique {n : Nat} {vec : Nat → Int} {p q : Nat → Nat}
    (hp : StableSort n vec p) (hq : StableSort n vec q)
    (hsurj : ∀ p : Nat → Nat, IsPerm n p → ∀ k, k < n → ∃ i, i < n ∧ p i = k) :
    ∀ i, i < n → p i = q i := by
  have key : ∀ (p q : Nat → Nat), StableSort n vec p → StableSort n vec q →
      ∀ i, i < n → (∀ k, k < i → p k = q k) →
      vec (p i) < vec (q i) ∨ (vec (p i) = vec (q i) ∧ p i ≤ q i) := by
    intro p q hp hq i hi ih
    obtain ⟨j, hj, e⟩ := hsurj p hp.isPerm (q i) (hq.isPerm.1 i hi)
    have hij : i ≤ j := by
      by_contra hc
      have h1 := ih j (by omega)
      rw [e] at h1
      have := hq.isPerm.2 _ _ hi hj h1
      omega
    rcases Nat.lt_or_eq_of_le hij with h | h
    · have h1 := hp.sorted i j h hj
      have h2 := hp.stable i j h hj
      rw [e] at h1 h2
      by_cases e' : vec (p i) = vec (q i)
      · exact Or.inr ⟨e', Nat.le_of_lt (h2 e')⟩
      · exact Or.inl (by omega)
    · subst h; rw [e]; exact Or.inr ⟨rfl, Nat.le_refl _⟩
  intro i
  induction i using Nat.strong_induction_on with
  | _ i ih =>
    intro hi
    have h1 := key p q hp hq i hi fun k hk => ih k hk (by omega)
    have h2 := key q p hq hp i hi fun k hk => (ih k hk (by omega)).symm
    omega

/-- C48, rows: stable sort of the keys, rows moved by the recorded permutation,
    rows at or after `r` untouched. -/
theorem C48_permute_rows_by_sorting {α : Type} (qs : QsortFn) (hqs : QsortContract qs)
    (m : Nat) (A : Mat α) (r : Nat) (hr : r ≤ m) (vec : Nat → Int) (perm0 : Nat → Nat) :
    let res := permuteRowsBySorting qs m A r vec perm0
    let B := res.1
    let sorted := res.2.1
    let perm := res.2.2
    StableSort r vec perm ∧
    (∀ i, i < r → sorted i = vec (perm i)) ∧ (∀ i, r ≤ i → sorted i = vec i) ∧
    (∀ i j, i < j → j < r → sorted i ≤ sorted j) ∧
    IsPerm m perm ∧ (∀ i, r ≤ i → i < m → perm i = i) ∧
    (∀ i, i < m → B i = A (perm i)) ∧ (∀ i, r ≤ i → B i = A i) := by
  intro res B sorted perm
  obtain ⟨hS, hV⟩ := sortPerm_spec qs hqs r vec perm0
  have hperm : ∀ i, i < r → perm i = sortPerm qs r vec perm0 i := by
    intro i hi
    show (if r ≤ i ∧ i < m then i else sortPerm qs r vec perm0 i) = _
    rw [if_neg (by omega)]
  have hperm' : ∀ i, r ≤ i → i < m → perm i = i := by
    intro i hi hi'
    show (if r ≤ i ∧ i < m then i else sortPerm qs r vec perm0 i) = _
    rw [if_pos ⟨hi, hi'⟩]
  have hB : ∀ i, B i = if i < m then A (perm i) else A i := fun i => rfl
  have hSp : StableSort r vec perm := by
    refine ⟨⟨fun i hi => ?_, fun i j hi hj e => ?_⟩, fun i j hij hj => ?_, fun i j hij hj => ?_⟩
    · rw [hperm i hi]; exact hS.isPerm.1 i hi
    · rw [hperm i hi, hperm j hj] at e; exact hS.isPerm.2 i j hi hj e
    · rw [hperm i (by omega), hperm j hj]; exact hS.sorted i j hij hj
    · rw [hperm i (by omega), hperm j hj]; exact hS.stable i j hij hj
  have hsorted : ∀ i, i < r → sorted i = vec (perm i) := by
    intro i hi; rw [hperm i hi]; exact hV i hi
  refine ⟨hSp, hsorted, ?_, ?_, ⟨?_, ?_⟩, hperm', ?_, ?_⟩
  · intro i hi; exact if_neg (by omega)
  · intro i j hij hj
    rw [hsorted i (by omega), hsorted j hj]; exact hSp.sorted i j hij hj
  · intro i hi
    by_cases h : i < r
    · have := hSp.isPerm.1 i h; omega
    · rw [hperm' i (by omega) hi]; exact hi
  · intro i j hi hj e
    by_cases h : i < r <;> by_cases h' : j < r
    · exact hSp.isPerm.2 i j h h' e
    · have := hSp.isPerm.1 i h
      rw [hperm' j (by omega) hj] at e; omega
    · have := hSp.isPerm.1 j h'
      rw [hperm' i (by omega) hi] at e; omega
    · rwa [hperm' i (by omega) hi, hperm' j (by omega) hj] at e
  · intro i hi; rw [hB, if_pos hi]
  · intro i hi
    rw [hB]
    by_cases h : i < m
    · rw [if_pos h, hperm' i hi h]
    · rw [if_neg h]

/-- C48, columns. -/
theorem C48_permute_columns_by_sorting {α : Type} (qs : QsortFn) (hqs : QsortContract qs)
    (m n : Nat) (A : Mat α) (r : Nat) (hr : r ≤ n) (vec : Nat → Int) (perm0 : Nat → Nat) :
    let res := permuteColumnsBySorting qs m n A r vec perm0
    let B := res.1
    let sorted := res.2.1
    let perm := res.2.2
    StableSort r vec perm ∧
    (∀ i, i < r → sorted i = vec (perm i)) ∧ (∀ i j, i < j → j < r → sorted i ≤ sorted j) ∧
    IsPerm n perm ∧ (∀ i, r ≤ i → i < n → perm i = i) ∧
    (∀ i j, i < m → j < n → B i j = A i (perm j)) ∧
    (∀ i j, i < m → r ≤ j → B i j = A i j) := by
  intro res B sorted perm
  obtain ⟨h1, h2, h3, h4, h5, h6, h7, h8⟩ :=
    C48_permute_rows_by_sorting qs hqs n (fun j i => A i j) r hr vec perm0
  have hB : ∀ i j, B i j = if i < m ∧ j < n then A i (perm j) else A i j := fun i j => rfl
  refine ⟨h1, h2, h4, h5, h6, fun i j hi hj => by rw [hB, if_pos ⟨hi, hj⟩], fun i j hi hj => ?_⟩
  rw [hB]
  split_ifs with h
  · rw [show perm j = j from h6 j hj h.2]
  · rfl

theorem pairCompare_iff (a a' b b') :
    pairCompare (a, a') (b, b') ≤ 0 ↔ a < b ∨ (a = b ∧ a' ≤ b') := by
  simp only [pairCompare]
  split_ifs <;> omega

/-- A function meeting the contract: insertion sort. -/
def insQsort : QsortFn := fun l => l.insertionSort fun a b => pairCompare a b ≤ 0

theorem insQsort_contract : QsortContract insQsort := by
  intro l
  have : IsTrans (Int × Nat) fun a b => pairCompare a b ≤ 0 := ⟨by
    rintro ⟨a, a'⟩ ⟨b, b'⟩ ⟨c, c'⟩ hab hbc
    rw [pairCompare_iff] at hab hbc ⊢
    omega⟩
  have : Std.Total fun a b : Int × Nat => pairCompare a b ≤ 0 := ⟨by
    rintro ⟨a, a'⟩ ⟨b, b'⟩
    rw [pairCompare_iff, pairCompare_iff]
    omega⟩
  exact ⟨List.perm_insertionSort _ l, List.pairwise_insertionSort _ l⟩

/-- Keys 3, 1, 3, 2 and one row beyond the sorted range. -/
example :
    let key : Nat → Int := fun i => [3, 1, 3, 2].getD i 0
    let res := permuteRowsBySorting insQsort 5 (fun i _ => 10 * i) 4 key (fun _ => 77)
    (List.range 5).map res.2.2 = [1, 3, 0, 2, 4] ∧
    (List.range 5).map (fun i => res.1 i 0) = [10, 30, 0, 20, 40] := by
  decide +kernel

end PML.Sort
