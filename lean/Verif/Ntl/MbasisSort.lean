import Verif.Ntl.MbasisModel
import Mathlib.Data.List.Sort
import Mathlib.Data.List.NodupEquivFin
import Mathlib.Algebra.BigOperators.Group.Finset.Basic

/-!
# The sorts of the computation of approximant bases
-/

namespace PML.Ntl.Mbasis

/-- `a` is before `b` in the order by (key, index). -/
def Lex (key : Nat → Int) (a b : Nat) : Prop := key a < key b ∨ (key a = key b ∧ a < b)

theorem le_trans' (key : Nat → Int) (a b c : Nat) (h1 : decide (key a ≤ key b) = true) (h2 : decide (key b ≤ key c) = true) :
    decide (key a ≤ key c) = true := by
  rw [decide_eq_true_eq] at *; omega

theorem le_total' (key : Nat → Int) (a b : Nat) : (decide (key a ≤ key b) || decide (key b ≤ key a)) = true := by
  rw [Bool.or_eq_true, decide_eq_true_eq, decide_eq_true_eq]; omega

theorem sortBy_perm (key : Nat → Int) (n : Nat) : (sortBy key n).Perm (List.range n) := List.mergeSort_perm _ _

theorem sortBy_length (key : Nat → Int) (n : Nat) : (sortBy key n).length = n := by
  rw [(sortBy_perm key n).length_eq, List.length_range]

theorem sortBy_nodup (key : Nat → Int) (n : Nat) : (sortBy key n).Nodup := (sortBy_perm key n).nodup_iff.2 List.nodup_range

theorem sortBy_mem (key : Nat → Int) (n a : Nat) : a ∈ sortBy key n ↔ a < n := by
  rw [(sortBy_perm key n).mem_iff, List.mem_range]

theorem pair_sublist_range (n a b : Nat) (h : a < b) (hb : b < n) : [a, b].Sublist (List.range n) := by
  have hsub : [a, b].Subperm (List.range n) := by
    apply List.Nodup.subperm
    · simp only [List.nodup_cons, List.mem_singleton, List.not_mem_nil, not_false_eq_true, List.nodup_nil, and_self, and_true]
      omega
    · intro x hx
      rw [List.mem_range]
      simp only [List.mem_cons, List.not_mem_nil, or_false] at hx
      omega
  refine List.sublist_of_subperm_of_pairwise hsub (r := (· ≤ ·)) ?_ (List.pairwise_lt_range.imp fun h => le_of_lt h)
  simp only [List.pairwise_cons, List.mem_singleton, forall_eq, List.not_mem_nil, false_implies, implies_true, List.Pairwise.nil, and_self, and_true]
  omega

/-- The list is sorted by (key, index). -/
theorem sortBy_sorted (key : Nat → Int) (n : Nat) : (sortBy key n).Pairwise (Lex key) := by
  rw [List.pairwise_iff_getElem]
  intro i j hi hj hij
  have hle := List.pairwise_iff_getElem.1 (List.pairwise_mergeSort (le_trans' key) (le_total' key) (List.range n)) i j hi hj hij
  rw [decide_eq_true_eq] at hle
  change key (sortBy key n)[i] ≤ key (sortBy key n)[j] at hle
  have hnd := sortBy_nodup key n
  have hne : (sortBy key n)[i] ≠ (sortBy key n)[j] := fun e => by
    have h1 := hnd.idxOf_getElem i hi
    have h2 := hnd.idxOf_getElem j hj
    rw [e, h2] at h1
    omega
  rcases lt_or_eq_of_le hle with h | h
  · exact Or.inl h
  · refine Or.inr ⟨h, ?_⟩
    by_contra hc
    have hlt : (sortBy key n)[j] < (sortBy key n)[i] := by omega
    have hin : (sortBy key n)[i] < n := (sortBy_mem key n _).1 (List.getElem_mem hi)
    have hs : [(sortBy key n)[j], (sortBy key n)[i]].Sublist (sortBy key n) :=
      List.pair_sublist_mergeSort (le_trans' key) (le_total' key) (by rw [decide_eq_true_eq]; omega)
        (pair_sublist_range n _ _ hlt hin)
    have hp : (sortBy key n).Pairwise fun a b => (sortBy key n).idxOf a < (sortBy key n).idxOf b := by
      rw [List.pairwise_iff_getElem]
      intro i j hi hj hij
      rw [hnd.idxOf_getElem, hnd.idxOf_getElem]
      exact hij
    have := List.Pairwise.sublist hs hp
    rw [List.pairwise_cons] at this
    have := this.1 _ (List.mem_singleton.2 rfl)
    rw [hnd.idxOf_getElem, hnd.idxOf_getElem] at this
    omega

/-- The sorted list, as an array. -/
structure SortSpec (key : Nat → Int) (n : Nat) (p : Nat → Nat) : Prop where
  lt : ∀ i, i < n → p i < n
  inj : ∀ i j, i < n → j < n → p i = p j → i = j
  surj : ∀ a, a < n → ∃ i, i < n ∧ p i = a
  sorted : ∀ i j, i < j → j < n → Lex key (p i) (p j)

theorem sortBy_spec (key : Nat → Int) (n : Nat) : SortSpec key n fun i => (sortBy key n).getD i 0 := by
  have hlen := sortBy_length key n
  have hget : ∀ i (h : i < n), (sortBy key n).getD i 0 = (sortBy key n)[i]'(by omega) := fun i h => by
    rw [List.getD_eq_getElem?_getD, List.getElem?_eq_getElem (by omega), Option.getD_some]
  refine ⟨fun i hi => ?_, fun i j hi hj h => ?_, fun a ha => ?_, fun i j hij hj => ?_⟩
  · rw [hget i hi]; exact (sortBy_mem key n _).1 (List.getElem_mem _)
  · rw [hget i hi, hget j hj] at h
    have h1 := (sortBy_nodup key n).idxOf_getElem i (by omega)
    have h2 := (sortBy_nodup key n).idxOf_getElem j (by omega)
    rw [h, h2] at h1
    exact h1.symm
  · obtain ⟨i, hi, h⟩ := List.getElem_of_mem ((sortBy_mem key n a).2 ha)
    exact ⟨i, by omega, by rw [hget i (by omega), h]⟩
  · rw [hget i (by omega), hget j hj]
    exact List.pairwise_iff_getElem.1 (sortBy_sorted key n) i j (by omega) (by omega) hij

theorem SortSpec.sum {key : Nat → Int} {n : Nat} {p : Nat → Nat} (h : SortSpec key n p) {M : Type} [AddCommMonoid M] (f : Nat → M) :
    ∑ i ∈ Finset.range n, f (p i) = ∑ i ∈ Finset.range n, f i := by
  refine Finset.sum_bij (fun i _ => p i) (fun i hi => ?_) (fun i hi j hj e => ?_) (fun a ha => ?_) (fun i _ => rfl)
  · exact Finset.mem_range.2 (h.lt i (Finset.mem_range.1 hi))
  · exact h.inj i j (Finset.mem_range.1 hi) (Finset.mem_range.1 hj) e
  · obtain ⟨i, hi, e⟩ := h.surj a (Finset.mem_range.1 ha)
    exact ⟨i, Finset.mem_range.2 hi, e⟩

/-! ### Collisions -/

theorem adjacent_false : ∀ l : List Nat, l.Pairwise (· ≤ ·) → adjacent l = false → l.Pairwise (· < ·)
  | [], _, _ => List.Pairwise.nil
  | [_], _, _ => List.pairwise_singleton _ _
  | a :: b :: l, hs, h => by
    rw [adjacent, Bool.or_eq_false_iff] at h
    have hs' := List.pairwise_cons.1 hs
    have ih := adjacent_false (b :: l) hs'.2 h.2
    have hab : a < b := lt_of_le_of_ne (hs'.1 b (by simp)) (by simpa using h.1)
    refine List.pairwise_cons.2 ⟨fun c hc => ?_, ih⟩
    rcases List.mem_cons.1 hc with rfl | hc
    · exact hab
    · exact hab.trans ((List.pairwise_cons.1 ih).1 c hc)

/-- If no collision is found then the entries are pairwise distinct. -/
theorem nodup_of_collide (l : List Nat) (h : collide l = false) : l.Nodup := by
  unfold collide at h
  have hp := List.mergeSort_perm l fun a b => decide (a ≤ b)
  have hs := List.pairwise_mergeSort (le := fun a b : Nat => decide (a ≤ b))
    (fun a b c h1 h2 => by rw [decide_eq_true_eq] at *; omega)
    (fun a b => by rw [Bool.or_eq_true, decide_eq_true_eq, decide_eq_true_eq]; omega) l
  have := adjacent_false _ (hs.imp fun h => by simpa using h) h
  exact hp.nodup_iff.1 (this.imp fun h => ne_of_lt h)

end PML.Ntl.Mbasis
