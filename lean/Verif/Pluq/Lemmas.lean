import Verif.Pluq.Model
import Verif.Pluq.Spec
import Verif.MatOps.Lemmas
import Mathlib.Tactic.SplitIfs
import Mathlib.Tactic.Ring
import Mathlib.Tactic.FieldSimp

namespace PML.Pluq

open PML.MatOps PML.MatOps.Spec Spec

variable {K : Type} [Field K] [DecidableEq K]

theorem seekPivot_spec (row : Nat → K) : ∀ (n p : Nat),
    p ≤ seekPivot row n p ∧ seekPivot row n p ≤ p + n ∧
    (∀ j, p ≤ j → j < seekPivot row n p → row j = 0) ∧
    (seekPivot row n p < p + n → row (seekPivot row n p) ≠ 0) := by
  intro n
  induction n with
  | zero => intro p; simp only [seekPivot]; exact ⟨le_refl _, by omega, fun j _ _ => by omega, by omega⟩
  | succ n ih =>
    intro p
    simp only [seekPivot]
    by_cases h : row p = 0
    · rw [if_pos h]
      obtain ⟨h1, h2, h3, h4⟩ := ih (p + 1)
      refine ⟨by omega, by omega, ?_, fun h' => h4 (by omega)⟩
      intro j hj hj'
      by_cases e : j = p
      · rw [e]; exact h
      · exact h3 j (by omega) hj'
    · rw [if_neg h]
      exact ⟨le_refl _, by omega, fun j _ _ => by omega, fun _ => h⟩

/-- Invariant of the main loop of `nmod_mat_pluq`. -/
structure Inv (r c : Nat) (M : Mat K) (s : PState K) : Prop where
  hn : s.rank + s.nullity ≤ r
  hc : s.rank ≤ c
  pP : IsPerm r s.P
  pQ : IsPerm c s.Q
  fac : ∀ i j, i < r → j < c → M (s.P i) (s.Q j) =
    (∑ k ∈ Finset.range s.rank, lower s.rank s.A i k * upper s.rank s.A k j) +
      (if s.rank ≤ i ∧ s.rank ≤ j then s.A i j else 0)
  diag : ∀ k, k < s.rank → s.A k k ≠ 0
  nul : ∀ i, r - s.nullity ≤ i → i < r → ∀ j, s.rank ≤ j → j < c → s.A i j = 0
  rem : ∀ i, s.rank ≤ i → i < r - s.nullity → s.P i = i + s.nullity
  lt : ∀ i, i < r → i < s.rank ∨ r - s.nullity ≤ i → s.P i < s.rank + s.nullity
  inc1 : ∀ i j, i < j → j < s.rank → s.P i < s.P j
  inc2 : ∀ i j, r - s.nullity ≤ i → i < j → j < r → s.P i < s.P j
  supp : ∀ i k, r - s.nullity ≤ i → i < r → k < s.rank → s.A i k ≠ 0 → s.P k < s.P i

/-- index maps of the rotations -/
def upIdx (i j k : Nat) : Nat := if k = j then i else if i ≤ k ∧ k < j then k + 1 else k
def downIdx (i j k : Nat) : Nat := if k = i then j else if i < k ∧ k ≤ j then k - 1 else k

omit [Field K] [DecidableEq K] in
theorem rotUp_eq {α : Type} {i j : Nat} (h : i ≤ j) (f : Nat → α) (k : Nat) :
    rotUp i j f k = f (upIdx i j k) := by
  rw [rotUp_apply h]; unfold upIdx; split_ifs <;> rfl

omit [Field K] [DecidableEq K] in
theorem rotDown_eq {α : Type} {i j : Nat} (h : i ≤ j) (f : Nat → α) (k : Nat) :
    rotDown i j f k = f (downIdx i j k) := by
  rw [rotDown_apply h]; unfold downIdx; split_ifs <;> rfl

theorem IsPerm.rotUp {n i j : Nat} {P : Nat → Nat} (h : IsPerm n P) (hij : i ≤ j) (hj : j < n) :
    IsPerm n (rotUp i j P) := by
  refine ⟨fun k hk => ?_, fun k l hk hl e => ?_⟩
  · rw [rotUp_eq hij]; apply h.1; unfold upIdx; split_ifs <;> omega
  · rw [rotUp_eq hij, rotUp_eq hij] at e
    have := h.2 _ _ (by unfold upIdx; split_ifs <;> omega) (by unfold upIdx; split_ifs <;> omega) e
    unfold upIdx at this; split_ifs at this <;> omega

theorem IsPerm.rotDown {n i j : Nat} {P : Nat → Nat} (h : IsPerm n P) (hij : i ≤ j) (hj : j < n) :
    IsPerm n (rotDown i j P) := by
  refine ⟨fun k hk => ?_, fun k l hk hl e => ?_⟩
  · rw [rotDown_eq hij]; apply h.1; unfold downIdx; split_ifs <;> omega
  · rw [rotDown_eq hij, rotDown_eq hij] at e
    have := h.2 _ _ (by unfold downIdx; split_ifs <;> omega)
      (by unfold downIdx; split_ifs <;> omega) e
    unfold downIdx at this; split_ifs at this <;> omega

theorem inv_step_null {r c : Nat} {M : Mat K} {s : PState K} (hI : Inv r c M s)
    (hlt : s.rank + s.nullity < r)
    (hrow : ∀ j, s.rank ≤ j → j < c → s.A s.rank j = 0) :
    Inv r c M { s with A := rotUp s.rank (r - 1) s.A, P := rotUp s.rank (r - 1) s.P,
                       nullity := s.nullity + 1 } := by
  have hle : s.rank ≤ r - 1 := by omega
  have hA : ∀ i, rotUp s.rank (r - 1) s.A i = s.A (upIdx s.rank (r - 1) i) := rotUp_eq hle _
  have hP : ∀ i, rotUp s.rank (r - 1) s.P i = s.P (upIdx s.rank (r - 1) i) := rotUp_eq hle _
  have u1 : ∀ i, i < s.rank → upIdx s.rank (r - 1) i = i := by
    intro i hi; unfold upIdx; split_ifs <;> omega
  have u2 : ∀ i, s.rank ≤ i → i < r - 1 → upIdx s.rank (r - 1) i = i + 1 := by
    intro i hi hi'; unfold upIdx; split_ifs <;> omega
  have u3 : upIdx s.rank (r - 1) (r - 1) = s.rank := by unfold upIdx; simp
  have u4 : ∀ i, i < r → upIdx s.rank (r - 1) i < r := by
    intro i hi; unfold upIdx; split_ifs <;> omega
  have u5 : ∀ i, s.rank ≤ i → s.rank ≤ upIdx s.rank (r - 1) i := by
    intro i hi; unfold upIdx; split_ifs <;> omega
  constructor
  · show s.rank + (s.nullity + 1) ≤ r; omega
  · exact hI.hc
  · exact IsPerm.rotUp hI.pP hle (by omega)
  · exact hI.pQ
  · intro i j hi hj
    simp only [hP]
    rw [hI.fac _ j (u4 i hi) hj]
    congr 1
    · refine Finset.sum_congr rfl fun k hk => ?_
      rw [Finset.mem_range] at hk
      congr 1
      · unfold lower
        rw [hA]
        by_cases h : i < s.rank
        · rw [u1 i h]
        · have := u5 i (by omega)
          split_ifs <;> first | rfl | (exfalso; omega)
      · unfold upper
        rw [hA, u1 k hk]
    · by_cases h : s.rank ≤ i
      · have := u5 i h
        simp [this, h, hA]
      · rw [u1 i (by omega), if_neg (by omega), if_neg (by omega)]
  · intro k hk
    simp only at hk ⊢
    rw [hA, u1 k hk]; exact hI.diag k hk
  · intro i hi hi' j hj hj'
    simp only at hi hj ⊢
    rw [hA]
    by_cases e : i = r - 1
    · rw [e, u3]; exact hrow j hj hj'
    · rw [u2 i (by omega) (by omega)]; exact hI.nul _ (by omega) (by omega) j hj hj'
  · intro i hi hi'
    simp only at hi hi' ⊢
    rw [hP, u2 i hi (by omega), hI.rem _ (by omega) (by omega)]; omega
  · intro i hi h
    simp only at h ⊢
    rw [hP]
    by_cases h1 : i < s.rank
    · rw [u1 i h1]; have := hI.lt i hi (Or.inl h1); omega
    · by_cases e : i = r - 1
      · rw [e, u3, hI.rem _ (le_refl _) (by omega)]; omega
      · rw [u2 i (by omega) (by omega)]
        have := hI.lt (i + 1) (by omega) (Or.inr (by omega)); omega
  · intro i j hij hj
    simp only at hj ⊢
    rw [hP, hP, u1 i (by omega), u1 j hj]; exact hI.inc1 i j hij hj
  · intro i j hi hij hj
    simp only at hi ⊢
    rw [hP, hP, u2 i (by omega) (by omega)]
    by_cases e : j = r - 1
    · rw [e, u3, hI.rem _ (le_refl _) (by omega)]
      have := hI.lt (i + 1) (by omega) (Or.inr (by omega)); omega
    · rw [u2 j (by omega) (by omega)]; exact hI.inc2 _ _ (by omega) (by omega) (by omega)
  · intro i k hi hi' hk hne
    simp only at hi hk hne ⊢
    rw [hA] at hne
    rw [hP, hP, u1 k hk]
    by_cases e : i = r - 1
    · rw [e, u3, hI.rem _ (le_refl _) (by omega)]
      have := hI.lt k (by omega) (Or.inl hk); omega
    · rw [u2 i (by omega) (by omega)] at hne ⊢
      exact hI.supp _ k (by omega) (by omega) hk hne

theorem inv_step_pivot {r c : Nat} {M : Mat K} {s : PState K} (hI : Inv r c M s)
    (hlt : s.rank + s.nullity < r) {p : Nat} (hp1 : s.rank ≤ p) (hp2 : p < c)
    (hp : s.A s.rank p ≠ 0) (A1 : Mat K)
    (hA1 : ∀ i, i < r → ∀ j, A1 i j = s.A i (downIdx s.rank p j)) :
    Inv r c M { s with
      A := fun i => if s.rank + 1 ≤ i ∧ i < r - s.nullity
                    then elimRow c s.rank (A1 s.rank s.rank)⁻¹ (A1 s.rank) (A1 i) else A1 i
      Q := rotDown s.rank p s.Q
      rank := s.rank + 1 } := by
  have hQ : ∀ i, rotDown s.rank p s.Q i = s.Q (downIdx s.rank p i) := rotDown_eq hp1 _
  have u1 : ∀ j, j < s.rank → downIdx s.rank p j = j := by
    intro i hi; unfold downIdx; split_ifs <;> omega
  have u3 : downIdx s.rank p s.rank = p := by unfold downIdx; simp
  have u4 : ∀ j, j < c → downIdx s.rank p j < c := by
    intro i hi; unfold downIdx; split_ifs <;> omega
  have u5 : ∀ j, s.rank ≤ j → s.rank ≤ downIdx s.rank p j := by
    intro i hi; unfold downIdx; split_ifs <;> omega
  have hpiv : A1 s.rank s.rank ≠ 0 := by rw [hA1 _ (by omega), u3]; exact hp
  -- factorization for the rotated matrix, same rank
  have fac1 : ∀ i j, i < r → j < c → M (s.P i) (s.Q (downIdx s.rank p j)) =
      (∑ k ∈ Finset.range s.rank, lower s.rank A1 i k * upper s.rank A1 k j) +
        (if s.rank ≤ i ∧ s.rank ≤ j then A1 i j else 0) := by
    intro i j hi hj
    rw [hI.fac i _ hi (u4 j hj)]
    congr 1
    · refine Finset.sum_congr rfl fun k hk => ?_
      rw [Finset.mem_range] at hk
      congr 1
      · unfold lower; rw [hA1 i hi, u1 k hk]
      · unfold upper; rw [hA1 k (by omega)]
        by_cases h : j < s.rank
        · rw [u1 j h]
        · have := u5 j (by omega)
          rw [if_pos (by omega), if_pos (by omega)]
    · by_cases h : s.rank ≤ j
      · have := u5 j h
        simp [h, this, hA1 i hi]
      · rw [u1 j (by omega), if_neg (by omega), if_neg (by omega)]
  set A2 : Mat K := fun i => if s.rank + 1 ≤ i ∧ i < r - s.nullity
      then elimRow c s.rank (A1 s.rank s.rank)⁻¹ (A1 s.rank) (A1 i) else A1 i with hA2
  have a1 : ∀ k, k ≤ s.rank → A2 k = A1 k := by
    intro k hk; simp only [hA2]; rw [if_neg (by omega)]
  have a2 : ∀ i k, k < s.rank → A2 i k = A1 i k := by
    intro i k hk; simp only [hA2]; split_ifs
    · simp only [elimRow]; rw [if_neg (by omega), if_neg (by omega)]
    · rfl
  have a3 : ∀ i, r - s.nullity ≤ i → A2 i = A1 i := by
    intro k hk; simp only [hA2]; rw [if_neg (by omega)]
  have nul1 : ∀ i, r - s.nullity ≤ i → i < r → ∀ j, s.rank ≤ j → j < c → A1 i j = 0 := by
    intro i hi hi' j hj hj'
    rw [hA1 i hi']; exact hI.nul i hi hi' _ (u5 j hj) (u4 j hj')
  constructor
  · show s.rank + 1 + s.nullity ≤ r; omega
  · show s.rank + 1 ≤ c; omega
  · exact hI.pP
  · exact IsPerm.rotDown hI.pQ hp1 hp2
  · intro i j hi hj
    simp only [hQ]
    rw [fac1 i j hi hj, Finset.sum_range_succ]
    have hs : ∑ k ∈ Finset.range s.rank, lower (s.rank + 1) A2 i k * upper (s.rank + 1) A2 k j
        = ∑ k ∈ Finset.range s.rank, lower s.rank A1 i k * upper s.rank A1 k j := by
      refine Finset.sum_congr rfl fun k hk => ?_
      rw [Finset.mem_range] at hk
      congr 1
      · unfold lower; rw [a2 i k hk]; split_ifs <;> first | rfl | omega
      · unfold upper; rw [a1 k (by omega)]; split_ifs <;> first | rfl | omega
    rw [hs, add_assoc]
    congr 1
    have hu : upper (s.rank + 1) A2 s.rank j = if s.rank ≤ j then A1 s.rank j else 0 := by
      unfold upper; rw [a1 _ (le_refl _)]; split_ifs <;> first | rfl | omega
    rw [hu]
    by_cases hj1 : s.rank ≤ j
    · rw [if_pos hj1]
      rcases Nat.lt_trichotomy i s.rank with h | h | h
      · have : lower (s.rank + 1) A2 i s.rank = 0 := by
          unfold lower; rw [if_neg (by omega), if_neg (by omega)]
        rw [this, if_neg (by omega), if_neg (by omega)]; ring
      · subst h
        have : lower (s.rank + 1) A2 s.rank s.rank = 1 := by unfold lower; simp
        rw [this, if_pos (by omega), if_neg (by omega)]; ring
      · have : lower (s.rank + 1) A2 i s.rank = A2 i s.rank := by
          unfold lower; rw [if_neg (by omega), if_pos (by omega)]
        rw [this, if_pos (by omega)]
        by_cases hi2 : i < r - s.nullity
        · have e1 : A2 i = elimRow c s.rank (A1 s.rank s.rank)⁻¹ (A1 s.rank) (A1 i) := by
            simp only [hA2]; rw [if_pos (by omega)]
          rw [e1]
          by_cases hj2 : j = s.rank
          · subst hj2
            rw [if_neg (by omega)]
            simp only [elimRow, if_true]
            field_simp
            ring
          · rw [if_pos (by omega)]
            simp only [elimRow]
            rw [if_pos trivial, if_neg hj2, if_pos (by omega)]
            ring
        · rw [a3 i (by omega), nul1 i (by omega) hi _ (le_refl _) (by omega),
            nul1 i (by omega) hi j hj1 hj]
          simp
    · rw [if_neg hj1, if_neg (by omega), if_neg (by omega)]; ring
  · intro k hk
    simp only at hk ⊢
    rw [a1 k (by omega)]
    by_cases e : k = s.rank
    · rw [e]; exact hpiv
    · rw [hA1 k (by omega), u1 k (by omega)]; exact hI.diag k (by omega)
  · intro i hi hi' j hj hj'
    simp only at hi hj ⊢
    rw [a3 i hi]; exact nul1 i hi hi' j (by omega) hj'
  · intro i hi hi'
    simp only at hi hi' ⊢
    exact hI.rem i (by omega) hi'
  · intro i hi h
    simp only at h ⊢
    by_cases h1 : i = s.rank
    · rw [h1, hI.rem _ (le_refl _) (by omega)]; omega
    · have := hI.lt i hi (by omega); omega
  · intro i j hij hj
    simp only at hj ⊢
    by_cases e : j = s.rank
    · rw [e, hI.rem _ (le_refl _) (by omega)]
      exact hI.lt i (by omega) (Or.inl (by omega))
    · exact hI.inc1 i j hij (by omega)
  · intro i j hi hij hj
    exact hI.inc2 i j hi hij hj
  · intro i k hi hi' hk hne
    simp only at hi hk hne ⊢
    rw [a3 i hi] at hne
    by_cases e : k = s.rank
    · exact absurd (nul1 i hi hi' k (by omega) (by omega)) hne
    · rw [hA1 i hi', u1 k (by omega)] at hne
      exact hI.supp i k hi hi' (by omega) hne

theorem inv_step {r c : Nat} {M : Mat K} {s : PState K} (hI : Inv r c M s)
    (hlt : s.rank + s.nullity < r) :
    Inv r c M (pluqStep r c s) ∧
      (pluqStep r c s).rank + (pluqStep r c s).nullity = s.rank + s.nullity + 1 := by
  obtain ⟨h1, h2, h3, h4⟩ := seekPivot_spec (s.A s.rank) (c - s.rank) s.rank
  have hc := hI.hc
  unfold pluqStep
  by_cases hp : seekPivot (s.A s.rank) (c - s.rank) s.rank = c
  · simp only [hp, if_true]
    constructor
    · refine inv_step_null hI hlt fun j hj hj' => h3 j hj (by omega)
    · show s.rank + (s.nullity + 1) = _; omega
  · simp only [hp, if_false]
    constructor
    · refine inv_step_pivot hI hlt h1 (by omega) (h4 (by omega)) _ ?_
      intro i hi j
      simp only [rotateColumnsRightward, hi, if_true]
      exact rotDown_eq h1 _ _
    · show s.rank + 1 + s.nullity = _; omega

theorem inv_init (r c : Nat) (M : Mat K) :
    Inv r c M { A := M, P := id, Q := id, rank := 0, nullity := 0 } := by
  constructor <;> simp [IsPerm] <;> omega

/-- The loop stops after at most `r` iterations in a state satisfying the invariant. -/
theorem pluq_inv (r c : Nat) (M : Mat K) (fuel : Nat) (hf : r ≤ fuel) :
    ∃ s, pluq r c M fuel = some s ∧ Inv r c M s ∧ s.rank + s.nullity = r := by
  obtain ⟨s, h1, h2, h3⟩ := whileLoop_spec (c := fun s : PState K => decide (s.rank + s.nullity < r))
    (b := pluqStep r c) (Inv r c M) (fun s => r - (s.rank + s.nullity)) (by
      intro s hs hc
      have hc := of_decide_eq_true hc
      have := inv_step hs hc
      exact ⟨this.1, by rw [this.2]; omega⟩) fuel _ (inv_init r c M) (by simpa using hf)
  refine ⟨s, h1, h2, ?_⟩
  have := h2.hn
  have h3 := of_decide_eq_false h3
  omega

end PML.Pluq
