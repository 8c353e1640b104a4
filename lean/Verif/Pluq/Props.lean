import Verif.Common.Prime
import Verif.Pluq.Lemmas
import Verif.Pluq.RankProfile
import Mathlib.Algebra.Field.ZMod

/-!
# C12, C13: PLUQ factorization, and its Crout variant
-/

namespace PML.Pluq

open PML.MatOps PML.MatOps.Spec Spec

variable {K : Type} [Field K] [DecidableEq K]

theorem isPLUQ_of_inv {r c : Nat} {M : Mat K} {s : PState K} (hI : Inv r c M s)
    (he : s.rank + s.nullity = r) : IsPLUQ r c M s.A s.P s.Q s.rank := by
  have hr : s.rank ≤ r := by omega
  have fac : ∀ i j, i < r → j < c → M (s.P i) (s.Q j) =
      ∑ k ∈ Finset.range s.rank, lower s.rank s.A i k * upper s.rank s.A k j := by
    intro i j hi hj
    rw [hI.fac i j hi hj]
    by_cases h : s.rank ≤ i ∧ s.rank ≤ j
    · rw [if_pos h, hI.nul i (by omega) hi j h.2 hj, add_zero]
    · rw [if_neg h, add_zero]
  refine ⟨rank_of_factor hI.pP hI.pQ hr hI.hc fac hI.diag, hI.pP, hI.pQ, ?_, ?_, ?_, ?_,
    hI.inc1, ?_⟩
  · intro i j hi hj
    rw [fac i j hi hj]
    refine Finset.sum_subset (fun k hk => Finset.mem_range.2 (by
      rw [Finset.mem_range] at hk; omega)) ?_
    intro k _ hk
    rw [Finset.mem_range] at hk
    have : upper s.rank s.A k j = 0 := by unfold upper; rw [if_neg (by omega)]
    rw [this, mul_zero]
  · intro k hk
    unfold upper; rw [if_pos ⟨le_refl _, hk⟩]; exact hI.diag k hk
  · intro i j hi hi' hj hj'
    exact hI.nul i (by omega) hi' j hj hj'
  · exact profile_of_factor hI.pP hI.pQ hr hI.hc fac hI.diag hI.inc1
      (fun i k hi hi' hk hne => hI.supp i k (by omega) hi' hk hne)
  · intro i j hi hij hj
    exact hI.inc2 i j (by omega) hij hj

/-- C12: on every `r × c` matrix over a field, `nmod_mat_pluq` stops (after at
    most `r` iterations) and returns a PLUQ factorization: rank, permutations,
    triangular factors, row rank profile first. -/
theorem C12_pluq (r c : Nat) (M : Mat K) (fuel : Nat) (hf : r ≤ fuel) :
    ∃ s, pluq r c M fuel = some s ∧ IsPLUQ r c M s.A s.P s.Q s.rank := by
  obtain ⟨s, h1, h2, h3⟩ := pluq_inv r c M fuel hf
  exact ⟨s, h1, isPLUQ_of_inv h2 h3⟩

/-- Simulation relation between the two variants: same permutations and
    counters, finished rows equal, pending rows of the Crout variant not yet
    updated. -/
structure Sim (r c : Nat) (s t : PState K) : Prop where
  hn : s.rank + s.nullity ≤ r
  hc : s.rank ≤ c
  P : s.P = t.P
  Q : s.Q = t.Q
  rank : s.rank = t.rank
  nullity : s.nullity = t.nullity
  done : ∀ i, i < s.rank ∨ r - s.nullity ≤ i → s.A i = t.A i
  left : ∀ i j, j < s.rank ∨ c ≤ j → s.A i j = t.A i j
  pend : ∀ i j, s.rank ≤ i → i < r - s.nullity → s.rank ≤ j → j < c →
    s.A i j = t.A i j - ∑ k ∈ Finset.range s.rank, t.A i k * t.A k j

omit [Field K] [DecidableEq K] in
theorem downIdx_ge {c i p j : Nat} (hp1 : i ≤ p) (hp2 : p < c) (hj : c ≤ j) : downIdx i p j = j := by
  unfold downIdx; split_ifs <;> omega

theorem sim_step {r c : Nat} {s t : PState K} (h : Sim r c s t)
    (hlt : s.rank + s.nullity < r) : Sim r c (pluqStep r c s) (croutStep r c t) := by
  obtain ⟨A, P, Q, rk, nu⟩ := s
  obtain ⟨B, P', Q', rk', nu'⟩ := t
  obtain ⟨hn, hc, hP, hQ, hrk, hnu, hdone, hleft, hpend⟩ := h
  simp only at hn hc hP hQ hrk hnu hdone hleft hpend hlt
  subst hP hQ hrk hnu
  have hB0r : updateRow c rk B rk = A rk := by
    funext j
    simp only [updateRow, if_true]
    by_cases hj : rk ≤ j ∧ j < c
    · rw [if_pos hj]; exact (hpend rk j (le_refl _) (by omega) hj.1 hj.2).symm
    · rw [if_neg hj]; exact (hleft rk j (by omega)).symm
  have hB0n : ∀ i, i ≠ rk → updateRow c rk B i = B i := by intro i hi; simp [updateRow, hi]
  unfold pluqStep croutStep
  simp only
  generalize updateRow c rk B = B0 at hB0r hB0n ⊢
  rw [hB0r]
  obtain ⟨h1, h2, h3, h4⟩ := seekPivot_spec (A rk) (c - rk) rk
  set p := seekPivot (A rk) (c - rk) rk with hp
  clear_value p
  by_cases hpc : p = c
  · simp only [hpc, if_true]
    subst hpc
    have hle : rk ≤ r - 1 := by omega
    have u1 : ∀ i, i < rk → upIdx rk (r - 1) i = i := by
      intro i hi; unfold upIdx; split_ifs <;> omega
    constructor
    · show rk + (nu + 1) ≤ r; omega
    · exact hc
    · rfl
    · rfl
    · rfl
    · rfl
    · intro i hi
      simp only [rotateRowsUpward] at hi ⊢
      rw [rotUp_eq hle, rotUp_eq hle]
      by_cases e : upIdx rk (r - 1) i = rk
      · rw [e, hB0r]
      · rw [hB0n _ e]
        apply hdone
        unfold upIdx at e ⊢; split_ifs at e ⊢ <;> omega
    · intro i j hj
      simp only [rotateRowsUpward] at hj ⊢
      rw [rotUp_eq hle, rotUp_eq hle]
      by_cases e : upIdx rk (r - 1) i = rk
      · rw [e, hB0r]
      · rw [hB0n _ e]
        exact hleft _ j hj
    · intro i j hi hi' hj hj'
      simp only [rotateRowsUpward] at hi hi' hj ⊢
      simp only [rotUp_eq hle]
      have e : upIdx rk (r - 1) i = i + 1 := by unfold upIdx; split_ifs <;> omega
      rw [e, hB0n _ (by omega), hpend (i + 1) j (by omega) (by omega) hj hj']
      congr 1
      refine Finset.sum_congr rfl fun k hk => ?_
      rw [Finset.mem_range] at hk
      rw [u1 k hk, hB0n k (by omega)]
  · simp only [hpc, if_false]
    have hp2 : p < c := by omega
    have hpne := h4 (by omega)
    have u1 : ∀ j, j < rk → downIdx rk p j = j := by
      intro i hi; unfold downIdx; split_ifs <;> omega
    have u3 : downIdx rk p rk = p := by unfold downIdx; simp
    have u4 : ∀ j, j < c → downIdx rk p j < c := by
      intro i hi; unfold downIdx; split_ifs <;> omega
    have u5 : ∀ j, rk ≤ j → rk ≤ downIdx rk p j := by
      intro i hi; unfold downIdx; split_ifs <;> omega
    have u6 : ∀ j, rk < j → downIdx rk p j ≠ p := by
      intro i hi; unfold downIdx; split_ifs <;> omega
    have hr : ∀ {α : Type} (f : Nat → α) (k : Nat), rotDown rk p f k = f (downIdx rk p k) :=
      fun f k => rotDown_eq h1 f k
    have sc1 : ∀ i, ¬ (rk + 1 ≤ i ∧ i < r - nu) →
        scaleColumn r nu rk p (A rk p)⁻¹ B0 i = A i := by
      intro i hi
      simp only [scaleColumn, hi, if_false]
      by_cases e : i = rk
      · rw [e, hB0r]
      · rw [hB0n i e]; exact (hdone i (by omega)).symm
    have sc2 : ∀ i j, (rk + 1 ≤ i ∧ i < r - nu) → j ≠ p →
        scaleColumn r nu rk p (A rk p)⁻¹ B0 i j = B i j := by
      intro i j hi hj
      simp only [scaleColumn, hi, and_self, if_true]
      rw [Function.update_of_ne hj, hB0n i (by omega)]
    have sc3 : ∀ i, (rk + 1 ≤ i ∧ i < r - nu) →
        scaleColumn r nu rk p (A rk p)⁻¹ B0 i p = A i p * (A rk p)⁻¹ := by
      intro i hi
      simp only [scaleColumn, hi, and_self, if_true, Function.update_self]
      rw [hB0n i (by omega), hpend i p (by omega) (by omega) h1 hp2]
      congr 2
      refine Finset.sum_congr rfl fun k hk => ?_
      rw [Finset.mem_range] at hk
      rw [hB0n k (by omega)]
    generalize scaleColumn r nu rk p (A rk p)⁻¹ B0 = B1 at sc1 sc2 sc3 ⊢
    have hrc : ∀ (X : Mat K) i j, i < r → (rotateColumnsRightward r X (some Q) rk p).1 i j =
        X i (downIdx rk p j) := by
      intro X i j hi
      simp only [rotateColumnsRightward, hi, if_true, hr]
    have hrc' : ∀ (X : Mat K) i, ¬ i < r → (rotateColumnsRightward r X (some Q) rk p).1 i = X i := by
      intro X i hi
      simp only [rotateColumnsRightward, hi, if_false]
    have hdn : ∀ i, ¬ (rk + 1 ≤ i ∧ i < r - nu) →
        (rotateColumnsRightward r A (some Q) rk p).1 i =
        (rotateColumnsRightward r B1 (some Q) rk p).1 i := by
      intro i hi
      by_cases hir : i < r
      · funext j; rw [hrc _ _ _ hir, hrc _ _ _ hir, sc1 i hi]
      · rw [hrc' _ _ hir, hrc' _ _ hir, sc1 i hi]
    constructor
    · show rk + 1 + nu ≤ r; omega
    · show rk + 1 ≤ c; omega
    · rfl
    · rfl
    · rfl
    · rfl
    · intro i hi
      simp only at hi ⊢
      rw [if_neg (by omega)]
      exact hdn i (by omega)
    · intro i j hj
      simp only at hj ⊢
      by_cases hi : rk + 1 ≤ i ∧ i < r - nu
      · rw [if_pos hi]
        simp only [elimRow, hrc _ _ _ (show i < r by omega), hrc _ _ _ (show rk < r by omega), u3]
        by_cases e : j = rk
        · rw [if_pos e, e, u3, sc3 i hi]
        · have hd : downIdx rk p j = j := by
            unfold downIdx; split_ifs <;> omega
          rw [if_neg e, if_neg (by omega), hd, sc2 i j hi (by omega)]
          exact hleft i j (by omega)
      · rw [if_neg hi]; exact congrFun (hdn i hi) j
    · intro i j hi hi' hj hj'
      simp only at hi hi' hj ⊢
      have hir : i < r := by omega
      have hic : rk + 1 ≤ i ∧ i < r - nu := ⟨hi, hi'⟩
      rw [if_pos hic, Finset.sum_range_succ]
      simp only [elimRow, hrc _ _ _ hir, hrc _ _ _ (show rk < r by omega), u3]
      rw [if_neg (by omega), if_pos (by omega), sc2 i _ hic (u6 j (by omega)), sc3 i hic,
        sc1 rk (by omega), hpend i (downIdx rk p j) (by omega) hi' (u5 j (by omega)) (u4 j hj')]
      have hs : ∑ k ∈ Finset.range rk, B1 i (downIdx rk p k) *
            (rotateColumnsRightward r B1 (some Q) rk p).1 k j =
          ∑ k ∈ Finset.range rk, B i k * B k (downIdx rk p j) := by
        refine Finset.sum_congr rfl fun k hk => ?_
        rw [Finset.mem_range] at hk
        rw [u1 k hk, sc2 i k hic (by omega), hrc _ _ _ (by omega), sc1 k (by omega),
          hdone k (Or.inl hk)]
      rw [hs]
      ring

theorem sim_loop (r c : Nat) : ∀ (n : Nat) (s t : PState K), Sim r c s t →
    (∀ u, whileLoop (fun s => decide (s.rank + s.nullity < r)) (pluqStep r c) n s = some u →
      ∃ w, whileLoop (fun s => decide (s.rank + s.nullity < r)) (croutStep r c) n t = some w ∧
        Sim r c u w ∧ ¬ u.rank + u.nullity < r) := by
  intro n
  induction n with
  | zero =>
    intro s t h u hu
    simp only [whileLoop] at hu ⊢
    by_cases hc : s.rank + s.nullity < r
    · simp [hc] at hu
    · have hc' : ¬ t.rank + t.nullity < r := by rw [← h.rank, ← h.nullity]; exact hc
      simp only [hc, decide_false] at hu
      simp only [hc', decide_false]
      simp at hu
      subst hu
      exact ⟨t, rfl, h, hc⟩
  | succ n ih =>
    intro s t h u hu
    simp only [whileLoop] at hu ⊢
    by_cases hc : s.rank + s.nullity < r
    · have hc' : t.rank + t.nullity < r := by rw [← h.rank, ← h.nullity]; exact hc
      simp only [hc, decide_true, if_true] at hu
      simp only [hc', decide_true, if_true]
      exact ih _ _ (sim_step h hc) u hu
    · have hc' : ¬ t.rank + t.nullity < r := by rw [← h.rank, ← h.nullity]; exact hc
      simp only [hc, decide_false] at hu
      simp only [hc', decide_false]
      simp at hu
      subst hu
      exact ⟨t, rfl, h, hc⟩

/-- C13: the Crout variant returns exactly the same rank, permutations and
    compact LU as `nmod_mat_pluq`, on every matrix. -/
theorem C13_crout_eq_pluq (r c : Nat) (M : Mat K) (fuel : Nat) (hf : r ≤ fuel) :
    pluqCrout r c M fuel = pluq r c M fuel ∧
    ∃ s, pluqCrout r c M fuel = some s ∧ IsPLUQ r c M s.A s.P s.Q s.rank := by
  obtain ⟨s, h1, h2⟩ := C12_pluq r c M fuel hf
  have hsim : Sim r c ({ A := M, P := id, Q := id, rank := 0, nullity := 0 } : PState K)
      { A := M, P := id, Q := id, rank := 0, nullity := 0 } :=
    ⟨by simp, by simp, rfl, rfl, rfl, rfl, fun _ _ => rfl, fun _ _ _ => rfl,
      fun _ _ _ _ _ _ => by simp⟩
  obtain ⟨w, hw, hs, hend⟩ := sim_loop r c fuel _ _ hsim s h1
  have hA : s.A = w.A := funext fun i => hs.done i (by have := hs.hn; omega)
  have e : s = w := by
    obtain ⟨A, P, Q, rk, nu⟩ := s
    obtain ⟨B, P', Q', rk', nu'⟩ := w
    have := hs.P; have := hs.Q; have := hs.rank; have := hs.nullity
    simp only at *
    subst_vars
    rfl
  have hw' : pluqCrout r c M fuel = some w := hw
  exact ⟨by rw [hw', h1, e], w, hw', e ▸ h2⟩

/-! Non-vacuity: a 3 x 4 matrix of rank 2 over GF(5) whose row 1 depends on row 0. -/

def exampleM : Mat (ZMod 5) := fun i j =>
  match i, j with
  | 0, 1 => 2 | 0, 2 => 1 | 1, 1 => 4 | 1, 2 => 2 | 2, 0 => 3 | 2, 1 => 1 | _, _ => 0


example : ((pluq 3 4 exampleM 3).map fun s => (s.rank, (List.range 3).map s.P, (List.range 4).map s.Q))
    = some (2, [0, 2, 1], [1, 0, 2, 3]) := by decide +kernel

example : ((pluq 3 4 exampleM 3).map fun s =>
    (List.range 3).map fun i => (List.range 4).map (s.A i))
    = some [[2, 0, 1, 0], [3, 3, 2, 0], [2, 0, 0, 0]] := by decide +kernel

end PML.Pluq
