import Verif.Nullspace.Lemmas
import Mathlib.Tactic.IntervalCases

/-!
# C15, C16: left nullspace

`fl` is FLINT's right nullspace; the theorems hold for every `fl` with the
assumed contract, and `exists_rightNullspace` shows the contract can be met.
-/

namespace PML.Nullspace

open PML.MatOps PML.MatOps.Spec PML.Pluq PML.Pluq.Spec Spec

variable {K : Type} [Field K] [DecidableEq K]

/-- The contract of `nmod_mat_nullspace`, for all inputs. -/
def FlintContract (fl : RightNullspaceFn K) : Prop :=
  ∀ rows cols B, RightNullspace rows cols B (fl rows cols B).1 (fl rows cols B).2

/-- The contract is satisfiable. -/
theorem flintContract_satisfiable : ∃ fl : RightNullspaceFn K, FlintContract fl := by
  choose X nu h using fun rows cols B => exists_rightNullspace (K := K) rows cols B
  exact ⟨fun r c B => (X r c B, nu r c B), fun r c B => h r c B⟩

/-- Everything about the compact nullspace at once, with the echelon pivots. -/
theorem compact_spec (fl : RightNullspaceFn K) (hfl : FlintContract fl) (m n : Nat) (A : Mat K)
    (perm0 : Nat → Nat) :
    let res := leftNullspaceCompact fl m n A perm0
    CompactLeftNullspace m n A res.1 res.2.1 res.2.2 := by
  intro res
  have hF := hfl n m (fun i j => A j i)
  obtain ⟨dim, ker, piv, hp, hmono, hd, hz⟩ := hF
  set Xt := (fl n m fun i j => A j i).1 with hXt
  set nu := (fl n m fun i j => A j i).2 with hnu
  have dim' : nu + (toMatrix m n A).rank = m := by
    have e : (toMatrix m n A).rank = (toMatrix n m fun i j => A j i).rank := by
      rw [← Matrix.rank_transpose]; rfl
    rw [e]; exact dim
  have hle : nu ≤ m := by omega
  have ker' : ∀ i j, i < nu → j < n → ∑ k ∈ Finset.range m, Xt k i * A k j = 0 := by
    intro i j hi hj
    rw [← ker j i hj hi]
    exact Finset.sum_congr rfl fun k _ => mul_comm _ _
  have prof := profile_of_echelon (X := fun i k => Xt k i) dim' ker' hp hmono
    (fun s t hs ht => hd s t hs ht) (fun k t ht h1 h2 => hz k t ht h1 h2)
  by_cases h0 : nu = 0
  · have hres : res = (fun _ _ => 0, fun i => if i < m then i else perm0 i, 0) := by
      show leftNullspaceCompact fl m n A perm0 = _
      unfold leftNullspaceCompact
      simp only
      rw [← hnu, h0]; simp
    rw [hres]
    simp only
    rw [h0] at dim' prof
    constructor
    · exact dim'
    · exact ⟨fun i hi => by simp [hi], fun i j hi hj e => by simpa [hi, hj] using e⟩
    · intro i j hij hj
      rw [if_pos (by omega), if_pos (by omega)]; exact hij
    · intro i j hi hij hj; omega
    · intro i
      rw [prof i]
      constructor
      · rintro ⟨hi, _⟩; exact ⟨i, by omega, by rw [if_pos hi]⟩
      · rintro ⟨k, hk, e⟩
        rw [if_pos (by omega)] at e
        exact ⟨by omega, fun t ht => absurd ht (by omega)⟩
    · intro i j hi; omega
    · intro i k hi; omega
  · have hres : res = (fun i j => if i < nu ∧ j < m - nu
        then Xt (buildPerm m (m - nu) Xt perm0 j) i else 0, buildPerm m (m - nu) Xt perm0, nu) := by
      show leftNullspaceCompact fl m n A perm0 = _
      unfold leftNullspaceCompact
      simp only
      rw [← hnu, ← hXt, if_pos h0]
    obtain ⟨b1, b2, b3, b4⟩ := buildPerm_spec (Nat.pos_of_ne_zero h0) hle Xt perm0 hp hmono hd hz
    set p := buildPerm m (m - nu) Xt perm0 with hpdef
    rw [hres]
    simp only
    have hperm : IsPerm m p := by
      refine ⟨fun i hi => ?_, fun i j hi hj e => ?_⟩
      · by_cases h : i < m - nu
        · exact (b2 i h).1
        · have : i = m - nu + (i - (m - nu)) := by omega
          rw [this, b1 _ (by omega)]; exact hp _ (by omega)
      · by_cases h : i < m - nu
        · by_cases h' : j < m - nu
          · by_contra hne
            rcases Nat.lt_or_gt_of_ne hne with hl | hl
            · have := b3 i j hl h'; omega
            · have := b3 j i hl h; omega
          · have ej : j = m - nu + (j - (m - nu)) := by omega
            rw [ej, b1 _ (by omega)] at e
            exact absurd e ((b2 i h).2 _ (by omega))
        · have ei : i = m - nu + (i - (m - nu)) := by omega
          rw [ei, b1 _ (by omega)] at e
          by_cases h' : j < m - nu
          · exact absurd e.symm ((b2 j h').2 _ (by omega))
          · have ej : j = m - nu + (j - (m - nu)) := by omega
            rw [ej, b1 _ (by omega)] at e
            by_contra hne
            rcases Nat.lt_or_gt_of_ne hne with hl | hl
            · have := hmono (i - (m - nu)) (j - (m - nu)) (by omega) (by omega); omega
            · have := hmono (j - (m - nu)) (i - (m - nu)) (by omega) (by omega); omega
    constructor
    · exact dim'
    · exact hperm
    · intro i j hij hj; exact b3 i j hij hj
    · intro i j hi hij hj
      have ei : i = m - nu + (i - (m - nu)) := by omega
      have ej : j = m - nu + (j - (m - nu)) := by omega
      rw [ei, ej, b1 _ (by omega), b1 _ (by omega)]
      exact hmono _ _ (by omega) (by omega)
    · intro i
      rw [prof i]
      constructor
      · rintro ⟨hi, h⟩; exact b4 i hi fun t ht e => h t ht e.symm
      · rintro ⟨k, hk, rfl⟩; exact ⟨(b2 k hk).1, fun t ht e => (b2 k hk).2 t ht e.symm⟩
    · intro i j hi hj
      have hk := ker' i j hi hj
      -- reindex the sum by the permutation
      have hre : ∑ k ∈ Finset.range m, Xt k i * A k j =
          ∑ k ∈ Finset.range m, Xt (p k) i * A (p k) j := by
        rw [Finset.sum_range, Finset.sum_range]
        exact (Equiv.sum_comp (permEquiv hperm) (fun k : Fin m => Xt k i * A k j)).symm
      have hm : m = (m - nu) + nu := by omega
      have hsplit : ∑ k ∈ Finset.range m, Xt (p k) i * A (p k) j =
          ∑ k ∈ Finset.range (m - nu), Xt (p k) i * A (p k) j +
          ∑ t ∈ Finset.range nu, Xt (p (m - nu + t)) i * A (p (m - nu + t)) j := by
        conv_lhs => rw [hm]
        rw [Finset.sum_range_add]
      have hsecond : ∑ t ∈ Finset.range nu, Xt (p (m - nu + t)) i * A (p (m - nu + t)) j =
          A (p (m - nu + i)) j := by
        rw [Finset.sum_eq_single i]
        · rw [b1 i hi, hd i i hi hi, if_pos rfl, one_mul]
        · intro t ht hti
          rw [Finset.mem_range] at ht
          rw [b1 t ht, hd t i ht hi, if_neg hti, zero_mul]
        · intro h; exact absurd (Finset.mem_range.2 hi) h
      rw [hre, hsplit, hsecond] at hk
      rw [← hk, add_comm]
      congr 1
      refine Finset.sum_congr rfl fun k hk => ?_
      rw [Finset.mem_range] at hk
      rw [if_pos ⟨hi, hk⟩]
    · intro i k hi hk hne
      rw [if_pos ⟨hi, hk⟩] at hne
      rw [b1 i hi]
      by_contra hc
      rcases Nat.lt_or_eq_of_le (not_lt.1 hc) with h | h
      · exact hne (hz _ i hi h (b2 k hk).1)
      · exact (b2 k hk).2 i hi h.symm

/-- C16: the compact left nullspace has the documented form, on every matrix. -/
theorem C16_left_nullspace_compact (fl : RightNullspaceFn K) (hfl : FlintContract fl)
    (m n : Nat) (A : Mat K) (perm0 : Nat → Nat) :
    CompactLeftNullspace m n A (leftNullspaceCompact fl m n A perm0).1
      (leftNullspaceCompact fl m n A perm0).2.1 (leftNullspaceCompact fl m n A perm0).2.2 :=
  compact_spec fl hfl m n A perm0

/-- C16, consistency: the full nullspace is the expansion of the compact one:
    its row `i` has a one at column `perm[rank+i]`, `X[i][j]` at column
    `perm[j]`, and zeros at the other pivot columns. -/
theorem C16_full_is_expansion (fl : RightNullspaceFn K) (hfl : FlintContract fl)
    (m n : Nat) (A : Mat K) (perm0 : Nat → Nat) :
    let res := leftNullspaceCompact fl m n A perm0
    let full := leftNullspace fl m n A perm0
    full.2 = res.2.2 ∧
    ∀ i, i < res.2.2 →
      (∀ t, t < res.2.2 → full.1 i (res.2.1 (m - res.2.2 + t)) = if t = i then 1 else 0) ∧
      (∀ j, j < m - res.2.2 → full.1 i (res.2.1 j) = res.1 i j) := by
  intro res full
  have hC : CompactLeftNullspace m n A res.1 res.2.1 res.2.2 := compact_spec fl hfl m n A perm0
  set nu := res.2.2 with hnu
  have hle : nu ≤ m := by have := hC.dim; omega
  refine ⟨rfl, fun i hi => ?_⟩
  have hrow : full.1 i = scatterRow res.2.1 (res.1 i) (m - nu)
      (onesLoop (m - nu) res.2.1 nu (fun _ _ => 0) i) := by
    show (leftNullspace fl m n A perm0).1 i = _
    unfold leftNullspace
    simp only
    rw [if_pos hi]
  rw [hrow]
  constructor
  · intro t ht
    rw [scatterRow_other]
    · rw [onesLoop_apply]
      by_cases e : t = i
      · rw [if_pos ⟨hi, by rw [e]⟩, if_pos e]
      · rw [if_neg, if_neg e]
        rintro ⟨_, h⟩
        have := hC.isPerm.2 _ _ (by omega) (by omega) h
        omega
    · intro j hj e
      have := hC.isPerm.2 _ _ (by omega) (by omega) e
      omega
  · intro j hj
    apply scatterRow_perm
    · intro a b hab hb e
      have := hC.isPerm.2 _ _ (by omega) (by omega) e
      omega
    · exact hj

/-- C15: the left nullspace is a basis of the left kernel, in reduced echelon
    form, on every matrix. -/
theorem C15_left_nullspace (fl : RightNullspaceFn K) (hfl : FlintContract fl)
    (m n : Nat) (A : Mat K) (perm0 : Nat → Nat) :
    LeftNullspaceBasis m n A (leftNullspace fl m n A perm0).1 (leftNullspace fl m n A perm0).2 := by
  have hC : CompactLeftNullspace m n A (leftNullspaceCompact fl m n A perm0).1
      (leftNullspaceCompact fl m n A perm0).2.1 (leftNullspaceCompact fl m n A perm0).2.2 :=
    compact_spec fl hfl m n A perm0
  obtain ⟨hN, hX⟩ := C16_full_is_expansion fl hfl m n A perm0
  set res := leftNullspaceCompact fl m n A perm0
  set full := leftNullspace fl m n A perm0
  set nu := res.2.2
  set p := res.2.1
  have hle : nu ≤ m := by have := hC.dim; omega
  rw [hN]
  have ker : ∀ i j, i < nu → j < n → ∑ k ∈ Finset.range m, full.1 i k * A k j = 0 := by
    intro i j hi hj
    have hre : ∑ k ∈ Finset.range m, full.1 i k * A k j =
        ∑ k ∈ Finset.range m, full.1 i (p k) * A (p k) j := by
      rw [Finset.sum_range, Finset.sum_range]
      exact (Equiv.sum_comp (permEquiv hC.isPerm) (fun k : Fin m => full.1 i k * A k j)).symm
    have hm : m = (m - nu) + nu := by omega
    have hsplit : ∑ k ∈ Finset.range m, full.1 i (p k) * A (p k) j =
        ∑ k ∈ Finset.range (m - nu), full.1 i (p k) * A (p k) j +
        ∑ t ∈ Finset.range nu, full.1 i (p (m - nu + t)) * A (p (m - nu + t)) j := by
      conv_lhs => rw [hm]
      rw [Finset.sum_range_add]
    rw [hre, hsplit, ← hC.relation i j hi hj, add_comm]
    congr 1
    · rw [Finset.sum_eq_single i]
      · rw [(hX i hi).1 i hi, if_pos rfl, one_mul]
      · intro t ht hti
        rw [Finset.mem_range] at ht
        rw [(hX i hi).1 t ht, if_neg hti, zero_mul]
      · intro h; exact absurd (Finset.mem_range.2 hi) h
    · refine Finset.sum_congr rfl fun k hk => ?_
      rw [Finset.mem_range] at hk
      rw [(hX i hi).2 k hk]
  have hp : ∀ t, t < nu → p (m - nu + t) < m := fun t ht => hC.isPerm.1 _ (by omega)
  have hd : ∀ s t, s < nu → t < nu → full.1 t (p (m - nu + s)) = if s = t then 1 else 0 :=
    fun s t hs ht => (hX t ht).1 s hs
  refine ⟨hC.dim, ker, ?_, fun t => p (m - nu + t), hp, ?_, hd, ?_⟩
  · intro v hv
    refine ⟨fun i => v (p (m - nu + i)),
      span_of_echelon hC.dim ker (piv := fun t => p (m - nu + t)) hp hd v hv, ?_⟩
    intro b hb i hi
    have := hb _ (hp i hi)
    show b i = v (p (m - nu + i))
    rw [this, Finset.sum_eq_single i]
    · rw [hd i i hi hi, if_pos rfl, mul_one]
    · intro t ht hti
      rw [Finset.mem_range] at ht
      rw [hd i t hi ht, if_neg (fun e => hti e.symm), mul_zero]
    · intro h; exact absurd (Finset.mem_range.2 hi) h
  · intro s t hst ht
    exact hC.mono₂ _ _ (by omega) (by omega) (by omega)
  · intro k t ht hk hkm
    have hk : p (m - nu + t) < k := hk
    obtain ⟨x, hx, rfl⟩ := IsPerm.surj hC.isPerm k hkm
    by_cases h : x < m - nu
    · rw [(hX t ht).2 x h]
      by_contra hne
      have : p x < p (m - nu + t) := hC.lower t x ht h hne
      omega
    · have e : x = m - nu + (x - (m - nu)) := by omega
      rw [e, (hX t ht).1 _ (by omega), if_neg]
      intro e'
      rw [e, e'] at hk
      exact absurd hk (Nat.lt_irrefl _)

/-! Non-vacuity: a concrete right nullspace meeting the contract for one input,
and the resulting compact form: `A` is 3 x 1 with rows 0, 1, 2 (over GF(5)). -/

example : let B : Mat (ZMod 5) := fun i j => if i = 0 then (j : ZMod 5) else 0
    let X : Mat (ZMod 5) := fun k t => if t = 0 then (if k = 0 then 1 else 0)
      else if t = 1 then (if k = 1 then 3 else if k = 2 then 1 else 0) else 0
    (∀ i t, i < 1 → t < 2 → ∑ k ∈ Finset.range 3, B i k * X k t = 0) ∧
    (List.range 3).map (leftNullspaceCompact (fun _ _ _ => (X, 2)) 3 1 (fun i _ => (i : ZMod 5))
      (fun _ => 77)).2.1 = [1, 0, 2] := by
  refine ⟨?_, by decide +kernel⟩
  intro i t hi ht
  interval_cases i
  interval_cases t <;> decide +kernel

end PML.Nullspace
