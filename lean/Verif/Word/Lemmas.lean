import Verif.Word.Model
import Verif.Word.Spec
import Mathlib.Algebra.Order.BigOperators.Group.Finset
import Mathlib.Algebra.BigOperators.Intervals
import Mathlib.Algebra.BigOperators.Ring.Finset
import Mathlib.Algebra.Module.NatInt
import Mathlib.Algebra.GroupWithZero.Action.Defs
import Mathlib.Tactic.Ring
import Mathlib.Tactic.Linarith
import Mathlib.Tactic.NormNum

namespace PML.Word

open Finset

/-- partial dot products starting at an offset -/
def dotOff (v1 v2 : Nat → Nat) (off k : Nat) : Nat :=
  ∑ i ∈ range k, v1 (off + i) * v2 (off + i)

theorem dot_split (v1 v2 : Nat → Nat) (a b : Nat) :
    dot v1 v2 (a + b) = dot v1 v2 a + dotOff v1 v2 a b := by
  simp [dot, dotOff, sum_range_add]

theorem dotOff_succ (v1 v2 : Nat → Nat) (off k : Nat) :
    dotOff v1 v2 off (k + 1) = dotOff v1 v2 off k + v1 (off + k) * v2 (off + k) := by
  simp [dotOff, sum_range_succ]

theorem dotOff_succ' (v1 v2 : Nat → Nat) (off k : Nat) :
    dotOff v1 v2 off (k + 1) = v1 off * v2 off + dotOff v1 v2 (off + 1) k := by
  simp only [dotOff, sum_range_succ', add_zero]
  rw [add_comm]
  congr 1
  apply sum_congr rfl
  intro i _
  rw [show off + (i + 1) = off + 1 + i by ring]

def val2 (x : Nat × Nat) : Nat := x.1 * W + x.2

theorem umul_val (a b : Nat) (ha : a < W) (hb : b < W) :
    val2 (umul_ppmm a b) = a * b := by
  have h : a * b < W * W := Nat.mul_lt_mul'' ha hb
  simp only [val2, umul_ppmm, W] at *
  generalize a * b = c at *
  omega

theorem umul_lt (a b : Nat) : (umul_ppmm a b).1 < W ∧ (umul_ppmm a b).2 < W := by
  simp only [umul_ppmm, W]; omega

theorem add2_lt (x y : Nat × Nat) : (add_ssaaaa x y).1 < W ∧ (add_ssaaaa x y).2 < W := by
  simp only [add_ssaaaa, W]; omega

theorem add2_val (x y : Nat × Nat) (h : val2 x + val2 y < W ^ 2) :
    val2 (add_ssaaaa x y) = val2 x + val2 y := by
  obtain ⟨x1, x2⟩ := x
  obtain ⟨y1, y2⟩ := y
  simp only [val2, add_ssaaaa, W] at *
  omega

theorem add3_words (x y : Nat × Nat × Nat) : IsWords3 (add_sssaaaaaa x y) := by
  simp only [IsWords3, add_sssaaaaaa, W]
  omega

theorem add3_val (x y : Nat × Nat × Nat) (h : value3 x + value3 y < W ^ 3) :
    value3 (add_sssaaaaaa x y) = value3 x + value3 y := by
  obtain ⟨x1, x2, x3⟩ := x
  obtain ⟨y1, y2, y3⟩ := y
  simp only [value3, add_sssaaaaaa, W] at *
  omega

theorem value3_low (u : Nat × Nat) : value3 (0, u.1, u.2) = val2 u := by
  simp [value3, val2, W]

theorem accFrom_val (v1 v2 : Nat → Nat) (off : Nat) :
    ∀ (n i : Nat) (u : Nat × Nat),
      (∀ j, j < n → v1 (off + i + j) < W ∧ v2 (off + i + j) < W) →
      val2 u + dotOff v1 v2 (off + i) n < W ^ 2 →
      val2 (accFrom v1 v2 off i n u) = val2 u + dotOff v1 v2 (off + i) n := by
  intro n
  induction n with
  | zero => intro i u _ _; simp [accFrom, dotOff]
  | succ n ih =>
    intro i u hv hlt
    have h0 := hv 0 (by omega)
    simp only [add_zero] at h0
    have hu := umul_val (v1 (off + i)) (v2 (off + i)) h0.1 h0.2
    rw [dotOff_succ'] at hlt ⊢
    have hadd := add2_val u (umul_ppmm (v1 (off + i)) (v2 (off + i))) (by rw [hu]; omega)
    rw [accFrom, ih]
    · rw [hadd, hu, show off + (i + 1) = off + i + 1 by ring]; ring
    · intro j hj
      have := hv (j + 1) (by omega)
      rwa [show off + (i + 1) + j = off + i + (j + 1) by ring]
    · rw [hadd, hu, show off + (i + 1) = off + i + 1 by ring]; omega

theorem tailSum_val (v1 v2 : Nat → Nat) (off n : Nat)
    (hv : ∀ j, j < n → v1 (off + j) < W ∧ v2 (off + j) < W)
    (h : dotOff v1 v2 off n < W ^ 2) :
    val2 (tailSum v1 v2 off n) = dotOff v1 v2 off n := by
  have := accFrom_val v1 v2 off n 0 (0, 0) (by simpa using hv) (by simpa [val2] using h)
  simpa [tailSum, val2] using this

theorem block_val (v1 v2 : Nat → Nat) (off k : Nat) (hk : 0 < k)
    (hv : ∀ j, j < k → v1 (off + j) < W ∧ v2 (off + j) < W)
    (h : dotOff v1 v2 off k < W ^ 2) :
    val2 (block v1 v2 off k) = dotOff v1 v2 off k := by
  obtain ⟨k, rfl⟩ : ∃ k', k = k' + 1 := ⟨k - 1, by omega⟩
  have h0 := hv 0 (by omega)
  simp only [add_zero] at h0
  have hu := umul_val (v1 off) (v2 off) h0.1 h0.2
  rw [dotOff_succ'] at h
  have := accFrom_val v1 v2 off k 1 (umul_ppmm (v1 off) (v2 off))
    (fun j hj => by
      have := hv (j + 1) (by omega)
      rwa [show off + 1 + j = off + (j + 1) by ring])
    (by rw [hu]; omega)
  rw [dotOff_succ']
  simpa [block, hu] using this

/-- bound on a dot product of `k` terms -/
theorem dotOff_le (v1 v2 : Nat → Nat) (off k A B : Nat)
    (h1 : ∀ j, j < k → v1 (off + j) ≤ A) (h2 : ∀ j, j < k → v2 (off + j) ≤ B) :
    dotOff v1 v2 off k ≤ k * (A * B) := by
  have : dotOff v1 v2 off k ≤ ∑ _i ∈ range k, A * B := by
    apply sum_le_sum
    intro i hi
    rw [mem_range] at hi
    exact Nat.mul_le_mul (h1 i hi) (h2 i hi)
  simpa using this

theorem two_pow_split {b1 b2 : Nat} (h1 : b1 ≤ 64) (h2 : b2 ≤ 64) :
    2 ^ (2 * 64 - (b1 + b2)) * (2 ^ b1 * 2 ^ b2) = W ^ 2 := by
  rw [← pow_add, ← pow_add, W, ← pow_mul]
  congr 1
  omega

/-- a block of at most `numTerms` products fits in two limbs -/
theorem block_fits (v1 v2 : Nat → Nat) (off k b1 b2 : Nat) (h1 : b1 ≤ 64) (h2 : b2 ≤ 64)
    (hb1 : ∀ j, j < k → v1 (off + j) < 2 ^ b1) (hb2 : ∀ j, j < k → v2 (off + j) < 2 ^ b2)
    (hk : k ≤ numTerms b1 b2) : dotOff v1 v2 off k < W ^ 2 := by
  have hle := dotOff_le v1 v2 off k (2 ^ b1 - 1) (2 ^ b2 - 1)
    (fun j hj => by have := hb1 j hj; omega) (fun j hj => by have := hb2 j hj; omega)
  refine lt_of_le_of_lt hle ?_
  have hp1 : 0 < 2 ^ b1 := by positivity
  have hp2 : 0 < 2 ^ b2 := by positivity
  have hlt : (2 ^ b1 - 1) * (2 ^ b2 - 1) < 2 ^ b1 * 2 ^ b2 := Nat.mul_lt_mul'' (by omega) (by omega)
  have hsp := two_pow_split h1 h2
  have hk' : k ≤ 2 ^ (2 * 64 - (b1 + b2)) := by
    refine hk.trans ?_
    simp only [numTerms]
    split
    · exact le_rfl
    · rename_i hlog
      have : (2 : Nat) ^ 64 ≤ 2 ^ (2 * 64 - (b1 + b2)) := Nat.pow_le_pow_right (by norm_num) (by omega)
      simp only [W]; omega
  calc k * ((2 ^ b1 - 1) * (2 ^ b2 - 1))
      ≤ 2 ^ (2 * 64 - (b1 + b2)) * ((2 ^ b1 - 1) * (2 ^ b2 - 1)) := Nat.mul_le_mul_right _ hk'
    _ < 2 ^ (2 * 64 - (b1 + b2)) * (2 ^ b1 * 2 ^ b2) := Nat.mul_lt_mul_of_pos_left hlt (by positivity)
    _ = W ^ 2 := hsp

theorem numTerms_pos (b1 b2 : Nat) : 0 < numTerms b1 b2 := by
  simp only [numTerms]; split
  · positivity
  · simp [W]

/-- invariant of the blocked loops -/
def Inv (v1 v2 : Nat → Nat) (len : Nat) (s : DotState) : Prop :=
  s.off + s.len = len ∧ value3 s.t = dot v1 v2 s.off

theorem total_lt (v1 v2 : Nat → Nat) (len k b1 b2 : Nat) (h1 : b1 ≤ 64) (h2 : b2 ≤ 64)
    (hlen : len < W) (hb1 : Bits v1 len b1) (hb2 : Bits v2 len b2) (hk : k ≤ len) :
    dot v1 v2 k < W ^ 3 := by
  have hle := dotOff_le v1 v2 0 k (W - 1) (W - 1)
    (fun j hj => by
      have := hb1 j (by omega)
      have h3 : 2 ^ b1 ≤ 2 ^ 64 := Nat.pow_le_pow_right (by norm_num) h1
      simp only [W, zero_add] at *; omega)
    (fun j hj => by
      have := hb2 j (by omega)
      have h3 : 2 ^ b2 ≤ 2 ^ 64 := Nat.pow_le_pow_right (by norm_num) h2
      simp only [W, zero_add] at *; omega)
  have : dot v1 v2 k = dotOff v1 v2 0 k := by simp [dot, dotOff]
  rw [this]
  refine lt_of_le_of_lt hle ?_
  have : k * ((W - 1) * (W - 1)) ≤ W * ((W - 1) * (W - 1)) := Nat.mul_le_mul_right _ (by omega)
  refine lt_of_le_of_lt this ?_
  norm_num [W]

theorem blockStep_inv (v1 v2 : Nat → Nat) (len k b1 b2 : Nat) (h1 : b1 ≤ 64) (h2 : b2 ≤ 64)
    (hlen : len < W) (hb1 : Bits v1 len b1) (hb2 : Bits v2 len b2)
    (hk : 0 < k) (hnt : k ≤ numTerms b1 b2) (s : DotState) (hs : Inv v1 v2 len s)
    (hc : k ≤ s.len) :
    Inv v1 v2 len (blockStep v1 v2 k s) ∧ (blockStep v1 v2 k s).len < s.len := by
  obtain ⟨ho, ht⟩ := hs
  have hw1 : ∀ j, j < k → v1 (s.off + j) < 2 ^ b1 := fun j hj => hb1 _ (by omega)
  have hw2 : ∀ j, j < k → v2 (s.off + j) < 2 ^ b2 := fun j hj => hb2 _ (by omega)
  have p1 : 2 ^ b1 ≤ 2 ^ 64 := Nat.pow_le_pow_right (by norm_num) h1
  have p2 : 2 ^ b2 ≤ 2 ^ 64 := Nat.pow_le_pow_right (by norm_num) h2
  have hfit := block_fits v1 v2 s.off k b1 b2 h1 h2 hw1 hw2 hnt
  have hval := block_val v1 v2 s.off k hk
    (fun j hj => ⟨lt_of_lt_of_le (hw1 j hj) p1, lt_of_lt_of_le (hw2 j hj) p2⟩) hfit
  have htot := total_lt v1 v2 len (s.off + k) b1 b2 h1 h2 hlen hb1 hb2 (by omega)
  rw [dot_split] at htot
  refine ⟨⟨?_, ?_⟩, ?_⟩
  · simp only [blockStep]; omega
  · simp only [blockStep]
    rw [add3_val, value3_low, hval, ht, dot_split]
    rw [value3_low, hval, ht]; exact htot
  · simp only [blockStep]; omega

/-- result of the loop + tail -/
theorem finish_val (v1 v2 : Nat → Nat) (len b1 b2 : Nat) (h1 : b1 ≤ 64) (h2 : b2 ≤ 64)
    (hlen : len < W) (hb1 : Bits v1 len b1) (hb2 : Bits v2 len b2)
    (s : DotState) (hs : Inv v1 v2 len s) (hc : s.len ≤ numTerms b1 b2) :
    value3 (add_sssaaaaaa s.t
      (0, (tailSum v1 v2 s.off s.len).1, (tailSum v1 v2 s.off s.len).2)) = dot v1 v2 len := by
  obtain ⟨ho, ht⟩ := hs
  have hw1 : ∀ j, j < s.len → v1 (s.off + j) < 2 ^ b1 := fun j hj => hb1 _ (by omega)
  have hw2 : ∀ j, j < s.len → v2 (s.off + j) < 2 ^ b2 := fun j hj => hb2 _ (by omega)
  have p1 : 2 ^ b1 ≤ 2 ^ 64 := Nat.pow_le_pow_right (by norm_num) h1
  have p2 : 2 ^ b2 ≤ 2 ^ 64 := Nat.pow_le_pow_right (by norm_num) h2
  have hfit := block_fits v1 v2 s.off s.len b1 b2 h1 h2 hw1 hw2 hc
  have hval := tailSum_val v1 v2 s.off s.len
    (fun j hj => ⟨lt_of_lt_of_le (hw1 j hj) p1, lt_of_lt_of_le (hw2 j hj) p2⟩) hfit
  have htot := total_lt v1 v2 len len b1 b2 h1 h2 hlen hb1 hb2 le_rfl
  rw [← ho, dot_split] at htot ⊢
  rw [add3_val, value3_low, hval, ht]
  rw [value3_low, hval, ht]; exact htot

/-- the blocked loop, for any block size and any exit test that leaves at most
`numTerms` terms and only runs with at least `k` terms left -/
theorem loop_spec (v1 v2 : Nat → Nat) (len k b1 b2 : Nat) (h1 : b1 ≤ 64) (h2 : b2 ≤ 64)
    (hlen : len < W) (hb1 : Bits v1 len b1) (hb2 : Bits v2 len b2)
    (hk : 0 < k) (hnt : k ≤ numTerms b1 b2) (c : DotState → Bool)
    (hc : ∀ s, c s = true → k ≤ s.len) (fuel : Nat) (hf : len ≤ fuel) :
    ∃ s, whileLoop c (blockStep v1 v2 k) fuel ⟨0, len, (0, 0, 0)⟩ = some s ∧
      Inv v1 v2 len s ∧ c s = false := by
  apply whileLoop_spec (Inv v1 v2 len) (fun s => s.len)
  · intro s hs hcs
    exact blockStep_inv v1 v2 len k b1 b2 h1 h2 hlen hb1 hb2 hk hnt s hs (hc s hcs)
  · exact ⟨by simp, by simp [value3, dot]⟩
  · simpa using hf

/-! ### limb bound -/

theorem maxWord (b : Nat) (hb : b ≤ 64) :
    (if b = 64 then W - 1 else (2 ^ b - 1) % W) = 2 ^ b - 1 := by
  split
  · subst b; rfl
  · have : 2 ^ b ≤ 2 ^ 64 := Nat.pow_le_pow_right (by norm_num) hb
    apply Nat.mod_eq_of_lt
    have : 0 < 2 ^ b := by positivity
    simp only [W]; omega

theorem boundLimbs_spec (len b1 b2 : Nat) (h1 : b1 ≤ 64) (h2 : b2 ≤ 64) (hlen : len < W) :
    (dotBoundLimbs len b1 b2 = 0 → (2 ^ b1 - 1) * (2 ^ b2 - 1) * len = 0) ∧
    (dotBoundLimbs len b1 b2 = 1 → (2 ^ b1 - 1) * (2 ^ b2 - 1) * len < W) ∧
    (dotBoundLimbs len b1 b2 = 2 → (2 ^ b1 - 1) * (2 ^ b2 - 1) * len < W ^ 2) ∧
    (dotBoundLimbs len b1 b2 ≤ 3) ∧
    (2 ^ b1 - 1) * (2 ^ b2 - 1) * len < W ^ 3 := by
  have p1 : 2 ^ b1 ≤ W := Nat.pow_le_pow_right (by norm_num) h1
  have p2 : 2 ^ b2 ≤ W := Nat.pow_le_pow_right (by norm_num) h2
  have q1 : 0 < 2 ^ b1 := by positivity
  have q2 : 0 < 2 ^ b2 := by positivity
  have ha1 : 2 ^ b1 - 1 < W := by omega
  have ha2 : 2 ^ b2 - 1 < W := by omega
  unfold dotBoundLimbs
  rw [maxWord b1 h1, maxWord b2 h2]
  generalize 2 ^ b1 - 1 = a1 at *
  generalize 2 ^ b2 - 1 = a2 at *
  have hp : a1 * a2 ≤ (W - 1) * (W - 1) := Nat.mul_le_mul (by omega) (by omega)
  have ht := umul_val a1 a2 ha1 ha2
  have htl := umul_lt a1 a2
  dsimp only
  generalize umul_ppmm a1 a2 = t at *
  have e1 := umul_val t.1 len htl.1 hlen
  have e2 := umul_val t.2 len htl.2 hlen
  generalize umul_ppmm t.1 len = x at *
  generalize umul_ppmm t.2 len = u at *
  have htot : a1 * a2 * len < W ^ 3 := by
    have : a1 * a2 * len ≤ (W - 1) * (W - 1) * (W - 1) := Nat.mul_le_mul hp (by omega)
    refine lt_of_le_of_lt this ?_
    norm_num [W]
  have hsum : value3 (x.1, x.2, 0) + value3 (0, u.1, u.2) = a1 * a2 * len := by
    rw [value3_low, e2, ← ht]
    have : value3 (x.1, x.2, 0) = val2 x * W := by simp only [value3, val2, W]; ring
    rw [this, e1]
    simp only [val2]; ring
  have hv := add3_val (x.1, x.2, 0) (0, u.1, u.2) (by rw [hsum]; exact htot)
  have hw := add3_words (x.1, x.2, 0) (0, u.1, u.2)
  rw [hsum] at hv
  generalize add_sssaaaaaa (x.1, x.2, 0) (0, u.1, u.2) = r at *
  rw [← hv]
  rw [← hv] at htot
  simp only [value3, IsWords3, W] at *
  refine ⟨?_, ?_, ?_, ?_, htot⟩
  · intro h
    split_ifs at h with c1 c2 c3
    rw [not_not] at c1 c2 c3
    rw [c1, c2, c3]; simp only [Nat.zero_mul]
  · intro h; split_ifs at h <;> omega
  · intro h; split_ifs at h <;> omega
  · split_ifs <;> omega

theorem dot_le_bound (v1 v2 : Nat → Nat) (len b1 b2 : Nat)
    (hb1 : Bits v1 len b1) (hb2 : Bits v2 len b2) :
    dot v1 v2 len ≤ (2 ^ b1 - 1) * (2 ^ b2 - 1) * len := by
  have := dotOff_le v1 v2 0 len (2 ^ b1 - 1) (2 ^ b2 - 1)
    (fun j hj => by have := hb1 j hj; simp; omega) (fun j hj => by have := hb2 j hj; simp; omega)
  have h : dot v1 v2 len = dotOff v1 v2 0 len := by simp [dot, dotOff]
  rw [h]; linarith

theorem dot1Acc_val (v1 v2 : Nat → Nat) (len : Nat) : ∀ k, k ≤ len → dot v1 v2 len < W →
    dot1Acc v1 v2 k = dot v1 v2 k := by
  intro k
  induction k with
  | zero => intro _ _; simp [dot1Acc, dot]
  | succ k ih =>
    intro hk h
    have hmono : dot v1 v2 (k + 1) ≤ dot v1 v2 len := by
      obtain ⟨d, rfl⟩ := Nat.exists_eq_add_of_le hk
      rw [dot_split v1 v2 (k + 1) d]; omega
    have hs : dot v1 v2 (k + 1) = dot v1 v2 k + v1 k * v2 k := by simp [dot, sum_range_succ]
    rw [dot1Acc, ih (by omega) h, hs]
    rw [hs] at hmono
    rw [Nat.mod_eq_of_lt (a := v1 k * v2 k) (by omega), Nat.mod_eq_of_lt (by omega)]

/-! ### split at 56 bits -/

theorem acc1_val (v1 v2 : Nat → Nat) (off lo : Nat) : ∀ k, lo + dotOff v1 v2 off k < W →
    acc1 v1 v2 off k lo = lo + dotOff v1 v2 off k := by
  intro k
  induction k with
  | zero => intro _; simp [acc1, dotOff]
  | succ k ih =>
    intro h
    rw [dotOff_succ] at h ⊢
    rw [acc1, ih (by omega)]
    rw [Nat.mod_eq_of_lt (a := v1 (off + k) * v2 (off + k)) (by omega), Nat.mod_eq_of_lt (by omega)]
    ring

theorem splitBlocks_val (v1 v2 : Nat → Nat) (n : Nat) (hn : n ≤ maxModulus) (hn0 : 0 < n) (len : Nat)
    (hr1 : Reduced v1 len n) (hr2 : Reduced v2 len n) (hlen : len < 2 ^ 56) :
    ∀ k, 8 * k ≤ len → (splitBlocks v1 v2 k).1 * 2 ^ SB + (splitBlocks v1 v2 k).2 = dot v1 v2 (8 * k) ∧
      (splitBlocks v1 v2 k).2 < 2 ^ SB ∧ (splitBlocks v1 v2 k).1 ≤ 256 * k := by
  intro k
  induction k with
  | zero => intro _; simp [splitBlocks, dot]
  | succ k ih =>
    intro hk
    obtain ⟨i1, i2, i3⟩ := ih (by omega)
    have hle := dotOff_le v1 v2 (8 * k) 8 (n - 1) (n - 1)
      (fun j hj => by have := hr1 (8 * k + j) (by omega); omega)
      (fun j hj => by have := hr2 (8 * k + j) (by omega); omega)
    have hnn : (n - 1) * (n - 1) ≤ 1515531527 * 1515531527 :=
      Nat.mul_le_mul (by simp only [maxModulus] at hn; omega) (by simp only [maxModulus] at hn; omega)
    generalize hsb : splitBlocks v1 v2 k = s at *
    obtain ⟨hi, lo⟩ := s
    simp only at i1 i2 i3
    have hacc := acc1_val v1 v2 (8 * k) lo 8 (by simp only [SB, W] at *; omega)
    have hlt : lo + dotOff v1 v2 (8 * k) 8 < W := by simp only [SB, W] at *; omega
    rw [show 8 * (k + 1) = 8 * k + 8 by ring, dot_split, ← i1]
    simp only [splitBlocks, hsb, hacc]
    generalize dotOff v1 v2 (8 * k) 8 = d at *
    simp only [SB, W] at *
    rw [Nat.mod_eq_of_lt (a := hi + (lo + d) / 2 ^ 56) (by omega)]
    omega

/-- the state `(hi, lo)` before the final combination of the split dot products -/
theorem split_tail (v1 v2 : Nat → Nat) (n len : Nat) (hn : n ≤ maxModulus) (hn0 : 0 < n)
    (hr1 : Reduced v1 len n) (hr2 : Reduced v2 len n) (hlen : len < 2 ^ 56) :
    let hi := (splitBlocks v1 v2 (len / 8)).1
    let lo := acc1 v1 v2 (8 * (len / 8)) (len % 8) (splitBlocks v1 v2 (len / 8)).2
    hi * 2 ^ SB + lo = dot v1 v2 len ∧ lo < 2 ^ SB + 7 * ((n - 1) * (n - 1)) + 1 ∧ lo < W ∧
      hi ≤ 256 * (len / 8) := by
  intro hi lo
  obtain ⟨i1, i2, i3⟩ := splitBlocks_val v1 v2 n hn hn0 len hr1 hr2 hlen (len / 8) (by omega)
  have hle := dotOff_le v1 v2 (8 * (len / 8)) (len % 8) (n - 1) (n - 1)
    (fun j hj => by have := hr1 (8 * (len / 8) + j) (by omega); omega)
    (fun j hj => by have := hr2 (8 * (len / 8) + j) (by omega); omega)
  have h7 : len % 8 * ((n - 1) * (n - 1)) ≤ 7 * ((n - 1) * (n - 1)) :=
    Nat.mul_le_mul_right _ (by omega)
  have hnn : (n - 1) * (n - 1) ≤ 1515531527 * 1515531527 :=
    Nat.mul_le_mul (by simp only [maxModulus] at hn; omega) (by simp only [maxModulus] at hn; omega)
  have hlt : (splitBlocks v1 v2 (len / 8)).2 + dotOff v1 v2 (8 * (len / 8)) (len % 8) < W := by
    simp only [SB, W] at *; omega
  have hacc := acc1_val v1 v2 (8 * (len / 8)) (splitBlocks v1 v2 (len / 8)).2 (len % 8) hlt
  have hlo : lo = (splitBlocks v1 v2 (len / 8)).2 + dotOff v1 v2 (8 * (len / 8)) (len % 8) := hacc
  have hd : dot v1 v2 len = dot v1 v2 (8 * (len / 8)) + dotOff v1 v2 (8 * (len / 8)) (len % 8) := by
    rw [← dot_split]; congr 1; omega
  refine ⟨?_, ?_, ?_, i3⟩
  · rw [hd, ← i1, hlo]; ring
  · rw [hlo]; simp only [SB] at *; omega
  · rw [hlo]; exact hlt

theorem pow2_combine (hi lo n S : Nat) (h : hi * 2 ^ SB + lo = S) (hlt : (2 ^ SB % n) * hi + lo < W) :
    nmod_red (((2 ^ SB % n) * hi % W + lo) % W) n = S % n := by
  have h1 : (2 ^ SB % n) * hi < W := by omega
  rw [Nat.mod_eq_of_lt h1, Nat.mod_eq_of_lt hlt, nmod_red, ← h, Nat.add_mod, Nat.mod_mul_mod,
    mul_comm (2 ^ SB) hi, ← Nat.add_mod]

theorem red3_red (t : Nat × Nat × Nat) (n : Nat) (hn : 0 < n) :
    nmod_red3 (nmod_red t.1 n, t.2.1, t.2.2) n = some (value3 t % n) := by
  unfold nmod_red3 nmod_red value3
  rw [if_pos (Nat.mod_lt _ hn)]
  refine congrArg some ?_
  show (t.1 % n * W ^ 2 + t.2.1 * W + t.2.2) % n = (t.1 * W ^ 2 + t.2.1 * W + t.2.2) % n
  generalize W = w
  rw [add_assoc, Nat.add_mod, Nat.mod_mul_mod, ← Nat.add_mod, ← add_assoc]

theorem recombine (hi lo : Nat) :
    (hi + lo / 2 ^ SB) * 2 ^ SB + lo % 2 ^ SB = hi * 2 ^ SB + lo := by
  simp only [SB]; omega

theorem hi_lt (hi lo len : Nat) (hlen : len ≤ maxLen) (e4 : hi ≤ 256 * (len / 8)) (e3 : lo < W) :
    hi + lo / 2 ^ SB < W := by
  simp only [maxLen, SB, W] at *; omega

theorem dot_const (m k : Nat) : dot (fun _ => m) (fun _ => m) k = k * (m * m) := by
  rw [dot, sum_const, card_range, smul_eq_mul]

theorem dotOff_const (m off k : Nat) : dotOff (fun _ => m) (fun _ => m) off k = k * (m * m) := by
  rw [dotOff, sum_const, card_range, smul_eq_mul]

theorem dot2SplitOne_const (m n len p : Nat) (hn : n ≤ maxModulus) (hn0 : 0 < n)
    (hlen : len < 2 ^ 56) (hm : m < n) :
    dot2SplitOne (fun _ => m) (fun _ => m) len n p =
      ((p * (8 * (len / 8) * (m * m) / 2 ^ 56) % W
        + (8 * (len / 8) * (m * m) % 2 ^ 56 + len % 8 * (m * m))) % W) % n := by
  have hred : Reduced (fun _ => m) len n := fun _ _ => hm
  obtain ⟨i1, i2, i3⟩ := splitBlocks_val (fun _ => m) (fun _ => m) n hn hn0 len hred hred hlen
    (len / 8) (by omega)
  obtain ⟨-, -, e3, -⟩ := split_tail (fun _ => m) (fun _ => m) n len hn hn0 hred hred hlen
  rw [dot_const] at i1
  unfold dot2SplitOne
  generalize hsb : splitBlocks (fun _ => m) (fun _ => m) (len / 8) = s at *
  obtain ⟨hi, lo⟩ := s
  simp only [SB] at i1 i2
  have e : hi = 8 * (len / 8) * (m * m) / 2 ^ 56 ∧ lo = 8 * (len / 8) * (m * m) % 2 ^ 56 := by
    rw [← i1]; omega
  have hle := dotOff_le (fun _ => m) (fun _ => m) (8 * (len / 8)) (len % 8) (n - 1) (n - 1)
    (fun j hj => by show m ≤ n - 1; omega) (fun j hj => by show m ≤ n - 1; omega)
  have h7 : len % 8 * ((n - 1) * (n - 1)) ≤ 7 * ((n - 1) * (n - 1)) :=
    Nat.mul_le_mul_right _ (by omega)
  have hnn : (n - 1) * (n - 1) ≤ 1515531527 * 1515531527 :=
    Nat.mul_le_mul (by simp only [maxModulus] at hn; omega) (by simp only [maxModulus] at hn; omega)
  have hacc := acc1_val (fun _ => m) (fun _ => m) (8 * (len / 8)) lo (len % 8)
    (by simp only [W] at *; omega)
  rw [dotOff_const] at hacc
  simp only [nmod_red]
  rw [hacc, e.1, e.2]

end PML.Word
