import Verif.Word.Lemmas

/-!
# Properties C01-C06: word-level dot products
-/

namespace PML.Word

open Finset

/-- **C01.** `nmod_vec_integer_dot_product` terminates and returns three machine
words representing the exact integer dot product, for every length below
`2^64`, every pair of bit bounds up to 64 and all vectors within the bounds. -/
theorem C01_integer_dot_exact (v1 v2 : Nat → Nat) (len b1 b2 : Nat)
    (h1 : b1 ≤ 64) (h2 : b2 ≤ 64) (hlen : len < 2 ^ 64)
    (hb1 : Bits v1 len b1) (hb2 : Bits v2 len b2) :
    ∃ r, (∀ fuel, len ≤ fuel → integerDot fuel v1 v2 len b1 b2 = some r) ∧
      IsWords3 r ∧ value3 r = dot v1 v2 len := by
  have key : ∀ fuel, len ≤ fuel → ∃ r, integerDot fuel v1 v2 len b1 b2 = some r ∧
      IsWords3 r ∧ value3 r = dot v1 v2 len := by
    intro fuel hf
    unfold integerDot
    by_cases hnt : 8 ≤ numTerms b1 b2
    · obtain ⟨s, hs, hi, hc⟩ := loop_spec v1 v2 len 8 b1 b2 h1 h2 hlen hb1 hb2 (by norm_num) hnt
        (fun s => decide (8 < s.len)) (fun s h => by simp at h; omega) fuel hf
      refine ⟨_, by simp only [hnt, if_true, hs, Option.map_some]; rfl, add3_words _ _, ?_⟩
      apply finish_val v1 v2 len b1 b2 h1 h2 hlen hb1 hb2 s hi
      simp at hc; omega
    · obtain ⟨s, hs, hi, hc⟩ := loop_spec v1 v2 len (numTerms b1 b2) b1 b2 h1 h2 hlen hb1 hb2
        (numTerms_pos b1 b2) le_rfl
        (fun s => decide (numTerms b1 b2 < s.len)) (fun s h => by simp at h; omega) fuel hf
      refine ⟨_, by simp only [hnt, if_false, hs, Option.map_some]; rfl, add3_words _ _, ?_⟩
      apply finish_val v1 v2 len b1 b2 h1 h2 hlen hb1 hb2 s hi
      simp at hc; omega
  obtain ⟨r, hr, hw, hv⟩ := key len le_rfl
  refine ⟨r, ?_, hw, hv⟩
  intro fuel hf
  obtain ⟨r', hr', hw', hv'⟩ := key fuel hf
  rw [hr']
  obtain ⟨a, b, c⟩ := r
  obtain ⟨a', b', c'⟩ := r'
  simp only [value3, IsWords3] at *
  have : a' = a ∧ b' = b ∧ c' = c := by omega
  obtain ⟨rfl, rfl, rfl⟩ := this
  rfl

/-- the worst case: full 64-bit words, blocks of one product -/
example : Bits (fun _ => 2 ^ 64 - 1) 100 64 ∧ integerDot 100 (fun _ => 2 ^ 64 - 1)
    (fun _ => 2 ^ 64 - 1) 100 64 64 = some (99, 18446744073709551416, 100) := by
  refine ⟨fun i _ => by norm_num, by decide +kernel⟩

/-- **C03.** The number of limbs returned bounds every dot product in range. -/
theorem C03_bound_limbs_sound (v1 v2 : Nat → Nat) (len b1 b2 : Nat)
    (h1 : b1 ≤ 64) (h2 : b2 ≤ 64) (hlen : len < 2 ^ 64)
    (hb1 : Bits v1 len b1) (hb2 : Bits v2 len b2) :
    dotBoundLimbs len b1 b2 ≤ 3 ∧
      dot v1 v2 len < (2 ^ 64) ^ dotBoundLimbs len b1 b2 := by
  obtain ⟨s0, s1, s2, s3, s4⟩ := boundLimbs_spec len b1 b2 h1 h2 hlen
  have hle := dot_le_bound v1 v2 len b1 b2 hb1 hb2
  refine ⟨s3, ?_⟩
  generalize (2 ^ b1 - 1) * (2 ^ b2 - 1) * len = X at *
  generalize dotBoundLimbs len b1 b2 = L at *
  have : L = 0 ∨ L = 1 ∨ L = 2 ∨ L = 3 := by omega
  rcases this with rfl | rfl | rfl | rfl
  · have := s0 rfl; simp only [pow_zero]; omega
  · have := s1 rfl; simp only [W] at *; omega
  · have := s2 rfl; simp only [W] at *; omega
  · simp only [W] at *; omega

/-- the bound is attained (it is not always 3) -/
example : dotBoundLimbs 1000 20 20 = 1 ∧ dotBoundLimbs 1000 40 40 = 2 ∧
    dotBoundLimbs 1000 64 64 = 3 ∧ dotBoundLimbs 0 64 64 = 0 := by decide +kernel

/-- **C02.** `nmod_vec_dot_product_unbalanced` returns the residue of the exact
dot product, whichever kernel is selected; in particular it terminates and
never calls `NMOD_RED3` outside of its precondition (result `some`). -/
theorem C02_dot_product_unbalanced (v1 v2 : Nat → Nat) (len b1 b2 n : Nat)
    (h1 : b1 ≤ 64) (h2 : b2 ≤ 64) (hlen : len < 2 ^ 64) (hn : 0 < n)
    (hb1 : Bits v1 len b1) (hb2 : Bits v2 len b2) (fuel : Nat) (hf : len ≤ fuel) :
    dotUnbalanced fuel v1 v2 len b1 b2 n = some (dot v1 v2 len % n) := by
  obtain ⟨hL3, hbound⟩ := C03_bound_limbs_sound v1 v2 len b1 b2 h1 h2 hlen hb1 hb2
  have p1 : 2 ^ b1 ≤ 2 ^ 64 := Nat.pow_le_pow_right (by norm_num) h1
  have p2 : 2 ^ b2 ≤ 2 ^ 64 := Nat.pow_le_pow_right (by norm_num) h2
  have hd : dot v1 v2 len = dotOff v1 v2 0 len := by simp [dot, dotOff]
  unfold dotUnbalanced
  generalize hL : dotBoundLimbs len b1 b2 = L at *
  have : L = 0 ∨ L = 1 ∨ L = 2 ∨ L = 3 := by omega
  rcases this with rfl | rfl | rfl | rfl
  · have : dot v1 v2 len = 0 := by simp only [pow_zero] at hbound; omega
    simp [this]
  · simp only [dotProduct1, nmod_red]
    rw [dot1Acc_val v1 v2 len len le_rfl (by simpa [W] using hbound)]
    simp
  · have ht := tailSum_val v1 v2 0 len
      (fun j hj => by
        have a1 := hb1 j hj
        have a2 := hb2 j hj
        simp only [zero_add, W]; omega) (by rw [← hd]; exact hbound)
    simp only [dotProduct2, nmod2_red2, if_true]
    rw [hd, ← ht]; rfl
  · simp only [show ¬ (3 = 2) by decide, if_false, if_true]
    unfold dotProduct3
    have fin : ∀ s : DotState, Inv v1 v2 len s → s.len ≤ numTerms b1 b2 →
        nmod_red3 (nmod_red (add_sssaaaaaa s.t
            (0, (tailSum v1 v2 s.off s.len).1, (tailSum v1 v2 s.off s.len).2)).1 n,
          (add_sssaaaaaa s.t
            (0, (tailSum v1 v2 s.off s.len).1, (tailSum v1 v2 s.off s.len).2)).2.1,
          (add_sssaaaaaa s.t
            (0, (tailSum v1 v2 s.off s.len).1, (tailSum v1 v2 s.off s.len).2)).2.2) n
          = some (dot v1 v2 len % n) := by
      intro s hi hc
      have := finish_val v1 v2 len b1 b2 h1 h2 hlen hb1 hb2 s hi hc
      generalize add_sssaaaaaa s.t
            (0, (tailSum v1 v2 s.off s.len).1, (tailSum v1 v2 s.off s.len).2) = t at *
      rw [← this]
      exact red3_red t n hn
    by_cases hnt : 8 ≤ numTerms b1 b2
    · obtain ⟨s, hs, hi, hc⟩ := loop_spec v1 v2 len 8 b1 b2 h1 h2 hlen hb1 hb2 (by norm_num) hnt
        (fun s => decide (7 < s.len)) (fun s h => by simp at h; omega) fuel hf
      simp only [hnt, if_true, hs, Option.bind_some]
      exact fin s hi (by simp at hc; omega)
    · obtain ⟨s, hs, hi, hc⟩ := loop_spec v1 v2 len (numTerms b1 b2) b1 b2 h1 h2 hlen hb1 hb2
        (numTerms_pos b1 b2) le_rfl
        (fun s => decide (numTerms b1 b2 < s.len)) (fun s h => by simp at h; omega) fuel hf
      simp only [hnt, if_false, hs, Option.bind_some]
      exact fin s hi (by simp at hc; omega)

/-- three-limb case with a block size of 4 -/
example : Bits (fun i => 2 ^ 63 - 1 - i) 100 63 ∧
    dotUnbalanced 100 (fun i => 2 ^ 63 - 1 - i) (fun i => 2 ^ 63 - 1 - i) 100 63 63 1000003
      = some (dot (fun i => 2 ^ 63 - 1 - i) (fun i => 2 ^ 63 - 1 - i) 100 % 1000003) := by
  have hb : Bits (fun i => 2 ^ 63 - 1 - i) 100 63 := fun i _ => by
    show 2 ^ 63 - 1 - i < 2 ^ 63; omega
  exact ⟨hb, C02_dot_product_unbalanced _ _ 100 63 63 1000003 (by norm_num) (by norm_num)
    (by norm_num) (by norm_num) hb hb 100 le_rfl⟩

/-! ## C04: split at 26 bits -/

/-- **C04, violated.** Two reduced vectors of length 2 over the prime field with
`2^40 + 15` elements (all entries below `2^39`) for which
`_nmod_vec_dot_product_split26` does not return the dot product: the carry of
`(uhi << 52) + ulo` is lost. -/
theorem C04_split26_wrong :
    ∃ (v1 v2 : Nat → Nat) (n : Nat), Reduced v1 2 n ∧ Reduced v2 2 n ∧
      (∀ i, i < 2 → v1 i < 2 ^ 39 ∧ v2 i < 2 ^ 39) ∧
      dotSplit26 v1 v2 2 n ≠ dot v1 v2 2 % n := by
  refine ⟨fun i => if i = 0 then 2 ^ 38 - 1 else 2 ^ 26 - 1, fun _ => 2 ^ 26 - 1 + (if 0 = 0 then 2 ^ 26 else 0),
    2 ^ 40 + 15, ?_, ?_, ?_, ?_⟩
  · intro i hi; dsimp only; split <;> norm_num
  · intro i hi; norm_num
  · intro i hi; dsimp only; constructor
    · split <;> norm_num
    · norm_num
  · decide +kernel

/-- **C04, the part that holds.** If all entries are below `2^58` (so that the
high parts fit in 32 bits), the three exact partial sums fit in one word,
and the low word of `2^52 * hi` plus `lo` does not
carry, then the returned value is the dot product modulo `n`.
Missing with respect to C04: inputs for which that last addition carries. -/
theorem C04_split26_partial (v1 v2 : Nat → Nat) (len n : Nat)
    (he : ∀ i, i < len → v1 i < 2 ^ 58 ∧ v2 i < 2 ^ 58)
    (hlo : ∑ i ∈ range len, (v1 i % 2 ^ 26) * (v2 i % 2 ^ 26) < 2 ^ 64)
    (hmi : ∑ i ∈ range len, ((v1 i % 2 ^ 26) * (v2 i / 2 ^ 26) + (v1 i / 2 ^ 26) * (v2 i % 2 ^ 26)) < 2 ^ 64)
    (hhi : ∑ i ∈ range len, (v1 i / 2 ^ 26) * (v2 i / 2 ^ 26) < 2 ^ 64)
    (hcarry : (∑ i ∈ range len, (v1 i / 2 ^ 26) * (v2 i / 2 ^ 26)) * 2 ^ 52 % 2 ^ 64
      + ∑ i ∈ range len, (v1 i % 2 ^ 26) * (v2 i % 2 ^ 26) < 2 ^ 64) :
    dotSplit26 v1 v2 len n = dot v1 v2 len % n := by
  have acc : ∀ k, k ≤ len → split26Acc v1 v2 k =
      (∑ i ∈ range k, (v1 i % 2 ^ 26) * (v2 i % 2 ^ 26),
       ∑ i ∈ range k, ((v1 i % 2 ^ 26) * (v2 i / 2 ^ 26) + (v1 i / 2 ^ 26) * (v2 i % 2 ^ 26)),
       ∑ i ∈ range k, (v1 i / 2 ^ 26) * (v2 i / 2 ^ 26)) := by
    intro k
    induction k with
    | zero => intro _; simp [split26Acc]
    | succ k ih =>
      intro hk
      have mono : ∀ f : Nat → Nat, ∑ i ∈ range (k + 1), f i ≤ ∑ i ∈ range len, f i := fun f =>
        sum_le_sum_of_subset (by intro x; simp only [mem_range]; omega)
      have m1 := lt_of_le_of_lt (mono _) hlo
      have m2 := lt_of_le_of_lt (mono _) hmi
      have m3 := lt_of_le_of_lt (mono _) hhi
      obtain ⟨e1, e2⟩ := he k (by omega)
      have l1 : lowhi26 (v1 k) = (v1 k % 2 ^ 26, v1 k / 2 ^ 26) := by
        simp only [lowhi26, Prod.mk.injEq]; omega
      have l2 : lowhi26 (v2 k) = (v2 k % 2 ^ 26, v2 k / 2 ^ 26) := by
        simp only [lowhi26, Prod.mk.injEq]; omega
      rw [sum_range_succ] at m1 m2 m3
      rw [split26Acc, ih (by omega), l1, l2]
      simp only [sum_range_succ, W, Prod.mk.injEq]
      refine ⟨?_, ?_, ?_⟩
      · rw [Nat.mod_eq_of_lt (b := 2 ^ 64) (a := v1 k % 2 ^ 26 * (v2 k % 2 ^ 26)) (by omega), Nat.mod_eq_of_lt m1]
      · rw [Nat.mod_eq_of_lt (b := 2 ^ 64) (a := v1 k % 2 ^ 26 * (v2 k / 2 ^ 26)) (by omega),
          Nat.mod_eq_of_lt (b := 2 ^ 64) (a := v1 k / 2 ^ 26 * (v2 k % 2 ^ 26)) (by omega),
          Nat.mod_eq_of_lt (b := 2 ^ 64) (a := v1 k % 2 ^ 26 * (v2 k / 2 ^ 26) + _) (by omega), Nat.mod_eq_of_lt m2]
      · rw [Nat.mod_eq_of_lt (b := 2 ^ 64) (a := v1 k / 2 ^ 26 * (v2 k / 2 ^ 26)) (by omega), Nat.mod_eq_of_lt m3]
  have hsum : dot v1 v2 len = ∑ i ∈ range len, (v1 i % 2 ^ 26) * (v2 i % 2 ^ 26)
      + 2 ^ 26 * ∑ i ∈ range len, ((v1 i % 2 ^ 26) * (v2 i / 2 ^ 26) + (v1 i / 2 ^ 26) * (v2 i % 2 ^ 26))
      + 2 ^ 52 * ∑ i ∈ range len, (v1 i / 2 ^ 26) * (v2 i / 2 ^ 26) := by
    rw [dot, mul_sum, mul_sum, ← sum_add_distrib, ← sum_add_distrib]
    apply sum_congr rfl
    intro i _
    have a := Nat.div_add_mod (v1 i) (2 ^ 26)
    have b := Nat.div_add_mod (v2 i) (2 ^ 26)
    generalize v1 i % 2 ^ 26 = x0 at *
    generalize v1 i / 2 ^ 26 = x1 at *
    generalize v2 i % 2 ^ 26 = y0 at *
    generalize v2 i / 2 ^ 26 = y1 at *
    rw [← a, ← b]; ring
  rw [dotSplit26, acc len le_rfl]
  generalize ∑ i ∈ range len, (v1 i % 2 ^ 26) * (v2 i % 2 ^ 26) = lo at *
  generalize ∑ i ∈ range len, ((v1 i % 2 ^ 26) * (v2 i / 2 ^ 26) + (v1 i / 2 ^ 26) * (v2 i % 2 ^ 26)) = mi at *
  generalize ∑ i ∈ range len, (v1 i / 2 ^ 26) * (v2 i / 2 ^ 26) = hi at *
  rw [nmod2_red2]
  congr 1
  rw [hsum]
  simp only [split26Combine, add_ssaaaa, W]
  omega

/-- the hypotheses of the partial theorem hold for a non-trivial vector -/
example : dotSplit26 (fun i => 2 ^ 40 + i) (fun i => 2 ^ 41 - i) 50 (2 ^ 42 + 15)
    = dot (fun i => 2 ^ 40 + i) (fun i => 2 ^ 41 - i) 50 % (2 ^ 42 + 15) := by
  apply C04_split26_partial
  · intro i hi; constructor
    · show 2 ^ 40 + i < 2 ^ 58; omega
    · show 2 ^ 41 - i < 2 ^ 58; omega
  all_goals decide +kernel

/-! ## C05, C06: split at 56 bits -/

/-- **C06.** `_nmod32_vec_dot_split` (scalar build) returns the dot product
modulo `n` for every modulus and length within the advertised bounds. -/
theorem C06_nmod32_dot_split (v1 v2 : Nat → Nat) (len n : Nat)
    (hn0 : 0 < n) (hn : n ≤ maxModulus) (hlen : len ≤ maxLen)
    (hr1 : Reduced v1 len n) (hr2 : Reduced v2 len n) :
    nmod32DotSplit v1 v2 len n (2 ^ 56 % n) = dot v1 v2 len % n := by
  obtain ⟨e1, e2, e3, e4⟩ := split_tail v1 v2 n len hn hn0 hr1 hr2
    (by simp only [maxLen] at hlen; omega)
  have hmod : 2 ^ 56 % n ≤ n - 1 := by have := Nat.mod_lt (2 ^ 56) hn0; omega
  have hd := dotOff_le v1 v2 0 len (n - 1) (n - 1)
    (fun j hj => by have := hr1 j hj; simp only [zero_add]; omega)
    (fun j hj => by have := hr2 j hj; simp only [zero_add]; omega)
  have hdd : dotOff v1 v2 0 len = dot v1 v2 len := by simp [dot, dotOff]
  rw [hdd] at hd
  have hd2 : dot v1 v2 len ≤ maxLen * (1515531527 * 1515531527) := by
    refine hd.trans (Nat.mul_le_mul hlen (Nat.mul_le_mul ?_ ?_)) <;> (simp only [maxModulus] at hn; omega)
  unfold nmod32DotSplit
  generalize hsb : splitBlocks v1 v2 (len / 8) = s at *
  obtain ⟨hi, lo0⟩ := s
  simp only at *
  generalize acc1 v1 v2 (8 * (len / 8)) (len % 8) lo0 = lo at *
  have hS : ((hi + lo / 2 ^ SB) % W) * 2 ^ SB + lo % 2 ^ SB = dot v1 v2 len := by
    rw [← e1]
    rw [Nat.mod_eq_of_lt (a := hi + lo / 2 ^ SB)]
    · exact recombine hi lo
    · exact hi_lt hi lo len hlen e4 e3
  generalize (hi + lo / 2 ^ SB) % W = hi' at *
  have hlo' : lo % 2 ^ SB < 2 ^ SB := Nat.mod_lt _ (by norm_num)
  generalize lo % 2 ^ SB = lo' at *
  have := pow2_combine hi' lo' n (dot v1 v2 len) hS ?_
  · simpa [SB] using this
  · have hhi : hi' ≤ maxLen * (1515531527 * 1515531527) / 2 ^ SB := by
      rw [Nat.le_div_iff_mul_le (by norm_num)]; omega
    have : 2 ^ SB % n * hi' ≤ 1515531527 * (maxLen * (1515531527 * 1515531527) / 2 ^ SB) :=
      Nat.mul_le_mul (by simp only [maxModulus, SB] at *; omega) hhi
    norm_num [maxLen, SB, W] at *
    omega

example : ∃ v : Nat → Nat, Reduced v 12345 maxModulus ∧ v 3 = 1515531527 :=
  ⟨fun _ => 1515531527, fun _ _ => by norm_num [maxModulus], rfl⟩

/-- **C05, the part that holds.** `_nmod_vec_2dot2_split` (scalar build) returns
both dot products modulo `n` for every modulus within the FLINT bound and every
length up to 47000000.
Missing with respect to C05: lengths up to `DOT2_ACC8_MAX_LEN = 380368697`, for
which the property is false, see `C05_two_dot_split_wrong`. -/
theorem C05_two_dot_split_partial (v10 v11 v2 : Nat → Nat) (len n : Nat)
    (hn0 : 0 < n) (hn : n ≤ maxModulus) (hlen : len ≤ 47000000)
    (hr0 : Reduced v10 len n) (hr1 : Reduced v11 len n) (hr2 : Reduced v2 len n) :
    twoDotSplit v10 v11 v2 len n (2 ^ 56 % n)
      = (dot v10 v2 len % n, dot v11 v2 len % n) := by
  have key : ∀ v1 : Nat → Nat, Reduced v1 len n →
      dot2SplitOne v1 v2 len n (2 ^ 56 % n) = dot v1 v2 len % n := by
    intro v1 hr1
    obtain ⟨e1, e2, e3, e4⟩ := split_tail v1 v2 n len hn hn0 hr1 hr2 (by omega)
    have hmod : 2 ^ 56 % n ≤ n - 1 := by have := Nat.mod_lt (2 ^ 56) hn0; omega
    have hd := dotOff_le v1 v2 0 len (n - 1) (n - 1)
      (fun j hj => by have := hr1 j hj; simp only [zero_add]; omega)
      (fun j hj => by have := hr2 j hj; simp only [zero_add]; omega)
    have hdd : dotOff v1 v2 0 len = dot v1 v2 len := by simp [dot, dotOff]
    rw [hdd] at hd
    have hnn : (n - 1) * (n - 1) ≤ 1515531527 * 1515531527 :=
      Nat.mul_le_mul (by simp only [maxModulus] at hn; omega) (by simp only [maxModulus] at hn; omega)
    have hd2 : dot v1 v2 len ≤ 47000000 * (1515531527 * 1515531527) :=
      hd.trans (Nat.mul_le_mul hlen hnn)
    unfold dot2SplitOne
    generalize hsb : splitBlocks v1 v2 (len / 8) = s at *
    obtain ⟨hi, lo0⟩ := s
    simp only at *
    generalize acc1 v1 v2 (8 * (len / 8)) (len % 8) lo0 = lo at *
    have := pow2_combine hi lo n (dot v1 v2 len) e1 ?_
    · simpa [SB] using this
    · have hhi : hi ≤ 47000000 * (1515531527 * 1515531527) / 2 ^ SB := by
        rw [Nat.le_div_iff_mul_le (by norm_num)]; omega
      have : 2 ^ SB % n * hi ≤ 1515531527 * (47000000 * (1515531527 * 1515531527) / 2 ^ SB) :=
        Nat.mul_le_mul (by simp only [maxModulus, SB] at *; omega) hhi
      norm_num [SB, W] at *
      omega
  rw [twoDotSplit, key v10 hr0, key v11 hr1]

/-- **C05, violated at the advertised maximal length.** With
`n = 1515527579 ≤ DOT2_ACC8_MAX_MODULUS`, constant vectors of value `n-1` and
length `DOT2_ACC8_MAX_LEN`, the last sum `pow2_precomp * hi + lo` overflows and
the result is wrong. -/
theorem C05_two_dot_split_wrong :
    ∃ (v : Nat → Nat) (n len : Nat), n ≤ maxModulus ∧ len ≤ maxLen ∧ Reduced v len n ∧
      dot2SplitOne v v len n (2 ^ 56 % n) ≠ dot v v len % n := by
  refine ⟨fun _ => 1515527578, 1515527579, maxLen, by norm_num [maxModulus], le_rfl,
    fun _ _ => by norm_num, ?_⟩
  rw [dot_const, dot2SplitOne_const _ 1515527579 _ _ (by norm_num [maxModulus]) (by norm_num)
    (by norm_num [maxLen]) (by norm_num)]
  decide +kernel

end PML.Word
