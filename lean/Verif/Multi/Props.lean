import Verif.Multi.Lemmas

/-! # C87: several dot products with a common left operand -/

namespace PML.Multi

open PML.Word Finset

/-- **C87.** `nmod_vec_dot_product_multi(uv, u, v, len, k, max_bits_u, max_bits_v, mod)` terminates, writes
`∑_{i<len} u[i] v[i][j] mod n` at `uv[j]` for `j < k` and changes no other word of `uv`, for all vectors of
words with the announced numbers of bits (not necessarily reduced), and never calls `NMOD_RED3` outside
of its domain.  `2^61` bounds the number of words that can be stored in memory. -/
theorem C87_dot_product_multi (uv u : Nat → Nat) (v : Nat → Nat → Nat) (len k b1 b2 n : Nat)
    (h1 : b1 ≤ 64) (h2 : b2 ≤ 64) (hlen : len ≤ 2 ^ 61) (hk : k ≤ 2 ^ 61) (hn : 0 < n)
    (hu : ∀ i, i < len → u i < 2 ^ b1) (hv : ∀ i j, i < len → j < k → v i j < 2 ^ b2)
    (fuel : Nat) (hf : len ≤ fuel) (hf2 : k ≤ fuel) :
    dotMulti fuel uv u v len k b1 b2 n =
      some fun j => if j < k then (∑ i ∈ range len, u i * v i j) % n else uv j := by
  have p1 : 2 ^ b1 ≤ 2 ^ 64 := Nat.pow_le_pow_right (by norm_num) h1
  have p2 : 2 ^ b2 ≤ 2 ^ 64 := Nat.pow_le_pow_right (by norm_num) h2
  have hb2 : ∀ j, j < k → Bits (fun i => v i j) len b2 := fun j hj i hi => hv i j hi hj
  have hbd : ∀ j, j < k → _ := fun j hj =>
    (C03_bound_limbs_sound u (fun i => v i j) len b1 b2 h1 h2 (by omega) hu (hb2 j hj)).2
  have hL3 : dotBoundLimbs len b1 b2 ≤ 3 := (boundLimbs_spec len b1 b2 h1 h2 (by simp only [W]; omega)).2.2.2.1
  show dotMulti fuel uv u v len k b1 b2 n = some fun j => if j < k then dot u (fun i => v i j) len % n else uv j
  unfold dotMulti
  generalize hL : dotBoundLimbs len b1 b2 = L at *
  have : L = 0 ∨ L = 1 ∨ L = 2 ∨ L = 3 := by omega
  rcases this with rfl | rfl | rfl | rfl
  · simp only [show ¬ (0 = 2) by decide, show ¬ (0 = 3) by decide, show ¬ (0 = 1) by decide, if_false]
    congr 1
    funext j
    rw [zero_at]
    by_cases hj : j < k
    · have h0 := hbd j hj
      simp only [pow_zero, mul_zero] at h0
      rw [if_pos hj, if_pos hj, show dot u (fun i => v i j) len = 0 by omega, Nat.zero_mod]
    · rw [if_neg hj, if_neg hj]
  · simp only [show ¬ (1 = 2) by decide, show ¬ (1 = 3) by decide, if_false, if_true]
    exact multi1_spec 8 7 32 (by norm_num) (by norm_num) (by norm_num) (by norm_num) (by norm_num) fuel uv u v len k n
      hlen hk hf2 hf fun j hj => by simpa using hbd j hj
  · simp only [if_true]
    congr 1
    funext j
    exact multi_2_spec uv u v len k n (fun i j hi hj => by
      have := hu i hi; have := hv i j hi hj; omega) (fun j hj => by
        have := hbd j hj; norm_num at this ⊢; exact this) j
  · simp only [show ¬ (3 = 2) by decide, if_false, if_true]
    exact multi_3_spec fuel uv u v len k b1 b2 n h1 h2 hlen hn hu hb2 hf

/-- a 3-limb case: rows of words of 64 bits, a modulus of one word -/
example : dotMulti 100 (fun _ => 5) (fun i => 2 ^ 64 - 1 - i) (fun i j => 2 ^ 64 - 1 - i * j) 100 3 64 64 (2 ^ 63 + 29)
    = some fun j => if j < 3 then (∑ i ∈ range 100, (2 ^ 64 - 1 - i) * (2 ^ 64 - 1 - i * j)) % (2 ^ 63 + 29) else 5 :=
  C87_dot_product_multi (fun _ => 5) (fun i => 2 ^ 64 - 1 - i) (fun i j => 2 ^ 64 - 1 - i * j) 100 3 64 64 (2 ^ 63 + 29)
    (by norm_num) (by norm_num) (by norm_num) (by norm_num) (by norm_num) (fun i _ => by show 2 ^ 64 - 1 - i < 2 ^ 64; omega)
    (fun i j _ _ => by
      have : 0 ≤ i * j := Nat.zero_le _
      show 2 ^ 64 - 1 - i * j < 2 ^ 64; omega) 100 le_rfl (by norm_num)

/-- **C87, one-limb variants.** `_nmod_vec_dot_product_multi_1_v1_8`, `_v8_8`, `_v8_32` and `_v16_16` all compute the
same vector as long as no dot product exceeds one word. -/
theorem C87_one_limb_variants (uv u : Nat → Nat) (v : Nat → Nat → Nat) (len k n : Nat)
    (hlen : len ≤ 2 ^ 61) (hk : k ≤ 2 ^ 61) (hd : ∀ j, j < k → ∑ i ∈ range len, u i * v i j < 2 ^ 64)
    (fuel : Nat) (hf : len ≤ fuel) (hf2 : k ≤ fuel) :
    let r := some fun j => if j < k then (∑ i ∈ range len, u i * v i j) % n else uv j
    multi_1_v1_8 fuel uv u v len k n = r ∧ multi_1_v8_8 fuel uv u v len k n = r ∧
    multi_1_v8_32 fuel uv u v len k n = r ∧ multi_1_v16_16 fuel uv u v len k n = r := by
  refine ⟨?_, ?_, ?_, ?_⟩ <;>
  exact multi1_spec _ _ _ (by norm_num) (by norm_num) (by norm_num) (by norm_num) (by norm_num) fuel uv u v len k n
      hlen hk hf2 hf hd

/-- 37 rows, 41 columns: full blocks and remaining rows and columns for every variant -/
example : multi_1_v16_16 41 (fun _ => 5) (fun i => i + 2 ^ 20) (fun i j => 3 * i + j + 2 ^ 30) 37 41 1009 =
    some fun j => if j < 41 then (∑ i ∈ range 37, (i + 2 ^ 20) * (3 * i + j + 2 ^ 30)) % 1009 else 5 :=
  (C87_one_limb_variants (fun _ => 5) (fun i => i + 2 ^ 20) (fun i j => 3 * i + j + 2 ^ 30) 37 41 1009
    (by norm_num) (by norm_num) (by decide +kernel) 41 (by norm_num) (by norm_num)).2.2.2

/-- **C87, two-limb variants.** `_nmod_vec_dot_product_multi_2_v1_8`, `_v4_8`, `_v4_32` and `_v8_8` all compute the
same vector as long as no dot product exceeds two words. -/
theorem C87_two_limb_variants (uv u : Nat → Nat) (v : Nat → Nat → Nat) (len k n : Nat)
    (hlen : len ≤ 2 ^ 61) (hk : k ≤ 2 ^ 61) (hw : ∀ i j, i < len → j < k → u i < 2 ^ 64 ∧ v i j < 2 ^ 64)
    (hd : ∀ j, j < k → ∑ i ∈ range len, u i * v i j < 2 ^ 128) (fuel : Nat) (hf : len ≤ fuel) (hf2 : k ≤ fuel) :
    let r := some fun j => if j < k then (∑ i ∈ range len, u i * v i j) % n else uv j
    multi_2_v1_8 fuel uv u v len k n = r ∧ multi_2_v4_8 fuel uv u v len k n = r ∧
    multi_2_v4_32 fuel uv u v len k n = r ∧ multi_2_v8_8 fuel uv u v len k n = r := by
  refine ⟨?_, ?_, ?_, ?_⟩ <;>
  exact multi2_spec _ _ _ (by norm_num) (by norm_num) (by norm_num) (by norm_num) (by norm_num) fuel uv u v len k n
      hlen hk hf2 hf hw hd

/-- 17 rows, 41 columns, entries of 60 bits -/
example : multi_2_v8_8 41 (fun _ => 5) (fun i => i + 2 ^ 60) (fun i j => 3 * i + j + 2 ^ 60) 17 41 1009 =
    some fun j => if j < 41 then (∑ i ∈ range 17, (i + 2 ^ 60) * (3 * i + j + 2 ^ 60)) % 1009 else 5 :=
  (C87_two_limb_variants (fun _ => 5) (fun i => i + 2 ^ 60) (fun i j => 3 * i + j + 2 ^ 60) 17 41 1009
    (by norm_num) (by norm_num) (fun i j hi hj => ⟨by show i + 2 ^ 60 < 2 ^ 64; omega,
      by show 3 * i + j + 2 ^ 60 < 2 ^ 64; omega⟩) (by decide +kernel) 41 (by norm_num) (by norm_num)).2.2.2

/-- **C87, the 26-bit variant is wrong.** On a `2 × 1` matrix of entries of less than 39 bits (the header announces
about 52), `_nmod_vec_dot_product_multi_2_split26` does not return the dot product: the carry of
`(uv_hi[j]<<52)+uv[j]` is lost. -/
theorem C87_split26_wrong :
    ∃ (uv u : Nat → Nat) (v : Nat → Nat → Nat) (n : Nat), (∀ i, i < 2 → u i < n ∧ u i < 2 ^ 39) ∧
      (∀ i, i < 2 → v i 0 < n ∧ v i 0 < 2 ^ 39) ∧
      multi_2_split26 uv u v 2 1 n 0 ≠ (∑ i ∈ range 2, u i * v i 0) % n := by
  obtain ⟨v1, v2, n, h1, h2, h3, h4⟩ := C04_split26_wrong
  refine ⟨fun _ => 0, v1, fun i _ => v2 i, n, fun i hi => ⟨h1 i hi, (h3 i hi).1⟩, fun i hi => ⟨h2 i hi, (h3 i hi).2⟩, ?_⟩
  rw [multi_2_split26_eq, if_pos (by norm_num)]
  exact h4

/-- **C87, the 26-bit variant, the part that holds**: entries of at most 58 bits, the three partial sums fit in a word,
and the addition of the low word of `2^52 hi` and `lo` does not carry.  Missing: the inputs for which it carries. -/
theorem C87_split26_partial (uv u : Nat → Nat) (v : Nat → Nat → Nat) (len k n : Nat)
    (he : ∀ i j, i < len → j < k → u i < 2 ^ 58 ∧ v i j < 2 ^ 58)
    (hlo : ∀ j, j < k → ∑ i ∈ range len, (u i % 2 ^ 26) * (v i j % 2 ^ 26) < 2 ^ 64)
    (hmi : ∀ j, j < k →
      ∑ i ∈ range len, ((u i % 2 ^ 26) * (v i j / 2 ^ 26) + (u i / 2 ^ 26) * (v i j % 2 ^ 26)) < 2 ^ 64)
    (hhi : ∀ j, j < k → ∑ i ∈ range len, (u i / 2 ^ 26) * (v i j / 2 ^ 26) < 2 ^ 64)
    (hcarry : ∀ j, j < k → (∑ i ∈ range len, (u i / 2 ^ 26) * (v i j / 2 ^ 26)) * 2 ^ 52 % 2 ^ 64
      + ∑ i ∈ range len, (u i % 2 ^ 26) * (v i j % 2 ^ 26) < 2 ^ 64) (j : Nat) :
    multi_2_split26 uv u v len k n j = if j < k then (∑ i ∈ range len, u i * v i j) % n else uv j := by
  rw [multi_2_split26_eq]
  by_cases hj : j < k
  · rw [if_pos hj, if_pos hj]
    exact C04_split26_partial u (fun i => v i j) len n (fun i hi => he i j hi hj) (hlo j hj) (hmi j hj) (hhi j hj)
      (hcarry j hj)
  · rw [if_neg hj, if_neg hj]

example (j : Nat) : multi_2_split26 (fun _ => 5) (fun i => 2 ^ 40 + i) (fun i j => 2 ^ 41 - i - j) 20 3 (2 ^ 42 + 15) j =
    if j < 3 then (∑ i ∈ range 20, (2 ^ 40 + i) * (2 ^ 41 - i - j)) % (2 ^ 42 + 15) else 5 := by
  refine C87_split26_partial (fun _ => 5) (fun i => 2 ^ 40 + i) (fun i j => 2 ^ 41 - i - j) 20 3 (2 ^ 42 + 15)
    (fun i j hi hj => ⟨by show 2 ^ 40 + i < 2 ^ 58; omega, by show 2 ^ 41 - i - j < 2 ^ 58; omega⟩) ?_ ?_ ?_ ?_ j
  all_goals decide +kernel

end PML.Multi
