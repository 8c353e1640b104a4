import Verif.N32.Lemmas2

/-!
# C88: dot products and matrix-vector products with entries of 32 bits

`dot`, `Reduced` are the specification of C06 (`Verif/Word/Spec.lean`): `dot v1 v2 len` is `∑_{i<len} v1[i] v2[i]`,
`Reduced v len n` says that the first `len` entries are `< n`.  `maxModulus`, `maxLen` are the constants of
`nmod32_vec.h:35-36`; `mdotRes mv mat vec nrows len stride n` is the vector whose entry `i < nrows` is the dot product
modulo `n` of `vec` and of the row at `mat + i stride`, and whose other entries are those of `mv`.
-/

namespace PML.N32

open PML.Word Finset

/-- **C88.** Within the bounds of the header, the AVX2 and AVX512 versions of the dot product, and of the double and
triple dot products, return the dot products modulo `n`. -/
theorem C88_dot_simd (v1 v20 v21 v22 : Nat → Nat) (len n : Nat) (hn0 : 0 < n) (hn : n ≤ maxModulus) (hlen : len ≤ maxLen)
    (hr1 : Reduced v1 len n) (h0 : Reduced v20 len n) (h1 : Reduced v21 len n) (h2 : Reduced v22 len n) :
    dotAvx2 v1 v20 len n (2 ^ 56 % n) = dot v1 v20 len % n ∧
    dotAvx512 v1 v20 len n (2 ^ 56 % n) = dot v1 v20 len % n ∧
    dot2 v1 v20 v21 len n (2 ^ 56 % n) = (dot v1 v20 len % n, dot v1 v21 len % n) ∧
    dot2Avx2 v1 v20 v21 len n (2 ^ 56 % n) = (dot v1 v20 len % n, dot v1 v21 len % n) ∧
    dot2Avx512 v1 v20 v21 len n (2 ^ 56 % n) = (dot v1 v20 len % n, dot v1 v21 len % n) ∧
    dot3Avx2 v1 v20 v21 v22 len n (2 ^ 56 % n) = (dot v1 v20 len % n, dot v1 v21 len % n, dot v1 v22 len % n) ∧
    dot3Avx512 v1 v20 v21 v22 len n (2 ^ 56 % n) = (dot v1 v20 len % n, dot v1 v21 len % n, dot v1 v22 len % n) := by
  have hu : ∀ D, D % n % 2 ^ 32 = D % n := fun D => Nat.mod_eq_of_lt (by
    have := Nat.mod_lt D hn0
    simp only [maxModulus] at hn
    omega)
  refine ⟨avx2_spec (bodyDot_ok 4) hn0 hn hlen hr1 h0, avx512_spec (bodyDot_ok 8) hn0 hn hlen hr1 h0, ?_, ?_, ?_, ?_, ?_⟩
  · rw [dot2, C06_nmod32_dot_split v1 v20 len n hn0 hn hlen hr1 h0, C06_nmod32_dot_split v1 v21 len n hn0 hn hlen hr1 h1,
      hu, hu]
  · rw [dot2Avx2, avx2_spec (bodyDot2_ok 4) hn0 hn hlen hr1 h0, avx2_spec (bodyDot2_ok 4) hn0 hn hlen hr1 h1]
  · rw [dot2Avx512, avx512_spec (bodyDot2_ok 8) hn0 hn hlen hr1 h0, avx512_spec (bodyDot2_ok 8) hn0 hn hlen hr1 h1]
  · rw [dot3Avx2, avx2_spec bodyDot3_ok hn0 hn hlen hr1 h0, avx2_spec bodyDot3_ok hn0 hn hlen hr1 h1,
      avx2_spec bodyDot3_ok hn0 hn hlen hr1 h2]
  · rw [dot3Avx512, avx512_spec bodyDot3x_ok hn0 hn hlen hr1 h0, avx512_spec bodyDot3x_ok hn0 hn hlen hr1 h1,
      avx512_spec bodyDot3x_ok hn0 hn hlen hr1 h2]

/-- The extreme case of the bounds meets the hypotheses: the largest modulus, the largest length (which is neither a
multiple of 8 nor of 16), all entries `n - 1`. -/
example : let v : Nat → Nat := fun _ => 1515531527
    dotAvx512 v v 380368697 1515531528 (2 ^ 56 % 1515531528) = 380368697 := by
  intro v
  have hv : Reduced v 380368697 1515531528 := fun _ _ => by simp [v]
  rw [(C88_dot_simd v v v v 380368697 1515531528 (by norm_num) le_rfl le_rfl hv hv hv hv).2.1, dot_const]

/-- **C88.** The dot product taken from msolve: the value modulo `p` is right as soon as eight products fit in a word
(`p ≤ 1518500250`) and the length is at most `2^36`. -/
theorem C88_dot_msolve (v1 v2 : Nat → Nat) (len p : Nat) (hp0 : 0 < p) (hp : p ≤ 1518500250) (hlen : len ≤ 2 ^ 36)
    (hr1 : Reduced v1 len p) (hr2 : Reduced v2 len p) : dotMsolve v1 v2 len p = dot v1 v2 len % p := by
  refine dotMsolve_spec hp0 ?_ hr1 hr2 hlen
  have := Nat.mul_le_mul (show p - 1 ≤ 1518500249 by omega) (show p - 1 ≤ 1518500249 by omega)
  norm_num [W] at this ⊢
  omega

example : let v : Nat → Nat := fun _ => 1518500249
    dotMsolve v v 1000003 1518500250 = 1000003 := by
  intro v
  have hv : Reduced v 1000003 1518500250 := fun _ _ => by simp [v]
  rw [C88_dot_msolve v v 1000003 1518500250 (by norm_num) le_rfl (by norm_num) hv hv, dot_const]

/-- **C88.** Every matrix-vector product writes the `nrows` dot products, and nothing else, for a row-major matrix with
any stride; only the entries `j < len` of the rows are used. -/
theorem C88_mdot (mv mat vec : Nat → Nat) (nrows len stride n : Nat) (hn0 : 0 < n) (hn : n ≤ maxModulus)
    (hlen : len ≤ maxLen) (hv : Reduced vec len n)
    (hm : ∀ i, i < nrows → ∀ j, j < len → mat (i * stride + j) < n) :
    mdotSplit mv mat vec nrows len stride n = mdotRes mv mat vec nrows len stride n ∧
    mdotSplitAvx2 mv mat vec nrows len stride n = mdotRes mv mat vec nrows len stride n ∧
    mdotSplitAvx512 mv mat vec nrows len stride n = mdotRes mv mat vec nrows len stride n ∧
    mdot2Split mv mat vec nrows len stride n = mdotRes mv mat vec nrows len stride n ∧
    mdot2SplitAvx2 mv mat vec nrows len stride n = mdotRes mv mat vec nrows len stride n ∧
    mdot2SplitAvx512 mv mat vec nrows len stride n = mdotRes mv mat vec nrows len stride n ∧
    mdot3SplitAvx2 mv mat vec nrows len stride n = mdotRes mv mat vec nrows len stride n ∧
    mdot3SplitAvx512 mv mat vec nrows len stride n = mdotRes mv mat vec nrows len stride n ∧
    mdotMsolveViaDot mv mat vec nrows len stride n = mdotRes mv mat vec nrows len stride n := by
  have hu : ∀ D, D % n % 2 ^ 32 = D % n := fun D => Nat.mod_eq_of_lt (by
    have := Nat.mod_lt D hn0
    simp only [maxModulus] at hn
    omega)
  have hr : ∀ i, i < nrows → Reduced (row mat stride i) len n := fun i hi j hj => hm i hi j hj
  have hp : nmod_red (2 ^ SB) n = 2 ^ 56 % n := rfl
  have key := fun i (hi : i < nrows) => C88_dot_simd (row mat stride i) vec vec vec len n hn0 hn hlen (hr i hi) hv hv hv
  have key' := fun i j k (hi : i < nrows) (hj : j < nrows) (hk : k < nrows) =>
    C88_dot_simd vec (row mat stride i) (row mat stride j) (row mat stride k) len n hn0 hn hlen hv (hr i hi) (hr j hj)
      (hr k hk)
  have hs : ∀ i, i < nrows → nmod32DotSplit (row mat stride i) vec len n (2 ^ 56 % n) % 2 ^ 32 =
      dot (row mat stride i) vec len % n := fun i hi => by
    rw [C06_nmod32_dot_split _ vec len n hn0 hn hlen (hr i hi) hv, hu]
  have hs' : ∀ i, i < nrows → nmod32DotSplit vec (row mat stride i) len n (2 ^ 56 % n) % 2 ^ 32 =
      dot (row mat stride i) vec len % n := fun i hi => by
    rw [C06_nmod32_dot_split vec _ len n hn0 hn hlen hv (hr i hi), hu, dot_comm]
  have hA := fun i (hi : i < nrows) => (key' i i i hi hi hi).1.trans (by rw [dot_comm])
  have hB := fun i (hi : i < nrows) => (key' i i i hi hi hi).2.1.trans (by rw [dot_comm])
  refine ⟨mdot1_spec hs, mdot1_spec fun i hi => (key i hi).1, mdot1_spec fun i hi => (key i hi).2.1,
    mdot2_spec hs' fun i j hi hj => ?_, mdot2_spec hA fun i j hi hj => ?_, mdot2_spec hB fun i j hi hj => ?_,
    mdot3_spec hA (fun i j hi hj => ?_) fun i j k hi hj hk => ?_,
    mdot3_spec hB (fun i j hi hj => ?_) fun i j k hi hj hk => ?_, mdot1_spec fun i hi => ?_⟩
  · rw [hp, (key' i j j hi hj hj).2.2.1, dot_comm, dot_comm vec]
  · rw [hp, (key' i j j hi hj hj).2.2.2.1, dot_comm, dot_comm vec]
  · rw [hp, (key' i j j hi hj hj).2.2.2.2.1, dot_comm, dot_comm vec]
  · rw [hp, (key' i j j hi hj hj).2.2.2.1, dot_comm, dot_comm vec]
  · rw [hp, (key' i j k hi hj hk).2.2.2.2.2.1, dot_comm, dot_comm vec (row mat stride j), dot_comm vec (row mat stride k)]
  · rw [hp, (key' i j j hi hj hj).2.2.2.2.1, dot_comm, dot_comm vec]
  · rw [hp, (key' i j k hi hj hk).2.2.2.2.2.2, dot_comm, dot_comm vec (row mat stride j), dot_comm vec (row mat stride k)]
  · simp only [maxModulus, maxLen] at hn hlen
    rw [Nat.mod_eq_of_lt (show n < 2 ^ 32 by omega)]
    exact C88_dot_msolve _ vec len n hn0 (by omega) (by omega) (hr i hi) hv

/-- A `5 x 9` matrix with stride 10 (rows by triples: one triple and a pair; by pairs: two pairs and a row), entries
`n - 1`, and a vector of entries `2`. -/
example (mv : Nat → Nat) : let m := mdot3SplitAvx512 mv (fun _ => 96) (fun _ => 2) 5 9 10 97
    m 0 = 79 ∧ m 4 = 79 ∧ m 5 = mv 5 := by
  intro m
  have h : m = mdotRes mv (fun _ => 96) (fun _ => 2) 5 9 10 97 :=
    (C88_mdot mv (fun _ => 96) (fun _ => 2) 5 9 10 97 (by norm_num) (by norm_num [maxModulus]) (by norm_num [maxLen])
      (fun _ _ => by norm_num) (fun _ _ _ _ => by norm_num)).2.2.2.2.2.2.2.1
  rw [h]
  simp [mdotRes, dot]

/-- **C88.** The native version of msolve returns the same vector when there are fewer than `2^32` rows; with more rows
the loop on the rows, whose index has 32 bits, does not end. -/
theorem C88_mdot_native (mv mat vec : Nat → Nat) (nrows len stride n : Nat) :
    (0 < n → n ≤ maxModulus → len ≤ maxLen → Reduced vec len n →
      (∀ i, i < nrows → ∀ j, j < len → mat (i * stride + j) < n) → nrows < 2 ^ 32 →
      mdotMsolveNative mv mat vec nrows len stride n = some (mdotRes mv mat vec nrows len stride n)) ∧
    (2 ^ 32 ≤ nrows → mdotMsolveNative mv mat vec nrows len stride n = none) := by
  constructor
  · intro hn0 hn hlen hv hm hr
    rw [mdotMsolveNative, if_pos hr]
    exact congrArg some (C88_mdot mv mat vec nrows len stride n hn0 hn hlen hv hm).2.2.2.2.2.2.2.2
  · intro h
    rw [mdotMsolveNative, if_neg (by omega)]

example (mv : Nat → Nat) : ∃ m, mdotMsolveNative mv (fun _ => 96) (fun _ => 2) 5 40 41 97 = some m ∧ m 4 = 17 := by
  refine ⟨_, (C88_mdot_native mv (fun _ => 96) (fun _ => 2) 5 40 41 97).1 (by norm_num) (by norm_num [maxModulus])
    (by norm_num [maxLen]) (fun _ _ => by norm_num) (fun _ _ _ _ => by norm_num) (by norm_num), ?_⟩
  simp [mdotRes, dot]

/-- **C88 (partial).** The variants with IFMA are right when the length is a multiple of 32 and at most 4096, for all
moduli up to `2^32`. Missing: other lengths (see `C88_ifma_wrong`). -/
theorem C88_ifma_partial (v1 v2 : Nat → Nat) (len n : Nat) (hn0 : 0 < n) (hn : n ≤ 2 ^ 32) (hr1 : Reduced v1 len n)
    (hr2 : Reduced v2 len n) (hlen : len ≤ 4096) (hdiv : len % 32 = 0) :
    ifmaAvx2 v1 v2 len n (2 ^ 52 % n) = dot v1 v2 len % n ∧ ifmaAvx512 v1 v2 len n (2 ^ 52 % n) = dot v1 v2 len % n :=
  ⟨ifma_spec (by norm_num) hsum256_eq hn0 hn hr1 hr2 hlen hdiv,
    ifma_spec (by norm_num) hsum512_eq hn0 hn hr1 hr2 hlen hdiv⟩

example : let v : Nat → Nat := fun _ => 4294967295
    ifmaAvx2 v v 4096 4294967296 (2 ^ 52 % 4294967296) = 4096 := by
  intro v
  have hv : Reduced v 4096 4294967296 := fun _ _ => by simp [v]
  rw [(C88_ifma_partial v v 4096 4294967296 (by norm_num) (by norm_num) hv hv (by norm_num) (by norm_num)).1, dot_const]

/-- The lanes of the IFMA accumulators for constant vectors. -/
theorem ifma_const (K L a : Nat) (ha : a < 2 ^ 32) (q : Nat) : ∀ k, k < K →
    forN q (fun q s => forN K (fun k s => write k (ifmaStep (load (fun _ => a) (0 + q * 32 + 2 * L * k))
      (load (fun _ => a) (0 + q * 32 + 2 * L * k)) (s k)) s) s) (fun _ => (zeroR, zeroR)) k =
    (fun _ => 2 * q * (a * a % 2 ^ 52) % W, fun _ => 2 * q * (a * a / 2 ^ 52) % W) := by
  induction q with
  | zero => intro k _; simp only [forN, Nat.mul_zero, Nat.zero_mul, Nat.zero_mod]; rfl
  | succ q ih =>
    intro k hk
    rw [forN, PML.Multi.forN_all (fun k s => ifmaStep (load (fun _ => a) (0 + q * 32 + 2 * L * k))
      (load (fun _ => a) (0 + q * 32 + 2 * L * k)) s), if_pos hk, ih k hk]
    have h := fun l => ifmaStep_lane (v1 := fun _ => a) (v2 := fun _ => a) (o := 0 + q * 32 + 2 * L * k) (l := l)
      (L := l + 1) (fun _ _ _ => ha) (fun _ _ _ => ha) (by omega)
      (fun _ => 2 * q * (a * a % 2 ^ 52) % W, fun _ => 2 * q * (a * a / 2 ^ 52) % W)
    refine Prod.ext (funext fun l => ?_) (funext fun l => ?_)
    · rw [(h l).1]
      dsimp only
      rw [Nat.mod_add_mod]
      congr 1
      ring
    · rw [(h l).2]
      dsimp only
      rw [Nat.mod_add_mod]
      congr 1
      ring

/-- The value of the variants with IFMA for constant vectors. -/
theorem ifma_const_val {K L : Nat} (hK : 2 * L * K = 32) {hsum : Reg → Nat}
    (hh : ∀ a, hsum a = (∑ l ∈ range L, a l) % W) (a q n pow2 : Nat) (ha : a < 2 ^ 32) :
    ifma K L hsum (fun _ => a) (fun _ => a) (32 * q) n pow2 =
      ((32 * q * (a * a % 2 ^ 52)) % W % n + pow2 * ((32 * q * (a * a / 2 ^ 52)) % W % n) % n) % n % 2 ^ 32 := by
  unfold ifma forFrom
  have ht : (32 * q - (0 + 31) + (32 - 1)) / 32 = q := by omega
  dsimp only
  rw [ht]
  have h := ifma_const K L a ha q
  generalize forN q (fun q s => forN K (fun k s => write k (ifmaStep (load (fun _ => a) (0 + q * 32 + 2 * L * k))
      (load (fun _ => a) (0 + q * 32 + 2 * L * k)) (s k)) s) s) (fun _ => (zeroR, zeroR)) = s at *
  have e : ∀ f : Nat → Reg, ∀ x, (∀ k, k < K → f k = fun _ => 2 * q * x % W) → SS K L f % W = 32 * q * x % W := by
    intro f x hf
    have : SS K L f = ∑ _k ∈ range K, ∑ _l ∈ range L, 2 * q * x % W :=
      sum_congr rfl fun k hk => sum_congr rfl fun l _ => by rw [hf k (mem_range.1 hk)]
    rw [this, sum_const, sum_const, card_range, card_range, smul_eq_mul, smul_eq_mul, ← mul_assoc, Nat.mul_mod_mod,
      ← hK]
    congr 1
    ring
  rw [forN_hsum hh (fun k => (s k).1), forN_hsum hh (fun k => (s k).2), e _ _ fun k hk => by rw [h k hk],
    e _ _ fun k hk => by rw [h k hk]]
  rfl

/-- **C88, negative part.** (1) For lengths below 32 the variants with IFMA return 0 whatever the vectors, so a length
that is a multiple of 16 only (which the comment nmod32_vec.h:84 allows) is not enough. (2) For lengths that are
multiples of 32 and within the bounds of the header, the sum of the low parts can overflow: the result is wrong for
`n = 1515531527`, `len = 4128` and all entries equal to `n - 1`. -/
theorem C88_ifma_wrong :
    (∀ v1 v2 len n pow2, len < 32 → ifmaAvx2 v1 v2 len n pow2 = 0 ∧ ifmaAvx512 v1 v2 len n pow2 = 0) ∧
    (let v : Nat → Nat := fun _ => 1515531526
     Reduced v 4128 1515531527 ∧
      ifmaAvx2 v v 4128 1515531527 (2 ^ 52 % 1515531527) ≠ dot v v 4128 % 1515531527 ∧
      ifmaAvx512 v v 4128 1515531527 (2 ^ 52 % 1515531527) ≠ dot v v 4128 % 1515531527) := by
  refine ⟨fun v1 v2 len n pow2 h => ⟨ifma_short 4 4 hsum256_eq v1 v2 len n pow2 h,
    ifma_short 2 8 hsum512_eq v1 v2 len n pow2 h⟩, fun _ _ => by simp, ?_, ?_⟩
  · rw [dot_const, ifmaAvx2, show 4128 = 32 * 129 from rfl, ifma_const_val (by norm_num) hsum256_eq _ _ _ _ (by norm_num)]
    norm_num [W]
  · rw [dot_const, ifmaAvx512, show 4128 = 32 * 129 from rfl, ifma_const_val (by norm_num) hsum512_eq _ _ _ _ (by norm_num)]
    norm_num [W]

end PML.N32
