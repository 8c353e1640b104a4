import Verif.Common.While
import Mathlib.Algebra.BigOperators.Group.Finset.Basic

/-!
# Word-level vector code (flint-extras/src/nmod_vec_extra, nmod32_vec, nmod_extra)

Machine words are natural numbers; every machine operation is followed by an
explicit reduction modulo `W = 2^64`, exactly as `ulong` arithmetic wraps.
A vector is a function `Nat → Nat` (only the first `len` entries are read).
-/

namespace PML.Word

/-- `2^FLINT_BITS` with `FLINT_BITS = 64`. -/
abbrev W : Nat := 2 ^ 64

/-- FLINT `umul_ppmm(hi, lo, a, b)`: full product of two words, `(hi, lo)`. -/
def umul_ppmm (a b : Nat) : Nat × Nat := (a * b / W % W, a * b % W)

/-- FLINT `add_ssaaaa`: two-limb addition `(hi, lo)`, wrapping. -/
def add_ssaaaa (x y : Nat × Nat) : Nat × Nat :=
  ((x.1 + y.1 + (x.2 + y.2) / W) % W, (x.2 + y.2) % W)

/-- FLINT `add_sssaaaaaa`: three-limb addition `(hi, mid, lo)`, wrapping. -/
def add_sssaaaaaa (x y : Nat × Nat × Nat) : Nat × Nat × Nat :=
  let l := x.2.2 + y.2.2
  let m := x.2.1 + y.2.1 + l / W
  let h := x.1 + y.1 + m / W
  (h % W, m % W, l % W)

/-- FLINT `NMOD_RED(r, a, mod)`: reduction of one word. -/
def nmod_red (a n : Nat) : Nat := a % n

/-- FLINT `NMOD2_RED2(r, hi, lo, mod)`: reduction of two words (any `hi`). -/
def nmod2_red2 (x : Nat × Nat) (n : Nat) : Nat := (x.1 * W + x.2) % n

/-- FLINT `NMOD_RED3(r, hi, mid, lo, mod)`; contract of FLINT: requires `hi < n`.
The first component is that precondition, made visible to the theorems. -/
def nmod_red3 (x : Nat × Nat × Nat) (n : Nat) : Option Nat :=
  if x.1 < n then some ((x.1 * W ^ 2 + x.2.1 * W + x.2.2) % n) else none

/-- The number of products that can be added before overflow of two limbs:
nmod_vec_integer_dot_product.c:18-19 and nmod_vec_dot_product.c:72-73. -/
def numTerms (b1 b2 : Nat) : Nat :=
  let log_nt := 2 * 64 - (b1 + b2)
  if log_nt < 64 then 2 ^ log_nt else W - 1

/-- Two-limb sum of the products `v1[off+i]*v2[off+i]`, `1 ≤ i < k`, starting
from the accumulator `u` (nmod_vec_integer_dot_product.c:29-42 for `k = 8`
unrolled, 52-56 for general `k`). -/
def accFrom (v1 v2 : Nat → Nat) (off : Nat) : Nat → Nat → Nat × Nat → Nat × Nat
  | _, 0, u => u
  | i, n + 1, u =>
    accFrom v1 v2 off (i + 1) n (add_ssaaaa u (umul_ppmm (v1 (off + i)) (v2 (off + i))))

/-- One block of `k ≥ 1` products: the first product is stored, the `k-1`
following ones are added (nmod_vec_integer_dot_product.c:28-42, 51-56;
nmod_vec_dot_product.c:84-98, 104-109). -/
def block (v1 v2 : Nat → Nat) (off k : Nat) : Nat × Nat :=
  accFrom v1 v2 off 1 (k - 1) (umul_ppmm (v1 off) (v2 off))

/-- The final loop over the remaining `len` products, from `(0,0)`
(nmod_vec_integer_dot_product.c:63-69, nmod_vec_dot_product.c:113-119). -/
def tailSum (v1 v2 : Nat → Nat) (off len : Nat) : Nat × Nat :=
  accFrom v1 v2 off 0 len (0, 0)

/-- State of the blocked loops: offset (the advanced pointers), remaining
length, three-limb accumulator. -/
structure DotState where
  off : Nat
  len : Nat
  t : Nat × Nat × Nat

/-- Body of the blocked loop with blocks of `k` products
(nmod_vec_integer_dot_product.c:27-47 and 50-61). -/
def blockStep (v1 v2 : Nat → Nat) (k : Nat) (s : DotState) : DotState :=
  let u := block v1 v2 s.off k
  { off := s.off + k, len := s.len - k, t := add_sssaaaaaa s.t (0, u.1, u.2) }

/-- `nmod_vec_integer_dot_product(res, v1, v2, len, max_bits1, max_bits2)`,
nmod_vec_integer_dot_product.c:13-74. Result `(res[2], res[1], res[0])`.
`fuel` bounds the number of iterations of the `while` loop. -/
def integerDot (fuel : Nat) (v1 v2 : Nat → Nat) (len b1 b2 : Nat) :
    Option (Nat × Nat × Nat) :=
  let nt := numTerms b1 b2
  let s0 : DotState := ⟨0, len, (0, 0, 0)⟩
  let r := if 8 ≤ nt
    then whileLoop (fun s => decide (8 < s.len)) (blockStep v1 v2 8) fuel s0
    else whileLoop (fun s => decide (nt < s.len)) (blockStep v1 v2 nt) fuel s0
  r.map fun s =>
    let u := tailSum v1 v2 s.off s.len
    add_sssaaaaaa s.t (0, u.1, u.2)

/-- `_nmod_vec_dot_bound_limbs_unbalanced`, nmod_vec_dot_product.c:16-32. -/
def dotBoundLimbs (len b1 b2 : Nat) : Nat :=
  let a1 := if b1 = 64 then W - 1 else (2 ^ b1 - 1) % W
  let a2 := if b2 = 64 then W - 1 else (2 ^ b2 - 1) % W
  let t := umul_ppmm a1 a2
  let t2t1 := umul_ppmm t.1 len
  let u := umul_ppmm t.2 len
  let r := add_sssaaaaaa (t2t1.1, t2t1.2, 0) (0, u.1, u.2)
  if r.1 ≠ 0 then 3 else if r.2.1 ≠ 0 then 2 else if r.2.2 ≠ 0 then 1 else 0

/-- `_nmod_vec_dot_product_1`, nmod_vec_dot_product.c:40-45 (macro
`_NMOD_VEC_DOT1` of FLINT: one wrapping word accumulator, then `NMOD_RED`). -/
def dot1Acc (v1 v2 : Nat → Nat) : Nat → Nat
  | 0 => 0
  | i + 1 => (dot1Acc v1 v2 i + v1 i * v2 i % W) % W

def dotProduct1 (v1 v2 : Nat → Nat) (len n : Nat) : Nat :=
  nmod_red (dot1Acc v1 v2 len) n

/-- `_nmod_vec_dot_product_2`, nmod_vec_dot_product.c:53-58 (macro
`_NMOD_VEC_DOT2` of FLINT: two-limb accumulator, then `NMOD2_RED2`). -/
def dotProduct2 (v1 v2 : Nat → Nat) (len n : Nat) : Nat :=
  nmod2_red2 (tailSum v1 v2 0 len) n

/-- `_nmod_vec_dot_product_3`, nmod_vec_dot_product.c:69-127. The index `i` is
`off`; `len` in the state is `len - i`. Note the loop tests: `i+7 < len`
(i.e. `7 < len - i`) for blocks of 8, and `i + num_terms < len` otherwise.
`none` = fuel exhausted or the precondition of `NMOD_RED3` violated. -/
def dotProduct3 (fuel : Nat) (v1 v2 : Nat → Nat) (len b1 b2 n : Nat) : Option Nat :=
  let nt := numTerms b1 b2
  let s0 : DotState := ⟨0, len, (0, 0, 0)⟩
  let r := if 8 ≤ nt
    then whileLoop (fun s => decide (7 < s.len)) (blockStep v1 v2 8) fuel s0
    else whileLoop (fun s => decide (nt < s.len)) (blockStep v1 v2 nt) fuel s0
  r.bind fun s =>
    let u := tailSum v1 v2 s.off s.len
    let t := add_sssaaaaaa s.t (0, u.1, u.2)
    nmod_red3 (nmod_red t.1 n, t.2.1, t.2.2) n

/-- `nmod_vec_dot_product_unbalanced`, nmod_vec_dot_product.c:136-147. -/
def dotUnbalanced (fuel : Nat) (v1 v2 : Nat → Nat) (len b1 b2 n : Nat) : Option Nat :=
  let l := dotBoundLimbs len b1 b2
  if l = 2 then some (dotProduct2 v1 v2 len n)
  else if l = 3 then dotProduct3 fuel v1 v2 len b1 b2 n
  else if l = 1 then some (dotProduct1 v1 v2 len n)
  else some 0

/-! ## Split at 26 bits (nmod_vec_dot_product.c:187-221) -/

/-- `__ll_lowhi_partsXX(tlo, thi, t)`, lines 190-192: `thi` is truncated to
`unsigned int` (32 bits). Result `(tlo, thi)`. -/
def lowhi26 (t : Nat) : Nat × Nat := (t % 2 ^ 32 % 2 ^ 26, t / 2 ^ 26 % 2 ^ 32)

/-- The three wrapping accumulators `(ulo, umi, uhi)` after `i` terms
(lines 203-213). -/
def split26Acc (v1 v2 : Nat → Nat) : Nat → Nat × Nat × Nat
  | 0 => (0, 0, 0)
  | i + 1 =>
    let (ulo, umi, uhi) := split26Acc v1 v2 i
    let (a0, a1) := lowhi26 (v1 i)
    let (b0, b1) := lowhi26 (v2 i)
    ((ulo + a0 * b0 % W) % W,
     (umi + (a0 * b1 % W + a1 * b0 % W) % W) % W,
     (uhi + a1 * b1 % W) % W)

/-- Recombination, line 217:
`add_ssaaaa(uhi, ulo, (umi>>38), (umi<<26), (uhi>>12), ((uhi<<52)+ulo))`. -/
def split26Combine (x : Nat × Nat × Nat) : Nat × Nat :=
  let (ulo, umi, uhi) := x
  add_ssaaaa (umi / 2 ^ 38, umi * 2 ^ 26 % W)
             (uhi / 2 ^ 12, (uhi * 2 ^ 52 % W + ulo) % W)

/-- `_nmod_vec_dot_product_split26`, lines 200-221. -/
def dotSplit26 (v1 v2 : Nat → Nat) (len n : Nat) : Nat :=
  nmod2_red2 (split26Combine (split26Acc v1 v2 len)) n

/-! ## Split at 56 bits -/

/-- `DOT_SPLIT_BITS` of FLINT. -/
abbrev SB : Nat := 56

/-- `DOT2_ACC8_MAX_MODULUS`, nmod32_vec.h:35. -/
def maxModulus : Nat := 1515531528
/-- `DOT2_ACC8_MAX_LEN`, nmod32_vec.h:36. -/
def maxLen : Nat := 380368697

/-- Wrapping accumulation of `k` products from index `off` into one word
(nmod_vec_2dot.c:104-124 unrolled, 133-138; dot_split.c:27-34, 40-41). -/
def acc1 (v1 v2 : Nat → Nat) (off : Nat) : Nat → Nat → Nat
  | 0, lo => lo
  | k + 1, lo => (acc1 v1 v2 off k lo + v1 (off + k) * v2 (off + k) % W) % W

/-- `k` blocks of 8 products, each followed by the split of `lo` into
`hi += lo >> 56; lo &= 2^56-1` (nmod_vec_2dot.c:96-131, dot_split.c:25-37).
Result `(hi, lo)`. -/
def splitBlocks (v1 v2 : Nat → Nat) : Nat → Nat × Nat
  | 0 => (0, 0)
  | k + 1 =>
    let (hi, lo) := splitBlocks v1 v2 k
    let lo' := acc1 v1 v2 (8 * k) 8 lo
    ((hi + lo' / 2 ^ SB) % W, lo' % 2 ^ SB)

/-- One of the two results of `_nmod_vec_2dot2_split` (scalar build,
nmod_vec_2dot.c:89-142): the two accumulations are independent of each other.
The loop `for (; i+7 < len; i += 8)` runs `len / 8` times. -/
def dot2SplitOne (v1 v2 : Nat → Nat) (len n pow2 : Nat) : Nat :=
  let (hi, lo) := splitBlocks v1 v2 (len / 8)
  let lo := acc1 v1 v2 (8 * (len / 8)) (len % 8) lo
  nmod_red ((pow2 * hi % W + lo) % W) n

/-- `_nmod_vec_2dot2_split`, nmod_vec_2dot.c:6-142 (scalar build). -/
def twoDotSplit (v10 v11 v2 : Nat → Nat) (len n pow2 : Nat) : Nat × Nat :=
  (dot2SplitOne v10 v2 len n pow2, dot2SplitOne v11 v2 len n pow2)

/-- `_nmod32_vec_dot_split`, nmod32_vec/dot_split.c:18-48: same loops, with a
final split after the tail loop (lines 42-43). -/
def nmod32DotSplit (v1 v2 : Nat → Nat) (len n pow2 : Nat) : Nat :=
  let (hi, lo) := splitBlocks v1 v2 (len / 8)
  let lo := acc1 v1 v2 (8 * (len / 8)) (len % 8) lo
  let hi := (hi + lo / 2 ^ SB) % W
  let lo := lo % 2 ^ SB
  nmod_red ((pow2 * hi % W + lo) % W) n

end PML.Word
