import Verif.Word.Model
import Verif.Common.Loop

/-!
# Vectors over Z/nZ with entries of 32 bits (model)

flint-extras/src/nmod32_vec/{dot_split,dot2_split,mdot_split,mdot2_split,dot_msolve,mdot_msolve}.c, with the code for
AVX2 and AVX512.  A vector of `uint` is a function of its index.  A vector register is the function that gives its
64-bit lanes (4 lanes for `__m256i`, 8 for `__m512i`); the intrinsics are modelled after their description in the Intel
Intrinsics Guide.
-/

namespace PML.N32

open PML.Word

/-- `for (; i + c < len; i += d) s = f(i, s)` from `i`: the final `i` and state.  The number of iterations is the
least `t` with `len ≤ i + t d + c`. -/
def forFrom {σ : Type} (c d len : Nat) (f : Nat → σ → σ) (i : Nat) (s : σ) : Nat × σ :=
  (i + (len - (i + c) + (d - 1)) / d * d, forN ((len - (i + c) + (d - 1)) / d) (fun q => f (i + q * d)) s)

/-! ## Intrinsics -/

/-- The 64-bit lanes of a vector register. -/
abbrev Reg := Nat → Nat

/-- `_mm256_setzero_si256`, `_mm512_setzero_si512`. -/
def zeroR : Reg := fun _ => 0
/-- `_mm256_loadu_si256(v + o)`, `_mm512_loadu_si512(v + o)`: lane `l` has the entries `2l` (low half) and `2l+1`. -/
def load (v : Nat → Nat) (o : Nat) : Reg := fun l => v (o + 2 * l) + 2 ^ 32 * v (o + 2 * l + 1)
/-- `_mm512_maskz_loadu_epi32(mask, v + o)`: the entries whose bit of the mask is 0 are not read and replaced by 0. -/
def maskLoad (mask : Nat) (v : Nat → Nat) (o : Nat) : Reg :=
  load (fun k => if mask.testBit (k - o) then v k else 0) o
/-- `_mm256_mul_epu32`, `_mm512_mul_epu32`: product of the low halves of the lanes. -/
def mulLo (a b : Reg) : Reg := fun l => (a l % 2 ^ 32) * (b l % 2 ^ 32)
/-- `_mm256_add_epi64`, `_mm512_add_epi64`. -/
def add (a b : Reg) : Reg := fun l => (a l + b l) % W
/-- `_mm256_shuffle_epi32(a, 0xB1)`, `_mm512_shuffle_epi32(a, 0xB1)`: exchange the halves of the lanes. -/
def swap (a : Reg) : Reg := fun l => a l / 2 ^ 32 + 2 ^ 32 * (a l % 2 ^ 32)
/-- `_mm256_srli_epi64(a, k)`, `_mm512_srli_epi64(a, k)`. -/
def srl (a : Reg) (k : Nat) : Reg := fun l => a l >>> k
/-- `_mm256_and_si256(a, set1_epi64(m))`, `_mm512_and_si512(a, set1_epi64(m))`. -/
def and1 (a : Reg) (m : Nat) : Reg := fun l => a l &&& m
/-- `_mm256_shuffle_epi32(a, 14)`: in each half of the register, the dwords `2, 3, 0, 0`. -/
def shuf14 (a : Reg) : Reg := fun l => if l % 2 = 0 then a (l + 1) else a (l - 1) % 2 ^ 32 + 2 ^ 32 * (a (l - 1) % 2 ^ 32)
/-- `_mm256_hsum`, machine_vectors.h:123-129. -/
def hsum256 (a : Reg) : Nat :=
  let s := add a (shuf14 a)
  (s 0 + s 2) % W
/-- `_mm512_hsum`, machine_vectors.h:135-137 (`_mm512_reduce_add_epi64`). -/
def hsum512 (a : Reg) : Nat := forN 8 (fun l s => (s + a l) % W) 0
/-- `_mm256_madd52lo_epu64`, `_mm512_madd52lo_epu64`. -/
def madd52lo (a b c : Reg) : Reg := fun l => (a l + (b l % 2 ^ 52) * (c l % 2 ^ 52) % 2 ^ 52) % W
/-- `_mm256_madd52hi_epu64`, `_mm512_madd52hi_epu64`. -/
def madd52hi (a b c : Reg) : Reg := fun l => (a l + (b l % 2 ^ 52) * (c l % 2 ^ 52) / 2 ^ 52) % W

/-- `DOT_SPLIT_MASK` of FLINT. -/
def MASK : Nat := 2 ^ SB - 1

/-! ## Dot products with a split at 56 bits -/

/-- `lo = add(lo, mul(a, b)); a = shuffle(a); b = shuffle(b); lo = add(lo, mul(a, b))` (dot_split.c:113-119 and the
same statements elsewhere). -/
def add2 (a b lo : Reg) : Reg := add (add lo (mulLo a b)) (mulLo (swap a) (swap b))

/-- `dp_lo = mul(a, b); …; dp_lo = add(dp_lo, mul(swap(a), swap(b)))` (dot_split.c:73-75, 91-93). -/
def mul2 (a b : Reg) : Reg := add (mulLo a b) (mulLo (swap a) (swap b))

/-- Update of `dp_lo0` for `4` registers of `2 L` entries: dot_split.c:62-98 (`L = 4`), 157-193 (`L = 8`). -/
def bodyDot (L : Nat) (v1 v2 : Nat → Nat) (i : Nat) (lo : Reg) : Reg :=
  let lo0 := add2 (load v1 i) (load v2 i) lo
  let lo1 := mul2 (load v1 (i + 2 * L)) (load v2 (i + 2 * L))
  let lo2 := mul2 (load v1 (i + 4 * L)) (load v2 (i + 4 * L))
  let lo3 := mul2 (load v1 (i + 6 * L)) (load v2 (i + 6 * L))
  add (add lo0 lo1) (add lo2 lo3)

/-- Update of one of the accumulators `dp_lo0`, `dp_lo1` of the double dot product: dot2_split.c:84-141 (`L = 4`),
397-454 (`L = 8`). -/
def bodyDot2 (L : Nat) (v1 v2 : Nat → Nat) (i : Nat) (lo : Reg) : Reg :=
  let lo0 := add2 (load v1 i) (load v2 i) lo
  let lo2 := mul2 (load v1 (i + 2 * L)) (load v2 (i + 2 * L))
  let lo0 := add2 (load v1 (i + 4 * L)) (load v2 (i + 4 * L)) lo0
  let lo2 := add2 (load v1 (i + 6 * L)) (load v2 (i + 6 * L)) lo2
  add lo0 lo2

/-- Update of one of the accumulators `dp_lo[0]`, `dp_lo[1]`, `dp_lo[2]` of the triple dot product with AVX2:
dot2_split.c:223-301. -/
def bodyDot3 (v1 v2 : Nat → Nat) (i : Nat) (lo : Reg) : Reg :=
  add2 (load v1 (i + 24)) (load v2 (i + 24)) (add2 (load v1 (i + 16)) (load v2 (i + 16))
    (add2 (load v1 (i + 8)) (load v2 (i + 8)) (add2 (load v1 i) (load v2 i) lo)))

/-- `lo = add(lo, mul(a, b)); lo = add(lo, mul(c, d));` then the same with the shuffled registers
(dot2_split.c:559-584, 596-617). -/
def add4 (a b c d lo : Reg) : Reg :=
  add (add (add (add lo (mulLo a b)) (mulLo c d)) (mulLo (swap a) (swap b))) (mulLo (swap c) (swap d))

/-- Update of one of the accumulators of the triple dot product with AVX512: dot2_split.c:549-617. -/
def bodyDot3x (v1 v2 : Nat → Nat) (i : Nat) (lo : Reg) : Reg :=
  add4 (load v1 (i + 32)) (load v2 (i + 32)) (load v1 (i + 48)) (load v2 (i + 48))
    (add4 (load v1 i) (load v2 i) (load v1 (i + 16)) (load v2 (i + 16)) lo)

/-- `dp_hi = add(dp_hi, srli(dp_lo, DOT_SPLIT_BITS)); dp_lo = and(dp_lo, low_bits)`; the pair is `(dp_hi, dp_lo)`. -/
def split (s : Reg × Reg) : Reg × Reg := (add s.1 (srl s.2 SB), and1 s.2 MASK)

/-- The two loops on full registers: blocks of 4 registers with a split after each block, then single registers
(dot_split.c:60-120, 155-213; dot2_split.c:82-169, 221-338, 395-482, 547-650). Result `(i, dp_hi, dp_lo)`. -/
def loops (L : Nat) (body : (Nat → Nat) → (Nat → Nat) → Nat → Reg → Reg) (v1 v2 : Nat → Nat) (len : Nat) :
    Nat × Reg × Reg :=
  let s := forFrom (8 * L - 1) (8 * L) len (fun i s => split (s.1, body v1 v2 i s.2)) 0 (zeroR, zeroR)
  forFrom (2 * L - 1) (2 * L) len (fun i s => (s.1, add2 (load v1 i) (load v2 i) s.2)) s.1 s.2

/-- `NMOD_RED(res, pow2_precomp * hi + lo, mod)` stored in a `uint`. -/
def final (n pow2 hi lo : Nat) : Nat := nmod_red ((pow2 * hi % W + lo) % W) n % 2 ^ 32

/-- The end of the AVX2 functions: dot_split.c:122-140, dot2_split.c:171-197, 340-377. -/
def finish256 (v1 v2 : Nat → Nat) (len n pow2 : Nat) (s : Nat × Reg × Reg) : Nat :=
  let r := split s.2
  let lo := hsum256 r.2
  let hi := (hsum256 r.1 + lo >>> SB) % W
  let lo := lo &&& MASK
  let lo := (forFrom 0 1 len (fun i lo => (lo + v1 i * v2 i % W) % W) s.1 lo).2
  let hi := (hi + lo >>> SB) % W
  let lo := lo &&& MASK
  final n pow2 hi lo

/-- The end of the AVX512 functions: dot_split.c:215-246, dot2_split.c:484-523, 652-700. -/
def finish512 (v1 v2 : Nat → Nat) (len n pow2 : Nat) (s : Nat × Reg × Reg) : Nat :=
  let i := s.1
  let lo := if i < len
    then add2 (maskLoad (1 <<< (len - i) - 1) v1 i) (maskLoad (1 <<< (len - i) - 1) v2 i) s.2.2
    else s.2.2
  let r := split (s.2.1, lo)
  let lo := hsum512 r.2
  let hi := (hsum512 r.1 + lo >>> SB) % W
  let lo := lo &&& MASK
  final n pow2 hi lo

/-- `_nmod32_vec_dot_split_avx2`, dot_split.c:52-141. -/
def dotAvx2 (v1 v2 : Nat → Nat) (len n pow2 : Nat) : Nat :=
  finish256 v1 v2 len n pow2 (loops 4 (bodyDot 4) v1 v2 len)

/-- `_nmod32_vec_dot_split_avx512`, dot_split.c:147-247. -/
def dotAvx512 (v1 v2 : Nat → Nat) (len n pow2 : Nat) : Nat :=
  finish512 v1 v2 len n pow2 (loops 8 (bodyDot 8) v1 v2 len)

/-- `_nmod32_vec_dot2_split`, dot2_split.c:19-67: each result is accumulated as in `_nmod32_vec_dot_split`. -/
def dot2 (v1 v20 v21 : Nat → Nat) (len n pow2 : Nat) : Nat × Nat :=
  (nmod32DotSplit v1 v20 len n pow2 % 2 ^ 32, nmod32DotSplit v1 v21 len n pow2 % 2 ^ 32)

/-- `_nmod32_vec_dot2_split_avx2`, dot2_split.c:70-198 (the two accumulations are independent). -/
def dot2Avx2 (v1 v20 v21 : Nat → Nat) (len n pow2 : Nat) : Nat × Nat :=
  (finish256 v1 v20 len n pow2 (loops 4 (bodyDot2 4) v1 v20 len),
   finish256 v1 v21 len n pow2 (loops 4 (bodyDot2 4) v1 v21 len))

/-- `_nmod32_vec_dot2_split_avx512`, dot2_split.c:383-524. -/
def dot2Avx512 (v1 v20 v21 : Nat → Nat) (len n pow2 : Nat) : Nat × Nat :=
  (finish512 v1 v20 len n pow2 (loops 8 (bodyDot2 8) v1 v20 len),
   finish512 v1 v21 len n pow2 (loops 8 (bodyDot2 8) v1 v21 len))

/-- `_nmod32_vec_dot3_split_avx2`, dot2_split.c:200-378. -/
def dot3Avx2 (v1 v20 v21 v22 : Nat → Nat) (len n pow2 : Nat) : Nat × Nat × Nat :=
  (finish256 v1 v20 len n pow2 (loops 4 bodyDot3 v1 v20 len),
   finish256 v1 v21 len n pow2 (loops 4 bodyDot3 v1 v21 len),
   finish256 v1 v22 len n pow2 (loops 4 bodyDot3 v1 v22 len))

/-- `_nmod32_vec_dot3_split_avx512`, dot2_split.c:526-701. -/
def dot3Avx512 (v1 v20 v21 v22 : Nat → Nat) (len n pow2 : Nat) : Nat × Nat × Nat :=
  (finish512 v1 v20 len n pow2 (loops 8 bodyDot3x v1 v20 len),
   finish512 v1 v21 len n pow2 (loops 8 bodyDot3x v1 v21 len),
   finish512 v1 v22 len n pow2 (loops 8 bodyDot3x v1 v22 len))

/-! ## Unfinished variants with IFMA -/

/-- One register of a block: dot_split.c:279-313 (AVX2), 351-368 (AVX512). The pair is `(dp_lo, dp_hi)`. -/
def ifmaStep (a b : Reg) (s : Reg × Reg) : Reg × Reg :=
  let x := and1 a (2 ^ 32 - 1)
  let y := and1 b (2 ^ 32 - 1)
  let s := (madd52lo s.1 x y, madd52hi s.2 x y)
  let x := srl a 32
  let y := srl b 32
  (madd52lo s.1 x y, madd52hi s.2 x y)

/-- The loop with `K` pairs of accumulators and registers of `L` lanes (`2 K L = 32`), then the horizontal sums
and the reductions: dot_split.c:256-330 (`K = L = 4`), 335-385 (`K = 2`, `L = 8`). -/
def ifma (K L : Nat) (hsum : Reg → Nat) (v1 v2 : Nat → Nat) (len n pow2 : Nat) : Nat :=
  let s := (forFrom 31 32 len (fun i s =>
    forN K (fun k s => write k (ifmaStep (load v1 (i + 2 * L * k)) (load v2 (i + 2 * L * k)) (s k)) s) s) 0
      fun _ => (zeroR, zeroR)).2
  let lo := forN K (fun k x => (x + hsum (s k).1) % W) 0
  let hi := forN K (fun k x => (x + hsum (s k).2) % W) 0
  (nmod_red lo n + pow2 * nmod_red hi n % n) % n % 2 ^ 32

/-- `_nmod32_vec_dot_ifma_avx2`, dot_split.c:254-331. -/
def ifmaAvx2 := ifma 4 4 hsum256
/-- `_nmod32_vec_dot_ifma_avx512`, dot_split.c:333-386. -/
def ifmaAvx512 := ifma 2 8 hsum512

/-! ## The dot product of msolve -/

/-- `AVX2ADD_64(AVX2MUL(v1,v2), AVX2MUL(AVX2SRLI_64(v1,32),AVX2SRLI_64(v2,32)))`, dot_msolve.c:69-71, 77-79, …. -/
def pair (a b : Reg) : Reg := add (mulLo a b) (mulLo (srl a 32) (srl b 32))

/-- The body of the loop of lines 63-98 at entry `i`; the pair is `(acc_low, acc_high)`. -/
def bodyMsolve (v1 v2 : Nat → Nat) (i : Nat) (s : Reg × Reg) : Reg × Reg :=
  let res := pair (load v1 i) (load v2 i)
  let res := add res (pair (load v1 (i + 8)) (load v2 (i + 8)))
  let res := add res (pair (load v1 (i + 16)) (load v2 (i + 16)))
  let res := add res (pair (load v1 (i + 24)) (load v2 (i + 24)))
  (add s.1 (and1 res (2 ^ 32 - 1)), add s.2 (srl res 32))

/-- `_nmod32_vec_dot_msolve_avx2`, dot_msolve.c:41-123. -/
def dotMsolve (v1 v2 : Nat → Nat) (len p : Nat) : Nat :=
  let red32 := 2 ^ 32 % p
  let red64 := 2 ^ 63 % p
  let red64 := red64 * 2 % 2 ^ 32 % p
  let quo := len / 32
  let rem := len % 32
  let s := forN quo (fun q => bodyMsolve v1 v2 (32 * q)) (zeroR, zeroR)
  let acc := forN 4 (fun i acc =>
    let a := (s.1 i + (s.2 i >>> 32) * red64 % W % p) % W
    let a := (a + (s.2 i &&& (2 ^ 32 - 1)) * red32 % W % p) % W
    (acc + a % p) % W) 0
  let res := acc % p
  let tmp := forN rem (fun k tmp => tmp + v1 (32 * quo + k) * v2 (32 * quo + k) % p) 0
  (res + tmp) % p

/-! ## Matrix-vector products -/

/-- `mat + i*stride`. -/
def row (mat : Nat → Nat) (stride i : Nat) : Nat → Nat := fun j => mat (i * stride + j)

/-- A loop on the rows: mdot_split.c:17-51 and mdot_msolve.c:41-47. -/
def mdot1 (D : (Nat → Nat) → (Nat → Nat) → Nat) (mat vec : Nat → Nat) (nrows stride : Nat) (mv : Nat → Nat) :
    Nat → Nat :=
  forN nrows (fun i mv => write i (D (row mat stride i) vec) mv) mv

/-- Rows by pairs: mdot2_split.c:16-30, 34-48, 79-94. -/
def mdot2 (D2 : (Nat → Nat) → (Nat → Nat) → (Nat → Nat) → Nat × Nat) (D : (Nat → Nat) → (Nat → Nat) → Nat)
    (mat vec : Nat → Nat) (nrows stride : Nat) (mv : Nat → Nat) : Nat → Nat :=
  let s := forFrom 1 2 nrows (fun i mv =>
    let r := D2 vec (row mat stride i) (row mat stride (i + 1))
    write (i + 1) r.2 (write i r.1 mv)) 0 mv
  if s.1 + 1 = nrows then write s.1 (D vec (row mat stride s.1)) s.2 else s.2

/-- Rows by triples: mdot2_split.c:50-73, 96-121. -/
def mdot3 (D3 : (Nat → Nat) → (Nat → Nat) → (Nat → Nat) → (Nat → Nat) → Nat × Nat × Nat)
    (D2 : (Nat → Nat) → (Nat → Nat) → (Nat → Nat) → Nat × Nat) (D : (Nat → Nat) → (Nat → Nat) → Nat)
    (mat vec : Nat → Nat) (nrows stride : Nat) (mv : Nat → Nat) : Nat → Nat :=
  let s := forFrom 2 3 nrows (fun i mv =>
    let r := D3 vec (row mat stride i) (row mat stride (i + 1)) (row mat stride (i + 2))
    write (i + 2) r.2.2 (write (i + 1) r.2.1 (write i r.1 mv))) 0 mv
  if nrows - s.1 = 2 then
    let r := D2 vec (row mat stride s.1) (row mat stride (s.1 + 1))
    write (s.1 + 1) r.2 (write s.1 r.1 s.2)
  else if nrows - s.1 = 1 then write s.1 (D vec (row mat stride s.1)) s.2
  else s.2

/-- `_nmod32_vec_mdot_split`, mdot_split.c:17-25. -/
def mdotSplit (mv mat vec : Nat → Nat) (nrows len stride n : Nat) : Nat → Nat :=
  mdot1 (fun a b => nmod32DotSplit a b len n (nmod_red (2 ^ SB) n) % 2 ^ 32) mat vec nrows stride mv
/-- `_nmod32_vec_mdot_split_avx2`, mdot_split.c:29-37. -/
def mdotSplitAvx2 (mv mat vec : Nat → Nat) (nrows len stride n : Nat) : Nat → Nat :=
  mdot1 (fun a b => dotAvx2 a b len n (nmod_red (2 ^ SB) n)) mat vec nrows stride mv
/-- `_nmod32_vec_mdot_split_avx512`, mdot_split.c:43-51. -/
def mdotSplitAvx512 (mv mat vec : Nat → Nat) (nrows len stride n : Nat) : Nat → Nat :=
  mdot1 (fun a b => dotAvx512 a b len n (nmod_red (2 ^ SB) n)) mat vec nrows stride mv
/-- `_nmod32_vec_mdot2_split`, mdot2_split.c:16-30. -/
def mdot2Split (mv mat vec : Nat → Nat) (nrows len stride n : Nat) : Nat → Nat :=
  mdot2 (fun v a b => dot2 v a b len n (nmod_red (2 ^ SB) n))
    (fun v a => nmod32DotSplit v a len n (nmod_red (2 ^ SB) n) % 2 ^ 32) mat vec nrows stride mv
/-- `_nmod32_vec_mdot2_split_avx2`, mdot2_split.c:34-48. -/
def mdot2SplitAvx2 (mv mat vec : Nat → Nat) (nrows len stride n : Nat) : Nat → Nat :=
  mdot2 (fun v a b => dot2Avx2 v a b len n (nmod_red (2 ^ SB) n))
    (fun v a => dotAvx2 v a len n (nmod_red (2 ^ SB) n)) mat vec nrows stride mv
/-- `_nmod32_vec_mdot2_split_avx512`, mdot2_split.c:79-94. -/
def mdot2SplitAvx512 (mv mat vec : Nat → Nat) (nrows len stride n : Nat) : Nat → Nat :=
  mdot2 (fun v a b => dot2Avx512 v a b len n (nmod_red (2 ^ SB) n))
    (fun v a => dotAvx512 v a len n (nmod_red (2 ^ SB) n)) mat vec nrows stride mv
/-- `_nmod32_vec_mdot3_split_avx2`, mdot2_split.c:50-73. -/
def mdot3SplitAvx2 (mv mat vec : Nat → Nat) (nrows len stride n : Nat) : Nat → Nat :=
  mdot3 (fun v a b c => dot3Avx2 v a b c len n (nmod_red (2 ^ SB) n))
    (fun v a b => dot2Avx2 v a b len n (nmod_red (2 ^ SB) n))
    (fun v a => dotAvx2 v a len n (nmod_red (2 ^ SB) n)) mat vec nrows stride mv
/-- `_nmod32_vec_mdot3_split_avx512`, mdot2_split.c:96-121. -/
def mdot3SplitAvx512 (mv mat vec : Nat → Nat) (nrows len stride n : Nat) : Nat → Nat :=
  mdot3 (fun v a b c => dot3Avx512 v a b c len n (nmod_red (2 ^ SB) n))
    (fun v a b => dot2Avx512 v a b len n (nmod_red (2 ^ SB) n))
    (fun v a => dotAvx512 v a len n (nmod_red (2 ^ SB) n)) mat vec nrows stride mv
/-- `_nmod32_vec_mdot_msolve_via_dot_avx2`, mdot_msolve.c:41-47. -/
def mdotMsolveViaDot (mv mat vec : Nat → Nat) (nrows len stride n : Nat) : Nat → Nat :=
  mdot1 (fun a b => dotMsolve a b len (n % 2 ^ 32)) mat vec nrows stride mv
/-- `_nmod32_vec_mdot_msolve_native_avx2`, mdot_msolve.c:50-141: the statements of `_nmod32_vec_dot_msolve_avx2` for
each row. The row index is an `unsigned int` compared with a `slong`: `none` = the loop on the rows does not end. -/
def mdotMsolveNative (mv mat vec : Nat → Nat) (nrows len stride n : Nat) : Option (Nat → Nat) :=
  if nrows < 2 ^ 32 then
    some (mdot1 (fun a b => dotMsolve a b len (n % 2 ^ 32)) mat vec nrows stride mv)
  else none

end PML.N32
