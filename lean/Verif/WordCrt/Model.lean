import Verif.Word.Model
import Verif.Crt.Model

/-!
# Model: word-size multimodular reduction and Chinese remaindering
(flint-extras/src/nmod_extra/nmod_multimod_CRT_init.c, nmod_multimod_CRT_CRT.c,
nmod_multimod_CRT_reduce.c)

Values held in doubles are integers. The floating-point primitives of FLINT's
`machine_vectors.h` are parameters (`VecOps`); one lane of a `vec4d` operation is
the same operation as the `vec1d` one. `avx` says whether the code is compiled with
`PML_HAVE_AVX2`.
-/

namespace PML.WordCrt

open PML.Word

/-- `PRIME0, ..., PRIME3`, nmod_extra.h:65-68. -/
def prime (j : Nat) : Nat :=
  if j = 0 then 659706976665601 else if j = 1 then 910395627798529
  else if j = 2 then 1086317488242689 else 1108307720798209

/-- Floating-point primitives: `vec1d_mulmod(a, b, n, ninv)` and
    `vec1d_reduce_to_pm1no(a, n, ninv)`. -/
structure VecOps where
  mulmod : Int → Int → Int → Int
  redPm : Int → Int → Int

/-- Word-level primitives: `nmod_inv` and `NMOD_RED3`. -/
structure WordOps where
  inv : Nat → Nat → Nat
  red3 : (hi me lo p : Nat) → Nat

/-- `vec1d_reduce_pm1no_to_0n(a, n)`. -/
def to0n (a n : Int) : Int := if a < 0 then a + n else a

/-- `vec1d_addmod(a, b, n)`, `vec1n_addmod(a, b, n)`. -/
def addmod (a b n : Int) : Int := if n - b > a then a + b else a + b - n

/-- `vec1d_reduce_pm1no_to_0n(vec1d_mulmod(a, b, n, ninv), n)`. -/
def mulz (v : VecOps) (a b n : Int) : Int := to0n (v.mulmod a b n) n

/-- `vec1d_reduce_to_0n(a, n, ninv)`. -/
def redz (v : VecOps) (a n : Int) : Int := to0n (v.redPm a n) n

/-! ### Initialisation -/

/-- The fields of `nmod_multimod_CRT_t` used below, nmod_extra.h:70-82. -/
structure Crt where
  num : Nat
  p : Nat
  p0_red : Int
  p0p1_red : Int
  p0p1p2_red : Int
  invp0_p1 : Int
  invp0p1_p2 : Int
  p0p1_red3 : Int
  invp0p1p2_p3 : Int
  /-- cofactors and product, in `data` -/
  cofactor : Nat → Nat
  prod : Nat
  inverse_cofactors : Nat → Nat

/-- The product of lines 87-91. -/
def prodTo (num : Nat) : Nat := Crt.prodLoop prime num

/-- `nmod_multimod_CRT_init(C, modulus, num_primes)`, nmod_multimod_CRT_init.c:21-111. The local
    default of line 46 is not stored in the structure. The fields of the branch that is not
    taken are left to 0. `mpn_divexact_1` on the product and `mpn_mod_1` are the division
    and the remainder. -/
def init (avx : Bool) (v : VecOps) (w : WordOps) (p num_primes : Nat) : Crt :=
  let num := if num_primes = 0 then 4 else num_primes
  if avx = true ∧ p < 2 ^ 50 then
    let p0_red : Int := ((prime 0 % p : Nat) : Int)
    let p1_red : Int := ((prime 1 % p : Nat) : Int)
    let p0p1_red := mulz v p0_red p1_red p
    let p0p1p2_red := mulz v p0p1_red ((prime 2 % p : Nat) : Int) p
    let p0p1_red2 := prime 0 * prime 1 % prime 2
    let p0p1_red3 := prime 0 * prime 1 % prime 3
    let p0p1p2_red3 := p0p1_red3 * prime 2 % prime 3
    { num := num_primes, p := p, p0_red := p0_red, p0p1_red := p0p1_red, p0p1p2_red := p0p1p2_red
      invp0_p1 := w.inv (prime 0) (prime 1), invp0p1_p2 := w.inv p0p1_red2 (prime 2)
      p0p1_red3 := p0p1_red3, invp0p1p2_p3 := w.inv p0p1p2_red3 (prime 3)
      cofactor := fun _ => 0, prod := 0, inverse_cofactors := fun _ => 0 }
  else
    { num := num_primes, p := p, p0_red := 0, p0p1_red := 0, p0p1p2_red := 0, invp0_p1 := 0
      invp0p1_p2 := 0, p0p1_red3 := 0, invp0p1p2_p3 := 0
      cofactor := fun i => prodTo num / prime i, prod := prodTo num
      inverse_cofactors := fun i => w.inv (prodTo num / prime i % prime i) (prime i) }

/-! ### Large modulus -/

/-- `_big_mul`, `_big_addmul` for the first `k` residues (FLINT crt_helpers.h), as a value. -/
def bigSum (C : Crt) (r : Nat → Nat) : Nat → Nat
  | 0 => 0
  | i + 1 => bigSum C r i + C.cofactor i * (C.inverse_cofactors i * r i % prime i)

/-- `nmod_large_modulus_CRT`, entry with residues `r`; `_crt_1`, ..., `_crt_4`,
    nmod_multimod_CRT_CRT.c:29-141. `_reduce_big_sum` subtracts the product of the primes while
    possible. `_crt_4` ignores the limb of index 3 (line 108). `none`: nothing is written. -/
def largeEntry (w : WordOps) (C : Crt) (r : Nat → Nat) : Option Nat :=
  let s := bigSum C r C.num % C.prod
  if C.num = 1 then some (r 0 % C.p)
  else if C.num = 2 then some ((Crt.limb s 1 * W + Crt.limb s 0) % C.p)
  else if C.num = 3 then some (w.red3 (Crt.limb s 2) (Crt.limb s 1) (Crt.limb s 0) C.p)
  else if C.num = 4 then some (w.red3 (Crt.limb s 2) (Crt.limb s 1) (Crt.limb s 0) C.p)
  else none

/-! ### Small modulus -/

/-- Second mixed-radix digit, nmod_multimod_CRT_CRT.c:224-226, 310-312, 429-431. -/
def alpha1 (v : VecOps) (C : Crt) (r : Nat → Nat) : Int :=
  mulz v ((r 1 : Int) - r 0) C.invp0_p1 (prime 1)

/-- Third mixed-radix digit, nmod_multimod_CRT_CRT.c:313-318, 432-437. -/
def alpha2 (v : VecOps) (C : Crt) (r : Nat → Nat) : Int :=
  let red2 := mulz v (alpha1 v C r) (prime 0) (prime 2)
  mulz v ((r 2 : Int) - ((r 0 : Int) + red2)) C.invp0p1_p2 (prime 2)

/-- Fourth mixed-radix digit, nmod_multimod_CRT_CRT.c:440-445. -/
def alpha3 (v : VecOps) (C : Crt) (r : Nat → Nat) : Int :=
  let red3 := mulz v (alpha1 v C r) (prime 0) (prime 3)
  let red3' := mulz v (alpha2 v C r) C.p0p1_red3 (prime 3)
  let s := addmod (r 0) red3 (prime 3) + red3'
  mulz v ((r 3 : Int) - s) C.invp0p1p2_p3 (prime 3)

/-- `nmod_small_modulus_CRT`, entry with residues `r`; `_crt_1_small`, ..., `_crt_4_small`,
    nmod_multimod_CRT_CRT.c:156-501. -/
def smallEntry (v : VecOps) (C : Crt) (r : Nat → Nat) : Option Int :=
  let p : Int := C.p
  if C.num = 1 then some (redz v (r 0) p)
  else if C.num = 2 then
    let alphapp := redz v (alpha1 v C r) p
    some (addmod (redz v (r 0) p) (mulz v alphapp C.p0_red p) p)
  else if C.num = 3 then
    let a1 := v.redPm (alpha1 v C r) p
    let a2 := v.redPm (alpha2 v C r) p
    some (addmod (redz v (r 0) p) (addmod (mulz v a1 C.p0_red p) (mulz v a2 C.p0p1_red p) p) p)
  else if C.num = 4 then
    let a1 := v.redPm (alpha1 v C r) p
    let a2 := v.redPm (alpha2 v C r) p
    let a3 := v.redPm (alpha3 v C r) p
    some (addmod (redz v (r 0) p)
      (addmod (addmod (mulz v a1 C.p0_red p) (mulz v a2 C.p0p1_red p) p) (mulz v a3 C.p0p1p2_red p) p) p)
  else none

/-! ### Loops -/

/-- One entry, if any value is to be written. -/
def store (f : Nat → Option Nat) (i : Nat) (out : Nat → Nat) : Nat → Nat :=
  match f i with
  | some x => Function.update out i x
  | none => out

/-- `for (; i + 3 < nb; i += 4)`, `k` iterations. -/
def vecLoop (f : Nat → Option Nat) (out : Nat → Nat) : Nat → (Nat → Nat)
  | 0 => out
  | k + 1 =>
    store f (4 * k + 3) (store f (4 * k + 2) (store f (4 * k + 1) (store f (4 * k) (vecLoop f out k))))

/-- `for (; i < nb; i++)` from index `i0`, `k` iterations. -/
def tailLoop (f : Nat → Option Nat) (i0 : Nat) (out : Nat → Nat) : Nat → (Nat → Nat)
  | 0 => out
  | k + 1 => store f (i0 + k) (tailLoop f i0 out k)

/-- The two loops of the functions for small moduli; `nb / 4` is 0 for `nb < 4`. -/
def loops (f : Nat → Option Nat) (nb : Nat) (out : Nat → Nat) : Nat → Nat :=
  tailLoop f (4 * (nb / 4)) (vecLoop f out (nb / 4)) (nb % 4)

/-- `nmod_multimod_CRT_CRT(out, residues, nb, C)`, nmod_multimod_CRT_CRT.c:509-518. `out` is none
    of the arrays of residues. -/
def crt (avx : Bool) (v : VecOps) (w : WordOps) (C : Crt) (residues : Nat → Nat → Nat) (nb : Nat)
    (out : Nat → Nat) : Nat → Nat :=
  if avx = true ∧ C.p < 2 ^ 50 then
    loops (fun i => (smallEntry v C fun j => residues j i).map Int.toNat) nb out
  else tailLoop (fun i => largeEntry w C fun j => residues j i) 0 out nb

/-- `nmod_multimod_CRT_reduce(residues, input, nb, C)` for the prime `j`,
    nmod_multimod_CRT_reduce.c:22-73 (only with AVX2). -/
def reduceRow (v : VecOps) (C : Crt) (input : Nat → Nat) (nb j : Nat) (res : Nat → Nat) : Nat → Nat :=
  if C.p < prime j then tailLoop (fun i => some (input i)) 0 res nb
  else loops (fun i => some (addmod ((input i % 2 ^ 32 : Nat) : Int)
    (mulz v ((input i / 2 ^ 32 : Nat) : Int) (2 ^ 32) (prime j)) (prime j)).toNat) nb res

/-- The loop over the primes. -/
def reduce (v : VecOps) (C : Crt) (input : Nat → Nat) (nb : Nat) (residues : Nat → Nat → Nat) :
    Nat → (Nat → Nat → Nat)
  | 0 => residues
  | j + 1 =>
    let rs := reduce v C input nb residues j
    Function.update rs j (reduceRow v C input nb j (rs j))

end PML.WordCrt
