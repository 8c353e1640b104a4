import Verif.CrtMem.Model

/-!
# Memory accesses of multimodular reduction and Chinese remaindering

`fmpz_multimod_naive_reduce`, `fmpz_CRT_naive_combine` and `fmpz_CRT_naive_CRT`, flint-extras/src/fmpz_extra.  The values are those of C43; here only the accesses to memory
are modelled.  `_nmod_vec_dot2_split`, `nmod_vec_dot_product_unbalanced` and `nmod_vec_integer_dot_product` read all entries of the two vectors.  The limbs of the integer are read by
FLINT's own size and are not part of the model.
-/

namespace PML.CrtMem

/-- `_fmpz_reduce_small_moduli(out, a, mmod)`, fmpz_multimod_naive_reduce.c:66-141, where `a` is the absolute value; it is a small integer of FLINT if it is less than `2 ^ 62`. -/
def reduceSmall (o : Mmod) (out a : Nat) : M Unit :=
  if a < 2 ^ 62 then
    rep o.num fun i => do
      touch o.mod i
      touch out i
  else do
    let k := limbs a
    let len := (3 * k + 3) / 4 * 4
    let s ← alignedAlloc len
    rep k fun i => do
      touch s (3 * i)
      touch s (3 * i + 1)
      touch s (3 * i + 2)
    rep (len - 3 * k) fun t => touch s (3 * k + t)
    rep o.num fun i => do
      touch o.mod i
      touch o.pow i
      rep len fun u => do
        touch (o.row i) u
        touch s u
      touch out i
    free s

/-- `_fmpz_reduce(a, powers_of_two, mod)`, fmpz_multimod_naive_reduce.c:26-57, 166-167. -/
def reduceLarge (o : Mmod) (out a : Nat) : M Unit :=
  rep o.num fun i => do
    touch o.pow i
    touch o.mod i
    if a < 2 ^ 62 then pure () else rep (limbs a) fun u => touch (o.row i) u
    touch out i

/-- fmpz_multimod_naive_reduce.c:162-167. -/
def reduceBelow (o : Mmod) (out a : Nat) : M Unit := if o.small then reduceSmall o out a else reduceLarge o out a

/-- `fmpz_multimod_naive_reduce(out, A, mmod)`, fmpz_multimod_naive_reduce.c:148-168.  The product of the moduli is `P`; the call for `A mod P` does not call itself again. -/
def mmodReduce (P : Nat) (o : Mmod) (out : Nat) (A : Int) : M Unit :=
  if P ≤ A.natAbs then do
    let b ← malloc 1
    if P = 0 then ub else reduceBelow o out (A % P).natAbs
    free b
  else reduceBelow o out A.natAbs

/-- `fmpz_CRT_naive_combine(A, m, mCRT)`, fmpz_CRT_naive_combine.c:24-63.  The block is the array of limbs of the `mpz_t`; the loop which looks for
    the number of limbs may read all of it. -/
def combine (o : Naive) (m : Nat) : M Unit := do
  let dat ← malloc (o.limbs + 2)
  rep (o.limbs + 2) fun i => touch dat i
  rep o.limbs fun i => do
    touch o.coeffs i
    rep o.num fun j => do
      touch (o.row i) j
      touch m j
    touch dat (i + 2)
    touch dat (i + 1)
    touch dat i
  rep (o.limbs + 2) fun t => touch dat (o.limbs + 2 - t - 1)
  free dat

/-- `fmpz_CRT_naive_CRT(A, m, mCRT)`, fmpz_CRT_naive_CRT.c:23-39. -/
def naiveCRT (o : Naive) (m : Nat) : M Unit := do
  let comb ← malloc 1
  let pre ← malloc o.num
  rep o.num fun i => do
    touch m i
    touch o.inverses i
    touch o.mod i
    touch pre i
  combine o pre
  touch o.prod 0
  free comb
  free pre

end PML.CrtMem
