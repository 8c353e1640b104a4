import Verif.Crt.Model
import Verif.MatMul.Model
import Mathlib.Order.Interval.Finset.Nat
import Mathlib.Data.Finset.Lattice.Fold

/-!
# Model: multimodular product of integer matrices
(flint-extras/src/fmpz_mat_extra/fmpz_mat_mul_multimod_CRT.c,
flint-extras/src/nmod_vec_extra/nmod_vec_primes.c)
-/

namespace PML.Crt

open PML.Word PML.MatOps

/-- The successive primes, nmod_vec_primes.c:11-15; `np` is `n_nextprime(_, 0)`. -/
def primeSeq (np : Nat → Nat) (s : Nat) : Nat → Nat
  | 0 => np (2 ^ (s - 1))
  | i + 1 => np (primeSeq np s i)

/-- `nmod_vec_primes(v, n, s)`, nmod_vec_primes.c:8-21, `n ≥ 1`; `none`: `flint_throw`. -/
def vecPrimes (np : Nat → Nat) (n s : Nat) : Option (Nat → Nat) :=
  if s < Nat.size (primeSeq np s (n - 1)) then none else some (primeSeq np s)

/-- FLINT `fmpz_mat_max_bits`: the largest bit-length, negated if some entry is
    negative. -/
def matMaxBits (r c : Nat) (A : Mat Int) : Int :=
  let b := (Finset.range r).sup fun i => (Finset.range c).sup fun j => Nat.size (A i j).natAbs
  if ∃ i ∈ Finset.range r, ∃ j ∈ Finset.range c, A i j < 0 then -(b : Int) else (b : Int)

/-- How `fmpz_mat_mul_multimod` ends: an error is thrown by `nmod_vec_primes`, some inner
    computation has no result, or normally. -/
inductive Outcome where
  | throws
  | stuck
  | done (h : Nat → Mat Int)

/-- The matrices of residues, fmpz_mat_mul_multimod_CRT.c:68-83, for the modulus of index
    `l`. The buffer `residues` is overwritten for each entry. -/
def residueMat (e : Ext) (mm : MultiCrt) (A : Mat Int) (l : Nat) : Mat Nat := fun i j =>
  (multiReduce e mm (fun _ => none) (A i j) l).getD 0

/-- `nmod_mat_mul_2dot(mod_C[l], mod_A[l], mod_B[l])`, line 87; the three matrices are distinct
    objects, and the new matrix `mod_C[l]` is zero. -/
def modProduct (m k n p : Nat) (A B : Mat Nat) : Mat Nat :=
  MatMul.mul2dot (fun v1 v2 len n pow2 => dot2SplitOne v1 v2 len n pow2) m k n p 2 0 1 3
    (fun o => if o = 0 then A else if o = 1 then B else fun _ _ => 0) 2

/-- Lines 93-100: one entry of the result. -/
def liftEntry (e : Ext) (mm : MultiCrt) (sign : Bool) (residues : Nat → Nat) : Option Int :=
  (multiCrt e mm residues).map fun x =>
    if sign = true ∧ mm.product / 2 < x then x - mm.product else x

/-- `_fmpz_mat_mul_multimod(C, A, B, sign, bits)`, fmpz_mat_mul_multimod_CRT.c:23-118. `A` is
    `m × k`, `B` is `k × n`; `c`, `a`, `b` designate the matrices in the heap. All reads of `A` and `B`
    precede the writes to `C`. `leafSize` is the leaf size chosen by `fmpz_multimod_CRT_init`. -/
def mulMultimodCore (e : Ext) (np leafSize : Nat → Nat) (sign : Bool) (bits m k n c a b : Nat)
    (h : Nat → Mat Int) : Outcome :=
  if m < 1 ∨ n < 1 ∨ k < 1 then
    .done (Function.update h c fun i j => if i < m ∧ j < n then 0 else h c i j)
  else
    let bits := bits + (if sign then 1 else 0)
    let num := (bits + 29 - 1) / 29
    match vecPrimes np num (29 + 1) with
    | none => .throws
    | some primes =>
      match multiInit e (leafSize num) primes num with
      | none => .stuck
      | some mm =>
        let modC := fun l => modProduct m k n (primes l) (residueMat e mm (h a) l) (residueMat e mm (h b) l)
        let out := fun i j => liftEntry e mm sign fun l => modC l i j
        if ∀ i ∈ Finset.range m, ∀ j ∈ Finset.range n, (out i j).isSome then
          .done (Function.update h c fun i j => if i < m ∧ j < n then (out i j).getD 0 else h c i j)
        else .stuck

/-- `fmpz_mat_mul_multimod(C, A, B)`, fmpz_mat_mul_multimod_CRT.c:125-149. -/
def mulMultimod (e : Ext) (np leafSize : Nat → Nat) (m k n c a b : Nat) (h : Nat → Mat Int) : Outcome :=
  let abits := matMaxBits m k (h a)
  let bbits := matMaxBits k n (h b)
  let sign := decide (abits < 0) || decide (bbits < 0)
  mulMultimodCore e np leafSize sign (abits.natAbs + bbits.natAbs + Nat.size k) m k n c a b h

end PML.Crt
