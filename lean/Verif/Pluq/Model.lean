import Verif.Common.While
import Verif.MatOps.Model
import Mathlib.Algebra.Field.Defs
import Mathlib.Algebra.BigOperators.Group.Finset.Basic

/-!
# Model: PLUQ factorization (flint-extras/src/nmod_mat_extra/nmod_mat_pluq.c)

Coefficients live in a field `K` with decidable equality (the code: integers
modulo a prime; `n_invmod`, `nmod_mul`, `nmod_sub` become field operations).
-/

namespace PML.Pluq

open PML.MatOps

variable {K : Type} [Field K] [DecidableEq K]

/-- Local state of both PLUQ functions: the matrix being overwritten, the two
    permutations, and the counters `rank` and `nullity`. -/
structure PState (K : Type) where
  A : Mat K
  P : Nat → Nat
  Q : Nat → Nat
  rank : Nat
  nullity : Nat

/-- `while (pivot < c && row[pivot] == 0) pivot++;` with `n = c - pivot`
    iterations at most. nmod_mat_pluq.c:126-128 and 223-225. -/
def seekPivot (row : Nat → K) : Nat → Nat → Nat
  | 0, p => p
  | n + 1, p => if row p = 0 then seekPivot row n (p + 1) else p

/-- One row of the elimination, nmod_mat_pluq.c:149-154:
    `A[i][rank] *= inv; A[i][rank+1..c) += -A[i][rank] * A[rank][rank+1..c)`. -/
def elimRow (c rank : Nat) (inv : K) (prow row : Nat → K) : Nat → K :=
  let l := row rank * inv
  fun j => if j = rank then l
           else if rank + 1 ≤ j ∧ j < c then row j + (-l) * prow j
           else row j

/-- Body of the main loop of `nmod_mat_pluq`, nmod_mat_pluq.c:125-157. -/
def pluqStep (r c : Nat) (s : PState K) : PState K :=
  let pivot := seekPivot (s.A s.rank) (c - s.rank) s.rank
  if pivot = c then
    let AP := rotateRowsUpward s.A (some s.P) s.rank (r - 1)
    { s with A := AP.1, P := AP.2.getD s.P, nullity := s.nullity + 1 }
  else
    let AQ := rotateColumnsRightward r s.A (some s.Q) s.rank pivot
    let inv := (AQ.1 s.rank s.rank)⁻¹
    { s with
      A := fun i => if s.rank + 1 ≤ i ∧ i < r - s.nullity
                    then elimRow c s.rank inv (AQ.1 s.rank) (AQ.1 i) else AQ.1 i
      Q := AQ.2.getD s.Q
      rank := s.rank + 1 }

/-- `nmod_mat_pluq(A, P, Q)` on an `r × c` matrix with `P`, `Q` identity on
    entry, nmod_mat_pluq.c:118-160. The result is the final state (`A` holds the
    compact LU, `rank` is the return value); `none` if the loop has not ended
    after `fuel` iterations. -/
def pluq (r c : Nat) (M : Mat K) (fuel : Nat) : Option (PState K) :=
  whileLoop (fun s => decide (s.rank + s.nullity < r)) (pluqStep r c) fuel
    { A := M, P := id, Q := id, rank := 0, nullity := 0 }

/-- `A[rank, rank:] -= A[rank, :rank] * A[:rank, rank:]`, nmod_mat_pluq.c:186-220.
    `nmod_vec_dot_product_multi` is the vector-matrix product itself. -/
def updateRow (c rk : Nat) (A : Mat K) : Mat K := fun i =>
  if i = rk then
    fun j => if rk ≤ j ∧ j < c
      then A rk j - ∑ k ∈ Finset.range rk, A rk k * A k j
      else A rk j
  else A i

/-- `A[i][pivot] = (A[i][pivot] - A[i, :rank] * A[:rank, pivot]) * inv` for
    `rank < i < r - nullity`, nmod_mat_pluq.c:252-261. The pivot column is copied
    beforehand (`A_i_piv`) and the dot products are stored in `A_vec` first. -/
def scaleColumn (r nu rk pivot : Nat) (inv : K) (A : Mat K) : Mat K := fun i =>
  if rk + 1 ≤ i ∧ i < r - nu then
    Function.update (A i) pivot ((A i pivot - ∑ k ∈ Finset.range rk, A i k * A k pivot) * inv)
  else A i

/-- Body of the main loop of `nmod_mat_pluq_crout`, nmod_mat_pluq.c:186-266. -/
def croutStep (r c : Nat) (s : PState K) : PState K :=
  let A0 := updateRow c s.rank s.A
  let pivot := seekPivot (A0 s.rank) (c - s.rank) s.rank
  if pivot = c then
    let AP := rotateRowsUpward A0 (some s.P) s.rank (r - 1)
    { s with A := AP.1, P := AP.2.getD s.P, nullity := s.nullity + 1 }
  else
    let A1 := scaleColumn r s.nullity s.rank pivot (A0 s.rank pivot)⁻¹ A0
    let AQ := rotateColumnsRightward r A1 (some s.Q) s.rank pivot
    { s with A := AQ.1, Q := AQ.2.getD s.Q, rank := s.rank + 1 }

/-- `nmod_mat_pluq_crout(A, P, Q)`, nmod_mat_pluq.c:162-275. -/
def pluqCrout (r c : Nat) (M : Mat K) (fuel : Nat) : Option (PState K) :=
  whileLoop (fun s => decide (s.rank + s.nullity < r)) (croutStep r c) fuel
    { A := M, P := id, Q := id, rank := 0, nullity := 0 }

end PML.Pluq
