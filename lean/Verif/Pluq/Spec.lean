import Verif.MatOps.Spec
import Mathlib.LinearAlgebra.Matrix.Rank

/-!
# Specification: PLUQ factorization and row rank profile
-/

namespace PML.Pluq.Spec

open PML.MatOps.Spec

variable {K : Type} [Field K]

/-- Row `i` of the `_ × c` matrix `M` is a linear combination of rows `0..i-1`. -/
def DependsOnPrevious (c : Nat) (M : Nat → Nat → K) (i : Nat) : Prop :=
  ∃ a : Nat → K, ∀ j, j < c → M i j = ∑ k ∈ Finset.range i, a k * M k j

/-- `i` belongs to the row rank profile of the `r × c` matrix `M`: row `i` is
    not a combination of the rows above it. -/
def InRowRankProfile (r c : Nat) (M : Nat → Nat → K) (i : Nat) : Prop :=
  i < r ∧ ¬ DependsOnPrevious c M i

/-- The `r × c` matrix as a Mathlib matrix. -/
def toMatrix (r c : Nat) (M : Nat → Nat → K) : Matrix (Fin r) (Fin c) K :=
  Matrix.of fun i j => M i j

/-- `(LU, P, Q, rk)` is a PLUQ factorization of the `r × c` matrix `M`. -/
structure IsPLUQ (r c : Nat) (M LU : Nat → Nat → K) (P Q : Nat → Nat) (rk : Nat) : Prop where
  rank_eq : (toMatrix r c M).rank = rk
  permP : IsPerm r P
  permQ : IsPerm c Q
  /-- entry `(P i, Q j)` of `M` is entry `(i, j)` of `L * U` -/
  factor : ∀ i j, i < r → j < c →
    M (P i) (Q j) = ∑ k ∈ Finset.range r, lower rk LU i k * upper rk LU k j
  diag : ∀ k, k < rk → upper rk LU k k ≠ 0
  /-- nothing else is stored in the compact form -/
  zero : ∀ i j, rk ≤ i → i < r → rk ≤ j → j < c → LU i j = 0
  /-- the first `rk` entries of `P` are exactly the row rank profile -/
  profile : ∀ i, InRowRankProfile r c M i ↔ ∃ k, k < rk ∧ P k = i
  /-- both parts of `P` are increasing -/
  mono₁ : ∀ i j, i < j → j < rk → P i < P j
  mono₂ : ∀ i j, rk ≤ i → i < j → j < r → P i < P j

end PML.Pluq.Spec
