import Mathlib.Algebra.BigOperators.Group.Finset.Basic
import Mathlib.Algebra.BigOperators.Intervals
import Mathlib.Data.Nat.GCD.Basic
import Mathlib.Data.Int.ModEq

/-!
# Specification: residues and Chinese remaindering
-/

namespace PML.Crt.Spec

open Finset

/-- Product of the first `n` moduli. -/
def modProd (p : Nat → Nat) (n : Nat) : Nat := ∏ i ∈ range n, p i

/-- `n` word-size moduli, pairwise coprime. -/
structure Moduli (p : Nat → Nat) (n : Nat) : Prop where
  two_le : ∀ i, i < n → 2 ≤ p i
  word : ∀ i, i < n → p i < 2 ^ 64
  coprime : ∀ i j, i < n → j < n → i ≠ j → Nat.Coprime (p i) (p j)

/-- `A` is the integer between `0` and the product of the moduli with residues `m`. -/
structure IsCrt (p : Nat → Nat) (n : Nat) (m : Nat → Nat) (A : Int) : Prop where
  nonneg : 0 ≤ A
  lt : A < modProd p n
  residue : ∀ i, i < n → A % (p i : Int) = m i

/-- `out` holds the residues of `A`. -/
def IsResidues (p : Nat → Nat) (n : Nat) (A : Int) (out : Nat → Nat) : Prop :=
  ∀ i, i < n → (out i : Int) = A % (p i : Int)

end PML.Crt.Spec
