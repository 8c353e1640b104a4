import Mathlib.Algebra.BigOperators.Group.Finset.Basic

/-!
# Specification side of the word-level vector code

Nothing here refers to the model: plain sums of natural numbers.
-/

namespace PML.Word

open Finset

/-- The exact integer dot product of the first `len` entries. -/
def dot (v1 v2 : Nat → Nat) (len : Nat) : Nat := ∑ i ∈ range len, v1 i * v2 i

/-- The first `len` entries of `v` have at most `b` bits. -/
def Bits (v : Nat → Nat) (len b : Nat) : Prop := ∀ i, i < len → v i < 2 ^ b

/-- The first `len` entries of `v` are reduced modulo `n`. -/
def Reduced (v : Nat → Nat) (len n : Nat) : Prop := ∀ i, i < len → v i < n

/-- Integer represented by three words, most significant first. -/
def value3 (t : Nat × Nat × Nat) : Nat := t.1 * (2 ^ 64) ^ 2 + t.2.1 * 2 ^ 64 + t.2.2

/-- The three components are machine words. -/
def IsWords3 (t : Nat × Nat × Nat) : Prop :=
  t.1 < 2 ^ 64 ∧ t.2.1 < 2 ^ 64 ∧ t.2.2 < 2 ^ 64

end PML.Word
