import Verif.Ntl.SeqModel

/-!
# What it means to cancel a sequence

A polynomial `g = g_0 + g_1 Y + ... + g_e Y^e` with coefficients in `F[X]` acts on a sequence `σ` of polynomials: the
entry `i` of `g σ` is `g_0 σ_i + ... + g_e σ_(i+e)`.  Everything is taken modulo `X^d`.
-/

namespace PML.Ntl.Seq

open Polynomial

variable {F : Type} [Field F]

/-- The entry `i` of the sequence `g σ`. -/
noncomputable def entry (g : Polynomial F[X]) (σ : Nat → F[X]) (i : Nat) : F[X] :=
  ∑ j ∈ Finset.range (g.natDegree + 1), g.coeff j * σ (i + j)

/-- `g` cancels the sequence `σ` modulo `X^d`. -/
def Cancels (d : Nat) (σ : Nat → F[X]) (g : Polynomial F[X]) : Prop := ∀ i, X ^ d ∣ entry g σ i

/-- `g` cancels the first `n` terms of `σ` modulo `X^d`: all entries of `g σ` that only depend on these are zero. -/
def CancelsFirst (d n : Nat) (σ : Nat → F[X]) (g : Polynomial F[X]) : Prop := ∀ i, i + g.natDegree < n → X ^ d ∣ entry g σ i

/-- The list of the first `n` terms. -/
def firstTerms (n : Nat) (σ : Nat → F[X]) : List F[X] := (List.range n).map σ

/-- `h` is a combination of the polynomials of the list `gens`, with coefficients in `F[X][Y]`, modulo `X^d`. -/
def Generated (d : Nat) (gens : List (Polynomial F[X])) (h : Polynomial F[X]) : Prop :=
  ∃ c : Nat → Polynomial F[X], C (X ^ d) ∣ h - ∑ t ∈ Finset.range gens.length, c t * gens.getD t 0

end PML.Ntl.Seq
