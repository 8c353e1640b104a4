import Verif.Ntl.SeqSpec

/-!
# Bases of cancelling polynomials of bounded degree
-/

namespace PML.Ntl.Bmas

open Polynomial PML.Ntl.Seq

variable {F : Type} [Field F]

/-- `L` is a basis, over `F[X]`, of the polynomials of degree at most `e` in `Y` that satisfy `K`. -/
structure IsBasisUpTo (e : Nat) (K : Polynomial F[X] → Prop) (L : List (Polynomial F[X])) : Prop where
  length : L.length = e + 1
  degree : ∀ g ∈ L, g.natDegree ≤ e
  span : ∀ h : Polynomial F[X], h.natDegree ≤ e → (K h ↔ ∃ q : Nat → F[X], h = ∑ t ∈ Finset.range (e + 1), C (q t) * L.getD t 0)
  free : ∀ q : Nat → F[X], ∑ t ∈ Finset.range (e + 1), C (q t) * L.getD t 0 = 0 → ∀ t, t < e + 1 → q t = 0

/-- `h` cancels, modulo `X^d`, the entries before `e` of each of the sequences `σ 0, ..., σ (n - 1)`. -/
def CancelsAll (d e n : Nat) (σ : Nat → Nat → F[X]) (h : Polynomial F[X]) : Prop := ∀ s, s < n → ∀ c, c < e → X ^ d ∣ entry h (σ s) c

end PML.Ntl.Bmas
