import Verif.Ntl.MatMidModel

/-!
# What a middle product of polynomial matrices is
-/

namespace PML.Ntl.MatMid

open Polynomial PML.Ntl.Utils

variable {R : Type} [CommRing R]

/-- `b = trunc(trunc(a, dA+1) c div x^dA, dB+1)`: dimensions and coefficients. -/
def IsMiddle (a c : PMat R[X]) (dA dB : Nat) (b : PMat R[X]) : Prop :=
  b.rows = a.rows ∧ b.cols = c.cols ∧ ∀ i j, i < a.rows → j < c.cols → ∀ k,
    (b.e (i, j)).coeff k =
      if k ≤ dB then (∑ l ∈ Finset.range a.cols, (a.e (i, l) %ₘ X ^ (dA + 1)) * c.e (l, j)).coeff (dA + k) else 0

/-- `b = trunc(rev(a, dA) c div x^dA, dB+1)`, where the coefficient `dA - i` of `rev(a, dA)` is the
    coefficient `i` of `a`, for `i ≤ dA`. -/
def IsTMul (a c : PMat R[X]) (dA dB : Nat) (b : PMat R[X]) : Prop :=
  b.rows = a.rows ∧ b.cols = c.cols ∧ ∀ i j, i < a.rows → j < c.cols → ∀ k,
    (b.e (i, j)).coeff k =
      if k ≤ dB then (∑ l ∈ Finset.range a.cols, preverse (a.e (i, l)) dA * c.e (l, j)).coeff (dA + k) else 0

/-- What is assumed of the middle product of polynomials: C56 for `dA ≥ 0`; the product with a zero
    polynomial is zero whatever `dA`. -/
structure MpOk (mp : R[X] → R[X] → Int → Nat → Option R[X]) (dA : Int) (dB : Nat) : Prop where
  /-- the value -/
  val : ∀ a c, 0 ≤ dA → ∃ b, mp a c dA dB = some b ∧
    ∀ k, b.coeff k = if k ≤ dB then ((a %ₘ X ^ (dA.toNat + 1)) * c).coeff (dA.toNat + k) else 0
  /-- zero -/
  zero : ∀ c, mp 0 c dA dB = some 0

end PML.Ntl.MatMid
