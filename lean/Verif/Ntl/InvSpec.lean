import Verif.Ntl.InvModel
import Verif.Ntl.MatEvalSpec
import Verif.Ntl.MatMidSpec

/-!
# What a truncated inverse is, and what is assumed of the functions called
-/

namespace PML.Ntl.Inv

open Polynomial PML.Ntl.Utils PML.Ntl.MatMul PML.Ntl.MatEval PML.Ntl.MatMid

variable {F : Type} [Field F]

/-- `x` is the inverse of the square matrix `a` modulo `X^m`: it has degree less than `m`, and both products
    are the identity modulo `X^m`. -/
structure IsInvTrunc (a : PMat F[X]) (m : Nat) (x : PMat F[X]) : Prop where
  rows : x.rows = a.rows
  cols : x.cols = a.rows
  deg : ∀ i j, i < a.rows → j < a.rows → ∀ k, m ≤ k → (x.e (i, j)).coeff k = 0
  left : ∀ i j, i < a.rows → j < a.rows → ∀ k, k < m →
    (∑ l ∈ Finset.range a.rows, x.e (i, l) * a.e (l, j)).coeff k = if i = j ∧ k = 0 then 1 else 0
  right : ∀ i j, i < a.rows → j < a.rows → ∀ k, k < m →
    (∑ l ∈ Finset.range a.rows, a.e (i, l) * x.e (l, j)).coeff k = if i = j ∧ k = 0 then 1 else 0

/-- The constant coefficient of the square matrix `a` is invertible. -/
def ConstInv (a : PMat F[X]) : Prop :=
  ∃ W : Nat × Nat → F, ∀ i j, i < a.rows → j < a.rows →
    ∑ k ∈ Finset.range a.rows, W (i, k) * (a.e (k, j)).coeff 0 = if i = j then 1 else 0

/-- `middle_product`, within the bounds of C69. -/
def MidOk (mid : PMat F[X] → PMat F[X] → Nat → Nat → Option (PMat F[X])) : Prop :=
  ∀ (a c : PMat F[X]) (dA dB : Nat), a.cols = c.rows → 0 < a.cols → 0 ≤ deg a → deg a ≤ dA → deg a ≤ dB → deg c ≤ dA + dB →
    ∃ b, mid a c dA dB = some b ∧ IsMiddle a c dA dB b

/-- `multiply` (C67). -/
def MulOk (mul : PMat F[X] → PMat F[X] → Option (PMat F[X])) : Prop :=
  ∀ a b, a.cols = b.rows → 0 < a.cols → ∃ c, mul a b = some c ∧ IsProduct a b c

/-- `get_geometric_points(n)` gives an object that evaluates and interpolates at `1, q, ..., q^(n-1)`, which
    are distinct (C62, C63). -/
structure GeoOk (n : Nat) (o : Geo F) : Prop where
  ne : o.q ≠ 0
  inj : ∀ r r', r < n → r' < n → o.q ^ r = o.q ^ r' → r = r'
  ev : ∀ P : F[X], P.natDegree < n → ∃ v, o.ev P = some v ∧ ∀ i, i < n → v i = P.eval (o.q ^ i)
  ip : ∀ v : Nat → F, ∃ P, o.ip v = some P ∧ P.natDegree < n ∧ ∀ i, i < n → P.eval (o.q ^ i) = v i
  /-- polynomials of larger degree are rejected -/
  rej : ∀ P : F[X], 0 < n → n ≤ P.natDegree → o.ev P = none

end PML.Ntl.Inv
