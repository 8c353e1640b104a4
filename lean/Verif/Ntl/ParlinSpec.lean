import Verif.Ntl.ParlinModel

/-!
# Specification of partial linearization
-/

namespace PML.Ntl.Parlin

open Polynomial PML.Ntl.Utils

variable {F : Type} [Field F]

/-- What is used of the rounding of quotients to the type `double`. -/
structure Rounding (rd : Rat → Rat) : Prop where
  mono : Monotone rd
  int : ∀ n : Nat, n ≤ 2 ^ 53 → rd n = n
  err : ∀ x : Rat, 0 ≤ x → x - x / 2 ^ 53 ≤ rd x

/-- The number of pieces of degree at most `p` of a polynomial of degree at most `t`. -/
def pieces (p : Nat) (t : Int) : Nat := ((t + 1).toNat + p) / (p + 1)

/-- `P` is a partial linearization of `a`, without its coefficients of degree less than `d0`: column `j` of `a` is expanded into the columns
    `start j, ..., start (j + 1) - 1` of `P`, with powers of `X^(p j + 1)`; all of them but the last have degree at most `p j`. -/
structure IsParlin (a : PMat F[X]) (p : Nat → Nat) (d0 : Nat) (start : Nat → Nat) (P : PMat F[X]) : Prop where
  rows : P.rows = a.rows
  cols : P.cols = start a.cols
  zero : start 0 = 0
  mono : ∀ j, j < a.cols → start j ≤ start (j + 1)
  sum : ∀ i j, i < a.rows → j < a.cols → ∀ k,
    (∑ m ∈ Finset.range (start (j + 1) - start j), P.e (i, start j + m) * X ^ (m * (p j + 1))).coeff k = (a.e (i, j)).coeff (d0 + k)
  deg : ∀ i j, i < a.rows → j < a.cols → ∀ m, start j + m + 1 < start (j + 1) → ∀ k, p j < k → (P.e (i, start j + m)).coeff k = 0

/-- Every entry of column `j` of `a` has degree at most `t j`. -/
def ColBound (a : PMat F[X]) (t : Nat → Int) : Prop := ∀ i j, i < a.rows → j < a.cols → ∀ k : Nat, t j < k → (a.e (i, j)).coeff k = 0

/-- The degree of `f` is at least `n - 1`, that of zero being -1. -/
def Reaches (f : F[X]) (n : Nat) : Prop := n = 0 ∨ ∃ k, n ≤ k + 1 ∧ f.coeff k ≠ 0

/-- Every entry of `a` has a degree at least that of the start of its last piece, minus 1. -/
def NoShortEntry (a : PMat F[X]) (p : Nat → Nat) (t : Nat → Int) (d0 : Nat) : Prop :=
  ∀ i j, i < a.rows → j < a.cols → Reaches (a.e (i, j)) (d0 + (pieces (p j) (t j) - 1) * (p j + 1))

end PML.Ntl.Parlin
