import Mathlib.LinearAlgebra.Matrix.DotProduct
import Mathlib.Algebra.BigOperators.Intervals

/-!
# Specification: Cauchy-like matrices, leading blocks and generic rank profile (C99, C100, C101)
-/

namespace PML.Ntl.CLike

variable {K : Type} [Field K] {α : Nat}

/-- The matrix with the generators `Y` and `Z`, for the points `x` and `y`: `(Y_i . Z_j) / (x_i - y_j)`. -/
def mat (Y Z : Nat → Fin α → K) (x y : Nat → K) (i j : Nat) : K := (Y i ⬝ᵥ Z j) / (x i - y j)

/-- The row `i` of an array with `α` columns. -/
def genRow (α : Nat) (e : Nat × Nat → K) (i : Nat) : Fin α → K := fun t => e (i, t)

/-- The geometric progression of first element `u` and ratio `rho`. -/
def progr (u rho : K) (i : Nat) : K := u * rho ^ i

/-- The leading square block of size `k` is invertible: only the zero vector is in its kernel. -/
def Nonsing (k : Nat) (M : Nat → Nat → K) : Prop :=
  ∀ v : Nat → K, (∀ i, i < k → ∑ j ∈ Finset.range k, M i j * v j = 0) → ∀ j, j < k → v j = 0

/-- All rows of the `m` by `n` matrix are combinations of the first `r` ones. -/
def Spanned (m n r : Nat) (M : Nat → Nat → K) : Prop :=
  ∀ i, i < m → ∃ c : Nat → K, ∀ j, j < n → M i j = ∑ l ∈ Finset.range r, c l * M l j

/-- Generic rank profile: for some `r` (the rank), the leading blocks of size at most `r` are invertible, and all rows are combinations
    of the first `r` rows. -/
def GenericRankProfile (m n : Nat) (M : Nat → Nat → K) : Prop :=
  ∃ r, r ≤ m ∧ r ≤ n ∧ (∀ j, j ≤ r → Nonsing j M) ∧ Spanned m n r M

end PML.Ntl.CLike
