import Verif.Ntl.DivModel
import Verif.Ntl.SolveSpec

/-!
# What the division of polynomial matrices is
-/

namespace PML.Ntl.Div

open Polynomial PML.Ntl.Utils PML.Ntl.Inv PML.Ntl.Solve

variable {F : Type} [Field F]

/-- The square matrix `B` is row reduced, and its row `i` has degree `r i`: the matrix of the coefficients of degree
    `r i` is invertible. -/
structure RowReduced (B : PMat F[X]) (r : Nat → Nat) : Prop where
  sq : B.rows = B.cols
  deg : ∀ i j, i < B.rows → j < B.rows → ∀ k, r i < k → (B.e (i, j)).coeff k = 0
  lead : ∃ W : Nat × Nat → F, ∀ i j, i < B.rows → j < B.rows →
    ∑ k ∈ Finset.range B.rows, W (i, k) * (B.e (k, j)).coeff (r k) = if i = j then 1 else 0

/-- `A = B Q + R`, and the row `i` of `R` has degree less than `r i`. -/
structure IsQuoRem (A B : PMat F[X]) (r : Nat → Nat) (Q R : PMat F[X]) : Prop where
  qrows : Q.rows = B.cols
  qcols : Q.cols = A.cols
  rrows : R.rows = A.rows
  rcols : R.cols = A.cols
  eq : ∀ i j, i < A.rows → j < A.cols → A.e (i, j) = ∑ l ∈ Finset.range B.cols, B.e (i, l) * Q.e (l, j) + R.e (i, j)
  deg : ∀ i j, i < A.rows → j < A.cols → ∀ k, r i ≤ k → (R.e (i, j)).coeff k = 0

/-- `solve_series` (C72): it gives the solution or fails. -/
def SolveOk (solve : PMat F[X] → PMat F[X] → Nat → Out (PMat F[X])) : Prop :=
  ∀ (A b : PMat F[X]) (prec : Nat), 1 ≤ prec → 0 < A.rows → A.rows = A.cols → ConstInv A → b.rows = A.rows →
    (∃ u, solve A b prec = .ok u ∧ IsSol A b prec u) ∨ solve A b prec = .ub

end PML.Ntl.Div
