import Verif.Ntl.OneColModel
import Verif.Ntl.MbasisSpec

/-!
# Specification of approximant bases of one generic column
-/

namespace PML.Ntl.OneCol

open Polynomial PML.Ntl.Utils

variable {F : Type} [Field F]

/-- The column `f` of `n` polynomials is generic up to order `n * D`: no nonzero row vector of degree less than `k` is an approximant at
    order `n * k`, for all `k` up to `D`. -/
def Generic (n D : Nat) (f : Nat → F[X]) : Prop :=
  ∀ k, k ≤ D → ∀ v : Nat → F[X], (∀ i, i < n → (v i).degree < k) → X ^ (n * k) ∣ ∑ i ∈ Finset.range n, v i * f i → ∀ i, i < n → v i = 0

/-- `P` is a matrix of degree `D` whose coefficient of degree `D` is the identity: it is in Popov form. -/
structure MonicOf (n D : Nat) (P : Nat × Nat → F[X]) : Prop where
  deg : ∀ i j, i < n → j < n → (P (i, j)).natDegree ≤ D
  lead : ∀ i j, i < n → j < n → (P (i, j)).coeff D = if i = j then 1 else 0

/-- What is used of NTL's `kernel`: there are at least as many rows in the left kernel of a `2n` by `n` matrix as in its lower half, and
    if the `n` first rows are independent, the kernel consists of the relations of the last ones on them. -/
structure KerTop (ker : PMat F → PMat F) : Prop where
  cols : ∀ A, (ker A).cols = A.rows
  rows : ∀ A, A.rows - A.cols ≤ (ker A).rows
  top : ∀ A n, A.rows = 2 * n → A.cols = n →
    (∀ v : Nat → F, (∀ c, c < n → ∑ l ∈ Finset.range n, v l * A.e (l, c) = 0) → ∀ l, l < n → v l = 0) →
    ∀ i, i < n → ∀ c, c < n → ∑ l ∈ Finset.range n, (ker A).e (i, l) * A.e (l, c) + A.e (n + i, c) = 0

/-- Every entry of the first column has at least `N` coefficients: its degree, -1 for zero, is at least `N - 1`. -/
def Long (pmat : PMat F[X]) (N : Nat) : Prop := ∀ i, i < pmat.rows → (N : Int) ≤ pdeg (pmat.e (i, 0)) + 1

/-- The first column of a matrix. -/
def column (a : PMat F[X]) : Nat → F[X] := fun i => a.e (i, 0)

end PML.Ntl.OneCol
