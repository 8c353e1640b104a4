import Verif.Ntl.LiftModel
import Verif.Ntl.SolveSpec
import Mathlib.RingTheory.PowerSeries.Basic

/-!
# Coefficients of the inverse of a polynomial matrix
-/

namespace PML.Ntl.Lift

open Polynomial PML.Ntl.Utils PML.Ntl.Inv PML.Ntl.Solve

variable {F : Type} [Field F]

/-- The power series `h (i, j)`, for `i, j < s`, are the entries of the inverse of the square matrix `A`. -/
structure IsSeriesInv (A : PMat F[X]) (h : Nat × Nat → PowerSeries F) : Prop where
  left : ∀ i j, i < A.rows → j < A.rows → ∑ l ∈ Finset.range A.rows, h (i, l) * (A.e (l, j) : PowerSeries F) = if i = j then 1 else 0
  right : ∀ i j, i < A.rows → j < A.rows → ∑ l ∈ Finset.range A.rows, (A.e (i, l) : PowerSeries F) * h (l, j) = if i = j then 1 else 0

/-- `x` is made of the coefficients of `h` of degree `o`, ..., `o + n - 1`. -/
structure IsSlice (s : Nat) (h : Nat × Nat → PowerSeries F) (o n : Nat) (x : PMat F[X]) : Prop where
  rows : x.rows = s
  cols : x.cols = s
  coeff : ∀ i j, i < s → j < s → ∀ t, (x.e (i, j)).coeff t = if t < n then PowerSeries.coeff (o + t) (h (i, j)) else 0

end PML.Ntl.Lift
