import Verif.MatPoly.Model
import Mathlib.Data.Matrix.Mul
import Mathlib.Algebra.Polynomial.Eval.Defs

/-!
# Specification: matrix polynomials

A matrix polynomial of length `len` with coefficients `co` represents the
matrix with polynomial entries `∑ k < len, co k i j * X^k`.
-/

namespace PML.MatPoly.Spec

open Polynomial

variable {K : Type} [Field K]

/-- Entry `(i, j)` of the polynomial matrix represented by `P`. -/
noncomputable def value (P : MatPoly K) (i j : Nat) : K[X] :=
  ∑ k ∈ Finset.range P.len, monomial k (P.co k i j)

/-- The represented `r × c` polynomial matrix. -/
noncomputable def valueMatrix (r c : Nat) (P : MatPoly K) : Matrix (Fin r) (Fin c) K[X] :=
  Matrix.of fun i j => value P i j

/-- `P` is normalised: empty, or its last coefficient is not the zero matrix. -/
def Normalised (r c : Nat) (P : MatPoly K) : Prop :=
  P.len = 0 ∨ ∃ i, i < r ∧ ∃ j, j < c ∧ P.co (P.len - 1) i j ≠ 0

/-- `q` is `p` modulo `X^n`. -/
def IsTrunc (n : Nat) (p q : K[X]) : Prop :=
  ∀ k, q.coeff k = if k < n then p.coeff k else 0

end PML.MatPoly.Spec
