import Mathlib.Algebra.Polynomial.Basic
import Mathlib.Data.Matrix.Mul

/-! # Specification: products and middle products of polynomial matrices -/

namespace PML.PolyMul.Spec

open Polynomial

/-- The `r × c` matrix stored in an index function. -/
def asMatrix {R : Type} (r c : Nat) (M : Nat → Nat → R) : Matrix (Fin r) (Fin c) R :=
  Matrix.of fun i j => M i j

/-- `c` is made of the coefficients `nlo, ..., nhi-1` of `p`. -/
def IsWindow {K : Type} [Semiring K] (nlo nhi : Nat) (p c : K[X]) : Prop :=
  ∀ k, c.coeff k = if nlo + k < nhi then p.coeff (nlo + k) else 0

end PML.PolyMul.Spec
