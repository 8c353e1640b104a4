import Mathlib.LinearAlgebra.Matrix.Determinant.Basic
import Mathlib.Algebra.Polynomial.Div
import Mathlib.Data.Matrix.Mul

/-!
# Specification: approximants and approximant bases
(flint-extras/src/nmod_poly_mat_approximant.h)
-/

namespace PML.Approx.Spec

open Polynomial Matrix

variable {K : Type} [Field K] {m n : Nat}

/-- `v` is an approximant of `F` at order `d`: `v * F = 0 mod X^d`. -/
def IsApproximant (F : Matrix (Fin m) (Fin n) K[X]) (d : Nat) (v : Fin m → K[X]) : Prop :=
  ∀ j, X ^ d ∣ (v ᵥ* F) j

/-- `P` is an approximant basis of `F` at order `d`: it is nonsingular and its
    rows generate exactly the module of approximants. -/
structure IsApproximantBasis (F : Matrix (Fin m) (Fin n) K[X]) (d : Nat)
    (P : Matrix (Fin m) (Fin m) K[X]) : Prop where
  nonsingular : P.det ≠ 0
  generates : ∀ v, IsApproximant F d v ↔ ∃ u : Fin m → K[X], v = u ᵥ* P

end PML.Approx.Spec
