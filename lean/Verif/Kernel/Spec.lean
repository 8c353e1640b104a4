import Mathlib.Algebra.Polynomial.Basic
import Mathlib.Data.Matrix.Mul
import Mathlib.LinearAlgebra.Matrix.Notation

/-! # Specification: left kernel bases of polynomial matrices -/

namespace PML.Kernel.Spec

open Polynomial Matrix

variable {K : Type} [Field K] {k m n : Nat}

/-- The rows of `N` are linearly independent vectors that generate the module of
    all `v` with `v * A = 0`. -/
structure IsKernelBasis (A : Matrix (Fin m) (Fin n) K[X]) (N : Matrix (Fin k) (Fin m) K[X]) :
    Prop where
  independent : ∀ u : Fin k → K[X], u ᵥ* N = 0 → u = 0
  generates : ∀ v : Fin m → K[X], v ᵥ* A = 0 ↔ ∃ u : Fin k → K[X], v = u ᵥ* N

end PML.Kernel.Spec
