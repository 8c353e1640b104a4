import Verif.Approx.Spec

/-!
# Specification: interpolant bases
(ntl-extras/mat_lzz_pX_extra/mat_lzz_pX_interpolant.h:15-60)
-/

namespace PML.Approx.Spec

open Polynomial Matrix

variable {K : Type} [Field K] {m n : Nat}

/-- `v` is an interpolant for the matrices `E 0, ..., E (d-1)` at the points `x 0, ..., x (d-1)`:
    `v(x k) * E k = 0` for all `k`. -/
def IsInterpolant (E : Nat → Matrix (Fin m) (Fin n) K) (x : Nat → K) (d : Nat) (v : Fin m → K[X]) : Prop :=
  ∀ k, k < d → ∀ j, ∑ l, (v l).eval (x k) * E k l j = 0

/-- `P` is an interpolant basis: it is nonsingular and its rows generate exactly the module of interpolants. -/
structure IsInterpolantBasis (E : Nat → Matrix (Fin m) (Fin n) K) (x : Nat → K) (d : Nat)
    (P : Matrix (Fin m) (Fin m) K[X]) : Prop where
  nonsingular : P.det ≠ 0
  generates : ∀ v, IsInterpolant E x d v ↔ ∃ u : Fin m → K[X], v = u ᵥ* P

end PML.Approx.Spec
