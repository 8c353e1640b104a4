import Verif.Approx.Spec

/-!
# Specification: approximant bases with one order per column
(ntl-extras/mat_lzz_pX_extra/mat_lzz_pX_approximant.h:15-60)
-/

namespace PML.Approx.Spec

open Polynomial Matrix

variable {K : Type} [Field K] {m n : Nat}

/-- `v` is an approximant of `F` at the orders `o`: `(v * F)[j] = 0 mod X^o[j]` for all `j`. -/
def IsApproximantO (F : Matrix (Fin m) (Fin n) K[X]) (o : Fin n → Nat) (v : Fin m → K[X]) : Prop :=
  ∀ j, X ^ o j ∣ (v ᵥ* F) j

/-- `P` is an approximant basis of `F` at the orders `o`: it is nonsingular and its rows generate exactly the
    module of approximants. -/
structure IsApproximantBasisO (F : Matrix (Fin m) (Fin n) K[X]) (o : Fin n → Nat)
    (P : Matrix (Fin m) (Fin m) K[X]) : Prop where
  nonsingular : P.det ≠ 0
  generates : ∀ v, IsApproximantO F o v ↔ ∃ u : Fin m → K[X], v = u ᵥ* P

end PML.Approx.Spec
