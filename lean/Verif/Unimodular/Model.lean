import Verif.Common.While
import Verif.MatPoly.Model
import Mathlib.LinearAlgebra.Matrix.Determinant.Basic
import Mathlib.Algebra.Polynomial.Eval.Defs
import Mathlib.Data.ZMod.Basic

/-!
# Model: unimodularity tests
(flint-extras/src/nmod_poly_mat_extra/nmod_poly_mat_is_unimodular.c)

FLINT's `nmod_poly_mat_det` and `nmod_mat_det` are Mathlib's determinant,
`nmod_poly_mat_evaluate_nmod` the evaluation of the entries.
-/

namespace PML.Unimodular

open PML PML.MatOps PML.MatPoly Polynomial

/-- FLINT `nmod_poly_mat_det` and `nmod_mat_det`, on an `n × n` matrix. -/
def detOf {R : Type} [CommRing R] (n : Nat) (M : Mat R) : R :=
  (Matrix.of fun (i j : Fin n) => M i j).det

/-- FLINT `nmod_poly_mat_evaluate_nmod`. -/
noncomputable def evalMat {R : Type} [CommRing R] (M : Mat R[X]) (x : R) : Mat R :=
  fun i j => (M i j).eval x

/-- `nmod_poly_mat_is_unimodular(pmat)`, lines 16-26. -/
noncomputable def isUnimodular {K : Type} [Field K] [DecidableEq K] (r c : Nat) (M : Mat K[X]) : Bool :=
  if r ≠ c then false
  else decide (polyLength (detOf r M) = 1)

/-- The variables of `while (pt1 == pt2)`, and the number of passes. -/
structure Points where
  pt1 : Nat
  pt2 : Nat
  step : Nat

/-- `while (pt1 == pt2) { pt1 = n_randint(..); pt2 = n_randint(..); }`, lines 37-43;
    `rnd k` are the two numbers drawn in pass `k`. -/
def pickPoints (rnd : Nat → Nat × Nat) (fuel : Nat) : Option Points :=
  whileLoop (fun p => decide (p.pt1 = p.pt2))
    (fun p => ⟨(rnd p.step).1, (rnd p.step).2, p.step + 1⟩) fuel ⟨0, 0, 0⟩

/-- `nmod_poly_mat_is_unimodular_randomized(pmat, state)`, lines 28-60, as written:
    `det2` is the determinant of `ev1`. -/
noncomputable def isUnimodularRandomized {q : Nat} (rnd : Nat → Nat × Nat) (fuel r c : Nat)
    (M : Mat (ZMod q)[X]) : Option Bool :=
  if r ≠ c then some false
  else if q = 1 then some false
  else
    (pickPoints rnd fuel).map fun p =>
      let ev1 := evalMat M (p.pt1 : ZMod q)
      let det1 := detOf r ev1
      let _ev2 := evalMat M (p.pt2 : ZMod q)
      let det2 := detOf r ev1
      decide (det1 ≠ 0 ∧ det1 = det2)

end PML.Unimodular
