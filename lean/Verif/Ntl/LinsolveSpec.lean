import Verif.Ntl.LinsolveModel
import Verif.Ntl.MatEvalSpec
import Verif.Ntl.SolveSpec

/-!
# Specification of the solution of linear systems over `K(X)` (C95)
-/

namespace PML.Ntl.Linsolve

open Polynomial PML.Ntl.Utils

variable {F : Type} [Field F]

/-- `A u = d b`, where `b` has `A.rows` entries and `u` has `A.cols` entries. -/
def Solves (A : PMat F[X]) (b u : Nat → F[X]) (d : F[X]) : Prop :=
  ∀ i, i < A.rows → ∑ l ∈ Finset.range A.cols, A.e (i, l) * u l = d * b i

/-- What NTL says of `HalfGCD(M, U, V, d)`, for `deg(U) > deg(V)` and `1 <= d <= deg(U)` (and the identity for `V = 0`): with `(U', V') = M (U, V)`,
    two successive remainders of Euclid's algorithm, `V'` is the first one of degree at most `deg(U) - d`. -/
structure HgcdOK (H : F[X] → F[X] → Nat → Mat2 F) : Prop where
  unit : ∀ U V d, V.degree < U.degree → 1 ≤ d → d ≤ U.natDegree ∨ V = 0 →
    ∃ c : F, c ≠ 0 ∧ (H U V d).m00 * (H U V d).m11 - (H U V d).m01 * (H U V d).m10 = C c
  low : ∀ U V d, V.degree < U.degree → 1 ≤ d → d ≤ U.natDegree ∨ V = 0 →
    (H U V d).m10 * U + (H U V d).m11 * V = 0 ∨ ((H U V d).m10 * U + (H U V d).m11 * V).natDegree + d ≤ U.natDegree
  high : ∀ U V d, V.degree < U.degree → 1 ≤ d → d ≤ U.natDegree ∨ V = 0 →
    U.natDegree < ((H U V d).m00 * U + (H U V d).m01 * V).natDegree + d
  deg : ∀ U V d, V.degree < U.degree → 1 ≤ d → d ≤ U.natDegree ∨ V = 0 → (H U V d).m11 ≠ 0 ∧
    (H U V d).m11.natDegree + ((H U V d).m00 * U + (H U V d).m01 * V).natDegree = U.natDegree

/-- The functions of NTL do what they are for. -/
structure Ntl.Ok (N : Ntl F) : Prop where
  hgcd : HgcdOK N.hgcd
  inv : MatEval.InvOk N.inv

end PML.Ntl.Linsolve
