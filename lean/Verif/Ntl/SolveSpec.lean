import Verif.Ntl.SolveModel
import Verif.Ntl.InvSpec
import Verif.Ntl.LMulSpec

/-!
# What the power series solution of a linear system is, and what is assumed of the functions called
-/

namespace PML.Ntl.Solve

open Polynomial PML.Ntl.Utils PML.Ntl.Inv PML.Ntl.MatMul PML.Ntl.MatMid PML.Ntl.LMul

variable {F : Type} [Field F]

/-- `u` has degree less than `prec`, and `A u = b` modulo `X^prec`. -/
structure IsSol (A b : PMat F[X]) (prec : Nat) (u : PMat F[X]) : Prop where
  rows : u.rows = A.cols
  cols : u.cols = b.cols
  deg : ∀ i j, i < A.cols → j < b.cols → ∀ k, prec ≤ k → (u.e (i, j)).coeff k = 0
  eq : ∀ i j, i < A.rows → j < b.cols → ∀ k, k < prec →
    (∑ l ∈ Finset.range A.cols, A.e (i, l) * u.e (l, j)).coeff k = (b.e (i, j)).coeff k

/-- The representation of a polynomial by NTL is the canonical one: its last coefficient is not zero. -/
def Normal (x : Sto F) : Prop := x.len = 0 ∨ x.mem (x.len - 1) ≠ 0

/-- What is assumed of the functions called (C69, C70, C71).  The middle product may fail if its first matrix
    is zero, but only then. -/
structure Calls.Ok (C : Calls F) : Prop where
  inv : ∀ (A : PMat F[X]) (m : Nat), A.rows = A.cols → 0 < A.rows → ConstInv A → 1 ≤ m →
    ∃ x, C.inv A m = .ok x ∧ IsInvTrunc A m x
  lm : ∀ (A : PMat F[X]) (dB : Nat), 0 < A.cols → 0 ≤ Utils.deg A → ∃ f, C.lm A dB = .ok f ∧ Multiplies A dB f
  mid : ∀ (a c : PMat F[X]) (dA dB : Nat), a.cols = c.rows → 0 < a.cols → Utils.deg a ≤ dA → Utils.deg a ≤ dB →
    Utils.deg c ≤ dA + dB →
    (∃ b, C.mid a c dA dB = some b ∧ IsMiddle a c dA dB b) ∨ (C.mid a c dA dB = none ∧ Utils.deg a < 0)

end PML.Ntl.Solve
