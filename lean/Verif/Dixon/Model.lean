import Verif.Pmbasis.Model

/-!
# Model: truncated inverse and Dixon lifting
(flint-extras/src/nmod_poly_mat_extra/nmod_poly_mat_dixon.c)

Orders and precisions are natural numbers: the product `l * order` of line 123 is
taken not to overflow. The outputs are matrices distinct from the inputs.
-/

namespace PML.Dixon

open PML.MatOps PML.PolyMul PML.Pmbasis Polynomial

variable {q : Nat} [Fact q.Prime]

/-- The `2n × n` matrix `H = [A ; -Id]`, lines 37-48. FLINT's `nmod_poly_mat_set`
    copies the rows of its second argument. -/
noncomputable def stacked (n : Nat) (A : Mat (ZMod q)[X]) : Mat (ZMod q)[X] :=
  fun i j => if i < n then A i j else if i = j + n then C ((q - 1 : Nat) : ZMod q) else 0

/-- `nmod_poly_mat_inv_trunc(S, A, order)`, lines 31-79, for an `n × n` matrix `A`. -/
noncomputable def invTrunc (e : Env q) (fuel n : Nat) (S A : Mat (ZMod q)[X]) (order : Nat) :
    Outcome (Bool × Mat (ZMod q)[X]) :=
  match pmbasis e (2 * n) n fuel (fun _ _ => 0) (fun i => if i < n then 0 else (order : Int))
      (stacked n A) order with
  | Outcome.fail => Outcome.fail
  | Outcome.ok (tsf, _) =>
    -- nmod_poly_mat_is_one on the window of lines 63-65
    let isInv := decide (∀ i, i < n → ∀ j, j < n → tsf (n + i) (n + j) = if i = j then 1 else 0)
    Outcome.ok (isInv,
      if isInv then fun i j => if i < n ∧ j < n then tsf (n + i) j else S i j else S)

/-- FLINT `nmod_poly_mat_shift_left`. -/
noncomputable def shiftLeft (m p : Nat) (c0 a : Mat (ZMod q)[X]) (k : Nat) : Mat (ZMod q)[X] :=
  fun i j => if i < m ∧ j < p then X ^ k * a i j else c0 i j

/-- FLINT `nmod_poly_mat_add`. -/
noncomputable def addMat (m p : Nat) (c0 a b : Mat (ZMod q)[X]) : Mat (ZMod q)[X] :=
  fun i j => if i < m ∧ j < p then a i j + b i j else c0 i j

/-- FLINT `nmod_poly_mat_sub`. -/
noncomputable def subMat (m p : Nat) (c0 a b : Mat (ZMod q)[X]) : Mat (ZMod q)[X] :=
  fun i j => if i < m ∧ j < p then a i j - b i j else c0 i j

/-- The loop of lines 123-137; `fuel` bounds the number of tests of its condition. -/
noncomputable def dixonLoop (e : Env q) (n m : Nat) (A C : Mat (ZMod q)[X]) (order sigma : Nat) :
    (fuel l : Nat) → (X BB S T : Mat (ZMod q)[X]) → Outcome (Mat (ZMod q)[X])
  | 0, _, _, _, _, _ => Outcome.fail
  | fuel + 1, l, X, BB, S, T =>
    if l * order < sigma then
      match multiply e.mul n n m S C BB with
      | Outcome.fail => Outcome.fail
      | Outcome.ok S =>
        let S := truncPoly n m S S order
        let T := shiftLeft n m T S (l * order)
        let X := addMat n m X X T
        match multiply e.mul n n m T A S with
        | Outcome.fail => Outcome.fail
        | Outcome.ok T =>
          let T := subMat n m T BB T
          let BB := shiftRight n m BB T order
          dixonLoop e n m A C order sigma fuel (l + 1) X BB S T
    else Outcome.ok X

/-- `nmod_poly_mat_dixon(X, A, B, order, sigma)`, lines 91-144; `A` is `n × n`, `B`
    and `X` are `n × m`. -/
noncomputable def dixon (e : Env q) (fuel n m : Nat) (X A B : Mat (ZMod q)[X]) (order sigma : Nat) :
    Outcome (Bool × Mat (ZMod q)[X]) :=
  match invTrunc e fuel n (fun _ _ => 0) A order with
  | Outcome.fail => Outcome.fail
  | Outcome.ok (isInv, C) =>
    if isInv then
      match dixonLoop e n m A C order sigma fuel 0 (fun i j => if i < n ∧ j < m then 0 else X i j)
          B (fun _ _ => 0) (fun _ _ => 0) with
      | Outcome.fail => Outcome.fail
      | Outcome.ok X => Outcome.ok (true, X)
    else Outcome.ok (false, X)

end PML.Dixon
