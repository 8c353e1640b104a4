import Verif.Ntl.InvModel
import Verif.Ntl.LMulModel
import Verif.Ntl.ShiftModel

/-!
# Model of the power series solution of linear systems

`/repo/ntl-extras/mat_lzz_pX_extra/src/mat_lzz_pX_linsolve.cpp`, lines 15-226, and the function
`add_LeftShift` on matrices (`mat_lzz_pX_arith.cpp` lines 99-114).

The precision `prec` and the parameter `thresh` (when it is not -1) are natural numbers.  The functions
`inv_trunc`, `get_lmultiplier` and `middle_product` are parameters: see C71, C70, C69.
-/

namespace PML.Ntl.Solve

open Polynomial PML.Ntl.Utils PML.Ntl.Inv

/-- Run `f` on the value of a call, if it has one. -/
def andThen {α β : Type} (x : Out α) (f : α → Out β) : Out β :=
  match x with
  | .ok a => f a
  | .error => .error
  | .ub => .ub
  | .loops => .loops

/-- A call of a multiplier. -/
def ofRes {α : Type} : LMul.Res α → Out α
  | .ok a => .ok a
  | .error => .error
  | .ub => .ub

/-- A call which ends with an error when it has no value. -/
def ofOpt {α : Type} : Option α → Out α
  | some a => .ok a
  | none => .error

/-- A call of `middle_product`: in the model of C69 it has no value when it reads or writes out of bounds. -/
def ofMid {α : Type} : Option α → Out α
  | some a => .ok a
  | none => .ub

/-- The functions called. -/
structure Calls (F : Type) [Field F] where
  /-- `inv_trunc(A, m)` -/
  inv : PMat F[X] → Nat → Out (PMat F[X])
  /-- `get_lmultiplier(A, dB)`, and the function `multiply` of the object it returns -/
  lm : PMat F[X] → Nat → LMul.Res (PMat F[X] → LMul.Res (PMat F[X]))
  /-- `middle_product(b, a, c, dA, dB)` -/
  mid : PMat F[X] → PMat F[X] → Nat → Nat → Option (PMat F[X])
  /-- `THRESHOLDS_SOLVE_LOW_PRECISION_...`, for the type of prime in use -/
  thresh : Nat

variable {F : Type} [Field F]

/-! ### Divide and conquer -/

/-- `add_LeftShift(c, a, b, k)` on matrices, `mat_lzz_pX_arith.cpp` lines 99-114, as a value; `al` tells
    whether `c` is `a`. -/
noncomputable def addShift (al : Bool) (c a b : PMat F[X]) (k : Nat) : Out (PMat F[X]) :=
  ofOpt (zipWith (fun f g => f + g * X ^ k) al false c a b)

/-- `solve_DAC`, lines 20-61; `mulInv` is the function `multiply` of `invA`.  The first argument bounds the
    depth of the recursion.  `sol` is a fresh matrix, as are `bufA`, `bufB`, `residue`; each of them is
    reused, which does not matter since every function called sets all the entries of its output.  Matrices are
    values here: that `add_LeftShift` may leave leading zeros (C61) is modelled in `highPrec` only. -/
noncomputable def dac (mid : PMat F[X] → PMat F[X] → Nat → Nat → Option (PMat F[X]))
    (mulInv : PMat F[X] → LMul.Res (PMat F[X])) (thresh : Nat) : Nat → PMat F[X] → PMat F[X] → Nat → Out (PMat F[X])
  | fuel, A, b, prec =>
    if prec ≤ thresh then
      andThen (ofRes (mulInv b)) fun sol => .ok (trunc true sol sol prec)
    else
      match fuel with
      | 0 => .loops
      | fuel + 1 =>
        let hprec := prec / 2
        let kprec := prec - hprec
        let new : PMat F[X] := ⟨0, 0, fun _ => 0⟩
        let bufA := trunc false new A hprec
        let bufB := trunc false new b hprec
        andThen (dac mid mulInv thresh fuel bufA bufB hprec) fun sol =>
        let bufA := transpose false bufA A
        let bufB := transpose false bufB sol
        andThen (ofMid (mid bufB bufA hprec (kprec - 1))) fun residue =>
        let bufB := transpose false bufB residue
        let bufA := trunc false bufA A kprec
        let residue := rightShift false residue b hprec
        andThen (ofOpt (zipWith (· - ·) false true bufB residue bufB)) fun bufB =>
        andThen (dac mid mulInv thresh fuel bufA bufB kprec) fun residue =>
        addShift true sol sol residue hprec

/-- The part of `solve_series_low_precision` after the truncation of the input, lines 86-112: `thresh` is
    the parameter or the value of the table. -/
noncomputable def lowBody (C : Calls F) (thresh : Nat) (A b : PMat F[X]) (prec : Nat) : Out (PMat F[X]) :=
  andThen (C.inv A thresh) fun invA =>
  andThen (ofRes (C.lm invA (thresh - 1))) fun mulInv =>
  dac C.mid mulInv thresh prec A b prec

/-- `solve_series_low_precision(u, A, b, prec, thresh)`, lines 71-113.  If the degrees are too large it
    calls itself on truncated matrices, for which this test is false.  If `u` is `A` or `b`, the result is
    computed in another matrix. -/
noncomputable def lowPrec (C : Calls F) (thresh : Option Nat) (A b : PMat F[X]) (prec : Nat) : Out (PMat F[X]) :=
  let new : PMat F[X] := ⟨0, 0, fun _ => 0⟩
  if (prec : Int) ≤ deg A ∨ (prec : Int) ≤ deg b then
    lowBody C (thresh.getD C.thresh) (trunc false new A prec) (trunc false new b prec) prec
  else lowBody C (thresh.getD C.thresh) A b prec

/-! ### Iteration -/

/-- The representation of a polynomial computed by NTL: no leading zero. -/
noncomputable def repOf (f : F[X]) : Sto F := ⟨(pdeg f + 1).toNat, f.coeff⟩

/-- The same for a matrix. -/
noncomputable def reps (a : PMat F[X]) : PMat (Sto F) := ⟨a.rows, a.cols, fun ij => repOf (a.e ij)⟩

/-- `add_LeftShift(x, x, g, shift)` on polynomials (C61), with the representation of the result. -/
noncomputable def addRep [DecidableEq F] (shift : Nat) (x : Sto F) (g : F[X]) : Sto F :=
  ⟨(Shift.addLeftShift true x.len x.mem (repOf g).len (repOf g).mem shift).1,
    (Shift.addLeftShift true x.len x.mem (repOf g).len (repOf g).mem shift).2⟩

/-- `add_LeftShift(u, u, sol, shift)` on matrices, with the representation of the result. -/
noncomputable def addShiftRep [DecidableEq F] (u : PMat (Sto F)) (sol : PMat F[X]) (shift : Nat) : Out (PMat (Sto F)) :=
  if u.rows ≠ sol.rows ∨ u.cols ≠ sol.cols then .error
  else .ok { u with e := loop2 u.rows u.cols (fun i j cur => addRep shift (cur (i, j)) (sol.e (i, j))) u.e }

/-- `trunc(x, x, n)` of NTL on a polynomial: if the length is more than `n`, it becomes `n` and the
    polynomial is normalized; otherwise nothing is done. -/
def truncRep [DecidableEq F] (n : Nat) (x : Sto F) : Sto F :=
  if n < x.len then ⟨Shift.normLen x.mem n, x.mem⟩ else x

/-- Lines 172-176: for the coefficients `k ≤ dA`, `upper[k] = b[k + shift] - upper[k]`. -/
noncomputable def flip (dA shift : Nat) (b upper : F[X]) : F[X] :=
  forN (dA + 1) (fun k f => f.erase k + C (b.coeff (k + shift) - f.coeff k) * X ^ k) upper

/-- The loop of lines 166-190; the first argument is the number of iterations left. -/
noncomputable def highLoop [DecidableEq F] (mulA mulInv : PMat F[X] → LMul.Res (PMat F[X])) (b : PMat F[X]) (dA : Nat) :
    Nat → Nat → PMat (Sto F) → PMat F[X] → Out (PMat (Sto F))
  | 0, _, u, _ => .ok u
  | it + 1, shift, u, sol =>
    andThen (ofRes (mulA sol)) fun upper =>
    let upper := rightShift true upper upper (dA + 1 : Nat)
    let upper := { upper with e := loop2 b.rows b.cols (fun i j cur => flip dA shift (b.e (i, j)) (cur (i, j))) upper.e }
    andThen (ofRes (mulInv upper)) fun sol =>
    let sol := trunc true sol sol (dA + 1)
    andThen (addShiftRep u sol shift) fun u =>
    highLoop mulA mulInv b dA it (shift + (dA + 1)) u sol

/-- The part of `solve_series_high_precision` after the truncation of the input, lines 130-191.  The division
    on line 142 is by `lenA`, and `inv_trunc` has reported an error if this is zero. -/
noncomputable def highBody [DecidableEq F] (C : Calls F) (A b : PMat F[X]) (prec : Nat) : Out (PMat (Sto F)) :=
  let dA := deg A
  let lenA := (dA + 1).toNat
  let new : PMat F[X] := ⟨0, 0, fun _ => 0⟩
  andThen (C.inv A lenA) fun invA =>
  andThen (ofRes (C.lm invA dA.toNat)) fun mulInv =>
  andThen (ofRes (C.lm A dA.toNat)) fun mulA =>
  if lenA = 0 then .ub
  else
    let nb := (1 + ((prec : Int) - 1).tdiv lenA).toNat
    andThen (ofRes (mulInv (trunc false new b lenA))) fun u =>
    let u := trunc true u u lenA
    andThen (highLoop mulA mulInv b dA.toNat (nb - 1) lenA (reps u) u) fun u =>
    .ok { u with e := loop2 u.rows u.cols (fun i j cur => truncRep prec (cur (i, j))) u.e }

/-- `solve_series_high_precision(u, A, b, prec)`, lines 121-192. -/
noncomputable def highPrec [DecidableEq F] (C : Calls F) (A b : PMat F[X]) (prec : Nat) : Out (PMat (Sto F)) :=
  let new : PMat F[X] := ⟨0, 0, fun _ => 0⟩
  if (prec : Int) ≤ deg A ∨ (prec : Int) ≤ deg b then
    highBody C (trunc false new A prec) (trunc false new b prec) prec
  else highBody C A b prec

/-! ### Interface -/

/-- `solve_series(u, A, b, prec)`, lines 199-206, as a value; the default value of `thresh` is -1. -/
noncomputable def solveSeries [DecidableEq F] (C : Calls F) (A b : PMat F[X]) (prec : Nat) : Out (PMat F[X]) :=
  if (prec : Int) ≤ 4 * deg A then lowPrec C none A b prec
  else andThen (highPrec C A b prec) fun u => .ok (vals u)

/-- `solve_series` on vectors, lines 214-226: `n` is the length of `b`.  The result is read in the first
    column of `umat`; a matrix without this column, or with too few rows, is read out of its bounds. -/
noncomputable def solveVec [DecidableEq F] (C : Calls F) (A : PMat F[X]) (n : Nat) (b : Nat → F[X]) (prec : Nat) :
    Out (Nat × (Nat → F[X])) :=
  let bmat : PMat F[X] := ⟨n, 1, forN n (fun i => write (i, 0) (b i)) fun _ => 0⟩
  andThen (solveSeries C A bmat prec) fun umat =>
  if 0 < n ∧ (umat.rows < n ∨ umat.cols < 1) then .ub
  else .ok (n, forN n (fun i => write i (umat.e (i, 0))) fun _ => 0)

end PML.Ntl.Solve
