import Verif.Ntl.SolveModel

/-!
# Model of high-order lifting

`high_order_lift_inverse_odd` (`/repo/ntl-extras/mat_lzz_pX_extra/src/mat_lzz_pX_inv_trunc.cpp` lines 459-477),
`solve_series_high_order_lifting` (`mat_lzz_pX_linsolve.cpp` lines 233-297), and the functions `horizontal_join`,
`collapse_consecutive_columns` and `collapse_nonconsecutive_columns` (`mat_lzz_pX_linearization.cpp`
lines 10-86).

`inv_trunc`, `get_lmultiplier`, `middle_product` are parameters (C71, C70, C69), as is the inverse of a constant
matrix of NTL.  Matrices are values, except in the functions that collapse columns, where the storage of the
polynomials is modelled.
-/

namespace PML.Ntl.Lift

open Polynomial PML.Ntl.Utils PML.Ntl.Inv PML.Ntl.Solve

variable {F : Type} [Field F]

/-! ### Columns -/

/-- `horizontal_join(c, a, b)`, `mat_lzz_pX_linearization.cpp` lines 10-27. -/
noncomputable def hjoin (a b : PMat F[X]) : Option (PMat F[X]) :=
  if a.rows ≠ b.rows then none
  else
    let c := forN a.rows (fun i => forN a.cols fun j => write (i, j) (a.e (i, j))) fun _ => 0
    some ⟨a.rows, a.cols + b.cols, forN a.rows (fun i => forN b.cols fun j => write (i, j + a.cols) (b.e (i, j))) c⟩

/-- `SetCoeff(x, i, v)` of NTL on a polynomial, with its storage. -/
def setCoeffRep [DecidableEq F] (x : Sto F) (i : Nat) (v : F) : Sto F :=
  if x.len ≤ i ∧ v = 0 then x
  else
    let x : Sto F := if x.len ≤ i then ⟨i + 1, forN (i - x.len) (fun j => write (x.len + j) 0) x.mem⟩ else x
    let mem := write i v x.mem
    ⟨Shift.normLen mem x.len, mem⟩

/-- Lines 50-54 and 80-84: the entry `x` of `c`, made of the coefficients of index less than `d` of the polynomials
    `f 0, ..., f (s - 1)`. -/
def collapseEntry [DecidableEq F] (d s : Nat) (f : Nat → F[X]) (x : Sto F) : Sto F :=
  forN s (fun k => forN d fun ell x => setCoeffRep x (k * d + ell) ((f k).coeff ell)) ⟨d * s, x.mem⟩

/-- `collapse_consecutive_columns(c, a, d, s)`, lines 35-56.  The division on line 44 is by `s`.  If `c` is `a` the
    result is computed in a new matrix. -/
def collapseConsecutive [DecidableEq F] (c : PMat (Sto F)) (a : PMat F[X]) (d s : Nat) : Out (PMat (Sto F)) :=
  if s = 0 then .ub
  else
    let r := a.cols / s
    if a.cols ≠ r * s then .error
    else
      let c := c.setDims a.rows r
      .ok { c with e := loop2 a.rows r (fun j i cur => collapseEntry d s (fun k => a.e (j, i * s + k)) (cur (j, i))) c.e }

/-- `collapse_nonconsecutive_columns(c, a, d, s)`, lines 65-86. -/
def collapseNonconsecutive [DecidableEq F] (c : PMat (Sto F)) (a : PMat F[X]) (d s : Nat) : Out (PMat (Sto F)) :=
  if s = 0 then .ub
  else
    let r := a.cols / s
    if a.cols ≠ r * s then .error
    else
      let c := c.setDims a.rows s
      .ok { c with e := loop2 a.rows s (fun j i cur => collapseEntry d r (fun k => a.e (j, i + k * s)) (cur (j, i))) c.e }

/-! ### Lifting -/

/-- `high_order_lift_inverse_odd(next, src, A, invA, d)`, `mat_lzz_pX_inv_trunc.cpp` lines 459-477; `next` may be `src`,
    which is not used after `next` is assigned. -/
noncomputable def liftOdd (mid : PMat F[X] → PMat F[X] → Nat → Nat → Option (PMat F[X]))
    (mulA mulInv : PMat F[X] → LMul.Res (PMat F[X])) (src : PMat F[X]) (d : Nat) : Out (PMat F[X]) :=
  let new : PMat F[X] := ⟨0, 0, fun _ => 0⟩
  andThen (ofRes (mulA (trunc false new src d))) fun b =>
  let b := trunc true b b d
  andThen (ofMid (mid (transpose false new b) (transpose false new src) (d - 1) (d - 1))) fun next =>
  let next := transpose false new next
  andThen (ofRes (mulA next)) fun m =>
  let m := rightShift true m m d
  let m := trunc true m m (d - 1)
  andThen (ofRes (mulInv m)) fun tmp =>
  let tmp := trunc true tmp tmp (d - 1)
  let tmp := leftShift true tmp tmp d
  ofOpt (zipWith (· - ·) false false new next tmp)

/-- The loop of lines 277-291 of `mat_lzz_pX_linsolve.cpp`.  The first argument bounds the number of iterations. -/
noncomputable def liftLoop (mid : PMat F[X] → PMat F[X] → Nat → Nat → Option (PMat F[X]))
    (mulA mulInv : PMat F[X] → LMul.Res (PMat F[X])) (d nbcols : Nat) : Nat → PMat F[X] → PMat F[X] → Out (PMat F[X])
  | fuel, sol, slice =>
    if sol.cols < nbcols then
      match fuel with
      | 0 => .loops
      | fuel + 1 =>
        let new : PMat F[X] := ⟨0, 0, fun _ => 0⟩
        andThen (ofMid (mid (transpose false new sol) (transpose false new slice) (d - 1) (d - 1))) fun next =>
        let next := transpose true next next
        andThen (ofRes (mulA next)) fun buf1 =>
        let buf2 := trunc false new buf1 d
        andThen (ofOpt (hjoin sol buf2)) fun sol =>
        if sol.cols < nbcols then
          andThen (liftOdd mid mulA mulInv slice d) fun slice =>
          liftLoop mid mulA mulInv d nbcols fuel sol slice
        else liftLoop mid mulA mulInv d nbcols fuel sol slice
    else .ok sol

/-- `solve_series_high_order_lifting(u, A, b, prec)`, lines 233-297 of `mat_lzz_pX_linsolve.cpp`; `u` is the storage of the
    output, which may be `A` or `b`: it is written by the last two calls only. -/
noncomputable def solveLift [DecidableEq F] (C : Calls F) (cinv : Nat → (Nat × Nat → F) → Option (Nat × Nat → F))
    (u : PMat (Sto F)) (A b : PMat F[X]) (prec : Nat) : Out (PMat F[X]) :=
  let new : PMat F[X] := ⟨0, 0, fun _ => 0⟩
  if deg A ≤ deg b then .error
  else if deg A = 0 then
    if A.rows ≠ A.cols then .error
    else
      andThen (ofOpt (cinv A.rows fun ij => (A.e ij).coeff 0)) fun invA =>
      andThen (ofOpt (mulConstLeft ⟨A.rows, A.rows, invA⟩ b)) fun u =>
      .ok (trunc true u u prec)
  else
    let d := (deg A).toNat
    let bcols := b.cols
    let nbcols := ((1 + ((prec : Int) - 1).tdiv d) * bcols).toNat
    andThen (C.inv A (2 * d)) fun buf1 =>
    let slice := rightShift false new buf1 1
    let buf1 := trunc true buf1 buf1 d
    andThen (ofRes (C.lm A (d - 1))) fun ma =>
    andThen (ofRes (C.lm buf1 (d - 1))) fun minvA =>
    andThen (liftLoop C.mid ma minvA d nbcols nbcols b slice) fun sol =>
    andThen (ofRes (minvA sol)) fun buf1 =>
    let sol := trunc true buf1 buf1 d
    andThen (collapseNonconsecutive u sol d bcols) fun u =>
    .ok (trunc true (vals u) (vals u) prec)

end PML.Ntl.Lift
