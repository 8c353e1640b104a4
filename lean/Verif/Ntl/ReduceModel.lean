import Verif.Ntl.LiftModel
import Verif.Ntl.MbasisModel
import Mathlib.LinearAlgebra.Matrix.Determinant.Basic

/-!
# Row reduced forms by the algorithm of Giorgi, Jeannerod and Villard

`reduced_form_gjv`, `ntl-extras/mat_lzz_pX_extra/src/mat_lzz_pX_reduction.cpp`.
-/

namespace PML.Ntl.Reduce

open Polynomial PML.Ntl.Utils PML.Ntl.Inv PML.Ntl.Solve PML.Ntl.Lift PML.Ntl.Mbasis

variable {F : Type} [Field F]

/-- The loop of lines 41-42; `target` is `(dim+1)*d+2`.  The first argument bounds the number of iterations. -/
noncomputable def gjvLoop (mid : PMat F[X] → PMat F[X] → Nat → Nat → Option (PMat F[X]))
    (mpmat minv : PMat F[X] → LMul.Res (PMat F[X])) (d target : Nat) : Nat → Nat → PMat F[X] → Out (PMat F[X])
  | fuel, i, series =>
    if i < target then
      match fuel with
      | 0 => .loops
      | fuel + 1 => andThen (liftOdd mid mpmat minv series (d + 1)) fun series => gjvLoop mid mpmat minv d target fuel (2 * i - d - 1) series
    else .ok series

/-- Lines 46-48: `SetDims(2*dim, dim)` keeps the rows and adds zero rows; then ones are put below. -/
noncomputable def addIdentity (dim : Nat) (series : PMat F[X]) : PMat F[X] :=
  ⟨2 * dim, dim, forN dim (fun i => write (dim + i, i) 1) fun ij => if ij.1 < series.rows then series.e ij else 0⟩

/-- Lines 58-61. -/
noncomputable def extract (dim : Nat) (reduced appbas : PMat F[X]) : PMat F[X] :=
  ⟨dim, dim, forN dim (fun i => forN dim fun j => write (i, j) (appbas.e (i, j))) reduced.e⟩

/-- `reduced_form_gjv(reduced, pmat)`, lines 5-64.  The value 0 is `none`, the value 1 is `some` with the value of
    `reduced`.  `C` holds `inv_trunc`, `get_lmultiplier` and `middle_product`; `N`, `mul` and `thr` are used by
    `pmbasis`.  NTL's `determinant` raises an error if its argument is not square.  What is printed is left out.
    `d` is a natural number: `pmat` has degree at least 0 on line 15, unless it has no row and no column, which is
    not covered. -/
noncomputable def gjv [DecidableEq F] (C : Calls F) (N : Nt F) (mul : PMat F[X] → PMat F[X] → Option (PMat F[X])) (thr : Nat)
    (reduced pmat : PMat F[X]) : Out (Option (PMat F[X])) :=
  let new : PMat F[X] := ⟨0, 0, fun _ => 0⟩
  if pmat.rows ≠ pmat.cols then .error
  else if (Matrix.det fun i j : Fin pmat.rows => (pmat.e (i, j)).coeff 0) = 0 then .ok none
  else
    let dim := pmat.cols
    let d := (deg pmat).toNat
    andThen (C.inv pmat ((dim + 1) * d + 1)) fun _ =>
    andThen (C.inv pmat (2 * d + 2)) fun buf =>
    let series := rightShift false new buf 1
    let buf := trunc true buf buf (d + 1)
    andThen (ofRes (C.lm buf d)) fun minv =>
    andThen (ofRes (C.lm pmat d)) fun mpmat =>
    andThen (gjvLoop C.mid mpmat minv d ((dim + 1) * d + 2) ((dim + 1) * d + 2) (2 * d + 2) series) fun series =>
    andThen (pmbasis N C.mid mul thr (2 * d) new (addIdentity dim series) (2 * d) fun _ => 0) fun r =>
    .ok (some (extract dim reduced r.1))

end PML.Ntl.Reduce
