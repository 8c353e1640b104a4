import Verif.Ntl.DivModel
import Mathlib.Algebra.Order.Floor.Ring
import Mathlib.Data.Rat.Floor

/-!
# Model of partial linearization

`/repo/ntl-extras/mat_lzz_pX_extra/src/mat_lzz_pX_linearization.cpp` lines 100-291: the two functions
`column_partial_linearization`, `right_parlin_multiply` and `right_parlin_middle_product`; the functions of
`mat_lzz_pX_linearization.h` with the same names call them with other parameters.

The vector `parlin_degree` has entries at least 0.  The outputs `parlin` and `c` are not the input matrices; they are
modelled with the storage of their polynomials (see `Verif.Ntl.InvModel`), since the code sets lengths and then
coefficients.  `multiply` is a parameter (C67).  `SetLength` of NTL reports an error if the length is negative.
-/

namespace PML.Ntl.Parlin

open Polynomial PML.Ntl.Utils PML.Ntl.Inv PML.Ntl.Solve

variable {F : Type} [Field F]

/-- `coeff(f, d)`, which is 0 if `d` is negative. -/
def coeffZ (f : F[X]) (d : Int) : F := if d < 0 then 0 else f.coeff d.toNat

/-- The vector `parlin_cols` for `n` columns, lines 112-119 and 166-176: `p` is `parlin_degree` and `t` the vector of the numbers
    `tgt` of line 174 (`target_degree` in the first function).  The quotient of line 119 is of type `double`: `rd` rounds it.  The
    other conversions and additions are modelled as exact. -/
def parlinCols (rd : Rat → Rat) (n : Nat) (p : Nat → Nat) (t : Nat → Int) : Nat → Int :=
  forN n (fun j pc => write (j + 1) (pc j + ⌈rd (((t j : Rat) + 1) / ((p j : Rat) + 1))⌉) pc) fun _ => 0

/-- Lines 130-142 and 187-199, for one entry `f` of the input, which is in row `i` and column `j`: `e` is the storage of `parlin`,
    which has `cols` columns.  The loop on `jj` has `k` iterations. -/
noncomputable def parlinEntry (p : Nat → Nat) (dinf : Int) (pc : Nat → Int) (cols : Nat) (f : F[X]) (i j : Nat) (e : Nat × Nat → Sto F) :
    Out (Nat × Nat → Sto F) :=
  let k := (pc (j + 1) - 1 - pc j).toNat
  let e := forN k (fun m e =>
    let jj := (pc j).toNat + m
    write (i, jj) ⟨p j + 1, forN (p j + 1) (fun dd => write dd (coeffZ f (dinf + (m * (p j + 1) + dd : Nat)))) (e (i, jj)).mem⟩ e) e
  let jj := (pc j).toNat + k
  let reached := dinf + (k * (p j + 1) : Nat)
  let len := pdeg f - reached + 1
  if cols ≤ jj then .ub
  else if len < 0 then .error
  else .ok (write (i, jj) ⟨len.toNat, forN len.toNat (fun dd => write dd (coeffZ f (reached + (dd : Nat)))) (e (i, jj)).mem⟩ e)

/-- Lines 126-144 and 183-201. -/
noncomputable def parlinFill (pmat : PMat F[X]) (p : Nat → Nat) (dinf : Int) (pc : Nat → Int) (cols : Nat) (e : Nat × Nat → Sto F) : Out (Nat × Nat → Sto F) :=
  forN pmat.rows (fun i o => forN pmat.cols (fun j o => andThen o (parlinEntry p dinf pc cols (pmat.e (i, j)) i j)) o) (.ok e)

/-- `column_partial_linearization(parlin, pmat, parlin_degree, target_degree, d_inf)`, lines 153-204; with its result. -/
noncomputable def colParlinInf (rd : Rat → Rat) (parlin : PMat (Sto F)) (pmat : PMat F[X]) (p : Nat → Nat) (target : Nat → Int) (dinf : Int) :
    Out ((Nat → Int) × PMat (Sto F)) :=
  let pc := parlinCols rd pmat.cols p fun j => max 0 (target j - dinf)
  let parlin := parlin.setDims pmat.rows (pc pmat.cols).toNat
  andThen (parlinFill pmat p dinf pc parlin.cols parlin.e) fun e => .ok (pc, { parlin with e := e })

/-- `column_partial_linearization(parlin, pmat, parlin_degree, target_degree)`, lines 100-147. -/
noncomputable def colParlin (rd : Rat → Rat) (parlin : PMat (Sto F)) (pmat : PMat F[X]) (p : Nat → Nat) (target : Nat → Int) : Out ((Nat → Int) × PMat (Sto F)) :=
  let pc := parlinCols rd pmat.cols p target
  let parlin := parlin.setDims pmat.rows (pc pmat.cols).toNat
  andThen (parlinFill pmat p 0 pc parlin.cols parlin.e) fun e => .ok (pc, { parlin with e := e })

/-- One step of the loops of lines 235-240 and 277-282: the coefficients of `g` are added to those of index `m * q` on of a
    polynomial of length `len`. -/
noncomputable def addPiece (q len m : Nat) (g : F[X]) (mem : Nat → F) : Out (Nat → F) :=
  if 0 ≤ pdeg g ∧ (len : Int) ≤ (m * q : Nat) + pdeg g then .ub
  else .ok (forN (pdeg g + 1).toNat (fun d mem => write (m * q + d) (mem (m * q + d) + g.coeff d) mem) mem)

/-- Lines 233-240 and 275-282: the entry `x` of `c` gets the length `len`, then the entries `g 0, ..., g (k - 1)` of `c_parlin` are added.
    The final `normalize()` is left out (see `Sto`). -/
noncomputable def compress (q : Nat) (len : Int) (k : Nat) (g : Nat → F[X]) (x : Sto F) : Out (Sto F) :=
  if len < 0 then .error
  else andThen (forN k (fun m o => andThen o (addPiece q len.toNat m (g m))) (.ok x.mem)) fun mem => .ok ⟨len.toNat, mem⟩

/-- The two outer loops of lines 228-243 and 270-287: `f i j` computes the entry. -/
def fillOut (r c : Nat) (f : Nat → Nat → Sto F → Out (Sto F)) (e : Nat × Nat → Sto F) : Out (Nat × Nat → Sto F) :=
  forN r (fun i o => forN c (fun j o => andThen o fun e => andThen (f i j (e (i, j))) fun y => .ok (write (i, j) y e)) o) (.ok e)

/-- `right_parlin_multiply(c, a, b, parlin_degree, column_degree)`, lines 209-244. -/
noncomputable def rightParlinMultiply (rd : Rat → Rat) (mul : PMat F[X] → PMat F[X] → Option (PMat F[X])) (c : PMat (Sto F)) (a b : PMat F[X])
    (p : Nat) (cdeg : Nat → Int) : Out (PMat (Sto F)) :=
  andThen (colParlin rd (fresh F) b (fun _ => p) cdeg) fun (pc, bp) =>
  andThen (ofOpt (mul a (vals bp))) fun cp =>
  let c := c.setDims a.rows b.cols
  andThen (fillOut a.rows b.cols (fun i j x =>
    compress (p + 1) (Div.rowDegree a i + cdeg j + 1) (pc (j + 1) - pc j).toNat (fun m => cp.e (i, (pc j).toNat + m)) x) c.e) fun e =>
  .ok { c with e := e }

/-- `c >>= n` and `trunc(c, c, k)` of lines 284-285, for any integer `n`: NTL shifts to the left if `n` is negative. -/
noncomputable def shiftTrunc (n : Int) (k : Nat) (x : Sto F) : Sto F :=
  ⟨k, (ofCoeffs k fun d => coeffZ x.val (d + n)).coeff⟩

/-- `right_parlin_middle_product(c, a, b, parlin_degree, target_degree, dA, dB)`, lines 248-288. -/
noncomputable def rightParlinMiddle (rd : Rat → Rat) (mul : PMat F[X] → PMat F[X] → Option (PMat F[X])) (c : PMat (Sto F)) (a b : PMat F[X])
    (p : Nat) (target : Nat → Int) (dA dB : Nat) : Out (PMat (Sto F)) :=
  let dinf := (dA : Int) - deg a
  andThen (colParlinInf rd (fresh F) b (fun _ => p) target dinf) fun (pc, bp) =>
  andThen (ofOpt (mul a (vals bp))) fun cp =>
  let c := c.setDims a.rows b.cols
  andThen (fillOut a.rows b.cols (fun i j x =>
    andThen (compress (p + 1) (Div.rowDegree a i + target j - dinf + 1) (pc (j + 1) - pc j).toNat (fun m => cp.e (i, (pc j).toNat + m)) x) fun x =>
    .ok (shiftTrunc (deg a) (dB + 1) x)) c.e) fun e =>
  .ok { c with e := e }

end PML.Ntl.Parlin
