import Verif.Ntl.FormsModel
import Verif.Ntl.DetModel

/-!
# Model of the iterative computation of approximant bases and of their verification

`/repo/ntl-extras/mat_lzz_pX_extra/src/mat_lzz_pX_approximant.cpp`: `approximant_basis` (lines 20-50),
`is_approximant_basis` (lines 59-130), `appbas_iterative` (lines 143-257), `appbas_iterative_2x1`
(lines 262-335), `popov_appbas_iterative` (lines 340-374).

Shifts are lists of mathematical integers: the overflow of `long` is left out.  Orders are natural numbers (the
documentation asks for positive orders).  A read or a write beyond the end of a vector gives `.ub`.  The
functions of NTL on polynomials and on constant matrices are the mathematical functions.
-/

namespace PML.Ntl.Appbas

open Polynomial PML.Ntl.Utils PML.Ntl.Inv PML.Ntl.Solve PML.Ntl.Forms PML.Ntl.Det

/-- `std::distance(v.begin(), std::max_element(v.begin(), v.end()))`: index of the first largest entry,
    `v.size()` (zero) if there is none. -/
def maxIndex : List Nat → Nat
  | [] => 0
  | a :: l => (l.foldl (fun (x : Nat × Nat × Nat) b => if x.2.2 < b then (x.1 + 1, x.1 + 1, b) else (x.1 + 1, x.2)) (0, 0, a)).2.1

section Field

variable {F : Type} [Field F] [DecidableEq F]

/-- The variables of `appbas_iterative`, lines 151-168. -/
structure St (F : Type) [Field F] where
  /-- `appbas` -/
  app : PMat F[X]
  /-- `residual` -/
  res : PMat F[X]
  /-- `shift` -/
  shift : List Int
  /-- `rem_order` -/
  remOrder : List Nat
  /-- `rem_index` -/
  remIndex : List Nat

/-- The choice of `piv`, lines 192-204: the first of the nonzero entries with smallest shift.  The outer `none`: a read
    beyond the end of `shift`; the inner `none`: no nonzero entry. -/
def findPiv (r : Nat → F) (shift : List Int) : Nat → Option (Option Nat)
  | 0 => some none
  | i + 1 =>
    match findPiv r shift i with
    | none => none
    | some piv =>
      if r i = 0 then some piv
      else
        match piv with
        | none => some (some i)
        | some p =>
          match shift[i]?, shift[p]? with
          | some a, some b => if a < b then some (some i) else some (some p)
          | _, _ => none

/-- Lines 210-220 for one of the two matrices (with `n` columns): `c` times row `piv` is added to the other rows with
    a nonzero entry. -/
noncomputable def eliminate (m n : Nat) (r : Nat → F) (piv : Nat) : (Nat × Nat → F[X]) → Nat × Nat → F[X] :=
  forN m fun row x =>
    if r row ≠ 0 ∧ row ≠ piv then
      forN n (fun k y => write (row, k) (y (row, k) + C (-(r row) / r piv) * y (piv, k)) y) x
    else x

/-- Lines 225-229: row `piv` is multiplied by `X` and truncated. -/
noncomputable def shiftResidual (n piv : Nat) (order remIndex : List Nat) : (Nat × Nat → F[X]) → Nat × Nat → F[X] :=
  forN n fun k x => write (piv, k) (ptrunc (pshift (x (piv, k)) 1) (order.getD (remIndex.getD k 0) 0)) x

/-- Lines 206-230, for a pivot `piv`. -/
noncomputable def update (order : List Nat) (r : Nat → F) (piv : Nat) (st : St F) : Out (St F) :=
  let m := st.res.rows
  let app := { st.app with e := eliminate m m r piv st.app.e }
  let res := { st.res with e := eliminate m st.res.cols r piv st.res.e }
  if st.shift.length ≤ piv then .ub
  else
    let shift := st.shift.set piv (st.shift.getD piv 0 + 1)
    match shiftRow true app app piv 1 with
    | none => .ub
    | some app =>
      if (List.range res.cols).all fun k => decide (k < st.remIndex.length ∧ st.remIndex.getD k 0 < order.length) then
        .ok { st with
          app := app, shift := shift,
          res := { res with e := shiftResidual res.cols piv order st.remIndex res.e } }
      else .ub

/-- Lines 242-252: `residual` without its column `j`. -/
noncomputable def dropColumn (j : Nat) (newCols : Nat) (res : PMat F[X]) : PMat F[X] :=
  let x := res.setDims res.rows newCols
  { x with e := forN res.rows (fun i x =>
      let x := forN j (fun k => write (i, k) (res.e (i, k))) x
      forN (res.cols - (j + 1)) (fun k => write (i, j + 1 + k - 1) (res.e (i, j + 1 + k))) x) x.e }

/-- Lines 233-255. -/
noncomputable def advance (j : Nat) (st : St F) : Out (St F) :=
  if 1 < st.remOrder.getD j 0 then .ok { st with remOrder := st.remOrder.set j (st.remOrder.getD j 0 - 1) }
  else
    let remOrder := st.remOrder.eraseIdx j
    let remIndex := st.remIndex.eraseIdx j
    if remOrder.isEmpty then .ok { st with remOrder := remOrder, remIndex := remIndex }
    else if remOrder.length + 1 < st.res.cols then .ub
    else .ok { st with remOrder := remOrder, remIndex := remIndex, res := dropColumn j remOrder.length st.res }

/-- One iteration, lines 180-255. -/
noncomputable def step (orderWise : Bool) (order : List Nat) (st : St F) : Out (St F) :=
  let j := if orderWise then maxIndex st.remOrder else 0
  if st.remIndex.length ≤ j ∨ order.length ≤ st.remIndex.getD j 0 ∨ st.res.cols ≤ j then .ub
  else
    let deg := order.getD (st.remIndex.getD j 0) 0 - st.remOrder.getD j 0
    let r := fun i => (st.res.e (i, j)).coeff deg
    match findPiv r st.shift st.res.rows with
    | none => .ub
    | some none => advance j st
    | some (some piv) => andThen (update order r piv st) fun st => advance j st

/-- `while (not rem_order.empty())`; `fuel` bounds the number of iterations. -/
noncomputable def loop (orderWise : Bool) (order : List Nat) : Nat → St F → Out (St F)
  | fuel, st =>
    if st.remOrder.isEmpty then .ok st
    else
      match fuel with
      | 0 => .loops
      | fuel + 1 => andThen (step orderWise order st) fun st => loop orderWise order fuel st

/-- `appbas_iterative`: the basis and the vector `shift` on output.  `app0`: the matrix `appbas` given by the caller. -/
noncomputable def iterative (app0 pmat : PMat F[X]) (order : List Nat) (shift : List Int) (orderWise : Bool) :
    Out (PMat F[X] × List Int) :=
  andThen (loop orderWise order ((order.map fun o => max o 1).sum)
    ⟨ident app0 pmat.rows, pmat, shift, order, List.range pmat.cols⟩) fun st => .ok (st.app, st.shift)

/-- The variables of `appbas_iterative_2x1`. -/
structure St2 (F : Type) [Field F] where
  /-- `p00`, `p01` -/
  p0 : F[X] × F[X]
  /-- `p10`, `p11` -/
  p1 : F[X] × F[X]
  /-- `r0`, `r1` -/
  r : F[X] × F[X]
  /-- `s0`, `s1` -/
  s : Int × Int

/-- One iteration of `appbas_iterative_2x1`, lines 289-333. -/
noncomputable def step2 (ord : Nat) (st : St2 F) : St2 F :=
  let c0 := st.r.1.coeff ord
  let c1 := st.r.2.coeff ord
  if c0 ≠ 0 ∧ c1 ≠ 0 then
    if st.s.1 ≤ st.s.2 then
      let c := C (-c1 / c0)
      { p1 := (st.p1.1 + c * st.p0.1, st.p1.2 + c * st.p0.2)
        p0 := (pshift st.p0.1 1, pshift st.p0.2 1)
        r := (pshift st.r.1 1, st.r.2 + c * st.r.1)
        s := (st.s.1 + 1, st.s.2) }
    else
      let c := C (-c0 / c1)
      { p0 := (st.p0.1 + c * st.p1.1, st.p0.2 + c * st.p1.2)
        p1 := (pshift st.p1.1 1, pshift st.p1.2 1)
        r := (st.r.1 + c * st.r.2, pshift st.r.2 1)
        s := (st.s.1, st.s.2 + 1) }
  else if c1 ≠ 0 then
    { st with p1 := (pshift st.p1.1 1, pshift st.p1.2 1), r := (st.r.1, pshift st.r.2 1), s := (st.s.1, st.s.2 + 1) }
  else if c0 ≠ 0 then
    { st with p0 := (pshift st.p0.1 1, pshift st.p0.2 1), r := (pshift st.r.1 1, st.r.2), s := (st.s.1 + 1, st.s.2) }
  else st

/-- `appbas_iterative_2x1`, lines 262-335; the loop does nothing for a negative `order`. -/
noncomputable def iterative2x1 (f0 f1 : F[X]) (order : Int) (s0 s1 : Int) : St2 F :=
  forN order.toNat step2 ⟨(1, 0), (0, 1), (f0, f1), (s0, s1)⟩

/-- `inv(lmat, lmat)` of NTL: an error for a singular matrix. -/
noncomputable def inverse (L : PMat F) : Out (PMat F) :=
  if L.rows ≠ L.cols then .error
  else if detN L.rows L.e = 0 then .error
  else .ok ⟨L.rows, L.rows, fun ij =>
    if h : ij.1 < L.rows ∧ ij.2 < L.rows then
      ((Matrix.of fun i j : Fin L.rows => L.e (i, j))⁻¹) ⟨ij.1, h.1⟩ ⟨ij.2, h.2⟩ else 0⟩

/-- `std::transform(shift, rdeg, popov_shift, minus)` where `popov_shift` has `m` entries, lines 351-354. -/
def popovShift (m : Nat) (shift rdeg : List Int) : Out (List Int) :=
  if m < shift.length ∨ rdeg.length < shift.length then .ub
  else .ok (List.zipWith (· - ·) shift rdeg ++ List.replicate (m - shift.length) 0)

/-- `popov_appbas_iterative`, lines 340-374. -/
noncomputable def popovIterative (app0 pmat : PMat F[X]) (order : List Nat) (shift : List Int) (orderWise : Bool) :
    Out (PMat F[X] × List Int) :=
  andThen (iterative app0 pmat order shift orderWise) fun x =>
  andThen (popovShift pmat.rows shift x.2) fun ps =>
  andThen (iterative x.1 pmat order ps orderWise) fun y =>
  andThen (leadingMatrix true y.1 (some ps)) fun lmat =>
  andThen (inverse lmat) fun lmat =>
  andThen (ofOpt (mulConstLeft lmat y.1)) fun a => .ok (a, x.2)

/-- `approximant_basis`, lines 20-50, without the messages it prints. -/
noncomputable def approximantBasis (app0 pmat : PMat F[X]) (order : List Nat) (shift : List Int) (form : Form)
    (rowWise generic : Bool) : Out (PMat F[X] × List Int) :=
  if rowWise ∧ ¬ generic then
    if form.num < Form.popov.num then iterative app0 pmat order shift true
    else if form.num = Form.popov.num then popovIterative app0 pmat order shift true
    else .error
  else .error

/-- The first loop on the residual, lines 95-106: `false` if some entry is not zero modulo `X^order[j]`. -/
noncomputable def residualZero (m n : Nat) (order : List Nat) (res : PMat F[X]) : Bool :=
  (List.range m).all fun i => (List.range n).all fun j => decide (ptrunc (res.e (i, j)) (order.getD j 0) = 0)

/-- `is_approximant_basis`, lines 59-130.  `mul`: `multiply`; `pt`: the random point. -/
noncomputable def isApproximantBasis (mul : PMat F[X] → PMat F[X] → Option (PMat F[X])) (appbas pmat : PMat F[X])
    (order : List Nat) (shift : List Int) (form : Form) (randomized : Bool) (pt : F) : Out Bool :=
  let m := pmat.rows
  let n := pmat.cols
  if ¬ randomized then .error
  else if appbas.rows ≠ appbas.cols ∨ appbas.cols ≠ m then .ok false
  else
    andThen (isForm true form appbas (some shift)) fun b =>
    if ¬ b then .ok false
    else
      andThen (ofOpt (mul appbas pmat)) fun residual =>
      if order.length < n ∧ 0 < m then .ub
      else if ¬ residualZero m n order residual then .ok false
      else
        andThen (degrees true appbas (some shift)) fun degs =>
        let degdet := degs.sum - shift.sum
        if pt = 0 ∧ degdet < 0 then .error
        else
          let detPt := detN m (Utils.eval ⟨0, 0, fun _ => 0⟩ appbas pt).e
          let detOne := detN m (Utils.eval ⟨0, 0, fun _ => 0⟩ appbas 1).e
          if detPt ≠ detOne * pt ^ degdet then .ok false
          else
            let cmat : PMat F := ⟨m, m + n, fun ij =>
              if ij.2 < n then (residual.e ij).coeff (order.getD ij.2 0) else (appbas.e (ij.1, ij.2 - n)).coeff 0⟩
            .ok (decide (gauss cmat = m))

end Field

end PML.Ntl.Appbas
