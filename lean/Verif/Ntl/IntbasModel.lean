import Verif.Ntl.MbasisModel
import Verif.Ntl.AppbasModel
import Verif.Ntl.CrtModel
import Verif.Ntl.GeomModel

/-!
# Model of the computation of interpolant bases

`/repo/ntl-extras/mat_lzz_pX_extra/src/mat_lzz_pX_interpolant.cpp`: `is_interpolant_basis` (lines 17-69, 126-138),
`is_interpolant_basis_geometric` (lines 71-124, 140-154), `mbasis_rescomp` (lines 163-512), `mbasis_resupdate`
(lines 515-860), `popov_mbasis` (lines 863-894), `pmbasis_geometric` (lines 1215-1273), `pmbasis` (lines
1276-1326), `popov_pmbasis` (lines 1328-1368); `/repo/ntl-extras/mat_lzz_pX_extra/mat_lzz_pX_interpolant.h`:
`mbasis` (lines 306-319, 337-348).

The conventions are those of `MbasisModel`: `kernel` and `image` of NTL are parameters, offsets and orders are
natural numbers, shifts are arrays of mathematical integers.  A vector of matrices of evaluations has all its
matrices of the same dimensions.  A call whose points or evaluations are too short for `offset + order` is counted
as out of bounds, even in the cases where the code would not read them.  `inv` of NTL is a parameter of
`AppbasModel`.
-/

namespace PML.Ntl.Intbas

open Polynomial PML.Ntl.Utils PML.Ntl.Inv PML.Ntl.Solve PML.Ntl.Mbasis PML.Ntl.Forms PML.Ntl.Appbas

section Field

variable {F : Type} [Field F]

/-- `Vec<Mat<zz_p>> evals`: `len` matrices, all `rows x cols`; `e (k, i)` is row `i` of `evals[k]`. -/
structure Evals (F : Type) where
  /-- `evals.length()` -/
  len : Nat
  /-- `evals[k].NumRows()` -/
  rows : Nat
  /-- `evals[k].NumCols()` -/
  cols : Nat
  /-- the rows -/
  e : Nat × Nat → Nat → F

/-- `zz_pX_Multipoint::evaluate_matrix(evals, mat)`, `/repo/ntl-extras/lzz_pX_CRT/src/lzz_pX_Multipoint.cpp` lines
    71-103: `ev` is `evaluate`, which has no value if it raises an error, and `n` is the number of points. -/
def evaluateMatrix (ev : F[X] → Option (Nat → F)) (n : Nat) (P : PMat F[X]) : Out (Evals F) :=
  if (List.range P.rows).all fun i => (List.range P.cols).all fun j => (ev (P.e (i, j))).isSome then
    .ok ⟨n, P.rows, P.cols, fun ki j => (ev (P.e (ki.2, j))).getD (fun _ => 0) ki.1⟩
  else .error

variable [DecidableEq F]

/-! ### Updating the basis -/

/-- Multiplication by `X + c` of the rows `i` with `is_pivind[i]` false: lines 466-481, 789-801.  With `isPiv` false
    everywhere, lines 258-266, 643-652. -/
def mulLin (m deg : Nat) (isPiv : Nat → Bool) (c : F) (co : Nat × Nat → Nat → F) : Nat × Nat → Nat → F :=
  let co := forN m (fun i co => if isPiv i then co else write (deg, i) (co (deg - 1, i)) co) co
  let co := forN (deg - 1) (fun t => forN m fun i (co : Nat × Nat → Nat → F) =>
    let d := deg - 1 - t
    if isPiv i then co else write (d, i) (fun j => co (d, i) j * c + co (d - 1, i) j) co) co
  forN m (fun i (co : Nat × Nat → Nat → F) => if isPiv i then co else write (0, i) (fun j => co (0, i) j * c) co) co

/-- The case of a zero kernel: lines 256-266 and 276, 638-654. -/
def zeroStep (m : Nat) (pt : F) (s : State F) : State F :=
  { s with
    co := mulLin m (s.degA + 1) (fun _ => false) (-pt) s.co
    len := s.degA + 2
    degA := s.degA + 1
    shift := forN m (fun i sh => write i (sh i + 1) sh) s.shift }

/-- The update of the basis in the usual case: lines 390-481, 719-801, after the base case `b`.  Undefined behaviour:
    `coeffs_intbas[deg_intbas-1]` with `deg_intbas = 0`. -/
def usualI (m k : Nat) (pt : F) (b : Base F) (s : State F) : Out (State F) :=
  let isPiv := forN k (fun i => write (b.piv.getD i 0) true) s.isPiv
  let u := bump m isPiv s.co s.degA s.shift
  let degA := u.2.1
  let len := if degA = s.len then degA + 1 else s.len
  let co : Nat × Nat → Nat → F := if degA = s.len then fun di => if di.1 = degA then fun _ => 0 else s.co di else s.co
  let co := replaceRows m k b.kerbas b.piv b.rows 0 (degA + 1) co
  if degA = 0 ∧ ((List.range m).any fun i => !isPiv i) then .ub
  else
    let co := mulLin m degA isPiv (-pt) co
    .ok { co := co, len := len, degA := degA, shift := u.1, pPiv := b.pPiv ++ s.pPiv.drop k, isPiv := isPiv, kerbas := b.kerbas }

/-- `eval(intbas_eval, coeffs_intbas, pt)` and `mul(residuals, intbas_eval, eval)`: lines 269-273, 288-292,
    487-491. -/
def nextRes (m : Nat) (s : State F) (pt : F) (ev : Nat → Nat → F) : Nat → Nat → F :=
  let v := evalCoeffs s.len (fun d => ⟨m, m, fun ij => s.co (d, ij.1) ij.2⟩) pt
  fun i j => ∑ l ∈ Finset.range m, v.e (i, l) * ev l j

/-- The loop of `mbasis_rescomp`, lines 241-499; the first argument is `offset + order - ord`. -/
noncomputable def rescompLoop (N : Nt F) (m n : Nat) (E : Nat × Nat → Nat → F) (x : Nat → F) (int0 : PMat F[X]) :
    Nat → Nat → State F → (Nat → Nat → F) → (Nat → Nat → F) → Out (PMat F[X] × (Nat → Int))
  | 0, _, s, _, _ => .ok (toPoly m int0 s, s.shift)
  | steps + 1, ord, s, res, pRes =>
    let perm := sortBy s.shift m
    let sw := forN m (fun i (st : (Nat → Nat → F) × (Nat → Nat → F)) =>
      (write i (st.2 (perm.getD i 0)) st.1, write (perm.getD i 0) (st.1 i) st.2)) (pRes, res)
    let pRes := sw.1
    let res := sw.2
    let pk := N.ker ⟨m, n, fun ij => pRes ij.1 ij.2⟩
    let k := pk.rows
    let next (s : State F) : Nat → Nat → F :=
      if steps = 0 then res else nextRes m s (x (ord + 1)) fun l => E (ord + 1, l)
    if k = 0 then
      let s := zeroStep m (x ord) s
      rescompLoop N m n E x int0 steps (ord + 1) s (next s) pRes
    else if k = m then rescompLoop N m n E x int0 steps (ord + 1) s (next s) pRes
    else
      andThen (base N m k perm s.kerbas pk (s.pPiv.drop k)) fun b =>
      andThen (usualI m k (x ord) b s) fun s =>
      rescompLoop N m n E x int0 steps (ord + 1) (if steps = 0 then s else restore k b s) (next s) pRes

/-- `mbasis_rescomp(intbas, evals, pts, shift, offset, order)`, lines 163-512; `x` are the `np` points. -/
noncomputable def rescomp (N : Nt F) (int0 : PMat F[X]) (E : Evals F) (np : Nat) (x : Nat → F) (shift : Nat → Int) (off order : Nat) :
    Out (PMat F[X] × (Nat → Int)) :=
  if E.len ≤ off ∨ E.len < off + order ∨ np < off + order then .ub
  else if E.rows = 0 then .error
  else rescompLoop N E.rows E.cols E.e x int0 order off (start E.rows shift) (fun i => E.e (off, i)) fun _ _ => 0

/-- `evals[k][i]` is multiplied by `pts[k] - pts[ord]` for the rows `i` with `is_pivind[i]` false, for `n` values of
    `k` from `k0` on: lines 820-827. -/
def scaleRows (m k0 n : Nat) (isPiv : Nat → Bool) (x : Nat → F) (pt : F) (e : Nat × Nat → Nat → F) : Nat × Nat → Nat → F :=
  forN n (fun t => forN m fun i (e : Nat × Nat → Nat → F) =>
    let k := k0 + t
    if isPiv i then e else write (k, i) (fun j => e (k, i) j * (x k + -pt)) e) e

/-- The loop of `mbasis_resupdate`, lines 595-842; the first argument is `order - ord`, and `cur` is
    `offset + ord`.  The evaluations are also returned. -/
noncomputable def resupdateLoop (N : Nt F) (m n : Nat) (x : Nat → F) (int0 : PMat F[X]) :
    Nat → Nat → State F → (Nat × Nat → Nat → F) → Out (PMat F[X] × (Nat → Int) × (Nat × Nat → Nat → F))
  | 0, _, s, e => .ok (toPoly m int0 s, s.shift, e)
  | steps + 1, cur, s, e =>
    let perm := sortBy s.shift m
    let pk := N.ker ⟨m, n, fun ij => e (cur, perm.getD ij.1 0) ij.2⟩
    let k := pk.rows
    if k = 0 then resupdateLoop N m n x int0 steps (cur + 1) (zeroStep m (x cur) s) e
    else if k < m then
      andThen (base N m k perm s.kerbas pk (s.pPiv.drop k)) fun b =>
      andThen (usualI m k (x cur) b s) fun s =>
      let e := replaceRows m k b.kerbas b.piv b.rows (cur + 1) steps e
      let e := scaleRows m (cur + 1) steps s.isPiv x (x cur) e
      resupdateLoop N m n x int0 steps (cur + 1) (restore k b s) e
    else resupdateLoop N m n x int0 steps (cur + 1) s e

/-- `mbasis_resupdate(intbas, evals, pts, shift, offset, order)`, lines 515-860. -/
noncomputable def resupdate (N : Nt F) (int0 : PMat F[X]) (E : Evals F) (np : Nat) (x : Nat → F) (shift : Nat → Int) (off order : Nat) :
    Out (PMat F[X] × (Nat → Int) × Evals F) :=
  if E.len = 0 ∨ E.len < off + order ∨ np < off + order then .ub
  else if E.rows = 0 then .error
  else
    andThen (resupdateLoop N E.rows E.cols x int0 order off (start E.rows shift) E.e) fun r =>
    .ok (r.1, r.2.1, { E with e := r.2.2 })

/-- `mbasis`, `mat_lzz_pX_interpolant.h` lines 306-319, 337-348 (offset `0`, order `pts.length()`). -/
noncomputable def mbasis (N : Nt F) (int0 : PMat F[X]) (E : Evals F) (np : Nat) (x : Nat → F) (shift : Nat → Int) (off order : Nat) :
    Out (PMat F[X] × (Nat → Int) × Evals F) :=
  if order ≤ 5 ∨ (E.cols + 1 = E.rows ∧ 20 < E.rows) then resupdate N int0 E np x shift off order
  else if E.len = 0 then .ub
  else andThen (rescomp N int0 E np x shift off order) fun r => .ok (r.1, r.2, E)

/-! ### Divide and conquer -/

/-- The construction of an object `zz_pX_Multipoint` for the `n` points from `off` on, as its function `evaluate` (without a
    value if it raises an error), and its number of points. -/
abbrev Maker (F : Type) [Field F] : Type := Nat → Nat → Option ((F[X] → Option (Nat → F)) × Nat)

/-- `zz_pX_Multipoint_General(pts, off, n)`: C58. -/
noncomputable def general (it : F[X] → Nat → F[X]) (fuel : Nat) (x : Nat → F) : Maker F := fun off n =>
  (Crt.mkMultipoint it fuel n fun i => x (off + i)).map fun M => (fun f => some (Crt.evaluate M.tree f), n)

/-- `zz_pX_Multipoint_Geometric(r, pts[off], n + 1)`: C62; `feasible` and `flags` are the choices between the FFT
    and the other algorithms. -/
noncomputable def geometric (mp : F[X] → F[X] → Nat → Nat → Option F[X]) (feasible flags : Nat → Bool) (r : F) (x : Nat → F) :
    Maker F := fun off n =>
  (Geom.construct (feasible (n + 1)) (flags (n + 1)) r (x off) (n + 1)).map fun o => (Geom.evaluate mp o, n + 1)

/-- `mul(evals[k], intbas_eval[k-off2], evals[k])` for `off2 <= k < off2 + order2`: lines 1264-1265, 1317-1318.  The
    dimensions are those of an `intbas` with as many columns as `evals` has rows. -/
def updEvals (off2 order2 : Nat) (v E : Evals F) : Out (Evals F) :=
  if v.cols ≠ E.rows ∨ v.rows ≠ E.rows then .error
  else .ok ⟨E.len, E.rows, E.cols, fun ki j =>
    if off2 ≤ ki.1 ∧ ki.1 < off2 + order2 then ∑ l ∈ Finset.range E.rows, v.e (ki.1 - off2, ki.2) l * E.e (ki.1, l) j
    else E.e ki j⟩

/-- `pmbasis(intbas, evals, pts, shift, offset, order)`, lines 1290-1326, with `mk` being `general`, and
    `pmbasis_geometric(intbas, evals, pts, r, shift, offset, order)`, lines 1232-1273, with `mk` being `geometric`.
    `mul` is `multiply` (C67), `thr` is 32.  The first argument bounds the depth of the recursion. -/
noncomputable def pmbasis (N : Nt F) (mul : PMat F[X] → PMat F[X] → Option (PMat F[X])) (mk : Maker F) (thr : Nat) :
    Nat → PMat F[X] → Evals F → Nat → (Nat → F) → (Nat → Int) → Nat → Nat → Out (PMat F[X] × (Nat → Int) × Evals F)
  | fuel, int0, E, np, x, shift, off, order =>
    if order ≤ thr then mbasis N int0 E np x shift off order
    else
      match fuel with
      | 0 => .loops
      | fuel + 1 =>
        let order1 := order / 2
        let off2 := off + order1
        let order2 := order - order1
        andThen (pmbasis N mul mk thr fuel int0 E np x shift off order1) fun r =>
        if np < off2 + order2 then .ub
        else
          andThen (ofOpt (mk off2 order2)) fun ev =>
          andThen (evaluateMatrix ev.1 ev.2 r.1) fun v =>
          andThen (updEvals off2 order2 v r.2.2) fun E =>
          andThen (pmbasis N mul mk thr fuel ⟨0, 0, fun _ => 0⟩ E np x r.2.1 off2 order2) fun r2 =>
          andThen (ofOpt (mul r2.1 r.1)) fun a => .ok (a, r2.2)

/-- The evaluation of `pmat` at all points: lines 1283-1285, 1337-1339, with `zz_pX_Multipoint_General(pts)`.  Without points
    the construction does not end (C57). -/
noncomputable def evalAll (it : F[X] → Nat → F[X]) (fuelc : Nat) (np : Nat) (x : Nat → F) (pmat : PMat F[X]) : Out (Evals F) :=
  if np = 0 then .loops
  else andThen (ofOpt (general it fuelc x 0 np)) fun ev => evaluateMatrix ev.1 ev.2 pmat

/-- `pmbasis(intbas, pmat, pts, shift)`, lines 1276-1288. -/
noncomputable def pmbasisPoly (N : Nt F) (mul : PMat F[X] → PMat F[X] → Option (PMat F[X])) (it : F[X] → Nat → F[X]) (fuelc thr fuel : Nat)
    (int0 pmat : PMat F[X]) (np : Nat) (x : Nat → F) (shift : Nat → Int) : Out (PMat F[X] × (Nat → Int)) :=
  andThen (evalAll it fuelc np x pmat) fun E =>
  andThen (pmbasis N mul (general it fuelc x) thr fuel int0 E np x shift 0 np) fun r => .ok (r.1, r.2.1)

/-- `pmbasis_geometric(intbas, pmat, r, order, shift, pts)`, lines 1215-1230: the points are also returned. -/
noncomputable def pmbasisGeometric (N : Nt F) (mul : PMat F[X] → PMat F[X] → Option (PMat F[X]))
    (mp : F[X] → F[X] → Nat → Nat → Option F[X]) (feasible flags : Nat → Bool) (thr fuel : Nat)
    (int0 pmat : PMat F[X]) (r : F) (order : Nat) (shift : Nat → Int) : Out (PMat F[X] × (Nat → Int) × (Nat → F)) :=
  andThen (ofOpt (Geom.construct (feasible order) (flags order) r 1 order)) fun o =>
  let x : Nat → F := fun i => (Geom.getPoint mp o i).getD 0
  andThen (evaluateMatrix (Geom.evaluate mp o) order pmat) fun E =>
  andThen (pmbasis N mul (geometric mp feasible flags r x) thr fuel int0 E order x shift 0 order) fun z => .ok (z.1, z.2.1, x)

/-- The second half of `popov_mbasis`, lines 875-893, and of `popov_pmbasis`, lines 1349-1367: `pm` is the call of
    `pmbasis` with all points.  The first call works on a copy of the evaluations. -/
noncomputable def popovWith (pm : PMat F[X] → Evals F → (Nat → Int) → Out (PMat F[X] × (Nat → Int) × Evals F))
    (m : Nat) (int0 : PMat F[X]) (E : Evals F) (shift : Nat → Int) : Out (PMat F[X] × (Nat → Int) × Evals F) :=
  andThen (pm int0 E shift) fun a =>
  let ps : Nat → Int := fun i => shift i - a.2.1 i
  andThen (pm a.1 E ps) fun b =>
  andThen (leadingMatrix true b.1 (some ((List.range m).map ps))) fun lmat =>
  andThen (inverse lmat) fun w =>
  andThen (ofOpt (mulConstLeft w b.1)) fun q => .ok (q, a.2.1, b.2.2)

/-- `popov_mbasis(intbas, evals, pts, shift)`, lines 863-894; the shift has as many entries as `evals` has
    rows. -/
noncomputable def popovMbasis (N : Nt F) (mul : PMat F[X] → PMat F[X] → Option (PMat F[X])) (it : F[X] → Nat → F[X]) (fuelc thr fuel : Nat)
    (int0 : PMat F[X]) (E : Evals F) (np : Nat) (x : Nat → F) (shift : Nat → Int) : Out (PMat F[X] × (Nat → Int) × Evals F) :=
  popovWith (fun i0 E s => pmbasis N mul (general it fuelc x) thr fuel i0 E np x s 0 np) E.rows int0 E shift

/-- `popov_pmbasis(intbas, pmat, pts, shift)`, lines 1328-1368. -/
noncomputable def popovPmbasis (N : Nt F) (mul : PMat F[X] → PMat F[X] → Option (PMat F[X])) (it : F[X] → Nat → F[X]) (fuelc thr fuel : Nat)
    (int0 pmat : PMat F[X]) (np : Nat) (x : Nat → F) (shift : Nat → Int) : Out (PMat F[X] × (Nat → Int)) :=
  andThen (evalAll it fuelc np x pmat) fun E =>
  andThen (popovWith (fun i0 E s => pmbasis N mul (general it fuelc x) thr fuel i0 E np x s 0 np) pmat.rows int0 E shift) fun r =>
  .ok (r.1, r.2.1)

/-! ### Verification -/

/-- Lines 33-68, 88-123, after the evaluation `v` of `intbas` at the `cnt` points. -/
noncomputable def checkEvals (intbas : PMat F[X]) (v E : Evals F) (cnt : Nat) (shift : List Int) : Out Bool :=
  if E.len < cnt then .ub
  else if 0 < cnt ∧ v.cols ≠ E.rows then .error
  else if ¬ ((List.range cnt).all fun k => (List.range v.rows).all fun i => (List.range E.cols).all fun j =>
      decide (∑ l ∈ Finset.range E.rows, v.e (k, i) l * E.e (k, l) j = 0)) then .ok false
  else
    andThen (degrees true intbas (some shift)) fun rdeg =>
    .ok (decide (rdeg.sum - shift.sum =
      (((List.range cnt).map fun k => gauss (⟨E.rows, E.cols, fun ij => E.e (k, ij.1) ij.2⟩ : PMat F)).sum : Nat)))

/-- `is_interpolant_basis(intbas, evals, pts, shift, form, randomized)`, lines 17-69. -/
noncomputable def isInterpolantBasis (it : F[X] → Nat → F[X]) (fuelc : Nat) (intbas : PMat F[X]) (E : Evals F) (np : Nat) (x : Nat → F)
    (shift : List Int) (form : Form) (randomized : Bool) : Out Bool :=
  if randomized then .error
  else
    andThen (isForm true form intbas (some shift)) fun b =>
    if ¬ b then .ok false
    else andThen (evalAll it fuelc np x intbas) fun v => checkEvals intbas v E np shift

/-- `is_interpolant_basis_geometric(intbas, evals, pt, order, shift, form, randomized)`, lines 71-124. -/
noncomputable def isInterpolantBasisGeometric (mp : F[X] → F[X] → Nat → Nat → Option F[X]) (feasible flags : Nat → Bool) (intbas : PMat F[X])
    (E : Evals F) (pt : F) (order : Nat) (shift : List Int) (form : Form) (randomized : Bool) : Out Bool :=
  if randomized then .error
  else
    andThen (isForm true form intbas (some shift)) fun b =>
    if ¬ b then .ok false
    else
      andThen (ofOpt (Geom.construct (feasible order) (flags order) pt 1 order)) fun o =>
      andThen (evaluateMatrix (Geom.evaluate mp o) order intbas) fun v => checkEvals intbas v E order shift

/-- `is_interpolant_basis(intbas, pmat, pts, shift, form, randomized)`, lines 126-138. -/
noncomputable def isInterpolantBasisPoly (it : F[X] → Nat → F[X]) (fuelc : Nat) (intbas pmat : PMat F[X]) (np : Nat) (x : Nat → F)
    (shift : List Int) (form : Form) (randomized : Bool) : Out Bool :=
  andThen (evalAll it fuelc np x pmat) fun E => isInterpolantBasis it fuelc intbas E np x shift form randomized

/-- `is_interpolant_basis_geometric(intbas, pmat, pt, order, shift, form, randomized)`, lines 140-154. -/
noncomputable def isInterpolantBasisGeometricPoly (mp : F[X] → F[X] → Nat → Nat → Option F[X]) (feasible flags : Nat → Bool)
    (intbas pmat : PMat F[X]) (pt : F) (order : Nat) (shift : List Int) (form : Form) (randomized : Bool) : Out Bool :=
  andThen (ofOpt (Geom.construct (feasible order) (flags order) pt 1 order)) fun o =>
  andThen (evaluateMatrix (Geom.evaluate mp o) order pmat) fun E =>
  isInterpolantBasisGeometric mp feasible flags intbas E pt order shift form randomized

end Field

end PML.Ntl.Intbas
