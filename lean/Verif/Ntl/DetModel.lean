import Verif.Ntl.MbasisModel
import Verif.Ntl.MatEvalModel
import Verif.Ntl.CrtModel
import Verif.Ntl.GeomModel
import Mathlib.LinearAlgebra.Matrix.Determinant.Basic
import Mathlib.Data.Rat.Floor

/-!
# Model of the determinants of polynomial matrices

`/repo/ntl-extras/mat_lzz_pX_extra/src/mat_lzz_pX_determinant.cpp`, except `determinant_via_linsolve`, and
`evaluate_matrix` (`/repo/ntl-extras/lzz_pX_CRT/src/lzz_pX_Multipoint.cpp` lines 71-103).

The matrices given to these functions are square (otherwise they access memory outside of the matrix); `n` is
the dimension.  NTL's `determinant` on constant matrices is Mathlib's `Matrix.det`.
-/

namespace PML.Ntl.Det

open Polynomial PML.Ntl.Utils PML.Ntl.Inv PML.Ntl.Solve PML.Ntl.MatEval

/-- `determinant(M)` of NTL, for a constant matrix `M`. -/
def detN {R : Type} [CommRing R] (n : Nat) (M : Nat × Nat → R) : R := (Matrix.of fun i j : Fin n => M (i, j)).det

/-! ### Expansion by minors -/

section Ring

variable {R : Type} [CommRing R]

/-- `determinant_expansion_by_minors(det, pmat)`, lines 48-184; `det` is unchanged if the dimension is
    neither 1, 2, 3 nor 4. -/
def minors (det : R) (n : Nat) (a : Nat × Nat → R) : R :=
  if n = 1 then a (0, 0)
  else if n = 2 then
    let det := a (0, 0) * a (1, 1)
    let buf := a (0, 1) * a (1, 0)
    det - buf
  else if n = 3 then
    let det22 := a (0, 1) * a (1, 2)
    let buf := a (0, 2) * a (1, 1)
    let det22 := det22 - buf
    let det := a (2, 0) * det22
    let det22 := a (0, 2) * a (1, 0)
    let buf := a (0, 0) * a (1, 2)
    let det22 := det22 - buf
    let buf := a (2, 1) * det22
    let det := det + buf
    let det22 := a (0, 0) * a (1, 1)
    let buf := a (0, 1) * a (1, 0)
    let det22 := det22 - buf
    let buf := a (2, 2) * det22
    det + buf
  else if n = 4 then
    let d0 := a (0, 0) * a (1, 1) - a (0, 1) * a (1, 0)
    let d1 := a (0, 0) * a (1, 2) - a (0, 2) * a (1, 0)
    let d2 := a (0, 0) * a (1, 3) - a (0, 3) * a (1, 0)
    let d3 := a (0, 1) * a (1, 2) - a (0, 2) * a (1, 1)
    let d4 := a (0, 1) * a (1, 3) - a (0, 3) * a (1, 1)
    let d5 := a (0, 2) * a (1, 3) - a (0, 3) * a (1, 2)
    let det33 := a (2, 1) * d5
    let buf := a (2, 2) * d4
    let det33 := det33 - buf
    let buf := a (2, 3) * d3
    let det33 := det33 + buf
    let det := a (3, 0) * det33
    let det := -det
    let det33 := a (2, 0) * d5
    let buf := a (2, 2) * d2
    let det33 := det33 - buf
    let buf := a (2, 3) * d1
    let det33 := det33 + buf
    let buf := a (3, 1) * det33
    let det := det + buf
    let det33 := a (2, 0) * d4
    let buf := a (2, 1) * d2
    let det33 := det33 - buf
    let buf := a (2, 3) * d0
    let det33 := det33 + buf
    let buf := a (3, 2) * det33
    let buf := -buf
    let det := det + buf
    let det33 := a (2, 0) * d3
    let buf := a (2, 1) * d1
    let det33 := det33 - buf
    let buf := a (2, 2) * d0
    let det33 := det33 + buf
    let buf := a (3, 3) * det33
    det + buf
  else det

/-- The loops of lines 201-206: the matrix `buf` without row `k` and column 0 of `pmat`. -/
def dropRow (m k : Nat) (a buf : Nat × Nat → R) : Nat × Nat → R :=
  let buf := forN k (fun i => forN m fun j => write (i, j) (a (i, j + 1))) buf
  forN (m - k) (fun d => forN m fun j => write (k + 1 + d - 1, j) (a (k + 1 + d, j + 1))) buf

/-- `determinant_expansion_by_minors_rec(det, pmat)`, lines 186-214.  For the dimension 0, building a matrix
    with `-1` rows raises an error. -/
def minorsRec : Nat → (Nat × Nat → R) → Out R
  | 0, _ => .error
  | 1, a => .ok (a (0, 0))
  | m + 2, a =>
    andThen (forN (m + 2) (fun k st => andThen st fun st =>
      let buf := dropRow (m + 1) k a st.1
      andThen (minorsRec (m + 1) buf) fun tmp =>
      let tmp := a (k, 0) * tmp
      .ok (buf, if k % 2 = 0 then st.2 + tmp else st.2 - tmp)) (.ok ((fun _ => 0 : Nat × Nat → R), (0 : R)))) fun st => .ok st.2

end Ring

/-! ### Evaluation and interpolation -/

section Field

variable {F : Type} [Field F]

open Classical in
/-- `evaluate_matrix(val, f)`: `val j (i, k)` is `val[j][i][k]`, and `ev` is `evaluate`, which has no value if
    it raises an error. -/
noncomputable def evaluateMatrix (nb : Nat) (ev : F[X] → Option (Nat → F)) (f : PMat F[X]) : Out (Nat → Nat × Nat → F) :=
  if ∃ i k, i < f.rows ∧ k < f.cols ∧ ev (f.e (i, k)) = none then .error
  else
    let mv : Nat × Nat → Nat → F := forN f.rows (fun i => forN f.cols fun k => write (i, k) ((ev (f.e (i, k))).getD fun _ => 0))
      fun _ _ => 0
    let val : Nat × (Nat × Nat) → F := forN nb (fun j => forN f.rows fun i => forN f.cols fun k =>
      write (j, (i, k)) (mv (i, k) j)) fun _ => 0
    .ok fun j ik => val (j, ik)

/-- Lines 291-297, 305-312: from an object with `nb` points and functions `evaluate`, `interpolate`. -/
noncomputable def viaPoints (nb : Nat) (ev : F[X] → Option (Nat → F)) (ip : (Nat → F) → Option F[X]) (pmat : PMat F[X]) : Out F[X] :=
  andThen (evaluateMatrix nb ev pmat) fun evals =>
  let dets : Nat → F := forN nb (fun k => write k (detN pmat.rows (evals k))) fun _ => 0
  ofOpt (ip dets)

/-- `determinant_via_evaluation_general(det, pmat)`, lines 286-297.  The points are `0, 1, ..., nb_points - 1`
    (`get_general_points`, `lzz_pX_Multipoint_General.cpp` lines 184-193).  With a negative number of points, an
    error; with none, the construction of the subproduct tree does not end (C57). -/
noncomputable def viaGeneral [DecidableEq F] (it : F[X] → Nat → F[X]) (pmat : PMat F[X]) : Out F[X] :=
  let nb : Int := pmat.rows * deg pmat + 1
  if nb < 0 then .error
  else if nb = 0 then .loops
  else
    andThen (ofOpt (Crt.mkMultipoint it nb.toNat nb.toNat fun i => (i : F))) fun M =>
    viaPoints nb.toNat (fun f => some (Crt.evaluate M.tree f)) (fun v => some (Crt.interpolate M v)) pmat

/-- `determinant_via_evaluation_geometric(det, pmat)`, lines 299-312, for a nonnegative degree; `r` is the
    element found by `get_geometric_points`. -/
noncomputable def viaGeometric [DecidableEq F] (mp : F[X] → F[X] → Nat → Nat → Option F[X]) (feasible flags : Bool) (r : F) (pmat : PMat F[X]) : Out F[X] :=
  let d := (deg pmat).toNat
  let nb := pmat.rows * d + 1
  andThen (ofOpt (Geom.construct feasible flags r 1 nb)) fun o =>
  andThen (ofOpt (Geom.calls o [.prepare d])) fun o =>
  viaPoints nb (Geom.evaluate mp o) (Geom.interpolate false o) pmat

/-- `determinant_via_evaluation_FFT(det, pmat)`, lines 314-350.  `NextPowerOfTwo` is 0 for an argument that is
    not positive, and `FromfftRep(det, R, 0, hi)` is 0 if `hi` is negative.  The values `R.tbl[0]` are overwritten
    by each transform, and then by the determinants. -/
noncomputable def viaFFT (T : FFT F) (pmat : PMat F[X]) : F[X] :=
  let d := deg pmat
  let dim := pmat.rows
  let idxk := nextPow2 (dim * d + 1).toNat
  let nb := 2 ^ idxk
  let evals : Nat × (Nat × Nat) → F := forN dim (fun i => forN dim fun j => forN nb fun k =>
    write (k, (i, j)) ((pmat.e (i, j)).eval (T.pt idxk k))) fun _ => 0
  let tbl : Nat → F := forN nb (fun k => write k (detN dim fun ij => evals (k, ij))) fun _ => 0
  fromEval (T.pt idxk) nb 0 (dim * d + 1).toNat tbl

/-! ### Verification -/

open Classical in
/-- `verify_determinant(det, pmat, up_to_constant, randomized)`, lines 11-37; `pt` and `pt2` are the elements
    returned by `random_zz_p`.  Without `randomized`, an exception. -/
noncomputable def verify (pt pt2 : F) (det : F[X]) (pmat : PMat F[X]) (upTo randomized : Bool) : Out Bool :=
  if !randomized then .error
  else
    let detPt := detN pmat.rows (Utils.eval ⟨0, 0, fun _ => 0⟩ pmat pt).e
    let evDet := det.eval pt
    if !upTo then .ok (decide (detPt = evDet))
    else
      let detPt2 := detN pmat.rows (Utils.eval ⟨0, 0, fun _ => 0⟩ pmat pt2).e
      let evDet2 := det.eval pt2
      .ok (decide (detPt * evDet2 = detPt2 * evDet))

/-! ### Triangularization -/

variable [DecidableEq F]

/-- The functions called. -/
structure Calls (F : Type) [Field F] where
  /-- `kernel` and `image` -/
  nt : Mbasis.Nt F
  /-- `middle_product` -/
  mid : PMat F[X] → PMat F[X] → Nat → Nat → Option (PMat F[X])
  /-- `multiply` -/
  mul : PMat F[X] → PMat F[X] → Option (PMat F[X])
  /-- the threshold of `pmbasis` -/
  thr : Nat
  /-- rounding to the type `double` -/
  rd : Rat → Rat

/-- The columns of `pmat` from `c` on, `cnt` of them: lines 238-249. -/
noncomputable def columns (c cnt : Nat) (a : PMat F[X]) : PMat F[X] :=
  ⟨a.rows, cnt, loop2 a.rows cnt (fun i j _ => a.e (i, j + c)) fun _ => 0⟩

/-- The rows of `app` from `r` on, `cnt` of them: lines 271-276. -/
noncomputable def lastRows (r cnt : Nat) (a : PMat F[X]) : PMat F[X] :=
  ⟨cnt, a.cols, loop2 cnt a.cols (fun i j _ => a.e (i + r, j)) fun _ => 0⟩

/-- The order of line 259, with the computation of line 258 done with the type `double`. -/
noncomputable def order (C : Calls F) (dim : Nat) (l : PMat F[X]) : Int :=
  let cdim1 := dim / 2
  deg l + ⌈C.rd (((cdim1 : Int) * deg l : Int) / ((dim - cdim1 : Nat) : Rat))⌉ + 1

/-- `determinant_generic_knowing_degree(det, pmat, degree)`, lines 216-284: `det` and the value returned; `det0`
    is the value of `det` before the call.  A negative order makes `pmbasis` raise an error (`conv`, in
    `mbasis_rescomp`, sets a negative length).  The first argument bounds the depth of the recursion. -/
noncomputable def generic (C : Calls F) (det0 : F[X]) : Nat → PMat F[X] → Int → Out (F[X] × Bool)
  | fuel, pmat, degree =>
    let dim := pmat.rows
    if dim ≤ 4 then
      let det := minors det0 dim pmat.e
      .ok (det, decide (degree = pdeg det))
    else
      match fuel with
      | 0 => .loops
      | fuel + 1 =>
        let cdim1 := dim / 2
        let cdim2 := dim - cdim1
        let l := columns 0 cdim1 pmat
        let r := columns cdim1 cdim2 pmat
        let o := order C dim l
        if o < 0 then .error
        else
          andThen (Mbasis.pmbasis C.nt C.mid C.mul C.thr o.toNat ⟨0, 0, fun _ => 0⟩ l o.toNat fun _ => 0) fun app =>
          let ker := lastRows cdim1 cdim2 app.1
          andThen (ofOpt (C.mul ker r)) fun t => generic C det0 fuel t degree

end Field

end PML.Ntl.Det
