import Verif.Ntl.IntbasModel
import Verif.Ntl.AppbasModel

/-!
# Model: kernel bases of polynomial matrices
(ntl-extras/mat_lzz_pX_extra/src/mat_lzz_pX_kernel.cpp)

Every `VecLong` is a list.  The vector `shift` has as many entries as `pmat` has rows (the code reads its entries without
any test).  Degrees, shifts and orders are mathematical integers: the overflows of `long`, the sum of line 406 which is
accumulated in an `int`, and the quotient of line 414 which is rounded to a `double`, are left out.  The previous content
of the output arguments, which `ident` and `SetDims` may reuse, is replaced by empty matrices: see C65 for `ident`.
The generic variants from line 943 on are not modelled.
-/

namespace PML.Ntl.Kerbas

open Polynomial PML.Ntl.Utils PML.Ntl.Inv PML.Ntl.Solve PML.Ntl.Forms PML.Ntl.Mbasis PML.Ntl.Appbas

variable {F : Type} [Field F] [DecidableEq F]

/-- The functions called.  `N`, `mid`, `mul`, `thr`: see `pmbasis` (C76).  `mp`, `feasible`, `flags`: see
    `pmbasis_geometric` (C80).  `elt n`: the element given by `element_of_order(r, n)` (C63), zero if none was found.
    `p`: the modulus of the field. -/
structure Env (F : Type) [Field F] where
  N : Nt F
  mid : PMat F[X] → PMat F[X] → Nat → Nat → Option (PMat F[X])
  mul : PMat F[X] → PMat F[X] → Option (PMat F[X])
  thr : Nat
  mp : F[X] → F[X] → Nat → Nat → Option F[X]
  feasible : Nat → Bool
  flags : Nat → Bool
  elt : Nat → F
  p : Nat

/-- A vector, read by its entries. -/
def vec (l : List Int) : Nat → Int := fun i => l.getD i 0

/-- A matrix without rows: `SetDims(0, m)`. -/
noncomputable def noRows (m : Nat) : PMat F[X] := ⟨0, m, fun _ => 0⟩

/-- `ident(kerbas, m)`. -/
noncomputable def one (m : Nat) : PMat F[X] := ident (noRows 0) m

/-- `Mat<zz_p> coeff0 = coeff(pmat, 0); gauss(coeff0)`, lines 181-182, 256-257, 342-343, 642-643. -/
noncomputable def rank0 (pmat : PMat F[X]) : Nat := gauss (getCoeff ⟨0, 0, fun _ => 0⟩ pmat 0)

/-- The rows `idx` of `P`: the loops with `swap` of lines 215-219, 307-311, 484-486, 494-496, 530-532. -/
def rowsAt (P : PMat F[X]) (idx : List Nat) : PMat F[X] := ⟨idx.length, P.cols, fun ij => P.e (idx.getD ij.1 0, ij.2)⟩

/-- The `cnt` columns of `pmat` from `off`: lines 372-375, 390-393, 506-509, 515-518. -/
def colsAt (pmat : PMat F[X]) (off cnt : Nat) : PMat F[X] := ⟨pmat.rows, cnt, fun ij => pmat.e (ij.1, off + ij.2)⟩

/-- A sum of the products of the entries of a row and of a column: `projected_product`, lines 108-110. -/
noncomputable def dot (m : Nat) (a b : Nat → F[X]) : F[X] := (List.range m).foldl (fun acc i => acc + a i * b i) 0

/-- `is_kernel_basis`, lines 60-133.  `left` and `right` are the entries of the random projections. -/
noncomputable def isKernelBasis (mul : PMat F[X] → PMat F[X] → Option (PMat F[X])) (kerbas pmat : PMat F[X]) (shift : List Int)
    (form : Form) (randomized : Bool) (left right : Nat → F) : Out Bool :=
  let m := pmat.rows
  if kerbas.cols ≠ m then .ok false
  else
    andThen (isForm true form kerbas (some shift)) fun b =>
    if ¬ b then .ok false
    else if ¬ randomized then
      andThen (ofOpt (mul kerbas pmat)) fun product => .ok (isZero product)
    else
      andThen (ofOpt (mulConstLeft ⟨1, kerbas.rows, fun ij => left ij.2⟩ kerbas)) fun pk =>
      andThen (ofOpt (mulConstRight pmat ⟨pmat.cols, 1, fun ij => right ij.1⟩)) fun pp =>
      .ok (decide (dot m (fun i => pk.e (0, i)) (fun i => pp.e (i, 0)) = 0))

/-! ### Via one approximant or interpolant basis -/

/-- What the functions write: the basis, `pivind` and `shift`. -/
structure Result (F : Type) [Field F] where
  ker : PMat F[X]
  piv : List Nat
  shift : List Int

/-- The common part of `kernel_basis_via_approximation`, lines 148-220, and of `kernel_basis_via_interpolation`,
    lines 222-312: `basis order` computes the basis. -/
noncomputable def via (pmat : PMat F[X]) (shift : List Int) (basis : Nat → Out (PMat F[X] × (Nat → Int) ⊕ Result F)) :
    Out (Result F) :=
  let m := pmat.rows
  let n := pmat.cols
  let d := deg pmat
  if d = -1 then .ok ⟨one m, List.range m, shift⟩
  else if m = 1 then .ok ⟨noRows 1, [], []⟩
  else if m ≤ n ∧ rank0 pmat = m then .ok ⟨noRows m, [], []⟩
  else
    andThen (amplitude shift) fun amp =>
    let order : Int := (n + 1) * d + amp + 1
    andThen (basis order.toNat) fun
      | .inr r => .ok r
      | .inl r =>
        let pivind := (List.range m).filter fun i => decide (r.2 i - shift.getD i 0 + amp < order - d)
        .ok ⟨rowsAt r.1 pivind, pivind, pivind.map r.2⟩

/-- `kernel_basis_via_approximation`, lines 148-220. -/
noncomputable def viaApproximation (e : Env F) (pmat : PMat F[X]) (shift : List Int) : Out (Result F) :=
  via pmat shift fun order =>
    andThen (pmbasis e.N e.mid e.mul e.thr order (noRows 0) pmat order (vec shift)) fun r => .ok (.inl r)

/-- `kernel_basis_via_interpolation`, lines 222-312. -/
noncomputable def viaInterpolation (e : Env F) (pmat : PMat F[X]) (shift : List Int) : Out (Result F) :=
  via pmat shift fun order =>
    if 2 * order ≥ e.p then andThen (viaApproximation e pmat shift) fun r => .ok (.inr r)
    else if e.elt (2 * order) = 0 then andThen (viaApproximation e pmat shift) fun r => .ok (.inr r)
    else
      andThen (Intbas.pmbasisGeometric e.N e.mul e.mp e.feasible e.flags e.thr order (noRows 0) pmat (e.elt (2 * order)) order
        (vec shift)) fun r => .ok (.inl (r.1, r.2.1))

/-! ### The Zhou-Labahn-Storjohann algorithm -/

/-- What the two variants of the algorithm do differently: the whole computation by another function, or a basis with the
    degrees of its rows and the way to compute the residual. -/
inductive Base (F : Type) [Field F] where
  | done (ker : PMat F[X]) (shift : List Int)
  | basis (P : PMat F[X]) (t : Nat → Int) (residual : PMat F[X] → Out (PMat F[X]))

/-- The merge of lines 573-611: the rows already known, with their pivots, and the new rows, with their pivots. -/
def merge : List (Nat × Nat) → List (Int × Nat) → List (Bool × Nat)
  | [], bs => bs.map fun b => (false, b.2)
  | a :: as, [] => (a :: as).map fun a => (true, a.2)
  | a :: as, b :: bs =>
    if (a.1 : Int) < b.1 then (true, a.2) :: merge as (b :: bs) else (false, b.2) :: merge (a :: as) bs
termination_by as bs => as.length + bs.length

/-- `order`, lines 404-414: `rho` is the sum of the `n` largest entries of the shift. -/
def zlsOrder (m n : Nat) (s : List Int) : Int :=
  let rho := ((s.mergeSort fun a b => decide (a ≤ b)).drop (m - n)).sum
  2 * -(-rho / (n : Int)) + 1

/-- `kernel_basis_zls_via_approximation`, lines 314-612, and `kernel_basis_zls_via_interpolation`, lines 614-930.
    `backend pmat shift order` is the computation of lines 423-424, 700-721.  The first argument bounds the depth of the
    recursion. -/
noncomputable def zls (mul : PMat F[X] → PMat F[X] → Option (PMat F[X])) (backend : PMat F[X] → List Int → Nat → Out (Base F)) :
    Nat → PMat F[X] → List Int → Out (PMat F[X] × List Int)
  | 0, _, _ => .loops
  | fuel + 1, pmat, shift =>
    let m := pmat.rows
    let n := pmat.cols
    let n1 := n / 2
    let n2 := n - n1
    if m = 1 then
      if ¬ isZero pmat then .ok (noRows 1, []) else .ok (one 1, shift)
    else if m ≤ n ∧ rank0 pmat = m then .ok (noRows m, [])
    else
      andThen (degrees true pmat none) fun rdeg =>
      match maxElement rdeg with
      | none => .ub
      | some mx =>
        if mx = -1 then .ok (one m, shift)
        else if 2 * n > m then
          andThen (zls mul backend fuel (colsAt pmat 0 n1) shift) fun k1 =>
          if k1.1.rows = 0 then .ok (noRows m, [])
          else
            andThen (ofOpt (mul k1.1 (colsAt pmat n1 n2))) fun g =>
            andThen (zls mul backend fuel g k1.2) fun k2 =>
            andThen (ofOpt (mul k2.1 k1.1)) fun ker => .ok (ker, k2.2)
        else
          match minElement ((List.range m).map fun i => shift.getD i 0 - rdeg.getD i 0) with
          | none => .ub
          | some diff =>
            let s := shift.map fun x => x - diff
            let order := zlsOrder m n s
            andThen (backend pmat s order.toNat) fun
              | .done ker sh => .ok (ker, sh)
              | .basis P t residual =>
                let ker := (List.range m).filter fun i => decide (t i < order)
                let notker := (List.range m).filter fun i => !decide (t i < order)
                let rdeg1 := ker.map t
                let rdeg2 := notker.map t
                let sumMat := (notker.map fun i => rdeg.getD i 0).sum
                let sumKer := (ker.map fun i => pdeg (P.e (i, i))).sum
                if sumKer = sumMat ∨ n = 1 ∨ ker.length = m then .ok (rowsAt P ker, rdeg1)
                else
                  let approx := rowsAt P notker
                  andThen (residual approx) fun R =>
                  andThen (zls mul backend fuel (colsAt R 0 n1) rdeg2) fun k1 =>
                  andThen (ofOpt (mul k1.1 (colsAt R n1 n2))) fun g =>
                  andThen (zls mul backend fuel g k1.2) fun k2 =>
                  if k2.1.rows = 0 then .ok (rowsAt P ker, rdeg1)
                  else
                    andThen (ofOpt (mul k1.1 approx)) fun tmp =>
                    andThen (ofOpt (mul k2.1 tmp)) fun new =>
                    andThen (pivots true new (some s)) fun pv =>
                    let idx := merge ker.zipIdx pv.1.zipIdx
                    .ok (⟨idx.length, m, fun ij =>
                        if (idx.getD ij.1 (true, 0)).1 then P.e (ker.getD (idx.getD ij.1 (true, 0)).2 0, ij.2)
                        else new.e ((idx.getD ij.1 (true, 0)).2, ij.2)⟩,
                      idx.map fun x => (if x.1 then rdeg1.getD x.2 0 else k2.2.getD x.2 0) + diff)

/-- Lines 423-424, 503: `pmbasis`, and `middle_product` for the residual. -/
noncomputable def approxBackend (e : Env F) (pmat : PMat F[X]) (s : List Int) (order : Nat) : Out (Base F) :=
  andThen (pmbasis e.N e.mid e.mul e.thr order (noRows 0) pmat order (vec s)) fun r =>
  .ok (.basis r.1 r.2 fun approx =>
    let dB := deg pmat + deg approx - order
    if dB < 0 then .ub else ofMid (e.mid approx pmat order dB.toNat))

/-- `kernel_basis_zls_via_approximation`, lines 314-612. -/
noncomputable def zlsApprox (e : Env F) (pmat : PMat F[X]) (shift : List Int) : Out (PMat F[X] × List Int) :=
  zls e.mul (approxBackend e) (pmat.cols + 1) pmat shift

/-- Lines 700-721, 796-802: `pmbasis_geometric`, and `multiply` and `div` for the residual; in small fields the
    approximation variant is called, with the shift as it was modified. -/
noncomputable def interpBackend (e : Env F) (pmat : PMat F[X]) (s : List Int) (order : Nat) : Out (Base F) :=
  if 2 * order ≥ e.p then andThen (zlsApprox e pmat s) fun r => .ok (.done r.1 r.2)
  else if e.elt (2 * order) = 0 then andThen (zlsApprox e pmat s) fun r => .ok (.done r.1 r.2)
  else
    andThen (Intbas.pmbasisGeometric e.N e.mul e.mp e.feasible e.flags e.thr order (noRows 0) pmat (e.elt (2 * order)) order
      (vec s)) fun r =>
    .ok (.basis r.1 r.2.1 fun interp =>
      andThen (ofOpt (e.mul interp pmat)) fun R =>
      .ok ⟨R.rows, R.cols, fun ij => R.e ij /ₘ ∏ i ∈ Finset.range order, (X - C (r.2.2 i))⟩)

/-- `kernel_basis_zls_via_interpolation`, lines 614-930. -/
noncomputable def zlsInterp (e : Env F) (pmat : PMat F[X]) (shift : List Int) : Out (PMat F[X] × List Int) :=
  zls e.mul (interpBackend e) (pmat.cols + 1) pmat shift

/-- `kernel_basis`, lines 136-146. -/
noncomputable def kernelBasis (e : Env F) (pmat : PMat F[X]) (shift : List Int) : Out (PMat F[X]) :=
  andThen (zlsApprox e pmat shift) fun r => .ok r.1

end PML.Ntl.Kerbas
