import Verif.Ntl.AppbasModel
import Verif.Ntl.MbasisModel

/-!
# Model of the approximant bases in Popov form, and of the divide and conquer algorithm for 2 x 1 matrices

`/repo/ntl-extras/mat_lzz_pX_extra/src/mat_lzz_pX_pmbasis.cpp`: `popov_mbasis1` (lines 28-178), `popov_mbasis`
(lines 1442-1473), `popov_pmbasis` (lines 1527-1557), `pmbasis_2x1` (lines 1559-1668).

The parameters are those of `MbasisModel`: `kernel` and `image` of NTL, `middle_product`, `multiply`.  Orders are natural
numbers, shifts are mathematical integers.  Profiling and the printing of timings are left out.
-/

namespace PML.Ntl.Popov

open Polynomial PML.Ntl.Utils PML.Ntl.Inv PML.Ntl.Solve PML.Ntl.Forms PML.Ntl.Mbasis PML.Ntl.Appbas

variable {F : Type} [Field F] [DecidableEq F]

/-! ### Order 1 -/

/-- `expected_pivots`, lines 93-102: the loop stops at the first row with another pivot.  `none` if it reads before the
    beginning of a row.  The first argument is `k - i`. -/
def expects (pk : PMat F) (m k : Nat) : Nat → Nat → Option Bool
  | 0, _ => some true
  | steps + 1, i =>
    match scan (fun j => pk.e (i, j)) m with
    | none => none
    | some p => if p ≠ m - k + i then some false else expects pk m k steps (i + 1)

/-- `tmat[i][j] = p_kerbas[i][p_pivind[j]]`, lines 131-135. -/
def pivotBlock (k : Nat) (pk : PMat F) (piv : List Nat) : PMat F := ⟨k, k, fun ij => pk.e (ij.1, piv.getD ij.2 0)⟩

/-- `mul(X, A, B)` for matrices over the field: an error if the dimensions do not fit. -/
def mulField (a b : PMat F) : Out (PMat F) :=
  if a.cols ≠ b.rows then .error
  else .ok ⟨a.rows, b.cols, fun ij => ∑ l ∈ Finset.range a.cols, a.e (ij.1, l) * b.e (l, ij.2)⟩

/-- The reduced echelon form, lines 104-137: the matrix `p_kerbas` and its pivots.  `column_permuted_ker` is empty at first. -/
noncomputable def reduceRows (N : Nt F) (m k : Nat) (pk : PMat F) : Out (PMat F × List Nat) :=
  andThen (echelonize N m k ⟨0, 0, fun _ => 0⟩ pk) fun pk =>
  match scanAll pk m k with
  | none => .ub
  | some piv =>
    andThen (inverse (pivotBlock k pk piv)) fun t =>
    andThen (mulField t pk) fun pk => .ok (pk, piv)

/-- Lines 80-126 of `popov_mbasis1`: the kernel and the pivots, as they are if the pivots are the expected ones. -/
noncomputable def reduced (N : Nt F) (m k : Nat) (pk : PMat F) : Out (PMat F × List Nat) :=
  match expects pk m k k 0 with
  | none => .ub
  | some true => .ok (pk, (List.range k).map fun i => m - k + i)
  | some false => reduceRows N m k pk

/-- `popov_mbasis1(kerbas, pmat, shift)`, lines 28-178: the new `kerbas`, and the pivot degrees returned. -/
noncomputable def popovMbasis1 (N : Nt F) (kerbas pmat : PMat F) (shift : Nat → Int) : Out (PMat F × (Nat → Int)) :=
  let m := pmat.rows
  let n := pmat.cols
  let perm := sortBy shift m
  let pk := N.ker (permRows m n perm pmat)
  let k := pk.rows
  if k = 0 then .ok (pk, fun _ => 1)
  else if k = m then .ok (pk, fun _ => 0)
  else
    andThen (reduced N m k pk) fun r =>
    let piv := r.2.map fun p => perm.getD p 0
    let rows := sortBy (fun a => (piv.getD a 0 : Nat)) k
    .ok (unpermute m k perm rows kerbas r.1, forN k (fun i => write (piv.getD i 0) 0) fun _ => 1)

/-! ### Any order -/

/-- The body of `popov_mbasis`, lines 1449-1472, and of `popov_pmbasis`, lines 1534-1556: `call` is the call of `mbasis` or
    `pmbasis`, `m` the number of rows of `pmat`.  The matrix `appbas` of the first call is the one given to the second. -/
noncomputable def popovCall (call : PMat F[X] → (Nat → Int) → Out (PMat F[X] × (Nat → Int))) (m : Nat) (app0 : PMat F[X])
    (shift : Nat → Int) : Out (PMat F[X] × (Nat → Int)) :=
  andThen (call app0 shift) fun a =>
  let ps : Nat → Int := fun i => shift i - a.2 i
  andThen (call a.1 ps) fun b =>
  andThen (leadingMatrix true b.1 (some ((List.range m).map ps))) fun lmat =>
  andThen (inverse lmat) fun w =>
  andThen (ofOpt (mulConstLeft w b.1)) fun q => .ok (q, a.2)

/-- `popov_mbasis(appbas, pmat, order, shift)`, lines 1442-1473. -/
noncomputable def popovMbasis (N : Nt F) (app0 pmat : PMat F[X]) (order : Nat) (shift : Nat → Int) : Out (PMat F[X] × (Nat → Int)) :=
  popovCall (fun a s => mbasis N a pmat order s) pmat.rows app0 shift

/-- `popov_pmbasis(appbas, pmat, order, shift)`, lines 1527-1557.  `fuel` bounds the depth of the recursion of `pmbasis`. -/
noncomputable def popovPmbasis (N : Nt F) (mid : PMat F[X] → PMat F[X] → Nat → Nat → Option (PMat F[X]))
    (mul : PMat F[X] → PMat F[X] → Option (PMat F[X])) (thr fuel : Nat) (app0 pmat : PMat F[X]) (order : Nat) (shift : Nat → Int) :
    Out (PMat F[X] × (Nat → Int)) :=
  popovCall (fun a s => Mbasis.pmbasis N mid mul thr fuel a pmat order s) pmat.rows app0 shift

/-! ### Two rows and one column -/

/-- What `pmbasis_2x1` changes: the polynomials `p00, p01, p10, p11` and the integers `s0, s1`. -/
structure Bas2 (F : Type) [Field F] where
  /-- `p00` -/
  p00 : F[X]
  /-- `p01` -/
  p01 : F[X]
  /-- `p10` -/
  p10 : F[X]
  /-- `p11` -/
  p11 : F[X]
  /-- `s0` -/
  s0 : Int
  /-- `s1` -/
  s1 : Int

/-- The matrix with entries `p00, p01, p10, p11`, lines 1608-1613, 1647-1652. -/
noncomputable def square (b : Bas2 F) : PMat F[X] :=
  ⟨2, 2, fun ij => if ij.1 = 0 then (if ij.2 = 0 then b.p00 else b.p01) else (if ij.2 = 0 then b.p10 else b.p11)⟩

/-- The column `tmp`, lines 1614-1616. -/
noncomputable def column (g0 g1 : F[X]) : PMat F[X] := ⟨2, 1, fun ij => if ij.1 = 0 then g0 else g1⟩

/-- `pmbasis_2x1`, lines 1559-1668.  `mid` is `middle_product_evaluate_FFT_new` (C69), `mul` is `multiply` (C67).
    The first argument bounds the depth of the recursion. -/
noncomputable def pmbasis2 (mid : PMat F[X] → PMat F[X] → Nat → Nat → Option (PMat F[X]))
    (mul : PMat F[X] → PMat F[X] → Option (PMat F[X])) (thr : Int) : Nat → F[X] → F[X] → Nat → Int → Int → Out (Bas2 F)
  | fuel, f0, f1, order, s0, s1 =>
    if (order : Int) ≤ thr then
      let r := iterative2x1 f0 f1 order s0 s1
      .ok ⟨r.p0.1, r.p0.2, r.p1.1, r.p1.2, r.s.1, r.s.2⟩
    else
      match fuel with
      | 0 => .loops
      | fuel + 1 =>
        let order1 := order / 2
        let order2 := order - order1
        andThen (pmbasis2 mid mul thr fuel (ptrunc f0 order1) (ptrunc f1 order1) order1 s0 s1) fun p =>
        let app := square p
        let tmp := column (ptrunc f0 order) (ptrunc f1 order)
        let tmp := rightShift true tmp tmp (order1 - deg app)
        if deg app < 0 ∨ order2 = 0 then .ub
        else
          andThen (ofMid (mid app tmp (deg app).toNat (order2 - 1))) fun res =>
          andThen (pmbasis2 mid mul thr fuel (res.e (0, 0)) (res.e (1, 0)) order2 p.s0 p.s1) fun q =>
          andThen (ofOpt (mul (square q) app)) fun r =>
          .ok ⟨r.e (0, 0), r.e (0, 1), r.e (1, 0), r.e (1, 1), q.s0, q.s1⟩

end PML.Ntl.Popov
