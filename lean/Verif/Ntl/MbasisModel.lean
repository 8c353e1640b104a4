import Verif.Ntl.SolveModel

/-!
# Model of the computation of approximant bases

`/repo/ntl-extras/mat_lzz_pX_extra/src/mat_lzz_pX_pmbasis.cpp`: `mbasis1` (lines 184-325), `mbasis_plain`
(lines 339-445), `mbasis_rescomp` (lines 452-789), `mbasis_resupdate` (lines 1122-1436), `pmbasis`
(lines 1480-1522); `/repo/ntl-extras/mat_lzz_pX_extra/mat_lzz_pX_approximant.h`: `mbasis` (lines 443-457).

The functions `kernel` and `image` of NTL are parameters.  Orders are natural numbers.  A shift is an array of
mathematical integers: the overflow of `long` is left out.  `std::stable_sort` and `std::sort` are the stable
`List.mergeSort`; `std::sort` is only called on integers, or with pairwise distinct keys (proved), so that its
result does not depend on its algorithm.  Profiling is left out.
-/

namespace PML.Ntl.Mbasis

open Polynomial PML.Ntl.Utils PML.Ntl.Inv PML.Ntl.Solve

/-- The functions of NTL used: `kernel(X, A)` and `image(X, A)` on `Mat<zz_p>`. -/
structure Nt (F : Type) [Field F] where
  /-- `kernel(X, A)` -/
  ker : PMat F → PMat F
  /-- `image(X, A)` -/
  img : PMat F → PMat F

/-- `iota` sorted by `stable_sort` with the comparison `key[a] < key[b]`: lines 198-204, 540-545, 1206-1211. -/
def sortBy (key : Nat → Int) (n : Nat) : List Nat := (List.range n).mergeSort fun a b => decide (key a ≤ key b)

/-- `std::adjacent_find(v.begin(), v.end()) != v.end()`. -/
def adjacent : List Nat → Bool
  | a :: b :: l => a == b || adjacent (b :: l)
  | _ => false

/-- Whether `std::sort` followed by `std::adjacent_find` finds equal entries: lines 258-269, 629-640, 1269-1276. -/
def collide (l : List Nat) : Bool := adjacent (l.mergeSort fun a b => decide (a ≤ b))

section Field

variable {F : Type} [Field F] [DecidableEq F]

/-- `while (IsZero(row[p])) --p;` from `p = n - 1` on; `none` if it reads `row[-1]`. -/
def scan (row : Nat → F) : Nat → Option Nat
  | 0 => none
  | p + 1 => if row p = 0 then scan row p else some p

/-- The pivot indices of the `k` rows of `pk`: lines 248-253, 619-624, 1256-1260. -/
def scanAll (pk : PMat F) (m : Nat) : Nat → Option (List Nat)
  | 0 => some []
  | k + 1 =>
    match scanAll pk m k, scan (fun j => pk.e (k, j)) m with
    | some l, some p => some (l ++ [p])
    | _, _ => none

/-- `expected_pivots`, lines 246-256, 617-627, 1255-1263. -/
def expected (m k : Nat) (piv : List Nat) : Bool := (List.range k).all fun i => piv.getD i 0 == m - k + i

/-- The echelon form, lines 273-282, 645-653, 1281-1289: the columns are reversed, then `image`, then rows and columns are
    reversed.  `tmp` is the matrix `kerbas` used as temporary space. -/
def echelonize (N : Nt F) (m k : Nat) (tmp pk : PMat F) : Out (PMat F) :=
  let t := tmp.setDims k m
  let t := N.img { t with e := loop2 k m (fun i j _ => pk.e (i, m - 1 - j)) t.e }
  if t.rows < k ∨ t.cols < m then .ub
  else .ok { pk with e := loop2 k m (fun i j _ => t.e (k - i - 1, m - 1 - j)) pk.e }

/-- From the pivots of the kernel `pk` to a kernel with pairwise distinct pivots: lines 246-291, 617-664,
    1255-1300.  `tail`: the entries of `p_pivind` after the first `k`, left by earlier iterations. -/
def distinct (N : Nt F) (m k : Nat) (tmp pk : PMat F) (tail : List Nat) : Out (PMat F × List Nat) :=
  match scanAll pk m k with
  | none => .ub
  | some piv =>
    if expected m k piv then .ok (pk, piv)
    else if collide (piv ++ tail) then
      andThen (echelonize N m k tmp pk) fun pk =>
        match scanAll pk m k with
        | none => .ub
        | some piv => .ok (pk, piv)
    else .ok (pk, piv)

/-- `kerbas.SetDims(k,m)` and `kerbas[i][perm[j]] = p_kerbas[rows[i]][j]`, lines 316-319, 689-692, 1325-1328. -/
def unpermute (m k : Nat) (perm rows : List Nat) (tmp pk : PMat F) : PMat F :=
  let t := tmp.setDims k m
  { t with e := forN k (fun i => forN m fun j => write (i, perm.getD j 0) (pk.e (rows.getD i 0, j))) t.e }

/-- What the base case gives when `0 < k < m`. -/
structure Base (F : Type) where
  /-- `kerbas` -/
  kerbas : PMat F
  /-- `p_pivind`: its first `k` entries -/
  pPiv : List Nat
  /-- `pivind`: its first `k` entries -/
  piv : List Nat
  /-- `perm_rows_ker` -/
  rows : List Nat

/-- The usual case of the base case, after the computation of the permuted kernel `pk`, with `k` rows: lines
    246-319, 617-692, 1255-1328. -/
def base (N : Nt F) (m k : Nat) (perm : List Nat) (tmp pk : PMat F) (tail : List Nat) : Out (Base F) :=
  andThen (distinct N m k tmp pk tail) fun r =>
  let pk := r.1
  let pPiv := r.2
  let piv := pPiv.map fun p => perm.getD p 0
  let rows := sortBy (fun a => (piv.getD a 0 : Nat)) k
  .ok ⟨unpermute m k perm rows tmp pk, pPiv, piv, rows⟩

/-- The matrix `mat` with rows `pmat[perm[i]]`, lines 207-210. -/
def permRows (m n : Nat) (perm : List Nat) (a : PMat F) : PMat F := ⟨m, n, fun ij => a.e (perm.getD ij.1 0, ij.2)⟩

/-- `mbasis1(kerbas, pmat, shift)`, lines 184-325: the new `kerbas`, and the pivot degrees returned. -/
def mbasis1 (N : Nt F) (kerbas pmat : PMat F) (shift : Nat → Int) : Out (PMat F × (Nat → Int)) :=
  let m := pmat.rows
  let n := pmat.cols
  let perm := sortBy shift m
  let pk := N.ker (permRows m n perm pmat)
  let k := pk.rows
  if k = 0 then .ok (pk, fun _ => 1)
  else if k = m then .ok (pk, fun _ => 0)
  else
    andThen (base N m k perm kerbas pk []) fun b =>
    .ok (b.kerbas, forN k (fun i => write (b.piv.getD i 0) 0) fun _ => 1)

/-! ### `mbasis_plain` -/

/-- Rows with `diff = 0` are swapped with the rows of `kerapp`, the others are multiplied by `X`: lines 393-403.
    The state is the array of `appbas`, the one of `kerapp`, and `row`. -/
noncomputable def plainRows (m : Nat) (diff : Nat → Int) (app kerapp : Nat × Nat → F[X]) : (Nat × Nat → F[X]) × (Nat × Nat → F[X]) × Nat :=
  forN m (fun i st =>
    if diff i = 0 then
      (fun ij => if ij.1 = i then st.2.1 (st.2.2, ij.2) else st.1 ij,
        fun ij => if ij.1 = st.2.2 then st.1 (i, ij.2) else st.2.1 ij, st.2.2 + 1)
    else (forN m (fun j cur => write (i, j) (pshift (cur (i, j)) 1) cur) st.1, st.2)) (app, kerapp, 0)

/-- `coeff(f, i)` of NTL: zero if `i` is negative. -/
noncomputable def coeffZ (f : F[X]) (i : Int) : F := if i < 0 then 0 else f.coeff i.toNat

/-- `for d from max(0, ord - deg_pmat) to deg_appbas: residual += coeff(appbas,d) * coeff(pmat,ord-d)`: lines
    411-417, 435-441. -/
noncomputable def plainResidual (m ord : Nat) (pmat app : PMat F[X]) (res : Nat × Nat → F) : Nat × Nat → F :=
  let dmin := max 0 ((ord : Int) - deg pmat)
  forN (deg app + 1 - dmin).toNat (fun t r ij =>
    r ij + cmul m (fun ij => coeffZ (app.e ij) (dmin + t)) (fun ij => coeffZ (pmat.e ij) ((ord : Int) - (dmin + t))) ij) res

/-- The loop of lines 368-444; the first argument is `order - ord + 1`. -/
noncomputable def plainLoop (N : Nt F) (pmat : PMat F[X]) : Nat → Nat → PMat F[X] → (Nat → Int) → PMat F → PMat F →
    Out (PMat F[X] × (Nat → Int))
  | 0, _, app, shift, _, _ => .ok (app, shift)
  | steps + 1, ord, app, shift, res, kerbas =>
    let m := pmat.rows
    andThen (mbasis1 N kerbas res shift) fun b =>
    let kerbas := b.1
    let diff := b.2
    if kerbas.rows = 0 then
      .ok (leftShift true app app (steps + 1), forN m (fun i s => write i (s i + (steps + 1)) s) shift)
    else if kerbas.rows < res.rows then
      let shift := forN m (fun i s => write i (s i + diff i) s) shift
      match mulConstLeft kerbas app with
      | none => .error
      | some kerapp =>
        let app := { app with e := (plainRows m diff app.e kerapp.e).1 }
        let res := if steps = 0 then res else { res with e := plainResidual m ord pmat app fun _ => 0 }
        plainLoop N pmat steps (ord + 1) app shift res kerbas
    else
      let res := if steps = 0 then res else { res with e := plainResidual m ord pmat app res.e }
      plainLoop N pmat steps (ord + 1) app shift res kerbas

/-- `mbasis_plain(appbas, pmat, order, shift)`, lines 339-445. -/
noncomputable def plain (N : Nt F) (app : PMat F[X]) (pmat : PMat F[X]) (order : Nat) (shift : Nat → Int) :
    Out (PMat F[X] × (Nat → Int)) :=
  plainLoop N pmat order 1 (ident app pmat.rows) shift (getCoeff ⟨0, 0, fun _ => 0⟩ pmat 0) ⟨0, 0, fun _ => 0⟩

/-! ### `mbasis_rescomp` and `mbasis_resupdate`: vectors of constant matrices -/

/-- The variables of these functions that are kept from an iteration to the next one.  Matrices are arrays of
    rows, since their rows are swapped: `co (d, i)` is row `i` of `coeffs_appbas[d]`. -/
structure State (F : Type) where
  /-- `coeffs_appbas` -/
  co : Nat × Nat → Nat → F
  /-- `coeffs_appbas.length()` -/
  len : Nat
  /-- `deg_appbas` -/
  degA : Nat
  /-- `shift` -/
  shift : Nat → Int
  /-- `p_pivind`, of length `m-1` -/
  pPiv : List Nat
  /-- `is_pivind` -/
  isPiv : Nat → Bool
  /-- `kerbas` -/
  kerbas : PMat F

/-- The state before the loop: lines 466-526, 1136-1192.  For `m = 0`, `VecLong(m-1)` raises an error. -/
def start (m : Nat) (shift : Nat → Int) : State F :=
  ⟨fun di j => if di.1 = 0 ∧ di.2 = j then 1 else 0, 1, 0, shift, List.replicate (m - 1) 0, fun _ => false, ⟨0, 0, fun _ => 0⟩⟩

/-- Lines 701-716, 1337-1352: the shift, and the degree.  The state is the shift, `deg_appbas` and
    `deg_updated`. -/
def bump (m : Nat) (isPiv : Nat → Bool) (co : Nat × Nat → Nat → F) (degA : Nat) (shift : Nat → Int) : (Nat → Int) × Nat × Bool :=
  forN m (fun i st =>
    if isPiv i then st
    else
      let s := write i (st.1 i + 1) st.1
      if st.2.2 = false ∧ ((List.range m).all fun j => decide (co (st.2.1, i) j = 0)) = false then (s, st.2.1 + 1, true)
      else (s, st.2)) (shift, degA, false)

/-- For each `d` below `n`: the rows `piv[rows[i]]` of the matrix `d` are replaced by the rows of
    `kerbas * (matrix d)`.  Lines 730-735, 1366-1371 (and 1391-1396 from `d0` on). -/
def replaceRows (m k : Nat) (kerbas : PMat F) (piv rows : List Nat) (d0 n : Nat) (co : Nat × Nat → Nat → F) : Nat × Nat → Nat → F :=
  forN n (fun t co =>
    let d := d0 + t
    let kerapp : Nat → Nat → F := fun i j => ∑ l ∈ Finset.range m, kerbas.e (i, l) * co (d, l) j
    forN k (fun i => write (d, piv.getD (rows.getD i 0) 0) (kerapp i)) co) co

/-- `a[x].swap(a[y])`. -/
def swapAt {ι α : Type} [DecidableEq ι] (x y : ι) (a : ι → α) : ι → α := write y (a x) (write x (a y) a)

/-- `for (d = hi-1; d >= lo; --d) for i: if (not is_pivind[i]) co[d+1][i].swap(co[d][i])`, lines 739-742,
    1375-1378, 1399-1402. -/
def moveRows (m lo hi : Nat) (isPiv : Nat → Bool) (co : Nat × Nat → Nat → F) : Nat × Nat → Nat → F :=
  forN (hi - lo) (fun t => forN m fun i co =>
    if isPiv i then co else swapAt (hi - 1 - t + 1, i) (hi - 1 - t, i) co) co

/-- The update of the basis in the usual case: lines 672-742, 1308-1378, after the base case `b`.  The entries of
    `is_pivind` are not restored here. -/
def usual (m k : Nat) (b : Base F) (s : State F) : State F :=
  let isPiv := forN k (fun i => write (b.piv.getD i 0) true) s.isPiv
  let u := bump m isPiv s.co s.degA s.shift
  let degA := u.2.1
  let len := if degA = s.len then degA + 1 else s.len
  let co : Nat × Nat → Nat → F := if degA = s.len then fun di => if di.1 = degA then fun _ => 0 else s.co di else s.co
  let co := replaceRows m k b.kerbas b.piv b.rows 0 (degA + 1) co
  let co := moveRows m 0 degA isPiv co
  { co := co, len := len, degA := degA, shift := u.1, pPiv := b.pPiv ++ s.pPiv.drop k, isPiv := isPiv, kerbas := b.kerbas }

/-- `is_pivind[pivind[i]] = false`, lines 766-767, 1409-1410. -/
def restore (k : Nat) (b : Base F) (s : State F) : State F :=
  { s with isPiv := forN k (fun i => write (b.piv.getD i 0) false) s.isPiv }

/-- `conv(coeffs_appbas)`. -/
noncomputable def toPoly (m : Nat) (app0 : PMat F[X]) (s : State F) : PMat F[X] :=
  convFromCoeffs app0 s.len m m fun d ij => s.co (d, ij.1) ij.2

/-- Lines 565-575, 1231-1241: the kernel is zero; `e` is `order - ord + 1`. -/
noncomputable def early (m e : Nat) (s : State F) : PMat F[X] × (Nat → Int) :=
  let a := toPoly m ⟨0, 0, fun _ => 0⟩ s
  (leftShift true a a e, forN m (fun i sh => write i (sh i + e) sh) s.shift)

/-- `residuals += coeffs_appbas[d] * coeffs_pmat[ord-d]` for `d` from `max(0, ord-length+1)` to `deg_appbas`, lines
    591-595, 752-759; `length` is `order`.  `none` if `ord - d < 0`. -/
def resSum (m order ord : Nat) (co : Nat × Nat → Nat → F) (degA : Nat) (pc : Nat × (Nat × Nat) → F) (res : Nat → Nat → F) :
    Option (Nat → Nat → F) :=
  let dmin := ord + 1 - order
  if dmin ≤ degA ∧ ord < degA then none
  else some (forN (degA + 1 - dmin) (fun t r i j =>
    r i j + ∑ l ∈ Finset.range m, co (dmin + t, i) l * pc (ord - (dmin + t), (l, j))) res)

/-- The loop of `mbasis_rescomp`, lines 532-773; the first argument is `order - ord + 1`.  `res` and `pRes` are
    the arrays of rows of `residuals` and `p_residual`. -/
noncomputable def rescompLoop (N : Nt F) (m n order : Nat) (pc : Nat × (Nat × Nat) → F) (app0 : PMat F[X]) :
    Nat → Nat → State F → (Nat → Nat → F) → (Nat → Nat → F) → Out (PMat F[X] × (Nat → Int))
  | 0, _, s, _, _ => .ok (toPoly m app0 s, s.shift)
  | steps + 1, ord, s, res, pRes =>
    let perm := sortBy s.shift m
    -- lines 548-553
    let sw := forN m (fun i (st : (Nat → Nat → F) × (Nat → Nat → F)) =>
      (write i (st.2 (perm.getD i 0)) st.1, write (perm.getD i 0) (st.1 i) st.2)) (pRes, res)
    let pRes := sw.1
    let res : Nat → Nat → F := if 1 < ord then fun _ _ => 0 else sw.2
    let pk := N.ker ⟨m, n, fun ij => pRes ij.1 ij.2⟩
    let k := pk.rows
    if k = 0 then .ok (early m (steps + 1) s)
    else if k = m then
      if steps = 0 then rescompLoop N m n order pc app0 steps (ord + 1) s res pRes
      else
        andThen (ofMid (resSum m order ord s.co s.degA pc res)) fun res =>
        rescompLoop N m n order pc app0 steps (ord + 1) s res pRes
    else
      andThen (base N m k perm s.kerbas pk (s.pPiv.drop k)) fun b =>
      let s := usual m k b s
      if steps = 0 then rescompLoop N m n order pc app0 steps (ord + 1) s res pRes
      else
        andThen (ofMid (resSum m order ord s.co s.degA pc res)) fun res =>
        rescompLoop N m n order pc app0 steps (ord + 1) (restore k b s) res pRes

/-- `mbasis_rescomp(appbas, pmat, order, shift)`, lines 452-789. -/
noncomputable def rescomp (N : Nt F) (app0 pmat : PMat F[X]) (order : Nat) (shift : Nat → Int) : Out (PMat F[X] × (Nat → Int)) :=
  let m := pmat.rows
  let pc := (convToCoeffsOrder pmat order).2
  if order = 0 then .ub
  else if m = 0 then .error
  else rescompLoop N m pmat.cols order pc app0 order 1 (start m shift) (fun i j => pc (0, (i, j))) fun _ _ => 0

/-- The loop of `mbasis_resupdate`, lines 1198-1420; the first argument is `order - ord + 1`.  `res (d, i)` is row
    `i` of `residuals[d]`. -/
noncomputable def resupdateLoop (N : Nt F) (m n order : Nat) (app0 : PMat F[X]) :
    Nat → Nat → State F → (Nat × Nat → Nat → F) → Out (PMat F[X] × (Nat → Int))
  | 0, _, s, _ => .ok (toPoly m app0 s, s.shift)
  | steps + 1, ord, s, res =>
    let perm := sortBy s.shift m
    let pk := N.ker ⟨m, n, fun ij => res (ord - 1, perm.getD ij.1 0) ij.2⟩
    let k := pk.rows
    if k = 0 then .ok (early m (steps + 1) s)
    else if k < m then
      andThen (base N m k perm s.kerbas pk (s.pPiv.drop k)) fun b =>
      let s := usual m k b s
      let res := replaceRows m k b.kerbas b.piv b.rows ord (order - ord) res
      let res := moveRows m (ord - 1) (order - 1) s.isPiv res
      resupdateLoop N m n order app0 steps (ord + 1) (restore k b s) res
    else resupdateLoop N m n order app0 steps (ord + 1) s res

/-- `mbasis_resupdate(appbas, pmat, order, shift)`, lines 1122-1436. -/
noncomputable def resupdate (N : Nt F) (app0 pmat : PMat F[X]) (order : Nat) (shift : Nat → Int) : Out (PMat F[X] × (Nat → Int)) :=
  let m := pmat.rows
  let pc := (convToCoeffsOrder pmat order).2
  if m = 0 then .error
  else resupdateLoop N m pmat.cols order app0 order 1 (start m shift) fun di j => pc (di.1, (di.2, j))

/-- `mbasis`, `mat_lzz_pX_approximant.h` lines 443-457. -/
noncomputable def mbasis (N : Nt F) (app0 pmat : PMat F[X]) (order : Nat) (shift : Nat → Int) : Out (PMat F[X] × (Nat → Int)) :=
  if pmat.rows / 2 + 1 < pmat.cols then resupdate N app0 pmat order shift else rescomp N app0 pmat order shift

/-- `pmbasis(appbas, pmat, order, shift)`, lines 1480-1522.  `mid` is `middle_product` (C69) and `mul` is
    `multiply` (C67), which have no value when they raise an error or access memory out of bounds; `thr` is 32.
    The first argument bounds the depth of the recursion. -/
noncomputable def pmbasis (N : Nt F) (mid : PMat F[X] → PMat F[X] → Nat → Nat → Option (PMat F[X]))
    (mul : PMat F[X] → PMat F[X] → Option (PMat F[X])) (thr : Nat) :
    Nat → PMat F[X] → PMat F[X] → Nat → (Nat → Int) → Out (PMat F[X] × (Nat → Int))
  | fuel, app0, pmat, order, shift =>
    if order ≤ thr then mbasis N app0 pmat order shift
    else
      match fuel with
      | 0 => .loops
      | fuel + 1 =>
        let order1 := order / 2
        let order2 := order - order1
        let t := trunc false ⟨0, 0, fun _ => 0⟩ pmat order1
        andThen (pmbasis N mid mul thr fuel app0 t order1 shift) fun r =>
        let t := trunc false t pmat order
        andThen (ofMid (mid r.1 t order1 (order2 - 1))) fun residual =>
        andThen (pmbasis N mid mul thr fuel ⟨0, 0, fun _ => 0⟩ residual order2 r.2) fun r2 =>
        andThen (ofOpt (mul r2.1 r.1)) fun app => .ok (app, r2.2)

end Field

end PML.Ntl.Mbasis
