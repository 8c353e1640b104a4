import Mathlib.LinearAlgebra.Matrix.Rank
import Mathlib.LinearAlgebra.Matrix.NonsingularInverse
import Verif.Ntl.CauchyModel
import Verif.Ntl.LikeModel

/-!
# Model of `ntl-extras/structured_lzz_p/src/cauchy_like_geometric_lzz_p.cpp`

Cauchy-like matrices on geometric progressions: products, inversion of the leading principal minor, linear systems.
The modulus is a prime `p`; a division by zero is an error.  `AddMod`, `MulMod`, `MulModPrecon` and so on, on representatives, are the
operations of `ZMod p`; the precomputed quotients are left out.  `gauss` (rank) and `inv` of NTL are those of Mathlib.  Random elements
come from arbitrary functions.  The line ranges are those of `cauchy_like_geometric_lzz_p.cpp`.
-/

namespace PML.Ntl.CLike

open PML.Ntl.Utils PML.Ntl.Inv PML.Ntl.Solve PML.Ntl.Middle PML.Ntl.Struct

variable {p : Nat} [Fact p.Prime]

/-! ### The class -/

/-- The members of `cauchy_like_geometric_lzz_p`; `m` and `n` are the dimensions of `C` (lines 65-67). -/
structure CLike (p : Nat) where
  /-- first generator -/
  G : PMat (ZMod p)
  /-- second generator -/
  H : PMat (ZMod p)
  /-- the Cauchy matrix -/
  C : Cauchy p

/-- The constructor, lines 62-70. -/
noncomputable def CLike.make (U V : PMat (ZMod p)) (a b rho : ZMod p) : Out (CLike p) :=
  andThen (Cauchy.make a b rho U.rows V.rows) fun C => .ok ⟨U, V, C⟩

/-- `mul_right(output, input)` on vectors, lines 93-118. -/
noncomputable def CLike.right (c : CLike p) (red : Nat → ZMod p) (cross : Nat) (input : NVec (ZMod p)) : Out (NVec (ZMod p)) :=
  let alpha := c.G.cols
  let m := c.C.m
  let n := c.C.n
  if 0 < alpha ∧ 0 < n ∧ (input.len < n ∨ c.H.cols < alpha) then .ub
  else
    let out0 := forN m (fun i => write i (0 : ZMod p)) fun _ => 0
    andThen (loopOut alpha (fun i out =>
      let newIn := forN n (fun j => write j (c.H.e (j, i) * input.e j)) fun _ => 0
      andThen (c.C.right red cross ⟨n, newIn⟩) fun newOut =>
      .ok (forN m (fun j out => write j (out j + c.G.e (j, i) * newOut.e j) out) out)) out0) fun out =>
    .ok ⟨m, out⟩

/-- `mul_right_direct(output, input)`, lines 124-169, and `mul_right(output, input)` on matrices, lines 290-298, both branches of which
    call it; `x` is `output` before the call. -/
noncomputable def CLike.rightMat (c : CLike p) (red : Nat → ZMod p) (cross : Nat) (x input : PMat (ZMod p)) : Out (PMat (ZMod p)) :=
  let alpha := c.G.cols
  let beta := input.cols
  let m := c.C.m
  let n := c.C.n
  let y := x.setDims m beta
  if m = 0 ∨ n = 0 then .ok { y with e := loop2 m beta (fun _ _ _ => 0) y.e }
  else if 0 < beta ∧ 0 < alpha ∧ (input.rows < n ∨ c.H.cols < alpha) then .ub
  else
    andThen (loopOut beta (fun i (e : Nat × Nat → ZMod p) =>
      let vecOut := forN m (fun j => write j (0 : ZMod p)) fun _ => 0
      andThen (loopOut alpha (fun k vecOut =>
        let newIn := forN n (fun j => write j (c.H.e (j, k) * input.e (j, i))) fun _ => 0
        andThen (c.C.t.toeplitzRight red cross ⟨n, newIn⟩) fun newOut =>
        .ok (forN m (fun j out => write j (out j + c.G.e (j, k) * newOut.e j) out) vecOut)) vecOut) fun vecOut =>
      .ok (forN m (fun j e => write (j, i) (c.C.pw j * vecOut j) e) e)) y.e) fun e =>
    .ok { y with e := e }

/-- `mul_left(output, input)` on vectors, lines 303-328. -/
noncomputable def CLike.left (c : CLike p) (red : Nat → ZMod p) (cross : Nat) (input : NVec (ZMod p)) : Out (NVec (ZMod p)) :=
  let alpha := c.G.cols
  let m := c.C.m
  let n := c.C.n
  if 0 < alpha ∧ ((0 < m ∧ input.len < m) ∨ (0 < n ∧ c.H.cols < alpha)) then .ub
  else
    let out0 := forN n (fun i => write i (0 : ZMod p)) fun _ => 0
    andThen (loopOut alpha (fun i out =>
      let newIn := forN m (fun j => write j (c.G.e (j, i) * input.e j)) fun _ => 0
      andThen (c.C.left red cross ⟨m, newIn⟩) fun newOut =>
      .ok (forN n (fun j out => write j (out j + c.H.e (j, i) * newOut.e j) out) out)) out0) fun out =>
    .ok ⟨n, out⟩

/-- `mul_left(output, input)` on matrices, lines 334-377; `x` is `output` before the call. -/
noncomputable def CLike.leftMat (c : CLike p) (red : Nat → ZMod p) (cross : Nat) (x input : PMat (ZMod p)) : Out (PMat (ZMod p)) :=
  let alpha := c.G.cols
  let beta := input.rows
  let m := c.C.m
  let n := c.C.n
  let y := x.setDims beta n
  if m = 0 ∨ n = 0 then .ok { y with e := loop2 beta n (fun _ _ _ => 0) y.e }
  else if 0 < beta ∧ (input.cols < m ∨ c.H.cols < alpha) then .ub
  else
    andThen (loopOut beta (fun i (e : Nat × Nat → ZMod p) =>
      let newIn2 := forN m (fun j => write j (input.e (i, j) * c.C.pw j)) fun _ => 0
      let vecOut := forN n (fun j => write j (0 : ZMod p)) fun _ => 0
      andThen (loopOut alpha (fun k vecOut =>
        let newIn := forN m (fun j => write j (c.G.e (j, k) * newIn2 j)) fun _ => 0
        andThen (c.C.leftSimple red cross ⟨m, newIn⟩) fun newOut =>
        .ok (forN n (fun j out => write j (out j + c.H.e (j, k) * newOut.e j) out) vecOut)) vecOut) fun vecOut =>
      .ok (forN n (fun j e => write (i, j) (vecOut j) e) e)) y.e) fun e =>
    .ok { y with e := e }

/-- `to_dense(M)`, lines 382-388. -/
def CLike.dense (c : CLike p) : Out (PMat (ZMod p)) :=
  andThen (denseMul c.G (denseT c.H)) fun M =>
  andThen (loopOut c.C.m (fun i e => loopOut c.C.n (fun j e =>
    let d := c.C.u * c.C.rho ^ i - c.C.v * c.C.rho ^ j
    if d = 0 then .error else .ok (write (i, j) (e (i, j) / d) e)) e) M.e) fun e => .ok { M with e := e }

/-! ### The vectors of inverses -/

/-- The vector of denominators, lines 31-37; `m + n - 1` is positive. -/
def fwdDen (u v rho : ZMod p) (m n : Nat) : Nat → ZMod p :=
  let d := write 0 (-v * rho⁻¹ ^ ((m : Int) - 1)) fun _ => 0
  let d := forN (m + n - 2) (fun i d =>
    let d := write (i + 1) (d i * rho) d
    write i (d i + u) d) d
  write (m + n - 2) (d (m + n - 2) + u) d

/-- `prepare_inverses_cauchy(inverses, u1, v1, rho, m, n)`, lines 22-39, into an empty vector; `SetLength(-1)` is an error. -/
def fwdInverses (u v rho : ZMod p) (m n : Nat) : Out (NVec (ZMod p)) :=
  if rho = 0 then .error
  else if m + n = 0 then .error
  else if m + n - 1 = 0 then .ok ⟨0, fun _ => 0⟩
  else match PML.Ntl.Order.invVec (m + n - 1) (fwdDen u v rho m n) fun _ => 0 with
    | none => .error
    | some w => .ok ⟨m + n - 1, w⟩

/-- The four vectors which `invert_raw` and `invert_block_raw` prepare. -/
structure Invs (p : Nat) where
  /-- `inverses_rho` -/
  irho : Nat → ZMod p
  /-- `inverses_u1_v1` -/
  iuv : Nat → ZMod p
  /-- `inverses_u1_u1` -/
  iuu : Nat → ZMod p
  /-- `inverses_v1_v1` -/
  ivv : Nat → ZMod p

/-- Lines 443-456 and 639-652, which have the same text; `inverses_rho[0]` is written even if there is no row. -/
def prepare (u v rho : ZMod p) (m n : Nat) : Out (Invs p) :=
  if rho = 0 then .error
  else if m = 0 then .ub
  else
    let irho := forN (m - 1) (fun i pw => write (i + 1) (rho⁻¹ * pw (i + 1 - 1)) pw) (write 0 1 fun _ => 0)
    andThen (fwdInverses u v rho m n) fun iuv =>
    andThen (fwdInverses u u rho (min m n) 0) fun iuu =>
    andThen (fwdInverses v v rho (min m n) 0) fun ivv =>
    .ok ⟨irho, iuv.e, iuu.e, ivv.e⟩

/-! ### The direct algorithm -/

/-- The sums of products of the rows `i` of `A` and `j` of `B`, such as lines 677-681. -/
def dotRow (alpha : Nat) (A B : Nat × Nat → ZMod p) (i j : Nat) : ZMod p := forN alpha (fun t s => s + A (i, t) * B (j, t)) 0

/-- The loop over the rows above the pivot, lines 734-758. -/
def rawAbove (alpha N : Nat) (w : Invs p) (k : Nat) (mid : ZMod p) (YZ : (Nat × Nat → ZMod p) × (Nat × Nat → ZMod p)) :
    (Nat × Nat → ZMod p) × (Nat × Nat → ZMod p) :=
  forN k (fun i s =>
    let ell := dotRow alpha s.1 s.2 i k
    let u := dotRow alpha s.2 s.1 i k
    let ell := ell * mid
    let ell := ell * w.irho k
    let ell := ell * w.ivv (i + (N - 1) - k)
    let u := u * mid
    let u := u * w.irho k
    let u := u * w.iuu (i + (N - 1) - k)
    (forN alpha (fun j Y => write (i, j) (Y (i, j) - ell * Y (k, j)) Y) s.1, forN alpha (fun j Z => write (i, j) (Z (i, j) + u * Z (k, j)) Z) s.2)) YZ

/-- The loop over the rows of `Y` below the pivot, lines 771-785. -/
def rawBelowY (alpha m : Nat) (w : Invs p) (k : Nat) (rd : ZMod p) (Y Z : Nat × Nat → ZMod p) : Nat × Nat → ZMod p :=
  forN (m - (k + 1)) (fun i' Y =>
    let i := k + 1 + i'
    let ell := dotRow alpha Y Z i k
    let ell := ell * rd
    let ell := ell * w.irho i
    let ell := ell * w.iuv (k + (m - 1) - i)
    forN alpha (fun j Y => write (i, j) (Y (i, j) + ell * Y (k, j)) Y) Y) Y

/-- The loop over the rows of `Z` below the pivot, lines 787-802. -/
def rawBelowZ (alpha m n : Nat) (w : Invs p) (k : Nat) (rd : ZMod p) (Y Z : Nat × Nat → ZMod p) : Nat × Nat → ZMod p :=
  forN (n - (k + 1)) (fun i' Z =>
    let i := k + 1 + i'
    let u := dotRow alpha Z Y i k
    let u := u * rd
    let u := u * w.irho k
    let u := u * w.iuv (i + (m - 1) - k)
    forN alpha (fun j Z => write (i, j) (Z (i, j) + u * Z (k, j)) Z) Z) Z

/-- One turn of the loop over `k` with a pivot which is not zero, lines 720-806; `rd` is the value computed at lines 720-721. -/
def rawStep (alpha m n : Nat) (w : Invs p) (k : Nat) (rd : ZMod p) (Y Z : Nat × Nat → ZMod p) : (Nat × Nat → ZMod p) × (Nat × Nat → ZMod p) :=
  let id := rd⁻¹
  let mid := -id
  let s := rawAbove alpha (min m n) w k mid (Y, Z)
  let Y := forN alpha (fun j Y => write (k, j) (mid * Y (k, j)) Y) s.1
  let Z := forN alpha (fun j Z => write (k, j) (id * Z (k, j)) Z) s.2
  let Y := rawBelowY alpha m w k rd Y Z
  let Z := rawBelowZ alpha m n w k rd Y Z
  (Y, Z)

/-- The loop over `k`, lines 662-806: `none` stands for `return -1`, and the number is the value returned otherwise.  The first argument
    is the number of turns left. -/
def rawLoop (alpha m n : Nat) (w : Invs p) : Nat → Nat → (Nat × Nat → ZMod p) → (Nat × Nat → ZMod p) →
    Out (Option (Nat × (Nat × Nat → ZMod p) × (Nat × Nat → ZMod p)))
  | 0, k, Y, Z => .ok (some (k, Y, Z))
  | f + 1, k, Y, Z =>
    let rd := dotRow alpha Y Z k k
    if rd = 0 then
      if (List.range (m - k)).any fun a => (List.range (n - k)).any fun b => decide (dotRow alpha Y Z (k + a) (k + b) ≠ 0) then .ok none
      else .ok (some (k, Y, Z))
    else
      let rd := rd * w.irho k
      let rd := rd * w.iuv (m - 1)
      if rd = 0 then .error
      else
        let s := rawStep alpha m n w k rd Y Z
        rawLoop alpha m n w f (k + 1) s.1 s.2

/-- What the inversion functions return: `none` for `-1`, otherwise the number and the matrices `Yp_out`, `Zp_out`. -/
abbrev Res (p : Nat) := Option (Nat × PMat (ZMod p) × PMat (ZMod p))

/-- The copies of the first `r` rows into `Yp_out` and `Zp_out`, lines 698-715 and 808-825. -/
def takeRows (alpha : Nat) (o : Option (Nat × (Nat × Nat → ZMod p) × (Nat × Nat → ZMod p))) : Res p :=
  match o with
  | none => none
  | some (r, Y, Z) => some (r, ⟨r, alpha, Y⟩, ⟨r, alpha, Z⟩)

/-- `invert_raw`, lines 595-827. -/
def invertRaw (Y Z : PMat (ZMod p)) (u v rho : ZMod p) : Out (Res p) :=
  let alpha := Y.cols
  let m := Y.rows
  let n := Z.rows
  if 0 < n ∧ Z.cols < alpha then .ub
  else
    andThen (prepare u v rho m n) fun w =>
    andThen (rawLoop alpha m n w (min m n) 0 Y.e Z.e) fun o =>
    .ok (takeRows alpha o)

/-! ### The block algorithm -/

/-- The matrix of size `s` for Mathlib. -/
def sq (s : Nat) (d : Nat → Nat → ZMod p) : Matrix (Fin s) (Fin s) (ZMod p) := Matrix.of fun i j => d i j

/-- An entry of a square matrix of Mathlib. -/
def unsq {s : Nat} (d : Matrix (Fin s) (Fin s) (ZMod p)) (i j : Nat) : ZMod p := if h : i < s ∧ j < s then d ⟨i, h.1⟩ ⟨j, h.2⟩ else 0

/-- The matrix `A` after the loops of lines 484-494 and 500-506, which go over the rows `i < k` and `k <= i`. -/
def blockA (alpha m N : Nat) (w : Invs p) (k : Nat) (Y Z : Nat × Nat → ZMod p) (i j : Nat) : ZMod p :=
  let a := dotRow alpha Y Z i (k + j)
  if i < k then -a * w.irho (k + j) * w.ivv (i + (N - 1) - (k + j))
  else a * w.irho i * w.iuv (k + j + (m - 1) - i)

/-- The matrix `B` after the loops of lines 484-498 and 507-513. -/
def blockB (alpha m N : Nat) (w : Invs p) (k : Nat) (Y Z : Nat × Nat → ZMod p) (i j : Nat) : ZMod p :=
  let b := dotRow alpha Z Y i (k + j)
  if i < k then -b * w.irho (k + j) * w.iuu (i + (N - 1) - (k + j))
  else -b * w.irho (k + j) * w.iuv (i + (m - 1) - (k + j))

/-- The update of `Yp_out` and `Zp_out`, lines 538-556: the rows `k, …, k + step - 1` become those of `mulG`, the others get a
    combination of them. -/
def blockUpd (k step : Nat) (A : Nat → Nat → ZMod p) (mul : Nat → Nat → ZMod p) (Y : Nat × Nat → ZMod p) : Nat × Nat → ZMod p := fun ij =>
  if k ≤ ij.1 ∧ ij.1 < k + step then mul (ij.1 - k) ij.2 else Y ij + ∑ t ∈ Finset.range step, A ij.1 t * mul t ij.2

/-- The loop over `k`, lines 462-580; the first argument bounds the number of turns.  After `k -= rk; step = rk; continue`, the
    increment of the loop gives `k` again. -/
noncomputable def blockLoop (alpha m n : Nat) (w : Invs p) : Nat → Nat → Nat → Bool → (Nat × Nat → ZMod p) → (Nat × Nat → ZMod p) →
    Out (Option (Nat × (Nat × Nat → ZMod p) × (Nat × Nat → ZMod p)))
  | 0, _, _, _, _, _ => .loops
  | f + 1, k, step, early, Y, Z =>
    let N := min m n
    if N ≤ k then .ok (some (k, Y, Z))
    else
      let step := min step (N - k)
      let A := blockA alpha m N w k Y Z
      let B := blockB alpha m N w k Y Z
      let d := fun i j => -A (i + k) j
      let rk := (sq step d).rank
      if rk < step then
        let rk2 := (sq rk d).rank
        if rk2 ≠ rk then .ok none
        else blockLoop alpha m n w f k rk true Y Z
      else
        let invd := unsq (sq step d)⁻¹
        let mulG := fun i j => ∑ t ∈ Finset.range step, invd i t * Y (t + k, j)
        let mulH := fun i j => ∑ t ∈ Finset.range step, -invd t i * Z (t + k, j)
        let Y := blockUpd k step A mulG Y
        let Z := blockUpd k step B mulH Z
        if early then
          if (List.range (m - (k + step))).any fun a => (List.range (n - (k + step))).any fun b =>
              decide (dotRow alpha Y Z (k + step + a) (k + step + b) ≠ 0) then .ok none
          else .ok (some (k + step, Y, Z))
        else blockLoop alpha m n w f (k + step) step false Y Z

/-- `invert_block_raw`, lines 420-584; the products of matrices are errors if the numbers of columns differ. -/
noncomputable def invertBlock (Y Z : PMat (ZMod p)) (u v rho : ZMod p) : Out (Res p) :=
  let alpha := Y.cols
  let m := Y.rows
  let n := Z.rows
  andThen (prepare u v rho m n) fun w =>
  if 0 < min m n ∧ Z.cols ≠ alpha then .error
  else
    andThen (blockLoop alpha m n w (min m n + 2) 0 alpha false Y.e Z.e) fun o =>
    .ok (takeRows alpha o)

/-! ### Divide and conquer -/

/-- The rows `r, r + 1, …` of a matrix, such as lines 880-888. -/
def dropRows (r : Nat) (Y : PMat (ZMod p)) : PMat (ZMod p) := ⟨Y.rows - r, Y.cols, fun ij => Y.e (ij.1 + r, ij.2)⟩

/-- `SetDims(r, alpha)` on a matrix with more rows, such as lines 877-878, and the copies of rows at lines 861-868. -/
def firstRows (r : Nat) (Y : PMat (ZMod p)) : PMat (ZMod p) := { Y with rows := r }

/-- `cauchy_like_geometric_lzz_p(G, H, u, v, rho).mul_right(tmp, X); G += tmp` and so on, lines 891-898 and 927-934. -/
noncomputable def addProd (red : Nat → ZMod p) (cross : Nat) (G H X : PMat (ZMod p)) (u v rho : ZMod p) : Out (PMat (ZMod p)) :=
  andThen (CLike.make G H u v rho) fun c =>
  andThen (c.rightMat red cross newMat X) fun tmp =>
  denseAdd G tmp

/-- The rows of `a` followed by those of `b`, lines 936-943. -/
def stack (a b : PMat (ZMod p)) (r s : Nat) : PMat (ZMod p) :=
  ⟨r + s, a.cols, fun ij => if ij.1 < r then a.e ij else b.e (ij.1 - r, ij.2)⟩

/-- `invert_rec`, lines 838-946; the first argument bounds the depth of the recursion.  `rnd c` is the random vector of the call number
    `c` to `random`; the number of calls is returned as well. -/
noncomputable def invertRec (red : Nat → ZMod p) (cross : Nat) (rnd : Nat → Nat → ZMod p) (rho : ZMod p) (thresh : Nat) (threshAlpha : Int) :
    Nat → PMat (ZMod p) → PMat (ZMod p) → ZMod p → ZMod p → Nat → Out (Nat × Res p)
  | 0, _, _, _, _, _ => .loops
  | f + 1, Y, Z, u, v, c =>
    let m := Y.rows
    let n := Z.rows
    let alpha := Y.cols
    let N := min m n
    if N < thresh then
      if (alpha : Int) < threshAlpha ∨ N < alpha then andThen (invertRaw Y Z u v rho) fun o => .ok (c, o)
      else andThen (invertBlock Y Z u v rho) fun o => .ok (c, o)
    else
      let N1 := (N + 1) / 2
      andThen (invertRec red cross rnd rho thresh threshAlpha f (firstRows N1 Y) (firstRows N1 Z) u v c) fun o =>
      let c := o.1
      match o.2 with
      | none => .ok (c, none)
      | some (r, Yp, Zp) =>
        let Y1 := firstRows r Y
        let Z1 := firstRows r Z
        andThen (addProd red cross (dropRows r Y) Z1 Yp (u * rho ^ r) v rho) fun G2 =>
        andThen (addProd red cross (dropRows r Z) Y1 Zp (v * rho ^ r) u rho) fun H2 =>
        if r < N1 then
          let check := fun t => ∑ j ∈ Finset.range (n - r), rnd c j * H2.e (j, t)
          if (List.range (m - r)).any fun i => decide (∑ t ∈ Finset.range alpha, G2.e (i, t) * check t ≠ 0) then .ok (c + 1, none)
          else .ok (c + 1, some (r, Yp, Zp))
        else
          andThen (invertRec red cross rnd rho thresh threshAlpha f G2 H2 (u * rho ^ N1) (v * rho ^ N1) c) fun o =>
          let c := o.1
          match o.2 with
          | none => .ok (c, none)
          | some (s, iG2, iH2) =>
            andThen (addProd red cross Yp (firstRows s H2) iG2 v (v * rho ^ N1) rho) fun Yp =>
            andThen (addProd red cross Zp (firstRows s G2) iH2 u (u * rho ^ N1) rho) fun Zp =>
            .ok (c, some (N1 + s, stack Yp iG2 N1 s, stack Zp iH2 N1 s))

/-! ### The functions of the class -/

/-- The value of `thresh_alpha` after lines 974-979. -/
def alphaBound (p : Nat) (threshAlpha : Int) : Int :=
  if threshAlpha = -1 then (if p < 2 ^ 23 then 8 else 15) else threshAlpha

/-- `invert_leading_principal_minor_grp(Cinv, thresh, thresh_alpha)`, lines 956-994: `none` for the value 0, and `Cinv` with the value
    1.  `thresh` is replaced by 200 at line 973, whatever its value is. -/
noncomputable def CLike.invert (c : CLike p) (red : Nat → ZMod p) (cross : Nat) (rnd : Nat → Nat → ZMod p) (threshAlpha : Int) :
    Out (Option (CLike p)) :=
  let thresh := 200
  andThen (invertRec red cross rnd c.C.rho thresh (alphaBound p threshAlpha) (min c.G.rows c.H.rows + 1) c.G c.H c.C.u c.C.v 0) fun o =>
  match o.2 with
  | none => .ok none
  | some (_, Yp, Zp) => andThen (CLike.make Yp Zp c.C.v c.C.u c.C.rho) fun d => .ok (some d)

/-- `solve_grp(x, b, thresh, thresh_alpha)`, lines 1004-1043: `none` for the value 0 (and `x` unchanged), and `x` with the value 1.  The
    vector `x` is filled from `rx` after the rank. -/
noncomputable def CLike.solve (c : CLike p) (red : Nat → ZMod p) (cross : Nat) (rnd : Nat → Nat → ZMod p) (rx : Nat → ZMod p)
    (threshAlpha : Int) (b : NVec (ZMod p)) : Out (Option (NVec (ZMod p))) :=
  andThen (c.invert red cross rnd threshAlpha) fun o =>
  match o with
  | none => .ok none
  | some iCL =>
    let rk := iCL.C.m
    let m := c.C.n
    let x := forN (m - rk) (fun i => write (rk + i) (rx i)) (forN rk (fun i => write i (0 : ZMod p)) fun _ => 0)
    andThen (c.right red cross ⟨m, x⟩) fun tmp =>
    if tmp.len < rk ∨ b.len < rk then .ub
    else
      let tmpOut := forN rk (fun i t => write i (b.e i - t i) t) tmp.e
      andThen (iCL.right red cross ⟨rk, tmpOut⟩) fun top =>
      let x := forN rk (fun i => write i (top.e i)) x
      andThen (c.right red cross ⟨m, x⟩) fun y =>
      if y.len ≠ b.len ∨ (List.range b.len).any fun i => decide (y.e i ≠ b.e i) then .ok (some ⟨0, x⟩)
      else .ok (some ⟨m, x⟩)

end PML.Ntl.CLike
