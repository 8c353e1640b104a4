import Verif.Ntl.MatEvalModel

/-!
# Model of truncated inverses of polynomial matrices

`/repo/ntl-extras/mat_lzz_pX_extra/src/mat_lzz_pX_inv_trunc.cpp`, lines 12-449.

The order `m` and the parameter `thresh` (when it is not -1) are natural numbers.  The functions FFT
and geometric of this file call `rep.SetLength(2k)` on the entries of the output `x`, and assign the
coefficients from `k` on: NTL does not clear the ones below `k`, which are those left there by
earlier operations on `x`.  So the entries of `x` are modelled with their storage.
-/

namespace PML.Ntl.Inv

open Polynomial PML.Ntl.Utils PML.Ntl.MatMul PML.Ntl.MatEval

/-- How a call ends: with a value, with an error reported by NTL, with an access outside of an array, or
    not at all. -/
inductive Out (α : Type) where
  | ok (x : α)
  | error
  | ub
  | loops

/-- A polynomial of NTL: the length of its vector of coefficients, and the values stored in this vector,
    including beyond its length.  `normalize()` decreases `len` while the last coefficient is zero: it
    changes neither the value nor the storage, and is left out. -/
structure Sto (F : Type) where
  /-- `rep.length()` -/
  len : Nat
  /-- the coefficients; those never assigned are zero -/
  mem : Nat → F

instance {F : Type} [Zero F] : Zero (Sto F) := ⟨⟨0, fun _ => 0⟩⟩

section Field

variable {F : Type} [Field F]

/-- The polynomial. -/
noncomputable def Sto.val (x : Sto F) : F[X] := ofCoeffs x.len x.mem

/-- The matrix of polynomials. -/
noncomputable def vals (x : PMat (Sto F)) : PMat F[X] := ⟨x.rows, x.cols, fun ij => (x.e ij).val⟩

/-- A matrix that has just been declared. -/
def fresh (F : Type) [Field F] : PMat (Sto F) := ⟨0, 0, fun _ => 0⟩

/-! ### Naive algorithm -/

/-- `conv(x, mat)` (`mat_lzz_pX_utils.cpp` lines 540-546): each entry has its length set to 1, and its
    constant coefficient assigned. -/
def storeConst (x : PMat (Sto F)) (s : Nat) (c : Nat × Nat → F) : PMat (Sto F) :=
  let x' := x.setDims s s
  { x' with e := loop2 s s (fun i j cur => ⟨1, write 0 (c (i, j)) (cur (i, j)).mem⟩) x'.e }

/-- `conv(x, matp)` (`mat_lzz_pX_utils.cpp` lines 578-620) for a vector of length `m ≥ 1`: each entry has
    its length set to `m` and its `m` coefficients assigned.  The order of these assignments is the one
    of `Utils.convFromCoeffs` (C65). -/
def storeCoeffs (x : PMat (Sto F)) (s m : Nat) (c : Nat → Nat × Nat → F) : PMat (Sto F) :=
  if m = 1 then storeConst x s (c 0)
  else
    let x' := x.setDims s s
    { x' with e := loop2 s s (fun i j cur => ⟨m, forN m (fun k => write k (c k (i, j))) (cur (i, j)).mem⟩) x'.e }

/-- Lines 64-85: `x_coeffs`, from its entry `x0` on. -/
def plainLoop (s m d : Nat) (ac : Nat → Nat × Nat → F) (x0 : Nat × Nat → F) : Nat → Nat × Nat → F :=
  forN (m - 1) (fun k1 xc =>
    let k := k1 + 1
    let first := cmul s (xc (k - 1)) (ac 1)
    let sum := forN (min k d - 1) (fun i2 acc ij => acc ij + cmul s (xc (k - (i2 + 2))) (ac (i2 + 2)) ij) first
    write k (fun ij => -cmul s sum (xc 0) ij) xc) (write 0 x0 fun _ _ => 0)

/-- `plain_inv_trunc`, lines 37-89.  `inv` is the function of NTL, an error being `none`. -/
noncomputable def plain (inv : Nat → (Nat × Nat → F) → Option (Nat × Nat → F)) (x : PMat (Sto F)) (a : PMat F[X]) (m : Nat) :
    Out (PMat (Sto F)) :=
  let d := deg a
  if d = -1 then .error
  else if m = 0 then .ub
  else
    let conv := (convToCoeffsOrder a (min (d + 1) m).toNat).2
    let ac : Nat → Nat × Nat → F := fun k ij => conv (k, ij)
    if a.rows ≠ a.cols then .error
    else match inv a.rows (ac 0) with
    | none => .error
    | some x0 =>
      if d = 0 then .ok (storeConst x a.rows x0)
      else .ok (storeCoeffs x a.rows m (plainLoop a.rows m d.toNat ac x0))

/-- The value returned by `plain_inv_trunc(x, a, m)`.  `x` may be `a`. -/
noncomputable def plainInvTrunc (inv : Nat → (Nat × Nat → F) → Option (Nat × Nat → F)) (x : PMat (Sto F)) (a : PMat F[X]) (m : Nat) :
    Out (PMat F[X]) :=
  match plain inv x a m with
  | .ok x => .ok (vals x)
  | .error => .error
  | .ub => .ub
  | .loops => .loops

/-! ### Newton iteration with FFT -/

/-- The values of a matrix of polynomials, at the entry `r s^2 + i s + j` of an array: lines 144-150,
    154-160.  The array is taken to be zero before that. -/
noncomputable def spread (s n : Nat) (v : Nat → Nat → Nat → F) : Nat → F :=
  forN s (fun i => forN s fun j => forN n fun r => write (r * (s * s) + i * s + j) (v i j r)) fun _ => 0

/-- Products of the values, lines 163-175, 192-204. -/
noncomputable def products (s n : Nat) (u v : Nat → F) : Nat × Nat → F :=
  forN n (fun j =>
    let v3 := cmul s (fun x => u (j * (s * s) + x.1 * s + x.2)) fun x => v (j * (s * s) + x.1 * s + x.2)
    forN s fun i => forN s fun l => write (i * s + l, j) (v3 (i, l))) fun _ => 0

/-- Lines 215-224 (and 408-417): `-P` becomes the coefficients `k` to `2k - 1` of an entry of `x`. -/
noncomputable def extend (k : Nat) (P : F[X]) (x : Sto F) : Sto F :=
  ⟨2 * k, forN k (fun t => write (k + t) (if (t : Int) < pdeg P + 1 then -P.coeff t else 0)) x.mem⟩

/-- One iteration, lines 131-228.  `R1` is used for the values of one polynomial at a time. -/
noncomputable def stepFFT (T : FFT F) (a : PMat F[X]) (s k : Nat) (x : PMat (Sto F)) : PMat (Sto F) :=
  let t := nextPow2 (2 * k)
  let n := 2 ^ t
  let pt := T.pt t
  let val1 := spread s n fun i j r => (x.e (i, j)).val.eval (pt r)
  let val2 := spread s n fun i j r => (slice (a.e (i, j)) 0 (min (2 * k - 1 : Int) (pdeg (a.e (i, j))) + 1).toNat).eval (pt r)
  let val3 := products s n val1 val2
  let val2 := spread s n fun i l r => (fromEval pt n k k fun r => val3 (i * s + l, r)).eval (pt r)
  let val3 := products s n val2 val1
  { x with e := loop2 s s (fun i l cur => extend k (fromEval pt n 0 k fun r => val3 (i * s + l, r)) (cur (i, l))) x.e }

/-- The loop of lines 131-228; the first argument bounds the number of iterations. -/
noncomputable def loopFFT (T : FFT F) (a : PMat F[X]) (s m : Nat) : Nat → Nat → PMat (Sto F) → Out (PMat (Sto F))
  | fuel, k, x =>
    if k < m then
      match fuel with
      | 0 => .loops
      | fuel + 1 => loopFFT T a s m fuel (2 * k) (stepFFT T a s k x)
    else .ok x

/-- `newton_inv_trunc_FFT`, lines 99-231.  `al` tells whether `x` is `a`; `thresh` is the parameter, or
    the value of the table when it is -1. -/
noncomputable def newtonFFT (inv : Nat → (Nat × Nat → F) → Option (Nat × Nat → F)) (T : FFT F) (al : Bool) (x : PMat (Sto F))
    (a : PMat F[X]) (m thresh : Nat) : Out (PMat F[X]) :=
  match plain inv (if al then fresh F else x) a thresh with
  | .ok x =>
    match loopFFT T a a.rows m m thresh (x.setDims a.rows a.rows) with
    | .ok x => .ok (trunc true (vals x) (vals x) m)
    | .error => .error
    | .ub => .ub
    | .loops => .loops
  | .error => .error
  | .ub => .ub
  | .loops => .loops

/-! ### Newton iteration with middle products -/

/-- `degrees(n, thresh)`, lines 16-30.  The first argument bounds the number of iterations: `none` if it
    is reached. -/
def degrees : Nat → Nat → Nat → Option (List Nat)
  | fuel, n, thresh =>
    if thresh < n then
      match fuel with
      | 0 => none
      | fuel + 1 =>
        let n := if n % 2 = 1 then n + 1 else n
        match degrees fuel (n / 2) thresh with
        | none => none
        | some l => some (l ++ [n])
    else some [n]

/-- Lines 269-276: one iteration.  `mid` is `middle_product` and `mul` is `multiply`; `none` is an error. -/
noncomputable def stepMiddle (mid : PMat F[X] → PMat F[X] → Nat → Nat → Option (PMat F[X]))
    (mul : PMat F[X] → PMat F[X] → Option (PMat F[X])) (a : PMat F[X]) (k : Nat) (x : PMat F[X]) : Option (PMat F[X]) :=
  let tr := trunc false ⟨0, 0, fun _ => 0⟩ a (2 * k)
  match mid x tr k (k - 1) with
  | none => none
  | some y =>
    match mul y x with
    | none => none
    | some y =>
      let y := trunc true y y k
      let y := leftShift true y y k
      zipWith (· - ·) true false x x y

/-- Lines 267-284. -/
noncomputable def loopMiddle (step : Nat → PMat F[X] → Option (PMat F[X])) (all : List Nat) (m : Nat) :
    Nat → Nat → Nat → PMat F[X] → Out (PMat F[X])
  | fuel, k, idx, x =>
    if k < m then
      match fuel with
      | 0 => .loops
      | fuel + 1 =>
        match step k x with
        | none => .error
        | some x =>
          match all[idx]? with
          | none => .ub
          | some k' =>
            let x := if 2 * k ≠ k' then trunc true x x k' else x
            loopMiddle step all m fuel k' (idx + 1) x
    else .ok x

/-- `newton_inv_trunc_middle_product`, lines 240-287.  When `x` is `a`, the parameter `thresh` is replaced by
    the value `dflt` of the table. -/
noncomputable def newtonMiddle (inv : Nat → (Nat × Nat → F) → Option (Nat × Nat → F))
    (mid : PMat F[X] → PMat F[X] → Nat → Nat → Option (PMat F[X])) (mul : PMat F[X] → PMat F[X] → Option (PMat F[X])) (dflt : Nat)
    (al : Bool) (x : PMat (Sto F)) (a : PMat F[X]) (m : Nat) (thresh : Nat) : Out (PMat F[X]) :=
  match degrees m m (if al then dflt else thresh) with
  | none => .loops
  | some all =>
    let k := all.headD 0
    match plain inv (if al then fresh F else x) a k with
    | .ok x =>
      match loopMiddle (stepMiddle mid mul a) all m m k 1 (vals x) with
      | .ok x => .ok (trunc true x x m)
      | .error => .error
      | .ub => .ub
      | .loops => .loops
    | .error => .error
    | .ub => .ub
    | .loops => .loops

/-! ### Newton iteration at geometric points -/

/-- What is used of an object `zz_pX_Multipoint_Geometric` of length `n` given by `get_geometric_points`. -/
structure Geo (F : Type) [Field F] where
  /-- `get_q()` -/
  q : F
  /-- `evaluate`; an error is `none` -/
  ev : F[X] → Option (Nat → F)
  /-- `interpolate` -/
  ip : (Nat → F) → Option F[X]

open Classical in
/-- One iteration, lines 333-418.  `none` is an error of NTL.  The calls to `prepare_degree` do not change the
    values (C62). -/
noncomputable def stepGeo (geo : Nat → Option (Geo F)) (a : PMat F[X]) (s k : Nat) (x : PMat (Sto F)) : Option (PMat (Sto F)) :=
  let n := 3 * k - 2
  match geo n with
  | none => none
  | some o =>
    let invq := o.q⁻¹
    let power : Nat → F := forN (n - 1) (fun i p => write (i + 1) (p i * invq) p) (write 0 1 fun _ => 0)
    if (∃ i j, i < s ∧ j < s ∧ o.ev (x.e (i, j)).val = none) ∨
        (∃ i j, i < s ∧ j < s ∧ o.ev (ptrunc (a.e (i, j)) (2 * k)) = none) then none
    else
      let val1 := spread s n fun i j r => ((o.ev (x.e (i, j)).val).getD fun _ => 0) r
      let val2 := spread s n fun i j r => ((o.ev (ptrunc (a.e (i, j)) (2 * k))).getD fun _ => 0) r
      let val3 : Nat × Nat → F := forN n (fun j =>
        let coeff := power j ^ k
        let v1 : Nat × Nat → F := fun x => val1 (j * (s * s) + x.1 * s + x.2)
        let v2 : Nat × Nat → F := fun x => val2 (j * (s * s) + x.1 * s + x.2)
        let v3 := loop2 s s (fun i l cur => if i = l then (cur (i, l) - 1) * coeff else cur (i, l) * coeff) (cmul s v1 v2)
        let v3 := cmul s v3 v1
        forN s fun i => forN s fun l => write (i * s + l, j) (v3 (i, l))) fun _ => 0
      if ∃ i l, i < s ∧ l < s ∧ o.ip (fun r => val3 (i * s + l, r)) = none then none
      else some { x with e := loop2 s s (fun i l cur =>
        extend k ((o.ip fun r => val3 (i * s + l, r)).getD 0) (cur (i, l))) x.e }

/-- `trunc(x, x, k)`: the length of the entries longer than `k` becomes `k`. -/
def truncSto (x : PMat (Sto F)) (k : Nat) : PMat (Sto F) :=
  { x with e := fun ij => { x.e ij with len := min (x.e ij).len k } }

/-- Lines 333-427. -/
noncomputable def loopGeo (step : Nat → PMat (Sto F) → Option (PMat (Sto F))) (all : List Nat) (m : Nat) :
    Nat → Nat → Nat → PMat (Sto F) → Out (PMat (Sto F))
  | fuel, k, idx, x =>
    if k < m then
      match fuel with
      | 0 => .loops
      | fuel + 1 =>
        match step k x with
        | none => .error
        | some x =>
          match all[idx]? with
          | none => .ub
          | some k' =>
            let x := if 2 * k ≠ k' then truncSto x k' else x
            loopGeo step all m fuel k' (idx + 1) x
    else .ok x

/-- Lines 306-429: `newton_inv_trunc_geometric` when `x` is not equal to `a`. -/
noncomputable def geoBody (inv : Nat → (Nat × Nat → F) → Option (Nat × Nat → F)) (geo : Nat → Option (Geo F))
    (x : PMat (Sto F)) (a : PMat F[X]) (m : Nat) (thresh : Nat) : Out (PMat F[X]) :=
  match degrees m m thresh with
  | none => .loops
  | some all =>
    let k := all.headD 0
    match plain inv x a k with
    | .ok x =>
      match loopGeo (stepGeo geo a a.rows) all m m k 1 x with
      | .ok x => .ok (trunc true (vals x) (vals x) m)
      | .error => .error
      | .ub => .ub
      | .loops => .loops
    | .error => .error
    | .ub => .ub
    | .loops => .loops

/-- `x == a` of NTL. -/
def Eqm {α : Type} (x a : PMat α) : Prop :=
  x.rows = a.rows ∧ x.cols = a.cols ∧ ∀ i j, i < x.rows → j < x.cols → x.e (i, j) = a.e (i, j)

open Classical in
/-- `newton_inv_trunc_geometric`, lines 296-429.  Matrices, and not addresses, are compared on line 298; the
    recursive call has the default value of `thresh`.  It is called again if `a` is `0 x 0`, without end. -/
noncomputable def newtonGeo (inv : Nat → (Nat × Nat → F) → Option (Nat × Nat → F)) (geo : Nat → Option (Geo F)) (dflt : Nat) :
    Nat → PMat (Sto F) → PMat F[X] → Nat → Nat → Out (PMat F[X])
  | fuel, x, a, m, thresh =>
    if Eqm (vals x) a then
      match fuel with
      | 0 => .loops
      | fuel + 1 => newtonGeo inv geo dflt fuel (fresh F) a m dflt
    else geoBody inv geo x a m thresh

/-! ### General function -/

/-- What `inv_trunc` depends on: functions of NTL and thresholds. -/
structure Env (F : Type) [Field F] where
  /-- `inv` -/
  inv : Nat → (Nat × Nat → F) → Option (Nat × Nat → F)
  /-- FFT -/
  T : FFT F
  /-- `is_FFT_ready` -/
  fftReady : Nat → Bool
  /-- `middle_product` -/
  mid : PMat F[X] → PMat F[X] → Nat → Nat → Option (PMat F[X])
  /-- `multiply` -/
  mul : PMat F[X] → PMat F[X] → Option (PMat F[X])
  /-- `get_geometric_points` -/
  geo : Nat → Option (Geo F)
  /-- `MATRIX_INV_TRUNC_PLAIN_THRESHOLD_FFT` -/
  thrFFT : Nat
  /-- `MATRIX_INV_TRUNC_PLAIN_THRESHOLD_MIDDLE_SMALL` or `_LARGE` -/
  thrMid : Nat
  /-- `MATRIX_INV_TRUNC_PLAIN_THRESHOLD_GEOMETRIC_SMALL` or `_LARGE` -/
  thrGeo : Nat
  /-- `max_degree_middle_product_inv_trunc()` -/
  maxMid : Nat

/-- `inv_trunc`, lines 437-449.  `x` is the matrix that receives the result, `al` tells whether it is `a`. -/
noncomputable def invTrunc (E : Env F) (al : Bool) (x : PMat (Sto F)) (a : PMat F[X]) (m : Nat) : Out (PMat F[X]) :=
  if E.fftReady (nextPow2 (m + 2)) then newtonFFT E.inv E.T al x a m E.thrFFT
  else if m ≤ E.maxMid then newtonMiddle E.inv E.mid E.mul E.thrMid al x a m E.thrMid
  else newtonGeo E.inv E.geo E.thrGeo 1 x a m E.thrGeo

end Field

end PML.Ntl.Inv
