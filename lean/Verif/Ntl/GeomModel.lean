import Verif.Ntl.SeriesModel

/-!
# Model of `ntl-extras/lzz_pX_CRT/src/lzz_pX_Multipoint_Geometric.cpp`

Coefficients are in a field `K`.  Vectors are functions of the index.  `none` stands for an error
raised by NTL (division by zero, logic error), an out-of-bounds access, or the use of an `fftRep`
that is not in the table.  `middle_product` is a parameter `mp` (see `Verif.Ntl.MiddleModel` for its
own model); `MulTrunc` is the product modulo `X^n`; `fftRep` objects are as in `Verif.Ntl.Fft`.
-/

namespace PML.Ntl.Geom

open Polynomial
open PML.Ntl.Series (build)

variable {K : Type} [Field K]

/-- The loop for the polynomial of `evaluate`, lines 124-129, after `c` rounds: the coefficients
    of `f`, and `tmp`. -/
def fLoop (r q : K) : Nat → (Nat → K) × K
  | 0 => (Function.update (fun _ => 0) 0 1, r)
  | c + 1 =>
    let s := fLoop r q c
    (Function.update s.1 (c + 1) (s.1 c * s.2), s.2 * q)

/-- State of the loop of lines 139-145. -/
structure XState (K : Type) where
  x : Nat → K
  xs : Nat → K
  tmp : K
  powS : K

/-- The loop for the arrays of `evaluate`, lines 131-145, after `c` rounds. -/
def xLoop (s invR invQ : K) : Nat → XState K
  | 0 => ⟨Function.update (fun _ => 0) 0 1, Function.update (fun _ => 0) 0 1, invR, s⟩
  | c + 1 =>
    let u := xLoop s invR invQ c
    let xi := u.x c * u.tmp
    ⟨Function.update u.x (c + 1) xi, Function.update u.xs (c + 1) (xi * u.powS), u.tmp * invQ, u.powS * s⟩

/-- State of the loop of lines 174-180. -/
structure DState (K : Type) where
  diff : Nat → K
  prod : Nat → K
  qk : K

/-- First loop of the simultaneous inversion, lines 169-180, after `c` rounds. -/
def dLoop (q : K) : Nat → DState K
  | 0 => ⟨Function.update (fun _ => 0) 0 1, Function.update (fun _ => 0) 0 1, q⟩
  | c + 1 =>
    let u := dLoop q c
    let d := u.qk - 1
    ⟨Function.update u.diff (c + 1) d, Function.update u.prod (c + 1) (d * u.prod c), u.qk * q⟩

/-- Second loop of the simultaneous inversion, lines 182-188, for `i = c, …, 1`: `inv_diff`. -/
def invLoop (diff prod : Nat → K) : Nat → K → (Nat → K) → (Nat → K)
  | 0, tmp, inv => Function.update inv 0 tmp
  | c + 1, tmp, inv => invLoop diff prod c (tmp * diff (c + 1)) (Function.update inv (c + 1) (prod c * tmp))

/-- State of the loop of lines 200-229. -/
structure WState (K : Type) where
  w : Nat → K
  ws : Nat → K
  g1 : Nat → K
  g2 : Nat → K
  y : Nat → K
  z : Nat → K
  zs : Nat → K
  qq : K
  t : K
  qk : K
  invQk : K
  powInvs : K

/-- The loop for the arrays of `interpolate`, lines 153-159 and 191-229, after `c` rounds. -/
def wLoop (q invQ invs : K) (invDiff prod : Nat → K) : Nat → WState K
  | 0 =>
    let e : Nat → K := Function.update (fun _ => 0) 0 1
    ⟨e, e, e, e, e, e, e, 1, 1, 1, 1, invs⟩
  | c + 1 =>
    let u := wLoop q invQ invs invDiff prod c
    let i := c + 1
    let qq := u.qq * u.qk
    let t := u.t * u.invQk
    let wi := u.w c * invDiff i
    let wsi := wi * u.powInvs
    let tmp := qq * wi
    let odd := i % 2 = 1
    ⟨Function.update u.w i wi, Function.update u.ws i wsi,
      Function.update u.g1 i (if odd then -tmp else tmp), Function.update u.g2 i tmp,
      Function.update u.y i ((if odd then -prod i else prod i) * t),
      Function.update u.z i (if odd then -wi else wi), Function.update u.zs i (if odd then -wsi else wsi),
      qq, t, u.qk * q, u.invQk * invQ, u.powInvs * invs⟩

/-- The fields of `zz_pX_Multipoint_Geometric`, lzz_pX_CRT.h:410-416.  `known` is the content of the
    map `known_degrees`; `pts0` is the entry `pts[0]` set by the constructor for `n = 1`. -/
structure Obj (K : Type) [Field K] where
  n : Nat
  idxK : Nat
  feasible : Bool
  doE : Bool
  doI : Bool
  x : Nat → K
  xs : Nat → K
  w : Nat → K
  ws : Nat → K
  y : Nat → K
  z : Nat → K
  zs : Nat → K
  f : K[X]
  g1 : K[X]
  g2 : K[X]
  g1fft : K[X]
  g2fft : K[X]
  known : List (Nat × K[X])
  pts0 : K

/-- `known_degrees.insert`: an entry already present is kept. -/
noncomputable def insertKnown (l : List (Nat × K[X])) (d : Nat) (v : K[X]) : List (Nat × K[X]) :=
  match l.lookup d with
  | some _ => l
  | none => l ++ [(d, v)]

/-- `prepare_degree`, lines 67-81, for `d ≥ 0`. -/
noncomputable def prepareDegree (o : Obj K) (d : Nat) : Option (Obj K) :=
  if o.n ≤ d then none
  else if o.feasible then
    let k := nextPow2 (d + o.n)
    some { o with known := insertKnown o.known d (toRep k 0 (d + o.n - 1) o.f) }
  else some o

/-- Constructor, lines 95-237.  `feasible` is the outcome of the test of lines 112-115 on the prime,
    `flags` that of `decide_FFT` (lines 47-62).  For `d = 0` the entry `x[0]` of an empty vector is
    written. -/
noncomputable def construct [DecidableEq K] (feasible : Bool) (flags : Bool) (r s : K) (d : Nat) :
    Option (Obj K) :=
  if d = 0 then none
  else if r = 0 then none
  else
    let q := r * r
    let invR := r⁻¹
    let F := fLoop r q (2 * d - 2)
    let U := xLoop s invR (invR * invR) (d - 1)
    let D := dLoop q (d - 1)
    if D.prod (d - 1) = 0 then none
    else
      let invDiff := invLoop D.diff D.prod (d - 1) (D.prod (d - 1))⁻¹ D.diff
      if s = 0 then none
      else
        let W := wLoop q q⁻¹ s⁻¹ invDiff D.prod (d - 1)
        let idxK := nextPow2 (2 * d - 1)
        let f := build (2 * d - 1) F.1
        let g1 := build d W.g1
        let g2 := build d W.g2
        let o : Obj K :=
          ⟨d, idxK, feasible, flags, flags, U.x, U.xs, W.w, W.ws, W.y, W.z, W.zs, f, g1, g2, 0, 0, [], s * r⟩
        if feasible then
          match prepareDegree o (d - 1) with
          | none => none
          | some o => some { o with g1fft := toRepAll idxK g1, g2fft := toRepAll idxK g2 }
        else some o

/-- Calls that change the state of an object: the setters of lines 29-42 and `prepare_degree`. -/
inductive Call where
  | prepare (d : Nat)
  | setEvaluate (b : Bool)
  | setInterpolate (b : Bool)

/-- Effect of a call. -/
noncomputable def call (o : Obj K) : Call → Option (Obj K)
  | .prepare d => prepareDegree o d
  | .setEvaluate b => some { o with doE := b }
  | .setInterpolate b => some { o with doI := b }

/-- Effect of a sequence of calls. -/
noncomputable def calls (o : Obj K) : List Call → Option (Obj K)
  | [] => some o
  | c :: cs => match call o c with
    | none => none
    | some o' => calls o' cs

/-- `get_q`, lines 242-250. -/
noncomputable def getQ (o : Obj K) : K := if o.n = 1 then 1 else (o.x 1 * o.x 1)⁻¹

/-- `get_s`, lines 255-261. -/
noncomputable def getS (o : Obj K) : K := if o.n = 1 then 1 else o.xs 1 / o.x 1

/-- Search in `known_degrees`, lines 305-310 (and 482-487 with all degrees increased by one). -/
def findDegree (l : List (Nat × K[X])) (dp : Nat) : Nat → Nat :=
  l.foldl fun found e => if dp ≤ e.1 ∧ e.1 < found then e.1 else found

/-- `TofftRep(a_fft, a, k, 0, da); mul(b_fft, a_fft, f_fft); FromfftRep(b, b_fft, lo, hi)`, lines
    321-329, 488-496, 604-612, 720-727.  The size `f_fft.k` is the one of the entry of degree `key`. -/
noncomputable def fftStep (o : Obj K) (key : Nat) (a : K[X]) (da lo hi : Nat) : Option K[X] :=
  match o.known.lookup key with
  | none => none
  | some ff =>
    let k := nextPow2 (key + o.n)
    some (fromRep lo hi (mulRep k (toRep k 0 da a) ff))

open Classical in
/-- `evaluate`, lines 273-343. -/
noncomputable def evaluate (mp : K[X] → K[X] → Nat → Nat → Option K[X]) (o : Obj K) (P : K[X]) :
    Option (Nat → K) :=
  if P ≠ 0 ∧ o.n ≤ P.natDegree then none
  else if o.n = 0 then some fun _ => 0
  else if o.n = 1 then some fun _ => P.coeff 0
  else if P = 0 then some fun _ => 0
  else
    let fft := o.feasible && o.doE
    let dp := if fft then findDegree o.known P.natDegree (o.n - 1) else P.natDegree
    let a := build (dp + 1) fun i => o.xs (dp - i) * P.coeff (dp - i)
    let b := if fft then fftStep o dp a dp dp (dp + o.n - 1) else mp a o.f dp (o.n - 1)
    match b with
    | none => none
    | some b => some fun i => o.x i * b.coeff i

/-- `get_point(pt, i)`, lzz_pX_Multipoint.cpp:18-29, for `i < n`: `pts` is set by the constructor for
    `n = 1` (lines 105-109), and otherwise at the first call, to the values of `X`. -/
noncomputable def getPoint (mp : K[X] → K[X] → Nat → Nat → Option K[X]) (o : Obj K) (i : Nat) : Option K :=
  if o.n = 1 then some o.pts0
  else match evaluate mp o X with
    | none => none
    | some v => some (v i)

/-- The do-while loop of `evaluate(val, f, nb)`, lines 361-376: `val` and `f_loc` at `idx`.  `D` is
    the length of the input `f`. -/
noncomputable def evalMoreLoop (mp : K[X] → K[X] → Nat → Nat → Option K[X]) (o : Obj K) (pow : K) (D nb : Nat) :
    Nat → Nat → (Nat → K) → K[X] → Option (Nat → K)
  | 0, _, _, _ => none
  | fuel + 1, idx, val, g =>
    match evaluate mp o g with
    | none => none
    | some tmp =>
      let val := fun j => if idx ≤ j ∧ j < idx + o.n then tmp (j - idx) else val j
      let g := build D fun i => g.coeff i * pow ^ i
      let idx := idx + o.n
      if idx < nb then evalMoreLoop mp o pow D nb fuel idx val g else some val

/-- `evaluate(val, f, nb)`, lines 350-378.  The `i`-th factor `pow_loc` is `pow^i`. -/
noncomputable def evaluateMore [DecidableEq K] (mp : K[X] → K[X] → Nat → Nat → Option K[X]) (o : Obj K)
    (P : K[X]) (nb : Nat) : Option (Nat → K) :=
  if nb = 0 then some fun _ => 0
  else evalMoreLoop mp o (getQ o ^ o.n) (Series.len P) nb nb 0 (fun _ => 0) P

/-- One product of `interpolate`, lines 406-418 and 425-437 (copied in 534-565, 652-683, 767-798). -/
noncomputable def mulStep (o : Obj K) (k g gfft : K[X]) : K[X] :=
  if o.feasible && o.doI then fromRep 0 (o.n - 1) (mulRep o.idxK (toRepAll o.idxK k) gfft)
  else (k * g) %ₘ X ^ o.n

/-- Lines 401-437 (copied in 529-565, 647-683, 762-798): both products, from `k_i = v_i`.  All the
    coefficients of `k` below `n` are set again before the second product. -/
noncomputable def interpCore (o : Obj K) (v : Nat → K) : K[X] :=
  let k := build o.n v
  let h := mulStep o k o.g1 o.g1fft
  let k := build o.n fun i => h.coeff (o.n - 1 - i) * o.y (o.n - 1 - i)
  mulStep o k o.g2 o.g2fft

/-- `interpolate`, lines 385-448.  `aliased` says that `val` is `f.rep`: since `f = 0` empties it,
    `val[0]` is then out of bounds. -/
noncomputable def interpolate (aliased : Bool) (o : Obj K) (val : Nat → K) : Option K[X] :=
  if o.n = 0 then some 0
  else if aliased then none
  else if o.n = 1 then some (C (val 0))
  else
    let h := interpCore o fun i => val i * o.w i
    some (build o.n fun i => h.coeff (o.n - 1 - i) * o.zs i)

/-- `t_evaluate`, lines 456-506; `size` is `output_size` (`none` for `-1`).  Entries `xs[i]` with
    `i ≥ n` are out of bounds.  `aliased` as in `interpolate`. -/
noncomputable def tEvaluate (mp : K[X] → K[X] → Nat → Nat → Option K[X]) (aliased : Bool) (o : Obj K)
    (val : Nat → K) (size : Option Nat) : Option K[X] :=
  let size := size.getD o.n
  if size = 0 then some 0
  else if o.n = 0 then some 0
  else if aliased then none
  else if o.n = 1 then some (C (val 0))
  else
    let a := build o.n fun i => o.x (o.n - 1 - i) * val (o.n - 1 - i)
    let b :=
      if o.feasible && o.doE then
        let key := findDegree o.known (size - 1) (o.n - 1)
        fftStep o key a (o.n - 1) (o.n - 1) (o.n - 1 + key)
      else mp a o.f (o.n - 1) (size - 1)
    match b with
    | none => none
    | some b => if o.n < size then none else some (build size fun i => o.xs i * b.coeff i)

/-- `t_interpolate`, lines 514-573. -/
noncomputable def tInterpolate (o : Obj K) (P : K[X]) : Nat → K :=
  if o.n = 0 then fun _ => 0
  else if o.n = 1 then fun _ => P.coeff 0
  else
    let h := interpCore o fun i => P.coeff i * o.ws i
    fun i => h.coeff (o.n - 1 - i) * o.z i

/-- `mul_right`, lines 587-629. -/
noncomputable def mulRight (mp : K[X] → K[X] → Nat → Nat → Option K[X]) (o : Obj K) (P : Nat → K) :
    Option (Nat → K) :=
  if o.n = 0 then some fun _ => 0
  else if o.n = 1 then some fun _ => P 0
  else
    let a := build o.n fun i => o.xs (o.n - 1 - i) * P (o.n - 1 - i)
    let b := if o.feasible && o.doE then fftStep o (o.n - 1) a (o.n - 1) (o.n - 1) (o.n - 1 + o.n - 1)
      else mp a o.f (o.n - 1) (o.n - 1)
    match b with
    | none => none
    | some b => some fun i => o.x i * b.coeff i

/-- `inv_mul_right`, lines 636-691. -/
noncomputable def invMulRight (o : Obj K) (val : Nat → K) : Nat → K :=
  if o.n = 0 then fun _ => 0
  else if o.n = 1 then fun _ => val 0
  else
    let h := interpCore o fun i => val i * o.w i
    fun i => h.coeff (o.n - 1 - i) * o.zs i

/-- `mul_left`, lines 699-737. -/
noncomputable def mulLeft (mp : K[X] → K[X] → Nat → Nat → Option K[X]) (o : Obj K) (val : Nat → K) :
    Option (Nat → K) :=
  if o.n = 0 then some fun _ => 0
  else if o.n = 1 then some fun _ => val 0
  else
    let a := build o.n fun i => o.x (o.n - 1 - i) * val (o.n - 1 - i)
    let b := if o.feasible && o.doE then fftStep o (o.n - 1) a (o.n - 1) (o.n - 1) (o.n - 1 + o.n - 1)
      else mp a o.f (o.n - 1) (o.n - 1)
    match b with
    | none => none
    | some b => some fun i => o.xs i * b.coeff i

/-- `inv_mul_left`, lines 745-806. -/
noncomputable def invMulLeft (o : Obj K) (P : Nat → K) : Nat → K :=
  if o.n = 0 then fun _ => 0
  else if o.n = 1 then fun _ => P 0
  else
    let h := interpCore o fun i => P i * o.ws i
    fun i => h.coeff (o.n - 1 - i) * o.z i

end PML.Ntl.Geom
