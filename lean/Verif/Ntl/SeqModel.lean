import Verif.Ntl.StructModel
import Mathlib.Algebra.Polynomial.FieldDivision

/-!
# Annihilators of sequences of truncated polynomials

`ntl-extras/lzz_pX_seq/src/lzz_pX_seq.cpp`, lines 18-378 and 543-551.

A `Vec<zz_pX>` is a list of polynomials; a loop that fills a new vector entry by entry is `List.map` or
`List.zipWith`.  A `zz_pXY` is the polynomial in `Y` that it represents: C89 proves that the operators used here
return a normalised representation of the product, the difference, the shift and the truncation, and that `degY()`
is then the degree, `-1` for zero.  What is printed when `verbose` holds is left out.
-/

namespace PML.Ntl.Seq

open Polynomial PML.Ntl.Utils PML.Ntl.Inv PML.Ntl.Solve
open PML.Ntl.Struct (loopOut)

variable {F : Type} [Field F]

/-- `f.degY()`, `lzz_pXY.cpp:71-74`. -/
noncomputable def degY (f : Polynomial F[X]) : Int := pdeg f

/-- `trunc_x(f, d)`, `lzz_pXY.cpp:382-390`. -/
noncomputable def truncX (f : Polynomial F[X]) (d : Nat) : Polynomial F[X] := ofCoeffs (f.natDegree + 1) fun j => ptrunc (f.coeff j) d

/-- `v[i]`. -/
def rd {α : Type} (v : List α) (i : Int) : Out α :=
  if i < 0 then .ub else match v[i.toNat]? with | some x => .ok x | none => .ub

/-- `mul(S, a)`, lines 18-26. -/
noncomputable def mulX (S : List F[X]) (a : F[X]) : List F[X] := S.map fun s => s * a

/-- The sum of lines 33-36: `f_0 S_i + ... + f_dy S_(i+dy)`. -/
noncomputable def window (S : List F[X]) (f : Polynomial F[X]) (dy : Int) (i : Nat) : Out F[X] :=
  loopOut (dy + 1).toNat (fun t val => andThen (rd S (i + t : Nat)) fun s => .ok (val + f.coeff t * s)) 0

/-- A loop filling a new vector of length `n` with values that may be missing. -/
def tabulate {α : Type} (n : Nat) (g : Nat → Out α) : Out (List α) :=
  loopOut n (fun i res => andThen (g i) fun x => .ok (res ++ [x])) []

/-- `mul(S, f)` for a bivariate `f`, lines 28-40.  `SetLength` is an error for a negative length. -/
noncomputable def mulXY (S : List F[X]) (f : Polynomial F[X]) : Out (List F[X]) :=
  let len : Int := min 0 ((S.length : Int) - degY f)
  if len < 0 then .error else tabulate len.toNat (window S f (degY f))

/-- `mulTrunc(S, a, d)`, lines 67-76, for `d ≥ 0`. -/
noncomputable def mulTrunc (S : List F[X]) (a : F[X]) (d : Nat) : List F[X] := S.map fun s => ptrunc (s * a) d

/-- The value of lines 83-86: each `MulTrunc` replaces `val`, and is an error for `d < 0`. -/
noncomputable def lastTerm (S : List F[X]) (f : Polynomial F[X]) (dy d : Int) (i : Nat) : Out F[X] :=
  loopOut (dy + 1).toNat (fun t _ => andThen (rd S (i + t : Nat)) fun s =>
    if d < 0 then .error else .ok (ptrunc (f.coeff t * s) d.toNat)) 0

/-- `mulTrunc(S, f, d)` for a bivariate `f`, lines 78-90. -/
noncomputable def mulTruncXY (S : List F[X]) (f : Polynomial F[X]) (d : Int) : Out (List F[X]) :=
  let len : Int := min 0 ((S.length : Int) - degY f)
  if len < 0 then .error else tabulate len.toNat (lastTerm S f (degY f) d)

/-- `add(S, T)`, lines 121-128: the length is the smaller one. -/
noncomputable def add (S T : List F[X]) : List F[X] := List.zipWith (· + ·) S T

open Classical in
/-- `index_non_zero(S)`, lines 140-145. -/
noncomputable def indexNonZero (S : List F[X]) : Int := if S.length = 0 then -1 else S.findIdx fun s => s ≠ 0

open Classical in
/-- `is_zero_seq(S)`, lines 155-160. -/
noncomputable def isZeroSeq (S : List F[X]) : Bool := S.all fun s => s = 0

open Classical in
/-- `valuation(a)`, lines 167-173: `-1` for zero. -/
noncomputable def valuation (a : F[X]) : Int :=
  if pdeg a = -1 then -1 else match (List.range (a.natDegree + 1)).find? fun i => a.coeff i ≠ 0 with | some i => i | none => 0

/-- `shift(S, s)`, lines 175-184, for `s ≥ 0`: the first `s` entries are removed. -/
def shift (S : List F[X]) (s : Nat) : List F[X] := S.drop s

open Classical in
/-- `InvMod(a, f)` of NTL: an error unless `deg(a) < deg(f)` and `0 < deg(f)`, and if there is no inverse. -/
noncomputable def invMod (a f : F[X]) : Out F[X] :=
  if pdeg a ≥ pdeg f ∨ pdeg f = 0 then .error else if h : IsCoprime a f then .ok (h.choose % f) else .error

open Classical in
/-- `MulMod(x, a, b, f)` of NTL: an error unless `a` and `b` are reduced modulo `f`. -/
noncomputable def mulMod (a b f : F[X]) : Out F[X] :=
  if pdeg a ≥ pdeg f ∨ pdeg b ≥ pdeg f ∨ pdeg f = 0 then .error else .ok (a * b % f)

/-- `solve(a, l, r, d)`, lines 197-209.  `SetCoeff` is an error for a negative index. -/
noncomputable def solve (l r : F[X]) (d : Nat) : Out F[X] :=
  let s := valuation r
  let lShifted := pshift l (-s)
  let rShifted := pshift r (-s)
  if (d : Int) - s < 0 then .error
  else
    let mod : F[X] := X ^ ((d : Int) - s).toNat
    andThen (invMod rShifted mod) fun rInv => mulMod lShifted rInv mod

/-- `check_cancel(S, gens, d)`, lines 211-222. -/
noncomputable def checkCancel (S : List F[X]) (d : Int) : List (Polynomial F[X]) → Out Bool
  | [] => .ok true
  | f :: gens =>
    andThen (if d = -1 then mulXY S f else mulTruncXY S f d) fun res =>
    if !isZeroSeq res then .ok false else checkCancel S d gens

/-- The variables of `kurakin`: `us`, `gens`, `I_seq` and `I_fs`. -/
structure St (F : Type) [Field F] where
  us : Nat → List F[X]
  gens : Nat → Polynomial F[X]
  iSeq : Int → Option (List F[X])
  iFs : Int → Option (Polynomial F[X])

/-- `M[k]` of a `std::map`, where a new entry is zero. -/
noncomputable def mapGet (M : Int → Option (Polynomial F[X])) (k : Int) : Polynomial F[X] := (M k).getD 0

/-- `I_seq[k] = u; I_fs[k] = f;` -/
noncomputable def St.record (k : Int) (u : List F[X]) (f : Polynomial F[X]) (x : St F) : St F :=
  { x with iSeq := write k (some u) x.iSeq, iFs := write k (some f) x.iFs }

/-- The first loop, lines 248-272; the second component is `running`. -/
noncomputable def phase1 (d : Nat) (S : List F[X]) (t : Nat) (x : St F × F[X]) : St F × F[X] :=
  let g : Polynomial F[X] := C x.2
  let u := mulTrunc S x.2 d
  let y : St F := { x.1 with gens := write t g x.1.gens, us := write t u x.1.us }
  let k := indexNonZero u
  (if (y.iSeq k).isNone ∧ 0 ≤ k then y.record k u g else y, pshift x.2 1)

/-- The loop `while (true)`, lines 296-356, on `u` and `f`.  The first argument bounds the number of iterations. -/
noncomputable def reduce (d : Nat) (x : St F) : Nat → List F[X] × Polynomial F[X] → Out (List F[X] × Polynomial F[X])
  | 0, _ => .loops
  | fuel + 1, (u, f) =>
    if u.length = 0 then .ok (u, f)
    else if isZeroSeq u then .ok (u, f)
    else
      let k := indexNonZero u
      if k = u.length then .ok (u, f)
      else
        match x.iSeq k with
        | none => .ok (u, f)
        | some v =>
          if k < 0 then .ok (u, f)
          else
            andThen (rd u k) fun l =>
            andThen (rd v k) fun r =>
            if valuation l < valuation r then .ok (u, f)
            else
              andThen (solve l r d) fun a =>
              reduce d x fuel (add u (mulTrunc v (-a) d), truncX (f - C a * mapGet x.iFs k) d)

/-- Lines 276-357 for one `t`; `len` is the length of `S`. -/
noncomputable def advance (d len : Nat) (t : Nat) (x : St F) : Out (St F) :=
  let u := x.us t
  if u.length = 0 then .ok x
  else if isZeroSeq u then .ok x
  else
    andThen (reduce d x (len + 1) (shift u 1, x.gens t * X)) fun r =>
    .ok { x with us := write t r.1 x.us, gens := write t r.2 x.gens }

/-- Lines 359-374 for one `t`. -/
noncomputable def update (t : Nat) (x : St F) : Out (St F) :=
  let u := x.us t
  let k := indexNonZero u
  if k < u.length ∧ 0 ≤ k then
    match x.iSeq k with
    | some v =>
      andThen (rd u k) fun l =>
      andThen (rd v k) fun r =>
      .ok (if valuation l < valuation r then x.record k u (x.gens t) else x)
    | none => .ok (x.record k u (x.gens t))
  else .ok x

/-- The body of the loop over `s`, lines 275-376. -/
noncomputable def stage (d len : Nat) (x : St F) : Out (St F) :=
  andThen (loopOut d (advance d len) x) fun x => loopOut d update x

/-- `kurakin(d, S, gens)`, lines 237-378.  `SetLength` is an error for a negative length. -/
noncomputable def kurakin (d : Int) (S : List F[X]) : Out (List (Polynomial F[X])) :=
  if d < 0 then .error
  else
    let d := d.toNat
    let x := (forN d (phase1 d S) (⟨fun _ => [], fun _ => 0, fun _ => none, fun _ => none⟩, 1)).1
    andThen (loopOut (S.length - 1) (fun _ => stage d S.length) x) fun x => .ok ((List.range d).map x.gens)

end PML.Ntl.Seq
