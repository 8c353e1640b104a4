import Verif.Ntl.BlockSeqSpec
import Verif.Ntl.MatEvalModel
import Verif.Ntl.SolveModel
import Mathlib.RingTheory.PowerSeries.Inverse
import Mathlib.RingTheory.PowerSeries.Trunc

/-!
# Block Wiedemann sequences

`ntl-extras/mat_lzz_pX_extra/src/mat_lzz_pX_sequence.cpp`, lines 12-486.

A loop that writes each entry of a new array once, without reading this array, is the function of its indices; the other loops are
modelled with their writes.  `ceil((n*1.0)/m)` and `ceil(sqrt(d))` are computed exactly.  `m` is positive.  What is printed is left out.
`fft` tells whether NTL uses the FFT for products modulo `g` (`zz_pXModulus::UseFFT` and `zz_pXMultiplier::UseFFT`), and `cross` is
`NTL_zz_pX_MOD_CROSSOVER`.  `inv` is the inverse of a matrix by NTL.
-/

namespace PML.Ntl.BlockSeq

open Polynomial PML.Ntl.Utils PML.Ntl.Inv PML.Ntl.Solve PML.Ntl.MatEval
open PML.Ntl.Struct (loopOut NVec)

variable {F : Type} [Field F]

/-- `ceil((n*1.0)/m)`. -/
def ceilDiv (n m : Nat) : Nat := (n + m - 1) / m

/-- `ceil(sqrt(d))`. -/
def ceilSqrt (d : Nat) : Nat := if d.sqrt * d.sqrt = d then d.sqrt else d.sqrt + 1

/-- `InvTrunc(f, n)` of NTL, for `f` with a nonzero constant coefficient. -/
noncomputable def invTrunc (f : F[X]) (n : Nat) : F[X] := PowerSeries.trunc n ((f : PowerSeries F)⁻¹)

/-- The polynomial whose transform is `F.HRep` in NTL: the reverse of the inverse of the reverse of `g`. -/
noncomputable def modH (g : F[X]) : F[X] :=
  preverse (invTrunc (preverse g g.natDegree) (g.natDegree - 1)) ((g.natDegree : Int) - 2)

/-- `MulMod_local(x, upper, a, B, F)`, lines 12-62: `x` and `upper`; `b` is the polynomial of the multiplier and `up` is `upper` before
    the call.  The transforms of NTL are exact, so that lines 48-60 give the product modulo `g` and the coefficients
    `n - 1, ..., 2 n - 3` of the product by `modH g`. -/
noncomputable def mulModLocal (fft : Bool) (cross : Nat) (b g a up : F[X]) : Out (F[X] × F[X]) :=
  let n := pdeg g
  let da := pdeg a
  if n ≤ da then .error
  else if da < 0 then .ok (0, up)
  else if !fft ∨ da ≤ cross then .ok (a * b % g, 0)
  else .ok (a * b % g, ofCoeffs (n - 1).toNat fun k => (a * modH g).coeff ((n - 1).toNat + k))

/-- `gen_pows(pow, upper, t, a, s, g, l, need_upper_products)`, lines 68-108: `pow` and `upper`.  `zz_pXModulus` is an error unless
    `deg(g) > 0`, `PowerMod` and `MulMod` are if an argument is not reduced. -/
noncomputable def genPows (fft : Bool) (cross : Nat) (upper : NVec F[X]) (t a : F[X]) (s : Nat) (g : F[X]) (l : Nat) (need : Bool) :
    Out (NVec F[X] × NVec F[X]) :=
  let n := pdeg g
  if n ≤ 0 then .error
  else if n ≤ pdeg a then .error
  else
    let b := a ^ s % g
    if l = 0 then .ub
    else
      let pow : Nat → F[X] := write 0 t fun _ => 0
      if need then
        andThen (loopOut (l - 1) (fun i (x : (Nat → F[X]) × (Nat → F[X])) =>
          andThen (mulModLocal fft cross b g (x.1 i) (x.2 i)) fun y =>
          .ok (write (i + 1) y.1 x.1, write i (preverse y.2 (n - 2)) x.2)) (pow, upper.e)) fun x =>
        andThen (mulModLocal fft cross b g (x.1 (l - 1)) (x.2 (l - 1))) fun y =>
        .ok (⟨l, x.1⟩, ⟨l, write (l - 1) (preverse y.2 (n - 2)) x.2⟩)
      else
        andThen (loopOut (l - 1) (fun i pow => if n ≤ pdeg (pow i) then .error else .ok (write (i + 1) (pow i * b % g) pow)) pow) fun pow =>
        .ok (⟨l, pow⟩, upper)

/-- `mul_special(c, cs, a, b)`, lines 113-246, for `b` with as many rows as `a` has columns, at least one.  `vandermonde` writes outside of its arrays if one of the matrices is zero, and is an error if both are. -/
noncomputable def mulSpecial (inv : Nat → (Nat × Nat → F) → Option (Nat × Nat → F)) (a b : PMat F[X]) : Out (PMat F[X] × PMat F[X]) :=
  let m := a.rows
  let n := a.cols
  let p := b.cols
  if deg a < 0 ∧ deg b < 0 then .error
  else if deg a < 0 ∨ deg b < 0 then .ub
  else
    let dA := (deg a).toNat
    let dB := (deg b).toNat
    let nb := dA + dB + 1
    let vdm := vdmFull 1 nb (fun i => (i : F))
    let vA := vdmSub 1 nb (dA + 1) vdm
    let vB := vdmSub 1 nb (dB + 1) vdm
    match inv nb vdm with
    | none => .error
    | some iv =>
      let tmp := coeffMatClear a m dA fun _ => 0
      let valA := cmul (dA + 1) vA tmp
      let tmp := setDimsReuse (dA + 1) (m * n) (n * p) tmp
      let tmp := coeffMatClear b n dB tmp
      let valB := cmul (dB + 1) vB tmp
      let valAp : Nat → Nat × Nat → F := fun i x => valA (i, x.1 * n + x.2)
      let valBp : Nat → Nat × Nat → F := fun i x => valB (i, x.1 * p + x.2)
      let valBsp : Nat → Nat × Nat → F := fun i x => if x.1 < n - 1 then valB (i, x.1 * p + x.2 + p) else 0
      let valC : Nat × Nat → F := forN nb (fun i => forN m fun u => forN p fun v => write (i, u * p + v) (cmul n (valAp i) (valBp i) (u, v))) fun _ => 0
      let valCs : Nat × Nat → F := forN nb (fun i => forN m fun u => forN p fun v => write (i, u * p + v) (cmul n (valAp i) (valBsp i) (u, v))) fun _ => 0
      let res := cmul nb iv valC
      let ress := cmul nb iv valCs
      .ok (⟨m, p, loop2 m p (fun u v _ => ofCoeffs nb fun i => res (i, u * p + v)) fun _ => 0⟩,
        ⟨m, p, loop2 m p (fun u v _ => ofCoeffs nb fun i => ress (i, u * p + v)) fun _ => 0⟩)

/-- `coeff(f, i)` of NTL, zero for a negative index. -/
noncomputable def coeffZ (f : F[X]) (i : Int) : F := if i < 0 then 0 else f.coeff i.toNat

/-- The entries `mat1[i][0..len-1]`, lines 269-283: blocks of `2 m` coefficients of the reverse of `alphas[i]`, from `-pad` on. -/
noncomputable def rowBlock (n m : Nat) (pad : Int) (alpha : F[X]) (j : Nat) : F[X] :=
  ofCoeffs (2 * m) fun k => coeffZ (preverse alpha ((n : Int) - 1)) (-pad + (2 * m * j + k : Nat))

/-- The column `i` of `mat2`, lines 285-298: blocks of `2 m` coefficients of `upper[i]`, from the last row on; the loop also updates
    `at`.  (`s` points to the coefficient `at`.) -/
noncomputable def colBlocks (len m : Nat) (u : F[X]) : Int × (Nat → F[X]) :=
  forN len (fun j x =>
    let dg := min (2 * (m : Int) - 1) (pdeg u - x.1)
    (x.1 + (dg + 1), write (len - j - 1) (ofCoeffs (2 * m) fun k => if (k : Int) ≤ dg then u.coeff (x.1 + k).toNat else 0) x.2)) (0, fun _ => 0)

/-- `get_quos(quos, alphas, upper, g, m)`, lines 251-313.  `%` of C truncates towards zero. -/
noncomputable def getQuos (inv : Nat → (Nat × Nat → F) → Option (Nat × Nat → F)) (alphas upper : NVec F[X]) (g : F[X]) (m : Nat) :
    Out (Nat × Nat → F[X]) :=
  let n := g.natDegree
  let pad : Int := 2 * m - ((n : Int) - 2 * m - 1).tmod (2 * m)
  let len := ceilDiv n (2 * m)
  let mat1 : PMat F[X] := ⟨alphas.len, len, fun x => rowBlock n m pad (alphas.e x.1) x.2⟩
  let mat2 : PMat F[X] := ⟨len, alphas.len, fun x => (colBlocks len m (upper.e x.2)).2 x.1⟩
  andThen (mulSpecial inv mat1 mat2) fun r =>
  .ok fun x => preverse (ptrunc (r.1.e x) (2 * m) + pshift (r.2.e x) (-(2 * m : Int))) (2 * (m : Int) - 1)

/-- `gen_sequence(res, t, a, g, m)`, lines 358-406. -/
noncomputable def genRow (fft : Bool) (cross : Nat) (inv : Nat → (Nat × Nat → F) → Option (Nat × Nat → F)) (t a g : F[X]) (m : Nat) :
    Out (Nat → Nat → Nat → F) :=
  let n := g.natDegree
  let d := 2 * ceilDiv n m + 1
  let w := ceilSqrt d
  andThen (genPows fft cross ⟨0, fun _ => 0⟩ t a 1 g w false) fun p1 =>
  andThen (genPows fft cross p1.2 1 a w g w true) fun p2 =>
  andThen (getQuos inv p1.1 p2.2 g m) fun quos =>
  .ok fun u v s =>
    let rem1 := ptrunc (ptrunc (p1.1.e u) (2 * m) * ptrunc (p2.1.e v) (2 * m)) (2 * m)
    let rem2 := ptrunc (ptrunc (quos (u, v)) (2 * m) * ptrunc g (2 * m)) (2 * m)
    (rem1 - rem2).coeff s

/-- The rows of `gen_sequence(mats, a, g, m)`, lines 431-444: row `i` from row `i - 1`. -/
def nextRows (g : F[X]) (row0 : Nat → Nat → Nat → F) : Nat → Nat → Nat → Nat → F
  | 0 => row0
  | i + 1 => fun u v j =>
    let l := -(1 / g.coeff 0) * nextRows g row0 i u v 0
    nextRows g row0 i u v (j + 1) + g.coeff (j + 1) * l

/-- `format(res, coeffs, d, m)`, lines 332-353; the index of an entry is (matrix, row, column).  The negative index `d - pow - 1` is
    not used. -/
def format (coeffs : Nat → Nat → Nat → Nat → F) (d m : Nat) : List (PMat F) :=
  let w := ceilSqrt d
  let res : Nat × Nat × Nat → F := forN m (fun i => forN w fun u => forN w fun v => forN m fun j x =>
    let pow := w * v + u
    if pow < d then write (d - pow - 1, m - i - 1, j) (coeffs i u v j) x else x) fun _ => 0
  (List.range d).map fun k => ⟨m, m, fun x => res (k, x.1, x.2)⟩

open Classical in
/-- `gen_sequence(mats, a, g, m)`, lines 411-453.  Division by the constant coefficient of `g` is an error if it is zero. -/
noncomputable def genSequence (fft : Bool) (cross : Nat) (inv : Nat → (Nat × Nat → F) → Option (Nat × Nat → F)) (a g : F[X]) (m : Nat) :
    Out (List (PMat F)) :=
  let n := g.natDegree
  let d := 2 * ceilDiv n m + 1
  andThen (genRow fft cross inv (X ^ (m - 1)) a g m) fun row0 =>
  if g.coeff 0 = 0 then .error else .ok (format (nextRows g row0) d m)

/-- `gen_sequence_naive(res, a, g, m)`, lines 458-486; `res[i][u][v][t]`. -/
noncomputable def genNaive (a g : F[X]) (m : Nat) : Out (Nat → Nat → Nat → Nat → F) :=
  let n := pdeg g
  let w := ceilSqrt (2 * ceilDiv g.natDegree m + 1)
  if n ≤ 0 then .error
  else if n ≤ pdeg a then .error
  else if n ≤ (m : Int) - 1 then .error
  else .ok fun i u v t => (a ^ (u + v * w) % g * X ^ (m - i - 1) % g).coeff t

end PML.Ntl.BlockSeq
