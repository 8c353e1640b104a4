import Verif.Ntl.Fft
import Verif.Ntl.BivarModel

/-!
# Model of `ntl-extras/lzz_pX_CRT/src/lzz_pX_Multipoint_FFT.cpp`

Evaluation, interpolation and their transposes at the points of an FFT of length `n = 2^k`.  The FFT of NTL (`TofftRep`, `FromfftRep`) is a
parameter, with an unknown order of the points; vectors have a length, and reading beyond it is undefined.
-/

namespace PML.Ntl.FftPoints

open Polynomial PML.Ntl.Utils PML.Ntl.Inv PML.Ntl.Solve PML.Ntl.Struct

/-- The loop of `RevInc`, lines 20-24, with `m = 2^(j-1)`, and line 25. -/
def revLoop : Nat → Nat → Nat
  | 0, a => a
  | j + 1, a => if a.testBit j then revLoop j (a ^^^ 2 ^ j) else a ^^^ 2 ^ j

/-- `RevInc(a, k)`, lines 13-27.  For `k = 0`, `1L << (k-1)` is undefined. -/
def revInc (a k : Nat) : Out Nat := if k = 0 then .ub else .ok (revLoop k a)

/-- `BitReverse_init`, lines 30-38: `j` is updated also after the last entry. -/
def bitReverseInit (k : Nat) : Out (Nat → Nat) :=
  andThen (loopOut (2 ^ k) (fun i (s : (Nat → Nat) × Nat) => andThen (revInc s.2 k) fun j => .ok (write i s.2 s.1, j)) (fun _ => 0, 0)) fun s =>
  .ok s.1

/-- An object: `n`, `k`, `indices`, `do_bit_reverse`. -/
structure Obj where
  n : Nat
  k : Nat
  indices : Nat → Nat
  rev : Bool

variable {F : Type} [Field F]

/-- The FFT of NTL of length `2^k`: `TofftRep`, and `FromfftRep` for `2^k` coefficients. -/
structure Tool (F : Type) [Field F] where
  fwd : Nat → F[X] → Nat → F
  bwd : Nat → (Nat → F) → F[X]

variable [DecidableEq F]

/-- The loop of lines 77-85: `pow1`, `pow2` and `do_bit_reverse`. -/
def orderLoop (n : Nat) (tbl : Nat → F) (ind : Nat → Nat) : Out (F × F × Bool) :=
  loopOut n (fun i (s : F × F × Bool) =>
    if ¬ (tbl i = s.1 ∨ tbl (ind i) = s.2.1) then .error
    else .ok (s.1 * tbl 1, s.2.1 * tbl (n / 2), if ¬ tbl (ind i) = s.2.1 then false else s.2.2)) (1, 1, true)

/-- The constructor, lines 45-86.  `fft` tells whether the modulus is an FFT prime, `maxRoot` is `zz_pInfo->MaxRoot`. -/
noncomputable def construct (T : Tool F) (fft : Bool) (maxRoot : Nat) (n : Nat) : Out Obj :=
  let k := nextPow2 n
  if n ≠ 2 ^ k then .error
  else if fft = false then .error
  else if maxRoot < k then .error
  else
    andThen (bitReverseInit k) fun ind =>
    andThen (orderLoop n (T.fwd k X) ind) fun s =>
    .ok ⟨n, k, ind, s.2.2⟩

/-- `get_FFT_points(n)`, lines 226-230. -/
noncomputable def getPoints (T : Tool F) (fft : Bool) (maxRoot : Nat) (n : Nat) : Out Obj := construct T fft maxRoot (2 ^ nextPow2 n)

/-- Reading entry `i` of a vector. -/
def vget {α : Type} (v : NVec α) (i : Nat) : Out α := if i < v.len then .ok (v.e i) else .ub

omit [DecidableEq F]

/-- `evaluate(val, f)`, lines 91-102. -/
noncomputable def evaluate (T : Tool F) (o : Obj) (f : F[X]) : Out (NVec F) :=
  andThen (loopOut o.n (fun i (val : Nat → F) => .ok (write i (T.fwd o.k f i) val)) fun _ => 0) fun val => .ok ⟨o.n, val⟩

/-- `interpolate(f, val)`, lines 107-116; the table `wk` is entirely rewritten. -/
noncomputable def interpolate (T : Tool F) (o : Obj) (val : NVec F) : Out F[X] :=
  andThen (loopOut o.n (fun i (tbl : Nat → F) => andThen (vget val i) fun c => .ok (write i c tbl)) fun _ => 0) fun tbl =>
  .ok (T.bwd o.k tbl)

/-- `t_evaluate(f, val, output_size)`, lines 121-169; `SetLength` of a negative length is an error. -/
noncomputable def tEvaluate (T : Tool F) (o : Obj) (val : NVec F) (outputSize : Int) : Out F[X] :=
  let size := if outputSize = -1 then (o.n : Int) else outputSize
  andThen (loopOut o.n (fun i (tmp : Nat → F) =>
    andThen (vget val (if o.rev then o.indices i else i)) fun c => .ok (write i c tmp)) fun _ => 0) fun tmp =>
  let tbl := T.fwd o.k (ofCoeffs o.n tmp)
  if size < 0 then .error
  else
    andThen (loopOut size.toNat (fun i (f : Nat → F) =>
      if i < o.n then .ok (write i (tbl (if o.rev then o.indices i else i)) f) else .ub) fun _ => 0) fun f =>
    .ok (ofCoeffs size.toNat f)

/-- `t_interpolate(val, f)`, lines 174-221. -/
noncomputable def tInterpolate (T : Tool F) (o : Obj) (f : F[X]) : Out (NVec F) :=
  if o.n = 1 then .ok ⟨1, fun _ => f.coeff 0⟩
  else if o.n = 2 then
    if (2 : F) = 0 then .error
    else .ok ⟨2, write 1 ((f.coeff 0 - f.coeff 1) * (1 / 2)) (write 0 ((f.coeff 0 + f.coeff 1) * (1 / 2)) fun _ => 0)⟩
  else
    let tbl := forN o.n (fun i tbl => write i (f.coeff (if o.rev then o.indices i else i)) tbl) fun _ => 0
    let tmp := T.bwd o.k tbl
    .ok ⟨o.n, forN o.n (fun i val => write (if o.rev then o.indices i else i) (tmp.coeff i) val) fun _ => 0⟩

end PML.Ntl.FftPoints
