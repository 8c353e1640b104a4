import Verif.Ntl.SylvModel
import Verif.Ntl.SeriesModel

/-!
# Top right block of the inverse of a Sylvester matrix

`sylvester_lzz_p::top_right_block_inverse`, `ntl-extras/structured_lzz_p/src/sylvester_lzz_p.cpp` lines 489-603, for two nonzero polynomials and `m ≥ 0`.
`InvTruncMul` is that of C59.
-/

namespace PML.Ntl.Struct

open Polynomial PML.Ntl.Utils PML.Ntl.Inv PML.Ntl.Solve PML.Ntl.Series

variable {p : Nat} [Fact p.Prime]

/-- `f[i]` of NTL: the vector of coefficients ends with the leading one; a read after its end is undefined. -/
noncomputable def coeffAt (f : (ZMod p)[X]) (i : Nat) : Out (ZMod p) :=
  open Classical in if f ≠ 0 ∧ i ≤ f.natDegree then .ok (f.coeff i) else .ub

/-- Lines 514-518 and 520-524: `k` coefficients are reversed. -/
noncomputable def reversal (f : (ZMod p)[X]) (k : Nat) : Out (ZMod p)[X] :=
  andThen (loopOut k (fun i e => andThen (coeffAt f (k - 1 - i)) fun c => .ok (write i c e)) fun _ => 0) fun e => .ok (ofCoeffs k e)

/-- The index of lines 584 and 593-595.  It is at least `n - 2m ≥ -n`, so that `n` is added at most once, and never if `n ≥ 2m`. -/
def vIndex (n m i j : Nat) : Nat := if i + m + 1 ≤ n + j then n + j - (i + m + 1) else n + (n + j) - (i + m + 1)

/-- The arrays `U0` and `U1`, lines 556-567, before line 568. -/
noncomputable def blockU (a b s t top bottom : (ZMod p)[X]) (m : Nat) : (Nat → ZMod p) × (Nat → ZMod p) :=
  let dA := a.natDegree
  let dB := b.natDegree
  let lC := a.coeff dA * b.coeff dB
  let U : (Nat → ZMod p) × (Nat → ZMod p) := forN (max m dB) (fun i U =>
    (write i (lC * (s.coeff i + top.coeff i) - b.coeff i) U.1, write i (lC * (s.coeff i + top.coeff i)) U.2)) (fun _ => 0, fun _ => 0)
  if dB < m then
    forN dA (fun i U => (write (i + dB) (lC * (t.coeff i + bottom.coeff i)) U.1, write (i + dB) (lC * (t.coeff i + bottom.coeff i) - a.coeff i) U.2)) U
  else U

/-- The product of lines 570-601, where the matrices `L0, L1, R0, R1` are given by their entries. -/
def blockOf (n m : Nat) (U0 U1 V0 V1 : Nat → ZMod p) : PMat (ZMod p) :=
  ⟨m, m, fun ij => ∑ l ∈ Finset.range m, ((if l ≤ ij.1 then U0 (ij.1 - l) else 0) * V0 (vIndex n m l ij.2) +
    (if l ≤ ij.1 then U1 (ij.1 - l) else 0) * V1 (vIndex n m l ij.2))⟩

/-- `top_right_block_inverse(block, m)`, lines 489-603; the return value 0 is `none`.  `V0` and `V1` are the coefficients of `rS_over_rB` and
    `rT_over_rA`, which have less than `n + 1` of them (lines 530-533, 542-545). -/
noncomputable def Sylv.topRight (o : Sylv p) (g : Xgcd p) (pit : (ZMod p)[X] → Nat → (ZMod p)[X]) (co : Nat) (m : Nat) : Out (Option (PMat (ZMod p))) :=
  open Classical in
  if o.n < m then .error
  else
    let d := g.d o.a o.b
    if d = 0 ∨ d.natDegree ≠ 0 then .ok none
    else
      let id := (d.coeff 0)⁻¹
      let s := if id ≠ 1 then C id * g.s o.a o.b else g.s o.a o.b
      let t := if id ≠ 1 then C id * g.t o.a o.b else g.t o.a o.b
      let dA := o.a.natDegree
      let dB := o.b.natDegree
      andThen (reversal s dB) fun rS =>
      andThen (reversal t dA) fun rT =>
      andThen (ofOpt (invTruncMul pit co rS o.revB o.n)) fun x =>
      let top := ptrunc (ofCoeffs (max m dB) (fun i => x.coeff (o.n - 1 - i)) * ptrunc o.b (max m dB)) (max m dB)
      andThen (ofOpt (invTruncMul pit co rT o.revA o.n)) fun y =>
      let bottom := if dB < m then ptrunc (ofCoeffs dA (fun i => y.coeff (o.n - 1 - i)) * o.a) (dA + 1) else 0
      let U := blockU o.a o.b s t top bottom m
      if o.n ≤ dB then .ub
      else
        let U0 := write dB (U.1 dB - o.b.coeff dB) U.1
        .ok (some (blockOf o.n m U0 U.2 (fun i => x.coeff i) fun i => y.coeff i))

end PML.Ntl.Struct
