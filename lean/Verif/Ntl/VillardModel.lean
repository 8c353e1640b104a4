import Verif.Ntl.BivarResModel
import Verif.Ntl.SylvBlockModel

/-!
# Model of `resultant_villard` and `resultant_villard_tdeg`, `ntl-extras/lzz_pXY/src/lzz_pXY.cpp` lines 519-743

The two functions are modelled for two nonzero polynomials, up to the reconstruction of a matrix from the blocks and its determinant (lines 598-612 and
705-741), which are an arbitrary function `rest` of the block size, the number of points, `a0` and the blocks.  The random elements are given by the sequence of draws;
`cbrt` is the truncated value of the C function.
-/

namespace PML.Ntl.Bivar

open Polynomial PML.Ntl.Utils PML.Ntl.Inv PML.Ntl.Solve PML.Ntl.Struct

variable {p : Nat} [Fact p.Prime]

/-- What NTL provides: the tables of C90, XGCD, PlainInvTrunc and its crossover. -/
structure Env (p : Nat) [Fact p.Prime] where
  T : Tables (ZMod p)
  x : Xgcd p
  pit : (ZMod p)[X] → Nat → (ZMod p)[X]
  co : Nat

/-- Lines 586-596 (693-703): the blocks, or `none` if the function returns 0. -/
noncomputable def blockLoop (v : Env p) (m dl : Nat) (vf vg : Nat → (ZMod p)[X]) : Out (Option (Nat → PMat (ZMod p))) :=
  loopOut dl (fun i st =>
    match st with
    | none => .ok none
    | some B => andThen ((Sylv.make (vf i) (vg i)).topRight v.x v.pit v.co m) fun r => .ok (r.map fun b => write i b B)) (some fun _ => ⟨0, 0, fun _ => 0⟩)

/-- Lines 534-596 (642-703), with `dl` points: the loop and the values are those of `resultant` (lines 464-505), with the points `a0^(2i)`. -/
noncomputable def villardBlocks (v : Env p) (m dl : Nat) (draw : Nat → ZMod p) (f g : PVec (ZMod p)) : Out (Option (ZMod p × (Nat → PMat (ZMod p)))) :=
  andThen (attempts v.T (fun i => (draw i, 1)) f g dl 5 0) fun t =>
  if t.1 = 5 then .ok none
  else
    andThen (values v.T t.2.2.1 f dl t.2.2.2.1) fun vf =>
    andThen (values v.T t.2.2.1 g dl t.2.2.2.2) fun vg =>
    andThen (blockLoop v m dl vf vg) fun r => .ok (r.map fun B => (t.2.1.1, B))

/-- The end of the two functions; the value is `none` when the function returns 0. -/
noncomputable def villardEnd (v : Env p) (rest : Nat → Nat → ZMod p → (Nat → PMat (ZMod p)) → Out (ZMod p)[X]) (m dl : Nat) (draw : Nat → ZMod p) (f g : PVec (ZMod p)) :
    Out (Option (ZMod p)[X]) :=
  andThen (villardBlocks v m dl draw f g) fun r =>
  match r with
  | none => .ok none
  | some aB => andThen (rest m dl aB.1 aB.2) fun R => .ok (some R)

/-- `resultant_villard(res, f, g)`, lines 519-613; line 531 divides by `m`. -/
noncomputable def villard (v : Env p) (cbrt : Nat → Nat) (rest : Nat → Nat → ZMod p → (Nat → PMat (ZMod p)) → Out (ZMod p)[X]) (draw : Nat → ZMod p)
    (f g : PVec (ZMod p)) : Out (Option (ZMod p)[X]) :=
  let n := (max f.degY g.degY).toNat
  let d := (max f.degX g.degX).toNat
  let m := cbrt n
  if m = 0 then .ub
  else villardEnd v rest m (2 * 2 * d * ((n + m - 1) / m) + 2) draw f g

/-- `resultant_villard_tdeg(res, f, g)`, lines 615-743; line 627 divides by `m`. -/
noncomputable def villardTdeg (v : Env p) (cbrt : Nat → Nat) (rest : Nat → Nat → ZMod p → (Nat → PMat (ZMod p)) → Out (ZMod p)[X]) (draw : Nat → ZMod p)
    (f g : PVec (ZMod p)) : Out (Option (ZMod p)[X]) :=
  let nf := f.degY.toNat
  let ng := g.degY.toNat
  let rd := (f.tdeg * g.tdeg).toNat
  let m := cbrt ((nf + ng) / 2)
  if m = 0 then .ub
  else if min nf ng < m then .ok none
  else villardEnd v rest m (1 + nf + ng + 2 * (rd + m - 1) / m) draw f g

end PML.Ntl.Bivar
