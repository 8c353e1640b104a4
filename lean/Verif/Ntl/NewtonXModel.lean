import Verif.Ntl.SylvXModel
import Verif.Ntl.SylvModel

/-!
# Model of the inversion of the Sylvester matrices over `K[X]`

`ntl-extras/structured_lzz_pX/src/sylvester_lzz_pX.cpp`, lines 363-505.  The inversion of the matrix at `x = 0` is that of `SylvModel.lean`, over
`zz_p`, so the field is `ZMod p`.  The precisions are numbers `m ≥ 0`.
-/

namespace PML.Ntl.NewtonX

open Polynomial PML.Ntl.Utils PML.Ntl.Inv PML.Ntl.Solve PML.Ntl.Bivar PML.Ntl.FftPoints PML.Ntl.StructX PML.Ntl.SylvX
open PML.Ntl.Struct (loopOut)

variable {p : Nat} [Fact p.Prime]

/-- `degrees(n)`, sylvester_lzz_pX.cpp:367-380: the loop, with the list built so far. -/
def degLoop (n : Nat) (acc : List Nat) : List Nat :=
  if h : 1 < n then degLoop ((if n % 2 = 1 then n + 1 else n) / 2) (n :: acc) else n :: acc
termination_by n
decreasing_by split <;> omega

/-- `degrees(n)`, sylvester_lzz_pX.cpp:367-380. -/
def degrees (n : Nat) : List Nat := degLoop n []

/-- `all_deg[i]`. -/
def lget (l : List Nat) (i : Nat) : Out Nat :=
  match l[i]? with
  | some x => .ok x
  | none => .ub

/-- `a + b`, mat_lzz_pX_arith.cpp:22-34. -/
noncomputable def mAdd (a b : PMat (ZMod p)[X]) : Out (PMat (ZMod p)[X]) :=
  if a.rows ≠ b.rows ∨ a.cols ≠ b.cols then .error else .ok ⟨a.rows, a.cols, fun ij => a.e ij + b.e ij⟩

/-- `a - b`, mat_lzz_pX_arith.cpp:125-137. -/
noncomputable def mSub (a b : PMat (ZMod p)[X]) : Out (PMat (ZMod p)[X]) :=
  if a.rows ≠ b.rows ∨ a.cols ≠ b.cols then .error else .ok ⟨a.rows, a.cols, fun ij => a.e ij - b.e ij⟩

/-- `trunc(a, k)`, mat_lzz_pX_utils.cpp:248-254. -/
noncomputable def mTrunc (a : PMat (ZMod p)[X]) (k : Nat) : PMat (ZMod p)[X] := ⟨a.rows, a.cols, fun ij => ptrunc (a.e ij) k⟩

/-- `a >> k`, mat_lzz_pX_utils.cpp:304-310. -/
noncomputable def mShr (a : PMat (ZMod p)[X]) (k : Nat) : PMat (ZMod p)[X] := ⟨a.rows, a.cols, fun ij => a.e ij /ₘ X ^ k⟩

/-- `a << k`, mat_lzz_pX_utils.cpp:296-302. -/
noncomputable def mShl (a : PMat (ZMod p)[X]) (k : Nat) : PMat (ZMod p)[X] := ⟨a.rows, a.cols, fun ij => a.e ij * X ^ k⟩

/-- `-a`, mat_lzz_pX_arith.h:265-267. -/
noncomputable def mNeg (a : PMat (ZMod p)[X]) : PMat (ZMod p)[X] := ⟨a.rows, a.cols, fun ij => -a.e ij⟩

/-- `transpose(a)`, mat_lzz_pX_utils.cpp:190-219. -/
def mT (a : PMat (ZMod p)[X]) : PMat (ZMod p)[X] := ⟨a.cols, a.rows, fun ij => a.e (ij.2, ij.1)⟩

/-- `conv(a)`, mat_lzz_pX_utils.cpp:540-546. -/
noncomputable def mConv (a : PMat (ZMod p)) : PMat (ZMod p)[X] := ⟨a.rows, a.cols, fun ij => C (a.e ij)⟩

/-- The members `G` and `H` of the matrix that `inv` of `sylvester_lzz_p` builds, sylvester_lzz_p.cpp:472-483 and toeplitz_like_minus_lzz_p.cpp:31-34: the
    same calls as in `Struct.Sylv.inv`, of `SylvModel.lean`, which keeps only the other members. -/
noncomputable def invGens (s : Struct.Sylv p) (xg : Struct.Xgcd p) : Out (Option (PMat (ZMod p) × PMat (ZMod p))) :=
  andThen (s.prepare xg) fun s =>
  if s.singular = some true then .ok none
  else
    andThen s.generators fun UV =>
    andThen (s.solveMat xg Struct.newMat UV.1) fun iU =>
    andThen (s.solveTMat xg Struct.newMat (Struct.denseT UV.2)) fun iV =>
    let iU := Struct.orEmpty iU
    let U : PMat (ZMod p) := ⟨iU.rows, iU.cols, fun ij => -iU.e ij⟩
    let V := Struct.denseT (Struct.orEmpty iV)
    andThen (Struct.Like.makeTM U V) fun _ => .ok (some (U, V))

/-- The polynomial of the constant coefficients, sylvester_lzz_pX.cpp:394-398. -/
noncomputable def atZero (a : PVec (ZMod p)) : (ZMod p)[X] := ofCoeffs a.len fun i => (a.at' i).coeff 0

/-- The parameters of a run: the uninitialised data and the functions of NTL. -/
structure Ctx (p : Nat) [Fact p.Prime] where
  /-- uninitialised data, and the members that a constructor leaves -/
  g : Junk (ZMod p)
  x : Int
  y : Int
  /-- `XGCD` -/
  xg : Struct.Xgcd p
  /-- `middle_product` -/
  mp : (ZMod p)[X] → (ZMod p)[X] → Int → Int → Out (ZMod p)[X]

/-- `toeplitz_like_minus_lzz_pX(G, transpose(H))`. -/
noncomputable def Ctx.like (c : Ctx p) (G H : PMat (ZMod p)[X]) : Out (Like (ZMod p)) := Like.make c.g c.x c.y G (mT H)

/-- `mul_right_trunc(y, G, k)` of the Sylvester matrix. -/
noncomputable def Ctx.right (c : Ctx p) (o : Sylv (ZMod p)) (y G : PMat (ZMod p)[X]) (k : Nat) : Out (PMat (ZMod p)[X]) :=
  matRight c.g o.n o.n (fun r v => o.mulRightTrunc c.g r v k) y G

/-- `mul_left_trunc(z, H, k)` of the Sylvester matrix. -/
noncomputable def Ctx.left (c : Ctx p) (o : Sylv (ZMod p)) (z H : PMat (ZMod p)[X]) (k : Nat) : Out (PMat (ZMod p)[X]) :=
  matLeft c.g o.n o.n (fun r v => o.mulLeftTrunc c.g c.mp r v k) z H

/-- `iM.mul_right_trunc(y, y, k)`; the product is computed in another matrix. -/
noncomputable def Ctx.iright (c : Ctx p) (iM : Like (ZMod p)) (y : PMat (ZMod p)[X]) (k : Nat) : Out (PMat (ZMod p)[X]) :=
  matRight c.g iM.m iM.n (fun r v => iM.mulRightTrunc c.g r v k) newMat y

/-- `iM.mul_left_trunc(z, z, k)`. -/
noncomputable def Ctx.ileft (c : Ctx p) (iM : Like (ZMod p)) (z : PMat (ZMod p)[X]) (k : Nat) : Out (PMat (ZMod p)[X]) :=
  matLeft c.g iM.m iM.n (fun r v => iM.mulLeftTrunc c.g r v k) newMat z

/-- One iteration of the loop, sylvester_lzz_pX.cpp:424-443: the new `k`, `G`, `H` and `iM`. -/
noncomputable def newtonStep (c : Ctx p) (o : Sylv (ZMod p)) (U V : PMat (ZMod p)[X]) (degs : List Nat) (k idx : Nat) (G H : PMat (ZMod p)[X])
    (iM : Like (ZMod p)) : Out (Nat × PMat (ZMod p)[X] × PMat (ZMod p)[X] × Like (ZMod p)) :=
  andThen (c.right o newMat G (2 * k)) fun y =>
  andThen (mAdd y (mTrunc U (2 * k))) fun y =>
  let y := mShr y k
  andThen (c.left o newMat H (2 * k)) fun z =>
  andThen (mSub z (mT (mTrunc V (2 * k)))) fun z =>
  let z := mShr z k
  andThen (c.iright iM y k) fun y =>
  andThen (c.ileft iM z k) fun z =>
  andThen (mSub G (mShl y k)) fun G =>
  andThen (mSub H (mShl z k)) fun H =>
  andThen (lget degs idx) fun d =>
  let k' := if 2 * k ≠ d then d else 2 * k
  let G := if 2 * k ≠ d then mTrunc G d else G
  let H := if 2 * k ≠ d then mTrunc H d else H
  andThen (c.like G H) fun iM => .ok (k', G, H, iM)

/-- The loop of `newton_inv_trunc`, sylvester_lzz_pX.cpp:422-444, at most `fuel` times. -/
noncomputable def newtonLoop (c : Ctx p) (o : Sylv (ZMod p)) (U V : PMat (ZMod p)[X]) (degs : List Nat) (m : Nat) :
    Nat → Nat → Nat → PMat (ZMod p)[X] → PMat (ZMod p)[X] → Like (ZMod p) → Out (Like (ZMod p))
  | 0, k, _, _, _, iM => if k < m then .loops else .ok iM
  | fuel + 1, k, idx, G, H, iM =>
    if k < m then
      andThen (newtonStep c o U V degs k idx G H iM) fun s => newtonLoop c o U V degs m fuel s.1 (idx + 1) s.2.1 s.2.2.1 s.2.2.2
    else .ok iM

/-- `newton_inv_trunc(iM, m)`, sylvester_lzz_pX.cpp:387-445. -/
noncomputable def newtonInv (c : Ctx p) (o : Sylv (ZMod p)) (m : Nat) : Out (Like (ZMod p)) :=
  andThen (o.gens newMat newMat) fun UV =>
  let a0 := atZero o.a
  let b0 := atZero o.b
  if Bivar.pdeg a0 = 0 ∨ Bivar.pdeg b0 = 0 then .error
  else
    andThen (invGens (Struct.Sylv.make a0 b0) c.xg) fun r =>
    match r with
    | none => .error
    | some r =>
      let G := mConv r.1
      let H := mT (mConv r.2)
      andThen (c.like G H) fun iM =>
      andThen (lget (degrees m) 0) fun k =>
      newtonLoop c o UV.1 UV.2 (degrees m) m m k 1 G H iM

/-- `for (k = 0; k <= dx; k++) SetCoeff(s, k + shift, coeff(x, k))`. -/
noncomputable def setBlock (s x : (ZMod p)[X]) (dx shift : Nat) : (ZMod p)[X] :=
  forN (dx + 1) (fun k s => s.update (k + shift) (x.coeff k)) s

/-- The loops that copy a part of the solutions, sylvester_lzz_pX.cpp:471-477 and 493-499. -/
noncomputable def copyBlock (n dx shift : Nat) (G H Gs Hs : PMat (ZMod p)[X]) : Out (PMat (ZMod p)[X] × PMat (ZMod p)[X]) :=
  loopOut n (fun a s => loopOut 2 (fun c (s : PMat (ZMod p)[X] × PMat (ZMod p)[X]) =>
    andThen (mget G a c) fun x =>
    andThen (mupd s.1 a c fun s => setBlock s x dx shift) fun Gs =>
    andThen (mget H c a) fun x =>
    andThen (mupd s.2 a c fun s => setBlock s x dx shift) fun Hs => .ok (Gs, Hs)) s) (Gs, Hs)

/-- One iteration of the loop of `high_precision_inv_trunc`, sylvester_lzz_pX.cpp:483-500, on the new `G`, `H`, `Gsol` and `Hsol`. -/
noncomputable def highStep (c : Ctx p) (o : Sylv (ZMod p)) (iM : Like (ZMod p)) (dx i : Nat)
    (s : PMat (ZMod p)[X] × PMat (ZMod p)[X] × PMat (ZMod p)[X] × PMat (ZMod p)[X]) :
    Out (PMat (ZMod p)[X] × PMat (ZMod p)[X] × PMat (ZMod p)[X] × PMat (ZMod p)[X]) :=
  andThen (matRight c.g o.n o.n (fun r v => o.mulRight c.g r v) newMat s.1) fun y =>
  andThen (matLeft c.g o.n o.n (fun r v => o.mulLeft c.g c.mp r v) newMat s.2.1) fun z =>
  andThen (c.iright iM (mShr y (dx + 1)) (dx + 1)) fun y =>
  andThen (c.ileft iM (mShr z (dx + 1)) (dx + 1)) fun z =>
  andThen (copyBlock o.n dx ((i + 1) * (dx + 1)) (mNeg y) (mNeg z) s.2.2.1 s.2.2.2) fun r =>
  .ok (mNeg y, mNeg z, r.1, r.2)

/-- `high_precision_inv_trunc(iM, m)`, sylvester_lzz_pX.cpp:449-505.  The degree `dx` is that of two nonzero polynomials.  The variable `shift` is
    `(i + 1) (dx + 1)` at the `i`-th iteration, from 0. -/
noncomputable def highInv (c : Ctx p) (o : Sylv (ZMod p)) (m : Nat) : Out (Like (ZMod p)) :=
  let dx := (max o.dAx o.dBx).toNat
  andThen (newtonInv c o (dx + 1)) fun iM =>
  let nb := if m > m / (dx + 1) * (dx + 1) then m / (dx + 1) + 1 else m / (dx + 1)
  let sol : PMat (ZMod p)[X] := ⟨o.n, 2, fun _ => 0⟩
  andThen (copyBlock o.n dx 0 iM.G (mT iM.H) sol sol) fun r =>
  andThen (loopOut (nb - 1) (highStep c o iM dx) (iM.G, mT iM.H, r.1, r.2)) fun s =>
  Like.make c.g c.x c.y (mTrunc s.2.2.1 m) (mTrunc s.2.2.2 m)

end PML.Ntl.NewtonX
