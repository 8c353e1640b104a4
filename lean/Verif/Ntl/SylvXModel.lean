import Verif.Ntl.StructXModel

/-!
# Model of the Sylvester matrices over `K[X]`

`ntl-extras/structured_lzz_pX/src/sylvester_lzz_pX.cpp`, lines 1-361.  The conventions are those of `StructXModel.lean`; accesses to matrices are
checked too.  The function `middle_product` of `lzz_pX_middle_product.cpp` is a parameter `mp`; its contract is in `SylvXSpec.lean`.
-/

namespace PML.Ntl.SylvX

open Polynomial PML.Ntl.Utils PML.Ntl.Inv PML.Ntl.Solve PML.Ntl.Struct PML.Ntl.Bivar PML.Ntl.FftPoints PML.Ntl.StructX

variable {F : Type} [Field F]

/-- The members of `sylvester_lzz_pX`, structured_lzz_pX.h:362-366. -/
structure Sylv (F : Type) [Field F] where
  /-- the dimension -/
  n : Nat
  /-- the degrees in `y` -/
  dAy : Nat
  dBy : Nat
  /-- the degrees in `x` -/
  dAx : Int
  dBx : Int
  /-- the polynomials and their reversals -/
  a : PVec F
  b : PVec F
  revA : PVec F
  revB : PVec F

/-- The constructor, sylvester_lzz_pX.cpp:32-51. -/
noncomputable def Sylv.make (g : Junk F) (A B : PVec F) : Out (Sylv F) :=
  open Classical in
  andThen (A.get ((A.len : Int) - 1)) fun x =>
  andThen (if x = 0 then .ok true else andThen (B.get ((B.len : Int) - 1)) fun y => .ok (decide (y = 0))) fun bad =>
  if bad then .error
  else
    andThen (rev g.old A A.len) fun rA =>
    andThen (rev g.old B B.len) fun rB =>
    .ok ⟨A.len - 1 + (B.len - 1), A.len - 1, B.len - 1, A.degX, B.degX, A, B, rA, rB⟩

/-- `out.SetLength(n); for (i = 0; i < n; i++) { out[i] = 0; if (i < out1.length()) out[i] = f(out1[i]); if (i < out2.length()) out[i] = out[i] + f(out2[i]); }`,
    sylvester_lzz_pX.cpp:110-118 with the identity and 178-186 with a truncation. -/
noncomputable def addParts (f : F[X] → F[X]) (n : Nat) (out o1 o2 : PVec F) : Out (PVec F) :=
  loopPut 0 n (fun i _ =>
    andThen (if i < o1.len then andThen (o1.get (i : Int)) fun x => .ok (f x) else .ok 0) fun z =>
    if i < o2.len then andThen (o2.get (i : Int)) fun x => .ok (z + f x) else .ok z) { out with len := n }

/-- `mul_right(out, in)`, sylvester_lzz_pX.cpp:69-120.  The input is read before the output is written, so they may be the same. -/
noncomputable def Sylv.mulRight (g : Junk F) (o : Sylv F) (out inp : PVec F) : Out (PVec F) :=
  if inp.len ≠ o.n then .error
  else
    andThen (part g.old inp 0 o.dBy) fun inF =>
    andThen (part g.old inp o.dBy o.dAy) fun inG =>
    let dF := inF.degX
    let dG := inG.degX
    andThen (toKron g.e0 o.a (o.dAx + dF)) fun kA =>
    andThen (toKron g.e0 inF (o.dAx + dF)) fun kF =>
    andThen (toKron g.e0 o.b (o.dBx + dG)) fun kB =>
    andThen (toKron g.e0 inG (o.dBx + dG)) fun kG =>
    if o.dAx + dF = o.dBx + dG then
      andThen (fromKron g.ce0 out (kA * kF + kB * kG) (o.dAx + dF)) fun r => fill r o.n
    else
      andThen (fromKron g.ce0 g.old (kA * kF) (o.dAx + dF)) fun o1 =>
      andThen (fromKron g.ce0 g.old (kB * kG) (o.dBx + dG)) fun o2 =>
      addParts (fun x => x) o.n out o1 o2

/-- `mul_right_trunc(out, in, s)`, sylvester_lzz_pX.cpp:126-188, for `s ≥ 0`. -/
noncomputable def Sylv.mulRightTrunc (g : Junk F) (o : Sylv F) (out inp : PVec F) (s : Nat) : Out (PVec F) :=
  if inp.len ≠ o.n then .error
  else
    andThen (part g.old inp 0 o.dBy) fun pF =>
    andThen (part g.old inp o.dBy o.dAy) fun pG =>
    let inF := truncV pF s
    let inG := truncV pG s
    let tA := truncV o.a s
    let tB := truncV o.b s
    let dA := tA.degX
    let dB := tB.degX
    let dF := inF.degX
    let dG := inG.degX
    andThen (toKron g.e0 tA (dA + dF)) fun kA =>
    andThen (toKron g.e0 inF (dA + dF)) fun kF =>
    andThen (toKron g.e0 tB (dB + dG)) fun kB =>
    andThen (toKron g.e0 inG (dB + dG)) fun kG =>
    if dA + dF = dB + dG then
      andThen (fromKron g.ce0 out (kA * kF + kB * kG) (dA + dF)) fun r => truncFill s r o.n
    else
      andThen (fromKron g.ce0 g.old (kA * kF) (dA + dF)) fun o1 =>
      andThen (fromKron g.ce0 g.old (kB * kG) (dB + dG)) fun o2 =>
      addParts (fun x => ptrunc x s) o.n out o1 o2

/-- `f << k` of NTL: a shift to the right when `k` is negative. -/
noncomputable def shl (f : F[X]) (k : Int) : F[X] := if 0 ≤ k then f * X ^ k.toNat else f /ₘ X ^ (-k).toNat

/-- The two parts of a product, with `f` applied to their entries and zeros after them, sylvester_lzz_pX.cpp:231-239 with the identity and 302-310
    with a truncation. -/
noncomputable def joinParts (f : F[X] → F[X]) (n dA dB : Nat) (out oA oB : PVec F) : Out (PVec F) :=
  andThen (loopPut 0 oA.len (fun i _ => andThen (oA.get (i : Int)) fun x => .ok (f x)) { out with len := n }) fun r =>
  andThen (loopPut oA.len (dB - oA.len) (fun _ _ => .ok 0) r) fun r =>
  andThen (loopPut dB oB.len (fun i _ => andThen (oB.get (i : Int)) fun x => .ok (f x)) r) fun r =>
  loopPut (dB + oB.len) (dA - oB.len) (fun _ _ => .ok 0) r

/-- The middle products of `mul_left` and `mul_left_trunc`, sylvester_lzz_pX.cpp:205-229 and 273-300: the reversed polynomials have degrees `dAx` and
    `dBx`, the input has degree `d`. -/
noncomputable def midParts (g : Junk F) (mp : F[X] → F[X] → Int → Int → Out F[X]) (dAy dBy : Nat) (dAx dBx : Int) (rA rB inp : PVec F) :
    Out (PVec F × PVec F) :=
  let d := inp.degX
  andThen (toKron g.e0 rA (dAx + d)) fun kA =>
  andThen (toKron g.e0 rB (dBx + d)) fun kB =>
  if dAx = dBx then
    andThen (toKron g.e0 inp (dAx + d)) fun kI =>
    andThen (mp kA (shl kI dAx) (dAy * (dAx + d + 1) + dAx) (dBy * (dAx + d + 1) - 1)) fun xA =>
    andThen (mp kB (shl kI dBx) (dBy * (dAx + d + 1) + dBx) (dAy * (dAx + d + 1) - 1)) fun xB =>
    andThen (fromKron g.ce0 g.old xA (dAx + d)) fun oA =>
    andThen (fromKron g.ce0 g.old xB (dAx + d)) fun oB => .ok (oA, oB)
  else
    andThen (toKron g.e0 inp (dAx + d)) fun iA =>
    andThen (toKron g.e0 inp (dBx + d)) fun iB =>
    andThen (mp kA (shl iA dAx) (dAy * (dAx + d + 1) + dAx) (dBy * (dAx + d + 1) - 1)) fun xA =>
    andThen (mp kB (shl iB dBx) (dBy * (dBx + d + 1) + dBx) (dAy * (dBx + d + 1) - 1)) fun xB =>
    andThen (fromKron g.ce0 g.old xA (dAx + d)) fun oA =>
    andThen (fromKron g.ce0 g.old xB (dBx + d)) fun oB => .ok (oA, oB)

/-- `mul_left(out, in)`, sylvester_lzz_pX.cpp:193-240. -/
noncomputable def Sylv.mulLeft (g : Junk F) (mp : F[X] → F[X] → Int → Int → Out F[X]) (o : Sylv F) (out inp : PVec F) : Out (PVec F) :=
  if inp.len ≠ o.n then .error
  else
    andThen (midParts g mp o.dAy o.dBy o.dAx o.dBx o.revA o.revB inp) fun r =>
    joinParts (fun x => x) o.n o.dAy o.dBy out r.1 r.2

/-- `mul_left_trunc(out, in, s)`, sylvester_lzz_pX.cpp:246-311, for `s ≥ 0`. -/
noncomputable def Sylv.mulLeftTrunc (g : Junk F) (mp : F[X] → F[X] → Int → Int → Out F[X]) (o : Sylv F) (out inp : PVec F) (s : Nat) : Out (PVec F) :=
  if inp.len ≠ o.n then .error
  else
    andThen (midParts g mp o.dAy o.dBy (truncV o.revA s).degX (truncV o.revB s).degX (truncV o.revA s) (truncV o.revB s) (truncV inp s)) fun r =>
    joinParts (fun x => ptrunc x s) o.n o.dAy o.dBy out r.1 r.2

/-- `M[i][j] = f(M[i][j])`. -/
def mupd (M : PMat F[X]) (i j : Int) (f : F[X] → F[X]) : Out (PMat F[X]) :=
  if 0 ≤ i ∧ i < M.rows ∧ 0 ≤ j ∧ j < M.cols then .ok { M with e := write (i.toNat, j.toNat) (f (M.e (i.toNat, j.toNat))) M.e } else .ub

/-- `to_dense(Mdense)`, sylvester_lzz_pX.cpp:317-330. -/
noncomputable def Sylv.toDense (o : Sylv F) (x : PMat F[X]) : Out (PMat F[X]) :=
  andThen (loopOut o.n (fun i M => loopOut o.n (fun j M => mupd M i j fun _ => 0) M) (x.setDims o.n o.n)) fun M =>
  andThen (loopOut o.dBy (fun i M => loopOut (o.dAy + 1) (fun j M =>
    andThen (o.a.get (j : Int)) fun z => mupd M ((i + j : Nat) : Int) i fun _ => z) M) M) fun M =>
  loopOut o.dAy (fun i M => loopOut (o.dBy + 1) (fun j M =>
    andThen (o.b.get (j : Int)) fun z => mupd M ((i + j : Nat) : Int) ((i + o.dBy : Nat) : Int) fun _ => z) M) M

/-- `phi_plus_generators(G, H)`, sylvester_lzz_pX.cpp:335-361. -/
noncomputable def Sylv.gens (o : Sylv F) (G H : PMat F[X]) : Out (PMat F[X] × PMat F[X]) :=
  andThen (loopOut o.n (fun i (s : PMat F[X] × PMat F[X]) =>
    andThen (mupd s.2 i 0 fun _ => 0) fun H =>
    andThen (mupd H i 1 fun _ => 0) fun H =>
    andThen (mupd s.1 i 0 fun _ => 0) fun G =>
    andThen (mupd G i 1 fun _ => 0) fun G => .ok (G, H)) (G.setDims o.n 2, H.setDims o.n 2)) fun s =>
  andThen (mupd s.2 ((o.dBy : Int) - 1) 0 fun _ => 1) fun H =>
  andThen (mupd H ((o.dAy : Int) + o.dBy - 1) 1 fun _ => 1) fun H =>
  andThen (loopOut o.dAy (fun i G => andThen (o.a.get (i : Int)) fun z => mupd G ((i + o.dBy : Nat) : Int) 0 (· + z)) s.1) fun G =>
  andThen (o.a.get (o.dAy : Int)) fun z =>
  andThen (mupd G 0 0 (· + z)) fun G =>
  andThen (loopOut o.dBy (fun i G => andThen (o.b.get (i : Int)) fun z =>
    andThen (mupd G i 0 (· - z)) fun G => mupd G ((i + o.dAy : Nat) : Int) 1 (· + z)) G) fun G =>
  andThen (o.b.get (o.dBy : Int)) fun z =>
  andThen (if o.dAy + o.dBy = 0 then .ub else mupd G (((o.dBy % (o.dAy + o.dBy) : Nat)) : Int) 0 (· - z)) fun G =>
  andThen (mupd G 0 1 (· + z)) fun G => .ok (G, H)

end PML.Ntl.SylvX
