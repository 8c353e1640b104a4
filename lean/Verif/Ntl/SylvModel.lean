import Verif.Ntl.LikeModel
import Mathlib.RingTheory.PowerSeries.Inverse
import Mathlib.RingTheory.PowerSeries.Trunc

/-!
# Model of `ntl-extras/structured_lzz_p/src/sylvester_lzz_p.cpp`

Sylvester matrices.  The modulus is a prime `p`.  The model is for two nonzero polynomials: NTL gives degree `-1` to the zero
polynomial, and `n` is then one less than the other degree; this is not modelled.  The functions test `&out == &in` and then work on a
fresh result.  `XGCD` of NTL is a parameter; `MulMod`, `build`, `UpdateMap`, `InvTrunc`, `MulTrunc` are given by what NTL documents.
`top_right_block_inverse` (lines 489-603) is in `SylvBlockModel.lean`.
-/

namespace PML.Ntl.Struct

open Polynomial PML.Ntl.Utils PML.Ntl.Inv PML.Ntl.Solve PML.Ntl.Middle

variable {p : Nat} [Fact p.Prime]

/-- `XGCD(d, s, t, a, b)` of NTL. -/
structure Xgcd (p : Nat) where
  /-- the gcd -/
  d : (ZMod p)[X] → (ZMod p)[X] → (ZMod p)[X]
  /-- the factor of `a` -/
  s : (ZMod p)[X] → (ZMod p)[X] → (ZMod p)[X]
  /-- the factor of `b` -/
  t : (ZMod p)[X] → (ZMod p)[X] → (ZMod p)[X]

/-- `MulMod(x, y, f)` of NTL: an error if `f` is a constant or if `x` or `y` is not reduced. -/
noncomputable def mulMod (x y f : (ZMod p)[X]) : Out (ZMod p)[X] :=
  open Classical in
  if f.degree ≤ x.degree ∨ f.degree ≤ y.degree ∨ f.natDegree = 0 then .error else .ok (x * y % f)

/-- `build(F, f)` of NTL, or the constructor of `zz_pXModulus`: an error if `f` is a constant. -/
noncomputable def buildModulus (f : (ZMod p)[X]) : Out Unit := if f.natDegree = 0 then .error else .ok ()

/-- `build(B, g, F)` of NTL, or the constructor of `zz_pXMultiplier`: an error if `g` is not reduced. -/
noncomputable def buildMultiplier (g f : (ZMod p)[X]) : Out Unit :=
  open Classical in if f.degree ≤ g.degree then .error else .ok ()

/-- `UpdateMap(x, v, B, F)` of NTL: `x[i]` is the inner product of `v` with the coefficients of `g X^i mod f`.  `x` has `deg(f)` entries. -/
noncomputable def updateMap (v : Nat → ZMod p) (g f : (ZMod p)[X]) (i : Nat) : ZMod p :=
  ∑ j ∈ Finset.range f.natDegree, v j * (g * X ^ i % f).coeff j

/-- `InvTrunc(f, n)` of NTL, for `f` with a nonzero constant coefficient. -/
noncomputable def invTruncX (f : (ZMod p)[X]) (n : Nat) : (ZMod p)[X] := PowerSeries.trunc n ((f : PowerSeries (ZMod p))⁻¹)

/-- The members of `sylvester_lzz_p`; the members `modA`, `modB`, `multIA`, `multIB` are determined by `a`, `b`, `invA`, `invB`. -/
structure Sylv (p : Nat) where
  /-- `a` -/
  a : (ZMod p)[X]
  /-- `b` -/
  b : (ZMod p)[X]
  /-- `n` -/
  n : Nat
  /-- `revA` -/
  revA : (ZMod p)[X]
  /-- `revB` -/
  revB : (ZMod p)[X]
  /-- `invA` -/
  invA : (ZMod p)[X]
  /-- `invB` -/
  invB : (ZMod p)[X]
  /-- `invSerA` -/
  serA : (ZMod p)[X]
  /-- `invSerB` -/
  serB : (ZMod p)[X]
  /-- `singular`: `none` is -1, `some true` is 1, `some false` is 0 -/
  singular : Option Bool

/-- The constructor `sylvester_lzz_p(A, B)`, lines 31-46. -/
noncomputable def Sylv.make (a b : (ZMod p)[X]) : Sylv p :=
  { a := a, b := b, n := a.natDegree + b.natDegree
    revA := ofCoeffs (a.natDegree + 1) fun i => a.coeff (a.natDegree - i)
    revB := ofCoeffs (b.natDegree + 1) fun i => b.coeff (b.natDegree - i)
    invA := 0, invB := 0, serA := 0, serB := 0, singular := none }

/-- `mul_right(out, in)` on vectors, lines 65-86. -/
noncomputable def Sylv.right (s : Sylv p) (input : NVec (ZMod p)) : Out (NVec (ZMod p)) :=
  if input.len ≠ s.n then .error
  else
    let F := ofCoeffs s.b.natDegree input.e
    let G := ofCoeffs s.a.natDegree fun i => input.e (i + s.b.natDegree)
    let H := F * s.a + G * s.b
    .ok ⟨s.n, fun i => H.coeff i⟩

/-- `mul_right(out, in)` on matrices, lines 91-116; `x` is `out` before the call. -/
noncomputable def Sylv.rightMat (s : Sylv p) (x input : PMat (ZMod p)) : Out (PMat (ZMod p)) :=
  if input.rows ≠ s.n then .error
  else
    let y := x.setDims s.n input.cols
    andThen (loopOut input.cols (fun j e =>
      andThen (s.right ⟨s.n, fun i => input.e (i, j)⟩) fun w => .ok (forN s.n (fun i => write (i, j) (w.e i)) e)) y.e) fun e =>
    .ok { y with e := e }

/-- `middle_product(F, f, c, dA, dB - 1)` as called by `mul_left`, whose degree `dB - 1` may be `-1`: the result is then zero, since the
    loops of `middle_product` (`lzz_pX_middle_product.cpp`) have nothing to do. -/
noncomputable def middleOrZero (red : Nat → ZMod p) (cross : Nat) (f c : (ZMod p)[X]) (dA dB : Nat) : Out (ZMod p)[X] :=
  if dB = 0 then .ok 0 else ofMid (middleProduct red cross f c dA (dB - 1))

/-- `mul_left(out, in)` on vectors, lines 121-145. -/
noncomputable def Sylv.left (s : Sylv p) (red : Nat → ZMod p) (cross : Nat) (input : NVec (ZMod p)) : Out (NVec (ZMod p)) :=
  if input.len ≠ s.n then .error
  else
    let f := ofCoeffs s.n input.e
    andThen (middleOrZero red cross s.revA f s.a.natDegree s.b.natDegree) fun F =>
    let out := forN s.b.natDegree (fun i => write i (F.coeff i)) fun _ => 0
    andThen (middleOrZero red cross s.revB f s.b.natDegree s.a.natDegree) fun F =>
    .ok ⟨s.n, forN s.a.natDegree (fun i => write (i + s.b.natDegree) (F.coeff i)) out⟩

/-- `mul_left(out, in)` on matrices, lines 150-175. -/
noncomputable def Sylv.leftMat (s : Sylv p) (red : Nat → ZMod p) (cross : Nat) (x input : PMat (ZMod p)) : Out (PMat (ZMod p)) :=
  if input.cols ≠ s.n then .error
  else
    let y := x.setDims input.rows s.n
    andThen (loopOut input.rows (fun j e =>
      andThen (s.left red cross ⟨s.n, fun i => input.e (j, i)⟩) fun w => .ok (forN s.n (fun i => write (j, i) (w.e i)) e)) y.e) fun e =>
    .ok { y with e := e }

/-- `to_dense(Mdense)`, lines 181-194. -/
noncomputable def Sylv.dense (s : Sylv p) (x : PMat (ZMod p)) : PMat (ZMod p) :=
  let y := x.setDims s.n s.n
  let e := loop2 s.n s.n (fun _ _ _ => 0) y.e
  let e := forN s.b.natDegree (fun i => forN (s.a.natDegree + 1) fun j => write (i + j, i) (s.a.coeff j)) e
  let e := forN s.a.natDegree (fun i => forN (s.b.natDegree + 1) fun j => write (i + j, i + s.b.natDegree) (s.b.coeff j)) e
  { y with e := e }

/-- `prepare_inverse()`, lines 199-222.  When the matrix is not invertible, the members other than `singular` are unchanged. -/
noncomputable def Sylv.prepare (s : Sylv p) (g : Xgcd p) : Out (Sylv p) :=
  let d := g.d s.a s.b
  if d ≠ 0 ∧ d.natDegree = 0 then
    let id := (d.coeff 0)⁻¹
    let iA := C id * g.s s.a s.b
    let iB := C id * g.t s.a s.b
    andThen (buildModulus s.a) fun _ => andThen (buildModulus s.b) fun _ =>
    andThen (buildMultiplier iA s.b) fun _ => andThen (buildMultiplier iB s.a) fun _ =>
    .ok { s with invA := iA, invB := iB, serA := invTruncX s.revA s.n, serB := invTruncX s.revB s.n, singular := some false }
  else .ok { s with singular := some true }

/-- `solve(out, in)` on vectors, lines 230-279; `none` is the return value 0, with `out` of length 0.  The first `n` entries of the
    input are read, and its length is not tested. -/
noncomputable def Sylv.solve (s : Sylv p) (g : Xgcd p) (input : NVec (ZMod p)) : Out (Option (NVec (ZMod p))) :=
  if input.len < s.n then .ub
  else
    let F := ofCoeffs s.n input.e
    let FA := F % s.a
    let FB := F % s.b
    if s.singular = some true then .ok none
    else
      let res : (ZMod p)[X] → (ZMod p)[X] → NVec (ZMod p) := fun FA FB =>
        let out := forN s.b.natDegree (fun i => write i (FB.coeff i)) fun _ => 0
        ⟨s.n, forN s.a.natDegree (fun i => write (i + s.b.natDegree) (FA.coeff i)) out⟩
      if s.singular = some false then
        andThen (mulMod FA s.invB s.a) fun FA => andThen (mulMod FB s.invA s.b) fun FB => .ok (some (res FA FB))
      else
        let d := g.d s.a s.b
        if ¬ (d ≠ 0 ∧ d.natDegree = 0) then .ok none
        else
          let id := (d.coeff 0)⁻¹
          let iA := C id * g.s s.a s.b
          let iB := C id * g.t s.a s.b
          andThen (mulMod FA iB s.a) fun FA => andThen (mulMod FB iA s.b) fun FB => .ok (some (res FA FB))

/-- `for (j = 0; j < k; j++)` where the body may fail or return 0. -/
def loopRet {σ : Type} : Nat → (Nat → σ → Out (Option σ)) → σ → Out (Option σ)
  | 0, _, s => .ok (some s)
  | k + 1, f, s => andThen (loopRet k f s) fun r => match r with
    | none => .ok none
    | some s => f k s

/-- `solve(out, in)` on matrices, lines 284-313; `none` is the return value 0, with `out` of dimensions 0. -/
noncomputable def Sylv.solveMat (s : Sylv p) (g : Xgcd p) (x input : PMat (ZMod p)) : Out (Option (PMat (ZMod p))) :=
  let y := x.setDims s.n input.cols
  andThen (loopRet input.cols (fun j e =>
    if input.rows < s.n then .ub
    else andThen (s.solve g ⟨s.n, fun i => input.e (i, j)⟩) fun r =>
      .ok (r.map fun w => forN s.n (fun i => write (i, j) (w.e i)) e)) y.e) fun r =>
  .ok (r.map fun e => { y with e := e })

/-- The second part of `solve_transpose`, lines 370-397: `va`, `vb` after `UpdateMap`, and the inverses of `revA`, `revB`. -/
noncomputable def Sylv.extend (s : Sylv p) (va vb : Nat → ZMod p) (serA serB : (ZMod p)[X]) : NVec (ZMod p) :=
  let FA := ofCoeffs s.a.natDegree va
  let FB := ofCoeffs s.b.natDegree vb
  let numerA := ptrunc (FA * s.revA) s.a.natDegree
  let numerB := ptrunc (FB * s.revB) s.b.natDegree
  let numerA := ptrunc (numerA * serA) s.n
  let numerB := ptrunc (numerB * serB) s.n
  ⟨s.n, fun i => numerA.coeff i + numerB.coeff i⟩

/-- `solve_transpose(out, in)` on vectors, lines 321-398.  The length of the input is not tested. -/
noncomputable def Sylv.solveT (s : Sylv p) (g : Xgcd p) (input : NVec (ZMod p)) : Out (Option (NVec (ZMod p))) :=
  if s.singular = some true then .ok none
  else if input.len < s.n then .ub
  else
    let vb := input.e
    let va := fun i => input.e (i + s.b.natDegree)
    if s.singular = some false then
      .ok (some (s.extend (updateMap va s.invB s.a) (updateMap vb s.invA s.b) s.serA s.serB))
    else
      let d := g.d s.a s.b
      if ¬ (d ≠ 0 ∧ d.natDegree = 0) then .ok none
      else
        let id := (d.coeff 0)⁻¹
        let iA := C id * g.s s.a s.b
        let iB := C id * g.t s.a s.b
        andThen (buildModulus s.a) fun _ => andThen (buildModulus s.b) fun _ =>
        andThen (buildMultiplier iB s.a) fun _ => andThen (buildMultiplier iA s.b) fun _ =>
        .ok (some (s.extend (updateMap va iB s.a) (updateMap vb iA s.b) (invTruncX s.revA s.n) (invTruncX s.revB s.n)))

/-- `solve_transpose(out, in)` on matrices, lines 403-435. -/
noncomputable def Sylv.solveTMat (s : Sylv p) (g : Xgcd p) (x input : PMat (ZMod p)) : Out (Option (PMat (ZMod p))) :=
  if input.cols ≠ s.n then .error
  else
    let y := x.setDims input.rows s.n
    andThen (loopRet input.rows (fun j e =>
      andThen (s.solveT g ⟨s.n, fun i => input.e (j, i)⟩) fun r =>
      .ok (r.map fun w => forN s.n (fun i => write (j, i) (w.e i)) e)) y.e) fun r =>
    .ok (r.map fun e => { y with e := e })

/-- `phi_plus_generators(G, H)`, lines 440-466.  `H[deg(b) - 1][0]` is written. -/
noncomputable def Sylv.generators (s : Sylv p) : Out (PMat (ZMod p) × PMat (ZMod p)) :=
  let dA := s.a.natDegree
  let dB := s.b.natDegree
  if dB = 0 then .ub
  else
    let H : Nat × Nat → ZMod p := write (dB - 1, 0) 1 fun _ => 0
    let H := write (dA + dB - 1, 1) 1 H
    let add : Nat × Nat → ZMod p → (Nat × Nat → ZMod p) → Nat × Nat → ZMod p := fun ij v G => write ij (G ij + v) G
    let G := forN dA (fun i => add (i + dB, 0) (s.a.coeff i)) fun _ => 0
    let G := add (0, 0) (s.a.coeff dA) G
    let G := forN dB (fun i G =>
      let G := add (i, 0) (-s.b.coeff i) G
      add (i + dA, 1) (s.b.coeff i) G) G
    let G := add (dB % (dA + dB), 0) (-s.b.coeff dB) G
    let G := add (0, 1) (s.b.coeff dB) G
    .ok (⟨s.n, 2, G⟩, ⟨s.n, 2, H⟩)

/-- A result that `solve` or `solve_transpose` left: dimensions 0 after the return value 0. -/
def orEmpty (r : Option (PMat (ZMod p))) : PMat (ZMod p) := r.getD newMat

/-- `inv(inv)`, lines 472-483; `none` is the return value 0.  The return values of `solve` and `solve_transpose` are not tested. -/
noncomputable def Sylv.inv (s : Sylv p) (g : Xgcd p) : Out (Option (Like p)) :=
  andThen (s.prepare g) fun s =>
  if s.singular = some true then .ok none
  else
    andThen s.generators fun UV =>
    andThen (s.solveMat g newMat UV.1) fun iU =>
    andThen (s.solveTMat g newMat (denseT UV.2)) fun iV =>
    let iU := orEmpty iU
    andThen (Like.makeTM ⟨iU.rows, iU.cols, fun ij => -iU.e ij⟩ (denseT (orEmpty iV))) fun t => .ok (some t)

end PML.Ntl.Struct
