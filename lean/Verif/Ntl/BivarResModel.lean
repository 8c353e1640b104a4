import Verif.Ntl.BivarModel
import Verif.Ntl.GeomModel

/-!
# Model of `resultant`, `ntl-extras/lzz_pXY/src/lzz_pXY.cpp` lines 440-513

The points in geometric progression are those of `Verif.Ntl.GeomModel`.  A failure there (`none`: division by zero in NTL) is an
error.  The random elements are given by the sequence of draws, and the resultant of univariate polynomials of NTL is a parameter.
-/

namespace PML.Ntl.Bivar

open Polynomial PML.Ntl.Utils PML.Ntl.Inv PML.Ntl.Solve PML.Ntl.Struct

variable {F : Type} [Field F]

/-- What `zz_pX_Multipoint_Geometric` depends on besides its points: the middle product, the feasibility of FFTs, and the tables of
    thresholds, for each number of points. -/
structure Tables (F : Type) [Field F] where
  mp : F[X] → F[X] → Nat → Nat → Option F[X]
  feasible : Nat → Bool
  flags : Nat → Bool

/-- A failure of `GeomModel` is an error. -/
def ofOpt {α : Type} : Option α → Out α
  | some x => .ok x
  | none => .error

variable [DecidableEq F]

/-- One round of the loop of lines 470-478: whether no value of a leading coefficient is zero, the object, and these values. -/
noncomputable def tryPoints (T : Tables F) (f g : PVec F) (dr : Nat) (r s : F) : Out (Bool × Geom.Obj F × (Nat → F) × (Nat → F)) :=
  let N := (max f.degX g.degX + 1).toNat
  andThen (ofOpt (Geom.construct (T.feasible N) (T.flags N) r s N)) fun o =>
  andThen (f.get f.degY) fun lf => andThen (ofOpt (Geom.evaluateMore T.mp o lf dr)) fun vf =>
  andThen (g.get g.degY) fun lg => andThen (ofOpt (Geom.evaluateMore T.mp o lg dr)) fun vg =>
  .ok (decide (∀ i, i < dr → vf i ≠ 0 ∧ vg i ≠ 0), o, vf, vg)

/-- The loop of lines 464-480, with at most `k` more rounds: `nb`, `a0`, `b0` and the values at its end. -/
noncomputable def attempts (T : Tables F) (draw : Nat → F × F) (f g : PVec F) (dr : Nat) :
    Nat → Nat → Out (Nat × (F × F) × Geom.Obj F × (Nat → F) × (Nat → F))
  | 0, _ => .loops
  | k + 1, nb =>
    andThen (tryPoints T f g dr (draw nb).1 (draw nb).2) fun t =>
    if t.1 = false ∧ nb + 1 < 5 then attempts T draw f g dr k (nb + 1) else .ok (nb + 1, draw nb, t.2)

/-- The polynomials `val_f`, lines 485-499 (and `val_g`, lines 489-490 and 500-505): `vl` are the values of the leading coefficient. -/
noncomputable def values (T : Tables F) (o : Geom.Obj F) (f : PVec F) (dr : Nat) (vl : Nat → F) : Out (Nat → F[X]) :=
  let init : Nat → Nat → F := forN dr (fun i val => write i (write f.degY.toNat (vl i) (val i)) val) fun _ _ => 0
  andThen (loopI 0 (f.degY - 1) (fun i val =>
    andThen (f.get i) fun c => andThen (ofOpt (Geom.evaluateMore T.mp o c dr)) fun tmp =>
    .ok (forN dr (fun j val => write j (write i.toNat (tmp j) (val j)) val) val)) init) fun val =>
  .ok fun j => ofCoeffs (f.degY + 1).toNat (val j)

/-- `resultant(res, f, g)`, lines 440-513; the value is `none` when the function returns `0`. -/
noncomputable def resultant (T : Tables F) (res : F[X] → F[X] → F) (draw : Nat → F × F) (f g : PVec F) : Out (Option F[X]) :=
  let n := max f.degY g.degY
  let d := max f.degX g.degX
  let dr := (2 * n * d + 2).toNat
  andThen (attempts T draw f g dr 5 0) fun t =>
  if t.1 = 5 then .ok none
  else
    andThen (values T t.2.2.1 f dr t.2.2.2.1) fun vf =>
    andThen (values T t.2.2.1 g dr t.2.2.2.2) fun vg =>
    andThen (ofOpt (Geom.construct (T.feasible dr) (T.flags dr) t.2.1.1 t.2.1.2 dr)) fun o =>
    andThen (ofOpt (Geom.interpolate false o fun i => res (vf i) (vg i))) fun R => .ok (some R)

end PML.Ntl.Bivar
