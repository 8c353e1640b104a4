import Verif.Ntl.StructModel
import Verif.Ntl.SolveModel

/-!
# Model of the functions on vectors of `mat_lzz_pX_utils.cpp` and `mat_lzz_pX_arith.cpp`, and of `add_LeftShift` on vectors and matrices

As in `Verif/Ntl/MatUtilsModel.lean`: the flags `al`, `alA` and `alB` tell whether the output is the input, then every read of the input reads
the current content of the output.  `SetLength` keeps the entries.  `none` is an error raised by the function.
Lines are those of `ntl-extras/mat_lzz_pX_extra/src/mat_lzz_pX_utils.cpp` (U) and `mat_lzz_pX_arith.cpp` (A).
-/

namespace PML.Ntl.VecUtils

open Polynomial PML.Ntl.Utils PML.Ntl.Struct PML.Ntl.Inv PML.Ntl.Solve

variable {R : Type} [CommRing R] {F : Type} [Field F] {α : Type}

/-- A function `x = f(a)` which sets the length of `x` and then writes the entries one by one. -/
def each (al : Bool) (x a : NVec α) (f : α → α) : NVec α :=
  let x' : NVec α := if al then a else ⟨a.len, x.e⟩
  { x' with e := forN a.len (fun i cur => write i (f (if al then cur i else a.e i)) cur) x'.e }

/-- A function `c = op(a, b)` which tests the lengths, sets the length of `c`, and then writes the entries one by one. -/
def zip (op : α → α → α) (alA alB : Bool) (c a b : NVec α) : Option (NVec α) :=
  if a.len ≠ b.len then none
  else
    let c' : NVec α := if alA then a else if alB then b else ⟨a.len, c.e⟩
    some { c' with e := forN a.len (fun i cur => write i (op (if alA then cur i else a.e i) (if alB then cur i else b.e i)) cur) c'.e }

/-- `IsZero(vec)`, U 66-72: the loop stops at the first entry which is not zero. -/
def isZero [Zero α] [DecidableEq α] (v : NVec α) : Bool :=
  let rec go : Nat → Nat → Bool
    | 0, _ => true
    | n + 1, i => if v.e i ≠ 0 then false else go n (i + 1)
  go v.len 0

/-- `deg(pvec)`, U 127-134. -/
noncomputable def deg (v : NVec R[X]) : Int := forN v.len (fun j d => if pdeg (v.e j) > d then pdeg (v.e j) else d) (-1)

/-- `mirror(mvec, pvec)`, U 222-236; `std::reverse` exchanges the entries `i` and `n - 1 - i` for `i < n / 2`. -/
def mirror (al : Bool) (mvec pvec : NVec α) : NVec α :=
  let n := pvec.len
  if n = 0 then ⟨0, mvec.e⟩
  else
    let m : NVec α := if al then mvec else pvec
    { m with e := forN (n / 2) (fun i cur => write (n - 1 - i) (cur i) (write i (cur (n - 1 - i)) cur)) m.e }

/-- `trunc(x, a, n)`, U 241-246. -/
noncomputable def trunc (al : Bool) (x a : NVec R[X]) (n : Nat) : NVec R[X] := each al x a fun f => ptrunc f n

/-- `LeftShift(x, a, n)`, U 276-281. -/
noncomputable def leftShift (al : Bool) (x a : NVec R[X]) (n : Int) : NVec R[X] := each al x a fun f => pshift f n

/-- `RightShift(x, a, n)`, U 284-289. -/
noncomputable def rightShift (al : Bool) (x a : NVec R[X]) (n : Int) : NVec R[X] := each al x a fun f => pshift f (-n)

/-- `add(c, a, b)`, A 57-67. -/
noncomputable def add (alA alB : Bool) (c a b : NVec R[X]) : Option (NVec R[X]) := zip (· + ·) alA alB c a b

/-- `sub(c, a, b)`, A 183-193. -/
noncomputable def sub (alA alB : Bool) (c a b : NVec R[X]) : Option (NVec R[X]) := zip (· - ·) alA alB c a b

/-- A constant vector as an operand. -/
noncomputable def const (b : NVec R) : NVec R[X] := ⟨b.len, fun i => C (b.e i)⟩

/-- `add(c, a, b)` with `b` constant, A 72-82. -/
noncomputable def addConst (al : Bool) (c a : NVec R[X]) (b : NVec R) : Option (NVec R[X]) := zip (· + ·) al false c a (const b)

/-- `sub(c, a, b)` with `b` constant, A 198-208. -/
noncomputable def subConst (al : Bool) (c a : NVec R[X]) (b : NVec R) : Option (NVec R[X]) := zip (· - ·) al false c a (const b)

/-- `sub(c, a, b)` with `a` constant, A 213-223. -/
noncomputable def constSub (al : Bool) (c : NVec R[X]) (a : NVec R) (b : NVec R[X]) : Option (NVec R[X]) := zip (· - ·) false al c (const a) b

/-- `negate(x, a)`, A 232-238. -/
noncomputable def negate (al : Bool) (x a : NVec R[X]) : NVec R[X] := each al x a fun f => -f

/-- `mul(c, a, b)` with `b` in the field, A 344-350. -/
noncomputable def scale (al : Bool) (x a : NVec R[X]) (b : R) : NVec R[X] := each al x a fun f => f * C b

/-- `mul(c, a, b)` with `b` a polynomial which is not an entry of `c`, A 369-375. -/
noncomputable def mulPoly (al : Bool) (x a : NVec R[X]) (b : R[X]) : NVec R[X] := each al x a fun f => f * b

/-- `mul(c, c, c[k])`, A 369-375: the polynomial `b` is the entry `k` of the vector itself. -/
noncomputable def mulEntry (a : NVec R[X]) (k : Nat) : NVec R[X] := { a with e := forN a.len (fun i cur => write i (cur i * cur k) cur) a.e }

/-- `add_LeftShift(c, a, b, k)` on polynomials (C61), `lzz_pX_extra.cpp` lines 447-483, as stored; `c` is `a` if `al`. -/
noncomputable def addShift [DecidableEq F] (al : Bool) (k : Nat) (a b : F[X]) : Sto F :=
  ⟨(Shift.addLeftShift al (repOf a).len (repOf a).mem (repOf b).len (repOf b).mem k).1,
    (Shift.addLeftShift al (repOf a).len (repOf a).mem (repOf b).len (repOf b).mem k).2⟩

/-- `add_LeftShift(c, a, b, k)` on vectors, A 88-97; `c` is not `b`.  In place, the entry `i` is read only when it is replaced. -/
noncomputable def addShiftVec [DecidableEq F] (al : Bool) (c : NVec (Sto F)) (a b : NVec F[X]) (k : Nat) : Option (NVec (Sto F)) :=
  if a.len ≠ b.len then none
  else
    let c' : NVec (Sto F) := if al then ⟨a.len, fun i => repOf (a.e i)⟩ else ⟨a.len, c.e⟩
    some { c' with e := forN a.len (fun i => write i (addShift al k (a.e i) (b.e i))) c'.e }

/-- `add_LeftShift(c, a, b, k)` on matrices, A 103-114; `c` is not `b`. -/
noncomputable def addShiftMat [DecidableEq F] (al : Bool) (c : PMat (Sto F)) (a b : PMat F[X]) (k : Nat) : Option (PMat (Sto F)) :=
  if a.rows ≠ b.rows ∨ a.cols ≠ b.cols then none
  else
    let c' : PMat (Sto F) := if al then reps a else c.setDims a.rows a.cols
    some { c' with e := loop2 a.rows a.cols (fun i j _ => addShift al k (a.e (i, j)) (b.e (i, j))) c'.e }

end PML.Ntl.VecUtils
