import Verif.MatPoly.Memory

/-!
# Specification: storage of matrix polynomials
-/

namespace PML.MatPoly.Mem

open PML.MatOps PML.MatPoly

variable {K : Type} [Field K] [DecidableEq K]

/-- The storage of an object is consistent: the array has `alloc` cells, it is `NULL` exactly if there is none, at most `alloc`
    coefficients are in use, and the cells which hold a matrix are the first `length` ones. -/
structure Good (o : Obj K) : Prop where
  size : o.size = o.alloc
  null : o.ptr = true ↔ o.alloc ≠ 0
  fits : o.length ≤ o.alloc
  live : ∀ i, (o.cell i).isSome ↔ i < o.length

/-- The matrix polynomial which an object represents. -/
def content (o : Obj K) : MatPoly K := ⟨o.length, fun k => (o.cell k).getD matZero⟩

/-- The same length and the same coefficients. -/
def Same (P Q : MatPoly K) : Prop := P.len = Q.len ∧ ∀ k, k < P.len → P.co k = Q.co k

/-- The calls which the documentation allows: objects are initialised once before they are used, and not used after they are cleared; a length
    that is set directly is at most `alloc`; entries which are read or written exist; rows which are moved exist; objects which are combined have the same dimensions. -/
def Allowed (op : Op K) (s : Store K) : Prop :=
  match op with
  | .init d _ _ | .init2 d _ _ _ | .initSet d _ _ _ => s d = none
  | .setLength d n => ∃ o, s d = some o ∧ n ≤ o.alloc
  | .set d e | .shiftLeft d e _ => ∃ o p, s d = some o ∧ s e = some p ∧ o.r = p.r ∧ o.c = p.c
  | .setEntry d k i j _ | .getEntry d k i j => ∃ o, s d = some o ∧ k < o.length ∧ i < o.r ∧ j < o.c
  | .permuteRows d act => ∃ o, s d = some o ∧ ∀ i, i < o.r → act i < o.r
  | .mulCoeff d e _ => ∃ o p, s d = some o ∧ s e = some p ∧ o.c = p.r
  | .clear d | .realloc d _ | .fitLength d _ | .normalise d | .truncate d _ | .zero d | .one d | .setFromMat d _ | .setTrunc d _ _ | .rand d _ _
  | .getCoeff d _ | .isOne d | .evaluate d _ => ∃ o, s d = some o

/-- All calls of the sequence are allowed, when they are reached. -/
def AllowedRun : List (Op K) → Store K → Prop
  | [], _ => True
  | op :: ops, s => Allowed op s ∧ ∀ s', exec op s = .ok s' → AllowedRun ops s'

/-- The variable which a call may modify. -/
def target : Op K → Option Nat
  | .init d _ _ | .init2 d _ _ _ | .initSet d _ _ _ | .clear d | .realloc d _ | .fitLength d _ | .setLength d _ | .normalise d | .truncate d _
  | .zero d | .one d | .set d _ | .shiftLeft d _ _ | .setFromMat d _ | .setTrunc d _ _ | .rand d _ _ | .setEntry d _ _ _ _ | .permuteRows d _ => some d
  | .getEntry .. | .getCoeff .. | .isOne .. | .mulCoeff .. | .evaluate .. => none

/-- The variable `d` is an `r × c` object which represents `P`. -/
def Holds (s : Store K) (d r c : Nat) (P : MatPoly K) : Prop := ∃ o, s d = some o ∧ o.r = r ∧ o.c = c ∧ Same (content o) P

/-- The variable `d` keeps its dimensions, and its content `P` is replaced by `f P`. -/
def Becomes (s s' : Store K) (d : Nat) (f : Nat → Nat → MatPoly K → MatPoly K) : Prop :=
  ∃ o, s d = some o ∧ Holds s' d o.r o.c (f o.r o.c (content o))

/-- The capacity of the variable `d`. -/
def capacity (s : Store K) (d : Nat) : Nat := (s d).elim 0 Obj.alloc

/-- What a call does: the contents are changed as by the functions of `Verif/MatPoly/Model.lean`, for which C17, C19 and C20 are
    proved; a capacity that is asked for is provided. -/
def Effect (op : Op K) (s s' : Store K) : Prop :=
  (∀ e, target op ≠ some e → s' e = s e) ∧
  match op with
  | .init d r c => Holds s' d r c ⟨0, fun _ => matZero⟩ ∧ capacity s' d = 0
  | .init2 d r c a => Holds s' d r c ⟨0, fun _ => matZero⟩ ∧ capacity s' d = a
  | .initSet d r c A => Holds s' d r c (MatPoly.setFromMat r c ⟨0, fun _ => matZero⟩ A)
  | .clear d => s' d = none
  | .realloc d a => Becomes s s' d (fun r c P => MatPoly.truncate r c P a) ∧ capacity s' d = a
  | .fitLength d n => Becomes s s' d (fun _ _ P => P) ∧ n ≤ capacity s' d ∧ (capacity s' d = capacity s d ∨ 2 * capacity s d ≤ capacity s' d)
  | .setLength d n => Becomes s s' d (fun _ _ P => MatPoly.setLength P n) ∧ capacity s' d = capacity s d
  | .normalise d => Becomes s s' d MatPoly.normalise ∧ capacity s' d = capacity s d
  | .truncate d n => Becomes s s' d (fun r c P => MatPoly.truncate r c P n) ∧ capacity s' d = capacity s d
  | .zero d => Becomes s s' d (fun _ _ P => MatPoly.zero P) ∧ capacity s' d = capacity s d
  | .one d => Becomes s s' d (fun _ _ P => MatPoly.one P)
  | .set d e => ∃ p, s e = some p ∧ Becomes s s' d fun _ _ _ => content p
  | .shiftLeft d e n => ∃ p, s e = some p ∧
      Becomes s s' d fun _ _ P => if d = e then MatPoly.shiftLeftAliased P n else MatPoly.shiftLeft P (content p) n
  | .setFromMat d A => Becomes s s' d fun r c P => MatPoly.setFromMat r c P A
  | .setTrunc d M n => Becomes s s' d fun r c P => MatPoly.setTruncFromPolyMat r c P M n
  | .rand d n v => Becomes s s' d fun r c _ => MatPoly.normalise r c ⟨n, v⟩
  | .setEntry d k i j x => Becomes s s' d fun _ _ P => ⟨P.len, fun l u v => if l = k ∧ u = i ∧ v = j then x else P.co l u v⟩
  | .permuteRows d act => Becomes s s' d fun r _ P => ⟨P.len, fun k u v => if u < r then P.co k (act u) v else P.co k u v⟩
  | .getEntry .. | .getCoeff .. | .isOne .. | .mulCoeff .. | .evaluate .. => True

/-- The number of matrices which the cells of an object hold. -/
noncomputable def held (o : Obj K) : Nat := ((Finset.range o.size).filter fun i => (o.cell i).isSome).card

end PML.MatPoly.Mem
