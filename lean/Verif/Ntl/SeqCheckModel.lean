import Verif.Ntl.SeqModel

/-!
# Sequences of vectors, and the start of `modified_kurakin`

`ntl-extras/lzz_pX_seq/src/lzz_pX_seq.cpp`, lines 42-65, 92-119, 130-137, 147-165, 224-235 and 380-430.  The conventions are
those of `SeqModel.lean`; a `Vec<Vec<zz_pX>>` is a list of lists.
-/

namespace PML.Ntl.Seq

open Polynomial PML.Ntl.Utils PML.Ntl.Inv PML.Ntl.Solve
open PML.Ntl.Struct (loopOut)

variable {F : Type} [Field F]

/-- The sum of lines 58-61: `val` starts as a vector of zeros of the length of `S[i]`. -/
noncomputable def windowVec (S : List (List F[X])) (f : Polynomial F[X]) (dy : Int) (i : Nat) : Out (List F[X]) :=
  andThen (rd S (i : Int)) fun s0 =>
  loopOut (dy + 1).toNat (fun t val => andThen (rd S (i + t : Nat)) fun s => .ok (add val (mulX s (f.coeff t)))) (List.replicate s0.length 0)

/-- `mul(S, f)` for a sequence of vectors and a bivariate `f`, lines 52-65. -/
noncomputable def mulXYVec (S : List (List F[X])) (f : Polynomial F[X]) : Out (List (List F[X])) :=
  let len : Int := min 0 ((S.length : Int) - degY f)
  if len < 0 then .error else tabulate len.toNat (windowVec S f (degY f))

/-- The sum of lines 111-114. -/
noncomputable def windowTruncVec (S : List (List F[X])) (f : Polynomial F[X]) (dy : Int) (d : Nat) (i : Nat) : Out (List F[X]) :=
  andThen (rd S (i : Int)) fun s0 =>
  loopOut (dy + 1).toNat (fun t val => andThen (rd S (i + t : Nat)) fun s => .ok (add val (mulTrunc s (f.coeff t) d))) (List.replicate s0.length 0)

/-- `mulTrunc(S, f, d)` for a sequence of vectors and a bivariate `f`, lines 103-119, for `d ≥ 0`. -/
noncomputable def mulTruncXYVec (S : List (List F[X])) (f : Polynomial F[X]) (d : Nat) : Out (List (List F[X])) :=
  if degY f < 0 then .ok []
  else
    let len : Int := max 0 ((S.length : Int) - degY f)
    tabulate len.toNat (windowTruncVec S f (degY f) d)

/-- `index_non_zero(S)` for a sequence of vectors, lines 147-153. -/
noncomputable def indexNonZeroVec (S : List (List F[X])) : Int :=
  if S.length = 0 then -1 else S.findIdx fun s => indexNonZero s ≠ s.length

/-- `is_zero_seq(S)` for a sequence of vectors, lines 162-165. -/
noncomputable def isZeroSeqVec (S : List (List F[X])) : Bool := if S.length = 0 then true else indexNonZeroVec S = S.length

/-- `check_cancel(S, gens, d)` for a sequence of vectors, lines 224-235, for `d ≥ -1`. -/
noncomputable def checkCancelVec (S : List (List F[X])) (d : Int) : List (Polynomial F[X]) → Out Bool
  | [] => .ok true
  | f :: gens =>
    andThen (if d = -1 then mulXYVec S f else mulTruncXYVec S f d.toNat) fun res =>
    if !isZeroSeqVec res then .ok false else checkCancelVec S d gens

/-- The variables of the first loop of `modified_kurakin`: the queue `Q`, `bitmap`, `us`, `fs`, `I_seq` and `I_fs`. -/
structure MSt (F : Type) [Field F] where
  queue : List Nat
  bitmap : Nat → Bool
  us : Nat → Option (List F[X])
  fs : Nat → Option (Polynomial F[X])
  iSeq : Int → Option (List F[X])
  iFs : Int → Option (Polynomial F[X])

/-- The first loop of `modified_kurakin(d, S, gens)`, lines 396-430.  The first argument bounds the number of iterations. -/
noncomputable def modifiedLoop (d : Nat) (S : List F[X]) : Nat → MSt F → Out (MSt F)
  | fuel, x =>
    match x.queue with
    | [] => .ok x
    | t :: rest =>
      match fuel with
      | 0 => .loops
      | fuel + 1 =>
        let fx : F[X] := X ^ t
        let u := mulTrunc S fx d
        let k := indexNonZero u
        let new : Bool := (x.iSeq k).isNone ∧ 0 ≤ k
        let x : MSt F := { x with queue := rest, us := write t (some u) x.us, fs := write t (some (C fx)) x.fs,
                                  iSeq := if new then write k (some u) x.iSeq else x.iSeq,
                                  iFs := if new then write k (some (C fx)) x.iFs else x.iFs }
        andThen (rd u k) fun l =>
        let tprime := (d : Int) - valuation l
        if tprime + t < d then
          let t1 := (tprime + t).toNat
          modifiedLoop d S fuel { x with bitmap := write t1 true x.bitmap, queue := x.queue ++ [t1] }
        else modifiedLoop d S fuel x

/-- The start of `modified_kurakin(d, S, gens)`, lines 380-430: all that is done before the loop over `s`.  `bitmap` has `d` entries,
    and `bitmap[0]` is written. -/
noncomputable def modifiedStart (d : Nat) (S : List F[X]) : Out (MSt F) :=
  if d = 0 then .ub
  else modifiedLoop d S (d + 1) ⟨[0], write 0 true fun _ => false, fun _ => none, fun _ => none, fun _ => none, fun _ => none⟩

end PML.Ntl.Seq
