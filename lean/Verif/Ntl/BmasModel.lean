import Verif.Ntl.SeqModel
import Verif.Ntl.MbasisModel

/-!
# Cancelling polynomials of sequences by approximant bases

`ntl-extras/lzz_pX_seq/src/lzz_pX_seq.cpp`, lines 1039-1123.  The conventions are those of `SeqModel.lean`; `pmbasis` is that of C76.
The rank check in lines 1082-1096 is never done.
-/

namespace PML.Ntl.Bmas

open Polynomial PML.Ntl.Utils PML.Ntl.Inv PML.Ntl.Solve PML.Ntl.Mbasis PML.Ntl.Seq
open PML.Ntl.Struct (loopOut)

variable {F : Type} [Field F] [DecidableEq F]

/-- Lines 1053-1055 (1077-1079, 1118-1120): the polynomial of row `r`. -/
noncomputable def rowPoly (e : Nat) (P : PMat F[X]) (r : Nat) : Polynomial F[X] := forN (e + 1) (fun c res => res + C (P.e (r, c)) * X ^ c) 0

/-- Lines 1052-1057 (1076-1081, 1117-1122): the polynomials of all rows are appended to `gens`. -/
noncomputable def appendRows (e : Nat) (P : PMat F[X]) (gens : List (Polynomial F[X])) : List (Polynomial F[X]) :=
  forN (e + 1) (fun r gens => gens ++ [rowPoly e P r]) gens

/-- The matrix `T` of lines 1042-1047. -/
noncomputable def hankel (S : List F[X]) (n : Nat) : Out (Nat × Nat → F[X]) :=
  loopOut n (fun c T => loopOut (n + 1) (fun r T => andThen (rd S (c + r : Nat)) fun x => .ok (write (r, c) x T)) T) fun _ => 0

/-- The matrix `H` of lines 1065-1071 (1104-1110). -/
noncomputable def mosaic (S : List (List F[X])) (e n : Nat) : Out (Nat × Nat → F[X]) :=
  loopOut n (fun s H => loopOut e (fun c H => loopOut (e + 1) (fun r H =>
    andThen (rd S (c + r : Nat)) fun v => andThen (rd v (s : Nat)) fun x => .ok (write (r, c + s * e) x H)) H) H) fun _ => 0

/-- `berlekamp_massey_pmbasis(d, S, gens)` for a sequence of polynomials, lines 1039-1058, for `d ≥ 0`. -/
noncomputable def single (N : Nt F) (mid : PMat F[X] → PMat F[X] → Nat → Nat → Option (PMat F[X])) (mul : PMat F[X] → PMat F[X] → Option (PMat F[X]))
    (thr : Nat) (d : Nat) (S : List F[X]) (gens : List (Polynomial F[X])) : Out (List (Polynomial F[X])) :=
  let n := S.length / 2
  andThen (hankel S n) fun T =>
  andThen (pmbasis N mid mul thr d ⟨0, 0, fun _ => 0⟩ ⟨n + 1, n, T⟩ d fun _ => 0) fun r =>
  .ok (appendRows n r.1 gens)

/-- `berlekamp_massey_pmbasis(d, S, gens)` for a sequence of vectors, lines 1060-1097, with the shift 0, and
    `berlekamp_massey_pmbasis_hnf(d, S, gens)`, lines 1099-1123, with the shift `i*d`; for `d ≥ 0`. -/
noncomputable def vectors (N : Nt F) (mid : PMat F[X] → PMat F[X] → Nat → Nat → Option (PMat F[X])) (mul : PMat F[X] → PMat F[X] → Option (PMat F[X]))
    (thr : Nat) (shift : Nat → Int) (d : Nat) (S : List (List F[X])) (gens : List (Polynomial F[X])) : Out (List (Polynomial F[X])) :=
  let e := S.length / 2
  andThen (rd S 0) fun v0 =>
  let n := v0.length
  andThen (mosaic S e n) fun H =>
  andThen (pmbasis N mid mul thr d ⟨0, 0, fun _ => 0⟩ ⟨e + 1, e * n, H⟩ d shift) fun r =>
  .ok (appendRows e r.1 gens)

end PML.Ntl.Bmas
