import Verif.Ntl.IntbasModel

/-!
# Matrix reconstruction by interpolation

`ntl-extras/mat_lzz_pX_extra/src/mat_lzz_pX_sequence.cpp`, lines 501-571.  The shift is the zero vector.
-/

namespace PML.Ntl.Recon

open Polynomial PML.Ntl.Utils PML.Ntl.Inv PML.Ntl.Solve PML.Ntl.Mbasis PML.Ntl.Intbas

variable {F : Type} [Field F] [DecidableEq F]

/-- The matrices `seq` after lines 518-524 (556-561).  `SetDims(2*m, m)` of NTL keeps the rows if the number of columns does not change, and
    builds a new matrix otherwise.  New rows are zero: the matrices never had more rows than they have at the call. -/
def addIdentity (E : Evals F) : Evals F :=
  let m := E.rows
  let e0 : Nat × Nat → Nat → F := fun x c => if E.cols = m ∧ x.2 < m then E.e x c else 0
  let e1 := forN E.len (fun j => forN m fun i (e : Nat × Nat → Nat → F) => write (j, m + i) (write i 1 (e (j, m + i))) e) e0
  ⟨E.len, 2 * m, m, e1⟩

/-- `matrix_recon_interpolation(basis, pts, seq)`, lines 504-534: `basis` and `seq`; `np` is `pts.length()` and `x` are the points. -/
noncomputable def interpolation (N : Nt F) (mul : PMat F[X] → PMat F[X] → Option (PMat F[X])) (it : F[X] → Nat → F[X]) (fuelc thr fuel : Nat)
    (E : Evals F) (np : Nat) (x : Nat → F) : Out (PMat F[X] × Evals F) :=
  if E.len = 0 then .error
  else
    let m := E.rows
    andThen (pmbasis N mul (general it fuelc x) thr fuel ⟨0, 0, fun _ => 0⟩ (addIdentity E) np x (fun _ => 0) 0 np) fun r =>
    .ok (⟨m, m, fun ij => r.1.e ij⟩, r.2.2)

/-- `matrix_recon_interpolation_geometric(basis, pts, r, seq)`, lines 540-571. -/
noncomputable def interpolationGeometric (N : Nt F) (mul : PMat F[X] → PMat F[X] → Option (PMat F[X]))
    (mp : F[X] → F[X] → Nat → Nat → Option F[X]) (feasible flags : Nat → Bool) (thr fuel : Nat)
    (E : Evals F) (np : Nat) (x : Nat → F) (r : F) : Out (PMat F[X] × Evals F) :=
  if E.len = 0 then .error
  else
    let m := E.rows
    andThen (pmbasis N mul (geometric mp feasible flags r x) thr fuel ⟨0, 0, fun _ => 0⟩ (addIdentity E) np x (fun _ => 0) 0 E.len) fun r =>
    .ok (⟨m, m, fun ij => r.1.e ij⟩, r.2.2)

end PML.Ntl.Recon
