import Verif.Ntl.ParlinModel
import Verif.Ntl.BivarResModel
import Verif.Ntl.StructModel

/-!
# Model of approximant bases of one generic column

`/repo/ntl-extras/mat_lzz_pX_extra/src/mat_lzz_pX_pmbasis_generic.cpp`: `mbasis_generic_onecolumn` (lines 2403-2495) and
`pmbasis_generic_onecolumn` (lines 2502-2550).

`kernel` of NTL is a parameter, like `multiply` (C67); the middle product is the model of C75.  Orders are natural numbers.  The
matrices `appbas` are outputs: their former content is not used.
-/

namespace PML.Ntl.OneCol

open Polynomial PML.Ntl.Utils PML.Ntl.Inv PML.Ntl.Solve PML.Ntl.Parlin PML.Ntl.Struct

variable {F : Type} [Field F]

/-- The product of two `n` by `n` matrices. -/
def mulM (n : Nat) (a b : Nat × Nat → F) : Nat × Nat → F := fun ij => ∑ l ∈ Finset.range n, a (ij.1, l) * b (l, ij.2)

/-- The sum of two matrices. -/
def addM (a b : Nat × Nat → F) : Nat × Nat → F := fun ij => a ij + b ij

/-- The identity matrix. -/
def identM : Nat × Nat → F := fun ij => if ij.1 = ij.2 then 1 else 0

/-- `pmat[i][0][t]`, line 2423: the entry must exist, and `operator[]` does not check that `t` is at most the degree. -/
noncomputable def readCoeff (pmat : PMat F[X]) (i t : Nat) : Out F :=
  if pmat.cols = 0 then .ub else if (t : Int) ≤ pdeg (pmat.e (i, 0)) then .ok ((pmat.e (i, 0)).coeff t) else .ub

/-- Lines 2415-2424: `residuals[k]` for `k < D`. -/
noncomputable def cut (pmat : PMat F[X]) (n D : Nat) : Out (Nat → Nat × Nat → F) :=
  loopOut D (fun k r =>
    andThen (loopOut n (fun i e => loopOut n (fun j e => andThen (readCoeff pmat i (k * n + j)) fun a => .ok (write (i, j) a e)) e) fun _ => 0) fun e =>
    .ok (write k e r)) fun _ _ => 0

/-- What the loop on `d` works on. -/
structure St (F : Type) where
  /-- `residuals` -/
  res : Nat → Nat × Nat → F
  /-- `coeffs_appbas` -/
  cf : Nat → Nat × Nat → F
  /-- `krylov` -/
  kry : Nat × Nat → F

/-- Lines 2447-2455: the Krylov matrix. -/
def krylov (n : Nat) (R k : Nat × Nat → F) : Nat × Nat → F :=
  let k := forN n (fun i => forN n fun j => write (i, j) (R (i, j))) k
  forN n (fun i => forN (n - 1) fun j => write (i + n, j + 1) (R (i, j + 1 - 1))) k

/-- Lines 2463-2472: the product of the basis by `X + K`. -/
def updApp (n d : Nat) (K : Nat × Nat → F) (cf : Nat → Nat × Nat → F) : Nat → Nat × Nat → F :=
  forN d (fun t cf =>
    let k := d - t
    let cf := write k (addM (cf k) (cf (k - 1))) cf
    write (k - 1) (mulM n K (cf (k - 1))) cf) (write d K cf)

/-- Lines 2478-2488: the product of the residuals by `X + K`. -/
def updRes (n D d : Nat) (K : Nat × Nat → F) (res : Nat → Nat × Nat → F) : Nat → Nat × Nat → F :=
  forN (D - 1 - d) (fun t res =>
    let k := D - 1 - t
    let r : Nat × Nat → F := fun ij => if ij.2 = 0 then res (k - 1) (ij.1, n - 1) else res k (ij.1, ij.2 - 1)
    let res := write k (mulM n K (res k)) res
    write k (addM (res k) r) res) res

/-- Lines 2444-2489, one iteration. -/
def step (ker : PMat F → PMat F) (n D d : Nat) (s : St F) : Out (St F) :=
  let kry := krylov n (s.res d) s.kry
  let kb := ker ⟨2 * n, n, kry⟩
  if kb.rows < n ∨ kb.cols < n then .ub
  else .ok ⟨updRes n D d kb.e s.res, updApp n d kb.e s.cf, kry⟩

/-- `mbasis_generic_onecolumn(appbas, pmat, order, shift)`, lines 2403-2495; `shift` is only copied.  The quotient by `nrows` is not
    defined without row.  The value is `appbas` and the vector returned. -/
noncomputable def mbasis (ker : PMat F → PMat F) (pmat : PMat F[X]) (order : Nat) : Out (PMat F[X] × NVec Int) :=
  let n := pmat.rows
  if n = 0 then .ub
  else
    let D := order / n
    andThen (cut pmat n D) fun res =>
    andThen (loopOut D (step ker n D) ⟨res, fun _ _ => 0, fun _ => 0⟩) fun s =>
    let cf := write D identM s.cf
    .ok (⟨n, n, fun ij => ofCoeffs (D + 1) fun k => cf k ij⟩, ⟨n, fun _ => (D : Int)⟩)

/-- `pmbasis_generic_onecolumn(appbas, pmat, order, shift)`, lines 2502-2550.  The depth of the recursion is bounded by `fuel`. -/
noncomputable def pmbasis (ker : PMat F → PMat F) (rd : Rat → Rat) (mul : PMat F[X] → PMat F[X] → Option (PMat F[X])) :
    Nat → PMat F[X] → Nat → NVec Int → Out (PMat F[X] × NVec Int)
  | fuel, pmat, order, shift =>
    if order ≤ 16 * pmat.rows then mbasis ker pmat order
    else
      match fuel with
      | 0 => .loops
      | fuel + 1 =>
        let order1 := order / 2
        let order2 := order - order1
        let t := trunc false ⟨0, 0, fun _ => 0⟩ pmat order1
        andThen (pmbasis ker rd mul fuel t order1 shift) fun r =>
        if shift.len < r.2.len ∨ pmat.rows < r.2.len then .ub
        else
          let rdeg : NVec Int := ⟨pmat.rows, fun i => if i < r.2.len then r.2.e i + shift.e i else 0⟩
          andThen (rightParlinMiddle rd mul (fresh F) r.1 pmat (pmat.cols * order / (2 * pmat.rows)) (fun _ => (order : Int) - 1) order1 (order2 - 1)) fun res =>
          andThen (pmbasis ker rd mul fuel (vals res) order2 rdeg) fun r2 =>
          andThen (Bivar.ofOpt (mul r2.1 r.1)) fun app =>
          if r2.2.len < r.2.len then .ub else .ok (app, ⟨r.2.len, fun i => r.2.e i + r2.2.e i⟩)

end PML.Ntl.OneCol
