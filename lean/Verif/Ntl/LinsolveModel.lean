import Verif.Ntl.SolveModel
import Verif.Ntl.KerbasModel
import Verif.Ntl.FormsModel

/-!
# Model of the solution of linear systems over `K(X)`

`ntl-extras/mat_lzz_pX_extra/src/mat_lzz_pX_linsolve.cpp`, lines 299-502, and `determinant_via_linsolve`, mat_lzz_pX_determinant.cpp:287-292.
The vector `b` is modelled with the length that the code expects, `A.NumRows()`, and is read by its entries.  The values of `random_zz_p()` are a
parameter `r`, arbitrary.
-/

namespace PML.Ntl.Linsolve

open Polynomial PML.Ntl.Utils PML.Ntl.Inv PML.Ntl.Solve

variable {F : Type} [Field F]

/-- A 2 x 2 matrix of polynomials, `zz_pXMatrix`. -/
structure Mat2 (F : Type) [Field F] where
  m00 : F[X]
  m01 : F[X]
  m10 : F[X]
  m11 : F[X]

/-- The functions of NTL: `HalfGCD(M, U, V, d)`, and `inv` of a matrix over the field, of which only the entries are given. -/
structure Ntl (F : Type) [Field F] where
  hgcd : F[X] → F[X] → Nat → Mat2 F
  inv : Nat → (Nat × Nat → F) → Option (Nat × Nat → F)

/-- `deg(b)`. -/
noncomputable def degV (n : Nat) (b : Nat → F[X]) : Int := deg (⟨n, 1, fun ij => b ij.1⟩ : PMat F[X])

/-- The loops of the constant case, mat_lzz_pX_linsolve.cpp:317-329.  `al` tells that `u` and `b` are the same vector, whose entries are then read after
    some of them were written. -/
noncomputable def constLoop (al : Bool) (n : Nat) (iA : Nat × Nat → F) (b : Nat → F[X]) : Nat → F[X] :=
  forN n (fun i u => write i (forN n (fun j s => s + C (iA (i, j)) * (if al then u j else b j)) 0) u) (if al then b else fun _ => 0)

/-- The linear combination of the series, mat_lzz_pX_linsolve.cpp:371-376. -/
noncomputable def linComb (n : Nat) (s : Nat → F[X]) (r : Nat → F) (D : Nat) : F[X] :=
  forN n (fun j l => l + C (r j) * ptrunc (s j) D) 0

/-- `linsolve_via_series(u, den, A, b, nb_max)`, mat_lzz_pX_linsolve.cpp:305-439, for `nb_max` equal to `-1`, the default value, or to 1: only one linear
    combination is used, and the branch of lines 390-428 is not modelled.  Without rows, line 361 divides by `nb = 0`.  The degrees `deg_num + 1` and
    `prec` are not negative when `A` is not zero; when it is, they are replaced by 0 where they would be. -/
noncomputable def viaSeries [DecidableEq F] (C' : Calls F) (N : Ntl F) (al : Bool) (A : PMat F[X]) (b : Nat → F[X]) (r : Nat → F) : Out ((Nat → F[X]) × F[X]) :=
  let n := A.rows
  let dA := deg A
  let dB := degV n b
  if dA = 0 then
    if A.rows ≠ A.cols then .error
    else match N.inv n fun ij => (A.e ij).coeff 0 with
      | none => .error
      | some iA => .ok (constLoop al n iA b, 1)
  else if n = 0 then .ub
  else
    let degDen := n * dA
    let degNum := degDen - dA + dB
    let first := max (degNum + 1) degDen
    let prec := first + degDen
    andThen (solveVec C' A n b prec.toNat) fun s =>
    let D := (degDen + degNum + 1).toNat
    let lin := linComb n s.2 r D
    let M := N.hgcd (X ^ D) lin (degDen + 1).toNat
    if M.m11.leadingCoeff = 0 then .error
    else
      let den := C (M.m11.leadingCoeff)⁻¹ * M.m11
      let k := (degNum + 1).toNat
      .ok (forN n (fun i u => write i (ptrunc (ptrunc (s.2 i) k * ptrunc den k) k) u) (if al then b else fun _ => 0), den)

/-- `determinant_via_linsolve(det, pmat)`, mat_lzz_pX_determinant.cpp:287-292.  `v` is the random vector, of degree less than `max(1, deg(pmat))`. -/
noncomputable def viaLinsolve [DecidableEq F] (C' : Calls F) (N : Ntl F) (A : PMat F[X]) (v : Nat → F[X]) (r : Nat → F) : Out F[X] :=
  andThen (viaSeries C' N false A v r) fun x => .ok x.2

/-- The transpose of `A`, with `b` below, mat_lzz_pX_linsolve.cpp:457-460. -/
noncomputable def augmented (A : PMat F[X]) (b : Nat → F[X]) : PMat F[X] :=
  ⟨A.cols + 1, A.rows, fun ij => if ij.1 < A.cols then A.e (ij.2, ij.1) else b ij.2⟩

/-- `linsolve_via_kernel(u, den, A, b)`, mat_lzz_pX_linsolve.cpp:444-502: `none` when the code returns 0. -/
noncomputable def viaKernel [DecidableEq F] (e : Kerbas.Env F) (A : PMat F[X]) (b : Nat → F[X]) : Out (Option ((Nat → F[X]) × F[X])) :=
  let pmat := augmented A b
  andThen (Forms.degrees true pmat none) fun shift =>
  andThen (Kerbas.zlsApprox e pmat shift) fun K =>
  andThen (Forms.pivots true K.1 (some shift)) fun piv =>
  let row := piv.1.findIdx fun x => x == (A.cols : Int)
  if row = piv.1.length then .ok none
  else .ok (some (forN A.cols (fun j u => write j (-K.1.e (row, j)) u) (fun _ => 0), K.1.e (row, A.cols)))

end PML.Ntl.Linsolve
