import Verif.PolyMul.Model
import Verif.Forms.Model
import Verif.Unimodular.Model
import Verif.RowOps.Spec

/-!
# Model: verification of approximant bases and of kernel bases
(flint-extras/src/nmod_poly_mat_extra/verification.c)

FLINT's `nmod_poly_mat_det`, `nmod_mat_rank` and `nmod_poly_mat_rank` are the
determinant and ranks of Mathlib. Printing is left out.
-/

namespace PML.Verification

open PML.MatOps PML.MatPoly PML.PolyMul PML.Forms PML.Unimodular Polynomial

variable {q : Nat} [Fact q.Prime]

/-- `D += nmod_poly_degree(entry(appbas, i, i))`, lines 73-75. -/
noncomputable def sumDiagDeg (P : Mat (ZMod q)[X]) : Nat → Int
  | 0 => 0
  | i + 1 => sumDiagDeg P i + pdeg (P i i)

/-- The matrix `CP0` of lines 87-99. -/
noncomputable def cp0 (m : Nat) (P residual : Mat (ZMod q)[X]) (order : Nat) : Mat (ZMod q) :=
  fun i j => if j < m then (P i j).coeff 0 else (residual i (j - m)).coeff order

/-- `nmod_poly_mat_is_approximant_basis(appbas, pmat, order, shift, orient)`, lines
    20-113, for an `appbas` with the dimensions required (`m × m`, `pmat` being
    `m × n`). For other dimensions the code goes on after the message of line 42
    and reads outside the matrices; this is not modelled. -/
noncomputable def isApproximantBasis (o : Oracles q) (orient : Orient) (m n : Nat)
    (appbas pmat : Mat (ZMod q)[X]) (order : Nat) (shift : Option (Nat → Int)) : Outcome Bool :=
  let form := isOrderedWeakPopov orient m m appbas shift
  match multiply o m m n (fun _ _ => 0) appbas pmat with
  | Outcome.fail => Outcome.fail
  | Outcome.ok residual =>
    let pol := truncPoly m n (fun _ _ => 0) residual order
    let approx := decide (∀ i, i < m → ∀ j, j < n → pol i j = 0)
    let degdet := decide (pdeg (detOf m appbas) = sumDiagDeg appbas m)
    let CP0 := cp0 m appbas residual order
    let rank := (Matrix.of fun (i : Fin m) (j : Fin (m + n)) => CP0 i j : Matrix _ _ (ZMod q)).rank
    Outcome.ok (form && approx && degdet && decide (rank = m))

/-- `nmod_poly_mat_is_kernel(ker, shift, mat, form, orient)` for `ROW_LOWER` and
    `ROW_UPPER`, lines 116-164; `ker` is `k × kc`, `mat` is `m × n`. When `kc ≠ m` or
    `k > m` the product of line 154 reads or writes outside its arguments. -/
noncomputable def isKernelRow (o : Oracles q) (qs : QsortIntFn) (orient : Orient) (k kc m n : Nat)
    (ker mat : Mat (ZMod q)[X]) (form : Form) (shift : Option (Nat → Int)) : Outcome Bool :=
  if kc ≠ m ∨ m < k then Outcome.fail
  else
    let nullity := decide ((k : Int) = m - (PML.RowOps.Spec.rankOf m n mat : Int))
    match isForm qs orient k kc ker form shift with
    | none => Outcome.fail
    | some formOk =>
      match multiply o k m n (fun _ _ => 0) ker mat with
      | Outcome.fail => Outcome.fail
      | Outcome.ok residual =>
        let zero := decide (∀ i, i < m → ∀ j, j < n → residual i j = 0)
        Outcome.ok (nullity && formOk && zero)

end PML.Verification
