import Verif.Ntl.AppbasModel
import Verif.Ntl.MbasisSpec
import Verif.Approx.SpecOrders

/-!
# Specification of minimal approximant bases with one order per column
-/

namespace PML.Ntl.Appbas

open Polynomial PML.Ntl.Utils PML.Ntl.Mbasis PML.Approx.Spec PML.Forms.Spec

variable {F : Type} [Field F]

/-- The vector `order` as a function of the column. -/
def orderOf (n : Nat) (order : List Nat) : Fin n → Nat := fun j => order.getD j 0

/-- The vector `shift` as a function. -/
def entryOf (shift : List Int) : Nat → Int := fun i => shift.getD i 0

/-- `P` is an approximant basis of `pmat` at the orders `order`, in ordered weak Popov form for the shift `s`, with its
    pivots on the diagonal, and `t` holds the shifted degrees of its rows. -/
structure IsMinBasisO (pmat : PMat F[X]) (order : List Nat) (s : Nat → Int) (P : PMat F[X]) (t : Nat → Int) : Prop where
  rows : P.rows = pmat.rows
  cols : P.cols = pmat.rows
  basis : IsApproximantBasisO (mat pmat.rows pmat.cols pmat) (orderOf pmat.cols order) (mat pmat.rows pmat.rows P)
  popov : OrderedWeakPopovLower pmat.rows pmat.rows s fun i j => P.e (i, j)
  pivot : ∀ i, i < pmat.rows → PivotLower pmat.rows s (fun j => P.e (i, j)) i (t i - s i).toNat
  rdeg : ∀ i, i < pmat.rows → ShiftedDegree pmat.rows s (fun j => P.e (i, j)) (t i)
  ge : ∀ i, i < pmat.rows → s i ≤ t i

end PML.Ntl.Appbas
