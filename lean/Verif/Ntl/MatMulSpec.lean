import Verif.Ntl.MatUtilsModel

/-!
# What a product of polynomial matrices is
-/

namespace PML.Ntl.MatMul

open Polynomial PML.Ntl.Utils

/-- `c = a b`: dimensions and entries. -/
def IsProduct {R : Type} [CommRing R] (a b c : PMat R[X]) : Prop :=
  c.rows = a.rows ∧ c.cols = b.cols ∧
    ∀ i j, i < a.rows → j < b.cols → c.e (i, j) = ∑ k ∈ Finset.range a.cols, a.e (i, k) * b.e (k, j)

end PML.Ntl.MatMul
