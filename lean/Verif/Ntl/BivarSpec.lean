import Verif.Ntl.BivarModel

/-!
# What the functions on bivariate polynomials should compute

`Polynomial (Polynomial F)` is the ring `F[X][Y]`: the outer variable is `Y`.
-/

namespace PML.Ntl.Bivar

open Polynomial PML.Ntl.Inv

variable {F : Type} [Field F]

/-- The bivariate polynomial represented by a vector: `∑ rep[i] Y^i`. -/
noncomputable def PVec.poly (v : PVec F) : Polynomial F[X] := ∑ i ∈ Finset.range v.len, C (v.at' i) * X ^ i

/-- "The last entry is maintained to be non-zero, unless `this` is zero." (lzz_pXY.h:36-38) -/
def PVec.Normal (v : PVec F) : Prop := ∀ n, v.len = n + 1 → v.at' n ≠ 0

/-- The call succeeds; afterwards the variable `c` holds a normalised representation of `P`, and the other variables
    are unchanged. -/
def Yields (r : Out (Mem F)) (m : Mem F) (c : Nat) (P : Polynomial F[X]) : Prop :=
  ∃ m', r = .ok m' ∧ (m' c).poly = P ∧ (m' c).Normal ∧ ∀ x, x ≠ c → m' x = m x

/-- All coefficients of `P` in `F[X]` have degree at most `d`. -/
def DegXLe (P : Polynomial F[X]) (d : Nat) : Prop := ∀ i j, d < j → (P.coeff i).coeff j = 0

end PML.Ntl.Bivar
