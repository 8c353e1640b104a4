import Verif.Ntl.CauchyModel
import Verif.Ntl.StructSpec

/-!
# Specification of Cauchy matrices on geometric progressions (C85)
-/

namespace PML.Ntl.Struct

variable {p : Nat} [Fact p.Prime]

/-- The entry `1 / (u rho^i - v rho^j)`, as in the comment at line 51. -/
def cauchyEntry (u v rho : ZMod p) (i j : Nat) : ZMod p := 1 / (u * rho ^ i - v * rho ^ j)

/-- The entry without the diagonal factor: `1 / (u - v rho^(j-i))`. -/
def simpleEntry (u v rho : ZMod p) (i j : Nat) : ZMod p := 1 / (u - v * rho ^ ((j : Int) - i))

/-- The matrix exists: no denominator is zero. -/
def CauchyOK (u v rho : ZMod p) (m n : Nat) : Prop := ∀ i j, i < m → j < n → u * rho ^ i ≠ v * rho ^ j

end PML.Ntl.Struct
