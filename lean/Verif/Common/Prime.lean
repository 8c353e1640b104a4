import Mathlib.Algebra.Field.ZMod
import Mathlib.Tactic.NormNum.Prime

/-! Small prime moduli used in examples and witnesses. -/

namespace PML

instance : Fact (Nat.Prime 2) := ⟨by decide⟩
instance : Fact (Nat.Prime 5) := ⟨by decide⟩

end PML
