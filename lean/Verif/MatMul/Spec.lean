import Mathlib.Data.Matrix.Mul
import Mathlib.Data.ZMod.Basic

/-! # Specification: products of matrices of residues -/

namespace PML.MatMul.Spec

/-- The `r × c` matrix over `ℤ/q` whose entries are the residues stored in `M`. -/
def residues (q r c : Nat) (M : Nat → Nat → Nat) : Matrix (Fin r) (Fin c) (ZMod q) :=
  Matrix.of fun i j => (M i j : ZMod q)

/-- The entries of the `r × c` matrix are residues in `[0, q)`. -/
def ReducedMat (q r c : Nat) (M : Nat → Nat → Nat) : Prop := ∀ i, i < r → ∀ j, j < c → M i j < q

/-- `P` is the product of the `m × n` matrix `A` by the `n × p` matrix `B` modulo
    `q`, with entries in `[0, q)`. -/
structure IsProduct (q m n p : Nat) (A B P : Nat → Nat → Nat) : Prop where
  reduced : ReducedMat q m p P
  eq : residues q m p P = residues q m n A * residues q n p B

end PML.MatMul.Spec
