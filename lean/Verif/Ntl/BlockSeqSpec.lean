import Verif.Ntl.StructModel
import Mathlib.Algebra.Polynomial.FieldDivision

/-!
# Specification for C108: sequences of blocks of powers modulo a polynomial
-/

namespace PML.Ntl.BlockSeq

open Polynomial PML.Ntl.Utils

variable {F : Type} [Field F]

/-- The number of matrices which are asked for: `2 ceil(n/m) + 1`. -/
def count (n m : Nat) : Nat := 2 * ((n + m - 1) / m) + 1

/-- `mats` holds the powers of `a` from the highest one down to `1`: the entry `(i, j)` of the matrix of index `k` is the coefficient of
    degree `j` of `x^i a^(count - 1 - k) mod g`. -/
def IsSequence (a g : F[X]) (m : Nat) (mats : List (PMat F)) : Prop :=
  mats.length = count g.natDegree m ∧
  ∀ k M, mats[k]? = some M → M.rows = m ∧ M.cols = m ∧
    ∀ i j, i < m → j < m → M.e (i, j) = (X ^ i * a ^ (count g.natDegree m - 1 - k) % g).coeff j

end PML.Ntl.BlockSeq
