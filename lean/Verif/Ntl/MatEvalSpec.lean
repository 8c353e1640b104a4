import Verif.Ntl.MatEvalModel
import Verif.Ntl.MatMulSpec

/-!
# What is assumed of the FFT and of the matrix inverse of NTL
-/

namespace PML.Ntl.MatEval

open Polynomial PML.Ntl.Utils PML.Ntl.MatMul

variable {F : Type} [Field F]

/-- A transform of size `2^K` is available: its points are distinct roots of `X^(2^K) - 1`, and
    `FFTRoundUp` gives at least what is asked for and at most `2^K`. -/
structure FFTOk (T : FFT F) (K : Nat) : Prop where
  /-- the points are distinct -/
  inj : ∀ r r', r < 2 ^ K → r' < 2 ^ K → T.pt K r = T.pt K r' → r = r'
  /-- they are roots of unity -/
  root : ∀ r, r < 2 ^ K → T.pt K r ^ 2 ^ K = 1
  /-- `FFTRoundUp` -/
  round : ∀ n, n ≤ 2 ^ K → n ≤ T.roundUp n K ∧ T.roundUp n K ≤ 2 ^ K

/-- `inv` returns a left inverse of an `n x n` matrix when there is one. -/
structure InvOk (inv : Nat → (Nat × Nat → F) → Option (Nat × Nat → F)) : Prop where
  /-- what is returned is an inverse -/
  sound : ∀ n M W, inv n M = some W → ∀ i j, i < n → j < n →
    ∑ k ∈ Finset.range n, W (i, k) * M (k, j) = if i = j then 1 else 0
  /-- invertible matrices are inverted -/
  complete : ∀ n M, (∃ W : Nat × Nat → F, ∀ i j, i < n → j < n →
    ∑ k ∈ Finset.range n, W (i, k) * M (k, j) = if i = j then 1 else 0) → ∃ W, inv n M = some W

end PML.Ntl.MatEval
