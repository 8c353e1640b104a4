import Verif.Ntl.PopovModel
import Verif.Ntl.MbasisSpec

/-!
# What is assumed of the shape of `kernel`, and what `popov_mbasis1` represents
-/

namespace PML.Ntl.Popov

open Polynomial PML.Ntl.Utils PML.Ntl.Mbasis

variable {F : Type} [Field F]

/-- What the comments at lines 76 and 84-91 of `mat_lzz_pX_pmbasis.cpp` say of NTL's `kernel`, "according to experiments": the kernel of
    a zero matrix is the identity; if the last nonzero entries of the rows of the kernel are on the diagonal of its last
    square submatrix, then this submatrix is the identity. -/
structure KerShape (N : Nt F) : Prop where
  full : ∀ A, (N.ker A).rows = A.rows → ∀ i j, i < A.rows → j < A.rows → (N.ker A).e (i, j) = if i = j then 1 else 0
  diag : ∀ A, (∀ i, i < (N.ker A).rows → (N.ker A).e (i, A.rows - (N.ker A).rows + i) ≠ 0 ∧
      ∀ j, A.rows - (N.ker A).rows + i < j → j < A.rows → (N.ker A).e (i, j) = 0) →
    ∀ i j, i < (N.ker A).rows → j < (N.ker A).rows → (N.ker A).e (i, A.rows - (N.ker A).rows + j) = if i = j then 1 else 0

/-- The polynomial matrix of a matrix of constants. -/
noncomputable def constant (a : PMat F) : PMat F[X] := ⟨a.rows, a.cols, fun ij => C (a.e ij)⟩

/-- The basis represented by the result `(K, δ)` of `popov_mbasis1`, as documented in `mat_lzz_pX_approximant.h` lines 281-291: the
    rows of `K`, in order, at the indices where `δ` is 0; elsewhere, where `δ` is 1, a coordinate vector multiplied by `X`. -/
def Represents (m : Nat) (K : PMat F) (δ : Nat → Int) (P : PMat F[X]) : Prop :=
  P.rows = m ∧ P.cols = m ∧ ∃ L : Nat → Nat, (∀ i, i < K.rows → L i < m) ∧ (∀ i j, i < j → j < K.rows → L i < L j) ∧
    (∀ i, i < K.rows → δ (L i) = 0 ∧ ∀ l, l < m → P.e (L i, l) = C (K.e (i, l))) ∧
    ∀ t, t < m → (∀ i, i < K.rows → L i ≠ t) → δ t = 1 ∧ ∀ l, l < m → P.e (t, l) = if l = t then X else 0

end PML.Ntl.Popov
