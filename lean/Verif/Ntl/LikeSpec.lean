import Verif.Ntl.LikeModel
import Verif.Ntl.StructSpec

/-!
# Specification of matrices with displacement structure (C84)

`Z_c` has ones below the diagonal and `c` in the upper right corner.  A matrix `M` is given by generators `G`, `H` when its
displacement is `G H^t`.
-/

namespace PML.Ntl.Struct

open PML.Ntl.Utils PML.Ntl.Inv

variable {p : Nat} [NeZero p]

/-- The entries of the matrix `Z_c` of dimension `n`. -/
def zEntry (n : Nat) (c : ZMod p) (i j : Nat) : ZMod p := if i = j + 1 then 1 else if i = 0 ∧ j + 1 = n then c else 0

/-- `Z_1 M - M Z_0` -/
def dispTP (m n : Nat) (M : Nat → Nat → ZMod p) (i j : Nat) : ZMod p :=
  ∑ l ∈ Finset.range m, zEntry m 1 i l * M l j - ∑ l ∈ Finset.range n, M i l * zEntry n 0 l j

/-- `Z_0 M - M Z_1` -/
def dispTM (m n : Nat) (M : Nat → Nat → ZMod p) (i j : Nat) : ZMod p :=
  ∑ l ∈ Finset.range m, zEntry m 0 i l * M l j - ∑ l ∈ Finset.range n, M i l * zEntry n 1 l j

/-- `Z_1 M - M Z_0^t` -/
def dispHP (m n : Nat) (M : Nat → Nat → ZMod p) (i j : Nat) : ZMod p :=
  ∑ l ∈ Finset.range m, zEntry m 1 i l * M l j - ∑ l ∈ Finset.range n, M i l * zEntry n 0 j l

/-- `Z_0^t M - M Z_1` -/
def dispHM (m n : Nat) (M : Nat → Nat → ZMod p) (i j : Nat) : ZMod p :=
  ∑ l ∈ Finset.range m, zEntry m 0 l i * M l j - ∑ l ∈ Finset.range n, M i l * zEntry n 1 l j

/-- The `m` by `n` matrix `M` has the displacement `U V^t`, for the displacement operator `disp`. -/
def HasGens (disp : Nat → Nat → (Nat → Nat → ZMod p) → Nat → Nat → ZMod p) (U V : PMat (ZMod p)) (M : Nat → Nat → ZMod p) : Prop :=
  ∀ i j, i < U.rows → j < V.rows → disp U.rows V.rows M i j = ∑ k ∈ Finset.range U.cols, U.e (i, k) * V.e (j, k)

end PML.Ntl.Struct
