import Verif.Ntl.StructXModel
import Verif.Ntl.BivarSpec

/-!
# Specification of the structured matrices over `K[X]` (C92)

The entries of the matrices, what it is to multiply by a matrix, and the displacement operator.
-/

namespace PML.Ntl.StructX

open Polynomial PML.Ntl.Utils PML.Ntl.Inv PML.Ntl.Bivar

variable {F : Type} [Field F]

/-- The lower triangular Toeplitz matrix with first column `a`. -/
noncomputable def triEntry (a : Nat → F[X]) (i j : Nat) : F[X] := if j ≤ i then a (i - j) else 0

/-- The matrix with `m` columns, first row `a_{m-1}, ..., a_0`, in which each row is the previous one rotated to the right. -/
noncomputable def circEntry (m : Nat) (a : Nat → F[X]) (i j : Nat) : F[X] := a ((i + (m - 1 - j)) % m)

/-- The call gives the product of the `r` by `c` matrix `M` by the vector `v`. -/
def IsRight (out : Out (PVec F)) (r c : Nat) (M : Nat → Nat → F[X]) (v : Nat → F[X]) : Prop :=
  ∃ w, out = .ok w ∧ w.len = r ∧ ∀ i, i < r → w.at' i = ∑ j ∈ Finset.range c, M i j * v j

/-- The call gives the product of the row vector `v` by the `r` by `c` matrix `M`. -/
def IsLeft (out : Out (PVec F)) (r c : Nat) (M : Nat → Nat → F[X]) (v : Nat → F[X]) : Prop :=
  ∃ w, out = .ok w ∧ w.len = c ∧ ∀ j, j < c → w.at' j = ∑ i ∈ Finset.range r, v i * M i j

/-- The call gives the product of `M` by the vector `v`, modulo `X^s`. -/
def IsRightMod (s : Nat) (out : Out (PVec F)) (r c : Nat) (M : Nat → Nat → F[X]) (v : Nat → F[X]) : Prop :=
  ∃ w, out = .ok w ∧ w.len = r ∧ ∀ i, i < r → w.at' i = (∑ j ∈ Finset.range c, M i j * v j) %ₘ X ^ s

/-- The call gives the product of the row vector `v` by `M`, modulo `X^s`. -/
def IsLeftMod (s : Nat) (out : Out (PVec F)) (r c : Nat) (M : Nat → Nat → F[X]) (v : Nat → F[X]) : Prop :=
  ∃ w, out = .ok w ∧ w.len = c ∧ ∀ j, j < c → w.at' j = (∑ i ∈ Finset.range r, v i * M i j) %ₘ X ^ s

/-- The call gives the `r` by `c` matrix `M`. -/
def IsMat (out : Out (PMat F[X])) (r c : Nat) (M : Nat → Nat → F[X]) : Prop :=
  ∃ w, out = .ok w ∧ w.rows = r ∧ w.cols = c ∧ ∀ i j, i < r → j < c → w.e (i, j) = M i j

/-- The entries of the matrix `Z_c` of dimension `n`. -/
noncomputable def zEntry (n : Nat) (c : F[X]) (i j : Nat) : F[X] := if i = j + 1 then 1 else if i = 0 ∧ j + 1 = n then c else 0

/-- `Z_c M - M Z_d` -/
noncomputable def disp (c d : F[X]) (m n : Nat) (M : Nat → Nat → F[X]) (i j : Nat) : F[X] :=
  ∑ l ∈ Finset.range m, zEntry m c i l * M l j - ∑ l ∈ Finset.range n, M i l * zEntry n d l j

/-- The `m` by `n` matrix `M` has the displacement `Z_0 M - M Z_1 = U V^t`. -/
def HasGens (U V : PMat F[X]) (M : Nat → Nat → F[X]) : Prop :=
  ∀ i j, i < U.rows → j < V.rows → disp 0 1 U.rows V.rows M i j = ∑ k ∈ Finset.range U.cols, U.e (i, k) * V.e (j, k)

/-- The lower triangular Toeplitz matrices built from `v`, after any number of calls to `prepare_degree`. -/
inductive Tri.Reach (v : PVec F) : Tri F → Prop
  | make : Tri.Reach v (Tri.make v)
  | prep {o o' : Tri F} (g : Junk F) (d : Int) : Tri.Reach v o → -1 ≤ d → o.prepare g d = .ok o' → Tri.Reach v o'

/-- The circulant matrices with `n` rows built from `v`, after any number of calls to `prepare_degree`. -/
inductive Circ.Reach (v : PVec F) (n : Nat) : Circ F → Prop
  | make {o : Circ F} (g : Junk F) : Circ.make g v n = .ok o → Circ.Reach v n o
  | prep {o o' : Circ F} (g : Junk F) (d : Int) : Circ.Reach v n o → -1 ≤ d → o.prepare g d = .ok o' → Circ.Reach v n o'

end PML.Ntl.StructX
