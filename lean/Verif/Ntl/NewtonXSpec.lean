import Verif.Ntl.NewtonXModel
import Verif.Ntl.SylvXSpec
import Verif.Ntl.SylvSpec

/-!
# Specification of the inversion of the Sylvester matrices over `K[X]` (C94)
-/

namespace PML.Ntl.NewtonX

open Polynomial PML.Ntl.Utils PML.Ntl.Inv PML.Ntl.Bivar PML.Ntl.StructX PML.Ntl.SylvX

variable {p : Nat} [Fact p.Prime]

/-- `A(0, Y)`. -/
noncomputable def constPart (A : PVec (ZMod p)) : (ZMod p)[X] := A.poly.map (evalRingHom 0)

/-- The matrices `M` and `N`, of dimension `n`, are inverses of each other modulo `X^m`. -/
structure IsInvMod (m n : Nat) (M N : Nat → Nat → (ZMod p)[X]) : Prop where
  right : ∀ i j, i < n → j < n → X ^ m ∣ (∑ k ∈ Finset.range n, M i k * N k j) - if i = j then 1 else 0
  left : ∀ i j, i < n → j < n → X ^ m ∣ (∑ k ∈ Finset.range n, N i k * M k j) - if i = j then 1 else 0

/-- The object represents the matrix `N` of dimension `n`: all its products by vectors, and its generators, are those of `N`. -/
structure Represents (iM : Like (ZMod p)) (n : Nat) (N : Nat → Nat → (ZMod p)[X]) : Prop where
  right : ∀ g res (v : PVec (ZMod p)), v.len = n → IsRight (iM.mulRight g res v) n n N v.at'
  left : ∀ g res (v : PVec (ZMod p)), v.len = n → IsLeft (iM.mulLeft g res v) n n N v.at'
  rightTrunc : ∀ g res (v : PVec (ZMod p)) s, v.len = n → IsRightMod s (iM.mulRightTrunc g res v s) n n N v.at'
  leftTrunc : ∀ g res (v : PVec (ZMod p)) s, v.len = n → IsLeftMod s (iM.mulLeftTrunc g res v s) n n N v.at'
  gens : iM.G.rows = n ∧ iM.H.rows = n ∧ HasGens iM.G iM.H N

/-- The generators have two columns, of degrees less than `m`. -/
def Small (iM : Like (ZMod p)) (m : Nat) : Prop :=
  iM.G.cols = 2 ∧ iM.H.cols = 2 ∧ ∀ i j, i < iM.G.rows → j < 2 → (iM.G.e (i, j)).degree < m ∧ (iM.H.e (i, j)).degree < m

/-- The solutions of `M G = -U` and `H M = V^t` modulo `X^k`. -/
structure Sol (n : Nat) (M : Nat → Nat → (ZMod p)[X]) (U V : PMat (ZMod p)[X]) (k : Nat) (G H : PMat (ZMod p)[X]) : Prop where
  gr : G.rows = n
  gc : G.cols = 2
  hr : H.rows = 2
  hc : H.cols = n
  gd : ∀ i j, i < n → j < 2 → (G.e (i, j)).degree < k
  hd : ∀ i j, i < 2 → j < n → (H.e (i, j)).degree < k
  hG : ∀ i j, i < n → j < 2 → X ^ k ∣ (∑ l ∈ Finset.range n, M i l * G.e (l, j)) + U.e (i, j)
  hH : ∀ i j, i < 2 → j < n → X ^ k ∣ (∑ l ∈ Finset.range n, H.e (i, l) * M l j) - V.e (j, i)

end PML.Ntl.NewtonX
