import Verif.Ntl.SylvXModel
import Verif.Ntl.StructXSpec

/-!
# Specification of the Sylvester matrices over `K[X]` (C93)
-/

namespace PML.Ntl.SylvX

open Polynomial PML.Ntl.Utils PML.Ntl.Inv PML.Ntl.Bivar PML.Ntl.StructX

variable {F : Type} [Field F]

/-- The Sylvester matrix of `A` and `B`, of degrees `dA = A.len - 1` and `dB = B.len - 1` in `Y`: its columns are the coefficients of `A Y^j` for
    `j < dB`, and then those of `B Y^j` for `j < dA`. -/
noncomputable def sylvEntry (A B : PVec F) (i j : Nat) : F[X] :=
  if j < B.len - 1 then (A.poly * X ^ j).coeff i else (B.poly * X ^ (j - (B.len - 1))).coeff i

/-- The Kronecker substitution of step `deg(u) + deg(v) + 1`, for two vectors multiplied together, has room for both: one of them may be zero, of degree
    `-1`, only if the degree of the other one is positive and not reached by its last entry. -/
def Room (u v : PVec F) : Prop :=
  (0 ≤ u.degX ∧ 0 ≤ v.degX) ∨
  (v.degX = -1 ∧ 1 ≤ u.degX ∧ ∀ n, u.len = n + 1 → Bivar.pdeg (u.at' n) < u.degX) ∨
  (u.degX = -1 ∧ 1 ≤ v.degX ∧ ∀ n, v.len = n + 1 → Bivar.pdeg (v.at' n) < v.degX)

/-- The contract of `middle_product(b, a, c, dA, dB)`, for `dA ≥ 0` and `dB ≥ -1` (see C56): the coefficients `dA, ..., dA + dB` of the product. -/
structure MidOK (mp : F[X] → F[X] → Int → Int → Out F[X]) : Prop where
  zero : ∀ (a c : F[X]) (dA dB : Int), a = 0 ∨ c = 0 → mp a c dA dB = .ok 0
  mid : ∀ (a c : F[X]) (dA l : Nat), ∃ b, mp a c dA ((l : Int) - 1) = .ok b ∧
    ∀ j, b.coeff j = if j < l then ((a %ₘ X ^ (dA + 1)) * c).coeff (dA + j) else 0

/-- The objects built by the constructor from `A` and `B`. -/
def Made (A B : PVec F) (o : Sylv F) : Prop := ∃ g, Sylv.make g A B = .ok o

/-- The first part of a vector. -/
noncomputable def firstPart (v : PVec F) (n : Nat) : PVec F := ⟨n, v.at'⟩

/-- The second part of a vector. -/
noncomputable def secondPart (v : PVec F) (off n : Nat) : PVec F := ⟨n, fun i => v.at' (i + off)⟩

/-- The reversed vector. -/
noncomputable def reversed (v : PVec F) : PVec F := ⟨v.len, fun i => v.at' (v.len - 1 - i)⟩

end PML.Ntl.SylvX
