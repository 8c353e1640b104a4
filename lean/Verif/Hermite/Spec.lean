import Verif.Forms.Spec
import Verif.RowOps.Spec

/-!
# Specification: echelon forms, Hermite normal forms, rank profiles
-/

namespace PML.Hermite.Spec

open PML.Forms.Spec PML.RowOps.Spec Polynomial

variable {K : Type} [Field K]

/-- What is assumed of `nmod_poly_xgcd`: `xg a b = (g, u, v)` with `g` a monic common
    divisor and `g = u a + v b`, for `a`, `b` not both zero. -/
def XgcdContract (xg : K[X] → K[X] → K[X] × K[X] × K[X]) : Prop :=
  ∀ a b, a ≠ 0 ∨ b ≠ 0 → (xg a b).1.Monic ∧ (xg a b).1 ∣ a ∧ (xg a b).1 ∣ b ∧
    (xg a b).1 = (xg a b).2.1 * a + (xg a b).2.2 * b

/-- The `r × c` matrix `B` is in upper row echelon form: rows `0..rk-1` are nonzero with
    leftmost nonzero entries at increasing indices `piv`, the other rows are zero. -/
structure EchelonForm (r c : Nat) (B : Nat → Nat → K[X]) (rk : Nat) (piv : Nat → Nat) : Prop where
  le : rk ≤ r
  pivot : ∀ i, i < rk → FirstNonzero c (B i) (piv i)
  increasing : ∀ i k, i < k → k < rk → piv i < piv k
  zero : ∀ i, rk ≤ i → i < r → ZeroVec c (B i)

/-- Upper row-wise Hermite normal form: an echelon form whose pivots are monic, with
    entries of smaller degree above each pivot. -/
structure HermiteForm (r c : Nat) (B : Nat → Nat → K[X]) (rk : Nat) (piv : Nat → Nat) : Prop
    extends EchelonForm r c B rk piv where
  monic : ∀ i, i < rk → (B i (piv i)).Monic
  reduced : ∀ i k, k < i → i < rk → (B k (piv i)).degree < (B i (piv i)).degree

/-- `p 0 < p 1 < ... < p (k-1)` are the columns independent from the previous ones. -/
structure ColRankProfile (r c : Nat) (A : Nat → Nat → K[X]) (k : Nat) (p : Nat → Nat) : Prop where
  lt : ∀ l, l < k → p l < c
  increasing : ∀ l l', l < l' → l' < k → p l < p l'
  profile : ∀ j, j < c → ((∃ l, l < k ∧ p l = j) ↔ rankOf r j A < rankOf r (j + 1) A)

/-- `mrp` is the matrix rank profile: for every leading `s × t` submatrix, its rank is
    the number of rows `i < s` with `0 ≤ mrp i < t`, and distinct rows have distinct
    nonnegative values. Rows outside the profile have value -1. -/
structure MatrixRankProfile (r c : Nat) (A : Nat → Nat → K[X]) (mrp : Nat → Int) : Prop where
  range : ∀ i, i < r → mrp i = -1 ∨ (0 ≤ mrp i ∧ mrp i < c)
  distinct : ∀ i k, i < k → k < r → 0 ≤ mrp i → mrp i ≠ mrp k
  rank : ∀ s t, s ≤ r → t ≤ c →
    rankOf s t A = ((Finset.range s).filter fun i => 0 ≤ mrp i ∧ mrp i < (t : Int)).card

/-- `B` (with `T'`) is obtained from `A` (with `T`) by a unimodular left transformation. -/
def LeftEquivalent (r : Nat) (A : Nat → Nat → K[X]) (T : Option (Nat → Nat → K[X]))
    (B : Nat → Nat → K[X]) (T' : Option (Nat → Nat → K[X])) : Prop :=
  (T'.isSome = T.isSome) ∧
  ∃ σ : K[X], IsUnit σ ∧ Transformed r σ (beside A T) (beside B T')

/-- Same, with a transformation of determinant 1 or -1. -/
def SignEquivalent (r : Nat) (A : Nat → Nat → K[X]) (T : Option (Nat → Nat → K[X]))
    (B : Nat → Nat → K[X]) (T' : Option (Nat → Nat → K[X])) : Prop :=
  (T'.isSome = T.isSome) ∧
  ∃ σ : K[X], (σ = 1 ∨ σ = -1) ∧ Transformed r σ (beside A T) (beside B T')

/-- Everything which is claimed of an upper row echelon form computation with input
    matrix `A` and transformation `T`, result matrix `B` and transformation `T'`,
    returned rank `rk` and pivot indices `piv` (`piv0` before the call). -/
structure UrefResult (r c : Nat) (A : Nat → Nat → K[X]) (T : Option (Nat → Nat → K[X]))
    (piv0 : Nat → Nat) (B : Nat → Nat → K[X]) (T' : Option (Nat → Nat → K[X]))
    (rk : Nat) (piv : Nat → Nat) : Prop where
  echelon : EchelonForm r c B rk piv
  transformation : SignEquivalent r A T B T'
  rank : rk = rankOf r c A
  profile : ColRankProfile r c A rk piv
  unchanged : ∀ i, rk ≤ i → piv i = piv0 i

/-- Same for Hermite normal forms. -/
structure HnfResult (r c : Nat) (A : Nat → Nat → K[X]) (T : Option (Nat → Nat → K[X]))
    (piv0 : Nat → Nat) (B : Nat → Nat → K[X]) (T' : Option (Nat → Nat → K[X]))
    (rk : Nat) (piv : Nat → Nat) : Prop where
  hermite : HermiteForm r c B rk piv
  transformation : LeftEquivalent r A T B T'
  rank : rk = rankOf r c A
  profile : ColRankProfile r c A rk piv
  unchanged : ∀ i, rk ≤ i → piv i = piv0 i

/-- The column rank profile of the `r × c` matrix `A` is `0, 1, ..., rank-1`: as many of
    its first columns as its rank are independent. -/
def GenericProfile (r c : Nat) (A : Nat → Nat → K[X]) : Prop :=
  rankOf r (rankOf r c A) A = rankOf r c A

end PML.Hermite.Spec
