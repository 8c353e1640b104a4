import Mathlib.Algebra.Polynomial.Degree.Defs
import Mathlib.LinearAlgebra.Matrix.Rank

/-!
# Specification: shifted degrees, pivots and forms of polynomial matrices

Transcribed from the documentation of flint-extras/src/nmod_poly_mat_forms.h.
Vectors are index functions of explicit length `n`; a matrix with `r` rows is an
index function, its rows are `M i`. Shifts are vectors of integers.
-/

namespace PML.Forms.Spec

open Polynomial

variable {K : Type} [Field K]

/-- `d` is the shifted degree of the nonzero vector `p`: the maximum of
    `deg(p[j]) + s[j]` over the nonzero entries. -/
structure ShiftedDegree (n : Nat) (s : Nat → Int) (p : Nat → K[X]) (d : Int) : Prop where
  le : ∀ j, j < n → p j ≠ 0 → ((p j).natDegree : Int) + s j ≤ d
  attained : ∃ j, j < n ∧ p j ≠ 0 ∧ ((p j).natDegree : Int) + s j = d

/-- Lower (rightmost) shifted pivot of a nonzero vector: `π` is the largest index
    of an entry reaching the shifted degree, `δ` is the degree of that entry. -/
structure PivotLower (n : Nat) (s : Nat → Int) (p : Nat → K[X]) (π : Nat) (δ : Nat) : Prop where
  lt : π < n
  nonzero : p π ≠ 0
  degree : (p π).natDegree = δ
  le : ∀ j, j < n → p j ≠ 0 → ((p j).natDegree : Int) + s j ≤ δ + s π
  after : ∀ j, j < n → π < j → p j ≠ 0 → ((p j).natDegree : Int) + s j < δ + s π

/-- Upper (leftmost) shifted pivot of a nonzero vector. -/
structure PivotUpper (n : Nat) (s : Nat → Int) (p : Nat → K[X]) (π : Nat) (δ : Nat) : Prop where
  lt : π < n
  nonzero : p π ≠ 0
  degree : (p π).natDegree = δ
  le : ∀ j, j < n → p j ≠ 0 → ((p j).natDegree : Int) + s j ≤ δ + s π
  before : ∀ j, j < n → j < π → p j ≠ 0 → ((p j).natDegree : Int) + s j < δ + s π

/-- Row-wise lower shifted weak Popov form: no zero row, pairwise distinct pivots. -/
def WeakPopovLower (r n : Nat) (s : Nat → Int) (M : Nat → Nat → K[X]) : Prop :=
  ∃ piv δ : Nat → Nat, (∀ i, i < r → PivotLower n s (M i) (piv i) (δ i)) ∧
    ∀ i j, i < r → j < r → piv i = piv j → i = j

/-- Row-wise upper shifted weak Popov form. -/
def WeakPopovUpper (r n : Nat) (s : Nat → Int) (M : Nat → Nat → K[X]) : Prop :=
  ∃ piv δ : Nat → Nat, (∀ i, i < r → PivotUpper n s (M i) (piv i) (δ i)) ∧
    ∀ i j, i < r → j < r → piv i = piv j → i = j

/-- Row-wise lower shifted ordered weak Popov form. -/
def OrderedWeakPopovLower (r n : Nat) (s : Nat → Int) (M : Nat → Nat → K[X]) : Prop :=
  ∃ piv δ : Nat → Nat, (∀ i, i < r → PivotLower n s (M i) (piv i) (δ i)) ∧
    ∀ i j, i < j → j < r → piv i < piv j

/-- Row-wise upper shifted ordered weak Popov form. -/
def OrderedWeakPopovUpper (r n : Nat) (s : Nat → Int) (M : Nat → Nat → K[X]) : Prop :=
  ∃ piv δ : Nat → Nat, (∀ i, i < r → PivotUpper n s (M i) (piv i) (δ i)) ∧
    ∀ i j, i < j → j < r → piv i < piv j

/-- All entries of the vector are zero. -/
def ZeroVec (n : Nat) (p : Nat → K[X]) : Prop := ∀ j, j < n → p j = 0

/-- `m` is the minimum of the shift (0 for the empty shift). -/
def IsMin (n : Nat) (s : Nat → Int) (m : Int) : Prop :=
  (n = 0 ∧ m = 0) ∨ ((∀ j, j < n → m ≤ s j) ∧ ∃ j, j < n ∧ s j = m)

/-- Degree of a polynomial with the convention -1 for zero. -/
noncomputable def degreeZ (p : K[X]) : Int := open Classical in if p = 0 then -1 else p.natDegree

/-- `d` is the degree of the vector, `z` being the value for the zero vector. -/
def IsVecDegree (n : Nat) (s : Nat → Int) (p : Nat → K[X]) (z d : Int) : Prop :=
  (ZeroVec n p → d = z) ∧ (¬ ZeroVec n p → ShiftedDegree n s p d)

/-- Coefficient of degree `d - s[j]` of entry `j`. -/
noncomputable def leadRow (s : Nat → Int) (d : Int) (p : Nat → K[X]) (j : Nat) : K :=
  if s j ≤ d then (p j).coeff (d - s j).toNat else 0

/-- Row-wise shifted reduced form: no zero row, and the rows of the leading
    matrix are linearly independent. -/
def RowReduced (r n : Nat) (s : Nat → Int) (M : Nat → Nat → K[X]) : Prop :=
  ∃ d : Nat → Int, (∀ i, i < r → ShiftedDegree n s (M i) (d i)) ∧
    ∀ u : Nat → K, (∀ j, j < n → ∑ i ∈ Finset.range r, u i * leadRow s (d i) (M i) j = 0) →
      ∀ i, i < r → u i = 0

/-- The predictable degree property: no cancellation of the leading terms in
    combinations of the rows. -/
def PredictableDegree (r n : Nat) (s : Nat → Int) (M : Nat → Nat → K[X]) : Prop :=
  ∃ d : Nat → Int, (∀ i, i < r → ShiftedDegree n s (M i) (d i)) ∧
    ∀ (u : Nat → K[X]) (D : Int), ShiftedDegree r d u D →
      ShiftedDegree n s (fun j => ∑ i ∈ Finset.range r, u i * M i j) D

/-- Row-wise lower shifted Popov form. -/
def PopovLower (r n : Nat) (s : Nat → Int) (M : Nat → Nat → K[X]) : Prop :=
  ∃ piv δ : Nat → Nat, (∀ i, i < r → PivotLower n s (M i) (piv i) (δ i)) ∧
    (∀ i j, i < j → j < r → piv i < piv j) ∧
    (∀ i, i < r → (M i (piv i)).Monic) ∧
    ∀ i k, i < r → k < r → k ≠ i → (M k (piv i)).degree < (M i (piv i)).degree

/-- Row-wise upper shifted Popov form. -/
def PopovUpper (r n : Nat) (s : Nat → Int) (M : Nat → Nat → K[X]) : Prop :=
  ∃ piv δ : Nat → Nat, (∀ i, i < r → PivotUpper n s (M i) (piv i) (δ i)) ∧
    (∀ i j, i < j → j < r → piv i < piv j) ∧
    (∀ i, i < r → (M i (piv i)).Monic) ∧
    ∀ i k, i < r → k < r → k ≠ i → (M k (piv i)).degree < (M i (piv i)).degree

/-- `π` is the index of the rightmost nonzero entry. -/
structure LastNonzero (n : Nat) (p : Nat → K[X]) (π : Nat) : Prop where
  lt : π < n
  nonzero : p π ≠ 0
  after : ∀ j, j < n → π < j → p j = 0

/-- `π` is the index of the leftmost nonzero entry. -/
structure FirstNonzero (n : Nat) (p : Nat → K[X]) (π : Nat) : Prop where
  lt : π < n
  nonzero : p π ≠ 0
  before : ∀ j, j < n → j < π → p j = 0

/-- Row-wise lower echelon form: zero rows at the top, then rows whose rightmost
    nonzero entries are at increasing indices. -/
def EchelonLower (r n : Nat) (M : Nat → Nat → K[X]) : Prop :=
  ∃ z, z ≤ r ∧ (∀ i, i < z → ZeroVec n (M i)) ∧ ∃ piv : Nat → Nat,
    (∀ i, z ≤ i → i < r → LastNonzero n (M i) (piv i)) ∧
    ∀ i j, z ≤ i → i < j → j < r → piv i < piv j

/-- Row-wise upper echelon form: rows whose leftmost nonzero entries are at
    increasing indices, then zero rows. -/
def EchelonUpper (r n : Nat) (M : Nat → Nat → K[X]) : Prop :=
  ∃ z, z ≤ r ∧ (∀ i, z ≤ i → i < r → ZeroVec n (M i)) ∧ ∃ piv : Nat → Nat,
    (∀ i, i < z → FirstNonzero n (M i) (piv i)) ∧
    ∀ i j, i < j → j < z → piv i < piv j

/-- Row-wise lower Hermite form (no zero row, monic pivots). -/
def HermiteLower (r n : Nat) (M : Nat → Nat → K[X]) : Prop :=
  ∃ piv : Nat → Nat, (∀ i, i < r → LastNonzero n (M i) (piv i)) ∧
    (∀ i j, i < j → j < r → piv i < piv j) ∧
    (∀ i, i < r → (M i (piv i)).Monic) ∧
    ∀ i k, i < k → k < r → (M k (piv i)).degree < (M i (piv i)).degree

/-- Row-wise upper Hermite form (no zero row, monic pivots). -/
def HermiteUpper (r n : Nat) (M : Nat → Nat → K[X]) : Prop :=
  ∃ piv : Nat → Nat, (∀ i, i < r → FirstNonzero n (M i) (piv i)) ∧
    (∀ i j, i < j → j < r → piv i < piv j) ∧
    (∀ i, i < r → (M i (piv i)).Monic) ∧
    ∀ i k, k < i → i < r → (M k (piv i)).degree < (M i (piv i)).degree

end PML.Forms.Spec
