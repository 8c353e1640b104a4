import Verif.Forms.Spec
import Verif.Ntl.MatUtilsModel

/-!
# Specification for C109: denominators of a matrix fraction

Matrices are functions of their indices, which are below `m`.
-/

namespace PML.Ntl.Recon

open Polynomial PML.Ntl.Utils PML.Forms.Spec

variable {F : Type} [Field F]

/-- `p` is a left denominator of the fraction `N D⁻¹`: the row vector `p N D⁻¹` is a polynomial vector `q`. -/
def IsLeftDen (m : Nat) (N D : Nat → Nat → F[X]) (p : Nat → F[X]) : Prop :=
  ∃ q : Nat → F[X], ∀ j, j < m → ∑ l ∈ Finset.range m, p l * N l j = ∑ l ∈ Finset.range m, q l * D l j

/-- The matrices `S 0, ..., S (d-1)` are the values at `x 0, ..., x (d-1)` of the strictly proper fraction `N D⁻¹`; `D` is nonsingular at
    these points, and column reduced with column degrees `e`. -/
structure IsFraction (m : Nat) (S : Nat → Nat → Nat → F) (x : Nat → F) (d : Nat) (N D : Nat → Nat → F[X]) (e : Nat → Nat) : Prop where
  value : ∀ k, k < d → ∀ i j, i < m → j < m → ∑ l ∈ Finset.range m, S k i l * (D l j).eval (x k) = (N i j).eval (x k)
  regular : ∀ k, k < d → ∀ y : Nat → F, (∀ j, j < m → ∑ l ∈ Finset.range m, y l * (D l j).eval (x k) = 0) → ∀ l, l < m → y l = 0
  proper : ∀ i j, i < m → j < m → ∀ c, e j ≤ c → (N i j).coeff c = 0
  degree : ∀ i j, i < m → j < m → (D i j).natDegree ≤ e j
  reduced : ∀ y : Nat → F, (∀ j, j < m → ∑ l ∈ Finset.range m, y l * (D l j).coeff (e j) = 0) → ∀ l, l < m → y l = 0

/-- What `basis` is: its rows are a basis of the left denominators of the fraction, in ordered weak Popov form: the pivot of row `i` is
    at `i`, and no denominator with pivot `i` has a smaller pivot degree. -/
structure IsDenBasis (m : Nat) (N D : Nat → Nat → F[X]) (B : PMat F[X]) : Prop where
  rows : B.rows = m
  cols : B.cols = m
  pivot : ∀ i, i < m → ∃ δ, PivotLower m (fun _ => 0) (fun j => B.e (i, j)) i δ
  minimal : ∀ i δ p δ', i < m → PivotLower m (fun _ => 0) (fun j => B.e (i, j)) i δ → IsLeftDen m N D p → PivotLower m (fun _ => 0) p i δ' → δ ≤ δ'
  generates : ∀ p, IsLeftDen m N D p ↔ ∃ u : Nat → F[X], ∀ j, j < m → p j = ∑ i ∈ Finset.range m, u i * B.e (i, j)

end PML.Ntl.Recon
