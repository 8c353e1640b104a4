import Verif.Kernel.Spec
import Verif.Forms.Spec
import Verif.RowOps.Spec

/-!
# Specification: what the kernel functions return
(flint-extras/src/nmod_poly_mat_kernel.h:24-90)
-/

namespace PML.Kernel.Spec

open PML.PolyMul.Spec PML.Forms.Spec PML.RowOps.Spec Polynomial

variable {K : Type} [Field K]

/-- The first `nul` rows of `ker` are a left kernel basis of the `m × n` matrix `A`,
    in `s`-ordered weak Popov form (lower, or upper) with pivots at the increasing
    indices `piv`, and `rdeg` holds their `s`-degrees; `nul` is the nullity. -/
structure IsOrderedKernelBasis (upper : Bool) (m n : Nat) (s : Nat → Int) (A : Nat → Nat → K[X])
    (nul : Nat) (ker : Nat → Nat → K[X]) (piv rdeg : Nat → Int) : Prop where
  basis : IsKernelBasis (asMatrix m n A) (asMatrix nul m ker)
  nullity : nul + rankOf m n A = m
  pivot : ∀ i, i < nul → ∃ π δ : Nat, piv i = (π : Int) ∧
    if upper then PivotUpper m s (ker i) π δ else PivotLower m s (ker i) π δ
  increasing : ∀ i j, i < j → j < nul → piv i < piv j
  degree : ∀ i, i < nul → ShiftedDegree m s (ker i) (rdeg i)

end PML.Kernel.Spec
