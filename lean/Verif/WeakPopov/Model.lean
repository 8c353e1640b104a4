import Verif.Common.While
import Verif.Forms.Model
import Verif.Sort.Model

/-!
# Model: weak Popov forms
(flint-extras/src/nmod_poly_mat_extra/nmod_poly_mat_weak_popov.c)

Row operations act on whole rows: an index function is changed at every column
index, those at or beyond the number of columns having no meaning. `rstart` and
`cstart` are 0, as in all callers in the repository. `NULL` for `det` and `rrp`
is modelled by ignoring the corresponding output.
-/

namespace PML.WeakPopov

open PML.MatOps PML.MatPoly PML.Forms Polynomial

variable {K : Type} [Field K] [DecidableEq K]

/-- `mat[a,:] = mat[a,:] + u * mat[b,:]`. -/
noncomputable def addRowMul (A : Mat K[X]) (a b : Nat) (u : K[X]) : Mat K[X] :=
  Function.update A a fun jj => A a jj + u * A b jj

/-- The multiplier `cst * x**exp` of `_atomic_solve_pivot_collision_rowwise`,
    nmod_poly_mat_weak_popov.c:50-86 (the padding, addition and normalisation of
    each entry is the addition of polynomials). `none`: `exp` is negative, and the
    code would write before the coefficient arrays. -/
noncomputable def collisionFactor (A : Mat K[X]) (pi1 pi2 j : Nat) : Option K[X] :=
  if polyLength (A pi1 j) < polyLength (A pi2 j) then none
  else
    let exp := polyLength (A pi1 j) - polyLength (A pi2 j)
    let cst := (A pi2 j).leadingCoeff⁻¹
    let cst := (A pi1 j).leadingCoeff * cst
    let cst := -cst
    some (C cst * X ^ exp)

/-- Variables of `_nmod_poly_mat_weak_popov_iter_submat_rowbyrow`, and a flag for
    accesses out of bounds. -/
structure WPState (K : Type) [Field K] where
  mat : Mat K[X]
  tsf : Option (Mat K[X])
  det : Int
  pivind : Nat → Int
  prow : Nat → Int
  rrp : Nat → Nat
  rk : Nat
  zr : Nat
  oob : Bool

/-- `zpiv`, line 209. -/
def zpiv (o : Orient) (cdim : Nat) : Int := if o = .rowLower then -1 else (cdim : Int)

/-- The loop body, lines 229-262. -/
noncomputable def wpBody (o : Orient) (shift : Option (Nat → Int)) (rdim cdim : Nat)
    (s : WPState K) : WPState K :=
  let prof := vecPivotProfile o shift cdim (s.mat s.rk)
  let ind := prof.1
  let pivdeg := prof.2.1
  let s := { s with pivind := Function.update s.pivind s.rk ind }
  if ind = zpiv o cdim then
    { s with
      mat := (rotateRowsUpward s.mat none s.rk (rdim - 1)).1
      tsf := s.tsf.map fun T => (rotateRowsUpward T none s.rk (rdim - 1)).1
      det := if (rdim - 1 - s.rk) % 2 = 1 then -s.det else s.det
      zr := s.zr + 1 }
  else if ¬ (0 ≤ ind ∧ ind < cdim) then { s with oob := true }
  else
    let j := ind.toNat
    if s.prow j = -1 then
      { s with
        prow := Function.update s.prow j (s.rk : Int)
        rrp := Function.update s.rrp s.rk (s.rk + s.zr)
        rk := s.rk + 1 }
    else
      let pi := (s.prow j).toNat
      let s :=
        if pivdeg < pdeg (s.mat pi j) then
          { s with
            mat := (swapRows s.mat none pi s.rk).1
            tsf := s.tsf.map fun T => (swapRows T none pi s.rk).1
            det := if pi ≠ s.rk then -s.det else s.det }
        else s
      match collisionFactor s.mat s.rk pi j with
      | none => { s with oob := true }
      | some u =>
        { s with
          mat := addRowMul s.mat s.rk pi u
          tsf := s.tsf.map fun T => addRowMul T s.rk pi u }

/-- The loop condition, line 227 (the model also stops at an access out of bounds). -/
def wpCond (rdim earlyExitZr : Nat) (s : WPState K) : Bool :=
  !s.oob && decide (s.rk + s.zr < rdim ∧ s.zr < earlyExitZr)

/-- State before the loop, lines 212-225. -/
noncomputable def wpInit (mat : Mat K[X]) (tsf : Option (Mat K[X])) (det : Int)
    (pivind : Nat → Int) (rrp : Nat → Nat) : WPState K :=
  { mat, tsf, det, pivind, prow := fun _ => -1, rrp, rk := 0, zr := 0, oob := false }

/-- `_nmod_poly_mat_weak_popov_iter_submat_rowbyrow(mat, shift, tsf, det, pivind, rrp,
    0, 0, rdim, cdim, early_exit_zr, orient)`, lines 193-272: final state and return
    value; `none` when the fuel runs out. -/
noncomputable def weakPopovSubmat (fuel : Nat) (o : Orient) (shift : Option (Nat → Int))
    (mat : Mat K[X]) (tsf : Option (Mat K[X])) (det : Int) (pivind : Nat → Int) (rrp : Nat → Nat)
    (rdim cdim earlyExitZr : Nat) : Option (WPState K × Int) :=
  let s0 := wpInit mat tsf det pivind rrp
  if rdim = 0 ∨ cdim = 0 then some (s0, 0)
  else
    (whileLoop (wpCond rdim earlyExitZr) (wpBody o shift rdim cdim) fuel s0).map fun s =>
      (s, if s.zr ≥ earlyExitZr then -(s.rk : Int) else (s.rk : Int))

/-- `nmod_poly_mat_weak_popov_iter(mat, shift, tsf, pivind, rrp, orient)` on an
    `r × c` matrix, nmod_poly_mat_forms.h:843-852. -/
noncomputable def weakPopovIter (fuel : Nat) (o : Orient) (shift : Option (Nat → Int)) (r c : Nat)
    (mat : Mat K[X]) (tsf : Option (Mat K[X])) (pivind : Nat → Int) (rrp : Nat → Nat) :
    Option (WPState K × Int) :=
  weakPopovSubmat fuel o shift mat tsf 1 pivind rrp r c r

/-- `nmod_poly_mat_ordered_weak_popov_iter`, lines 274-289:
    `(mat, tsf, pivind, rrp, return value)`. The array `perm` is uninitialised
    (`perm0`); `rk` is used as a number of rows. -/
noncomputable def orderedWeakPopovIter (qs : PML.Sort.QsortFn) (fuel : Nat) (o : Orient)
    (shift : Option (Nat → Int)) (r c : Nat) (mat : Mat K[X]) (tsf : Option (Mat K[X]))
    (pivind : Nat → Int) (rrp : Nat → Nat) (perm0 : Nat → Nat) :
    Option (Mat K[X] × Option (Mat K[X]) × (Nat → Int) × (Nat → Nat) × Int × Bool) :=
  (weakPopovSubmat fuel o shift mat tsf 1 pivind rrp r c r).map fun sr =>
    let s := sr.1
    let rk := sr.2
    let t := PML.Sort.permuteRowsBySorting qs r s.mat rk.toNat s.pivind perm0
    (t.1, s.tsf.map fun T => (permuteRows r T t.2.2 none).1, t.2.1, s.rrp, rk, s.oob)

end PML.WeakPopov
