import Verif.WeakPopov.Model

/-!
# Model: determinant by iterated weak Popov forms
(flint-extras/src/nmod_poly_mat_extra/nmod_poly_mat_det.c)

`view` is a window with shrinking number of columns. Row operations on it act on the
columns of the window; depending on the representation of matrices in FLINT,
exchanging rows of the window may or may not also move the entries of `mat` beyond
the window. Both are covered: after the step with window width `i+1`, the entries of
rows `0..i` in columns beyond `i` are arbitrary values `junk i`.
-/

namespace PML.Det

open PML.MatOps PML.MatPoly PML.Forms PML.WeakPopov Polynomial

variable {K : Type} [Field K] [DecidableEq K]

/-- State of the loop: `view`, `udet`, `pivind`, out-of-bounds flag. -/
structure DetState (K : Type) [Field K] where
  mat : Mat K[X]
  udet : Int
  pivind : Nat → Int
  oob : Bool

/-- Keep the columns of the window `0..i` of the rows `0..i`. -/
def window (i : Nat) (A junk : Mat K[X]) : Mat K[X] :=
  fun ii jj => if ii ≤ i ∧ i < jj then junk ii jj else A ii jj

/-- One pass of the loop, lines 53-67 of nmod_poly_mat_det.c:
    `some (.inl b)`: the function returns with `det = 0`; `some (.inr s)`: next pass.
    `parity` is `_perm_parity` of FLINT. -/
noncomputable def detStep (qs : PML.Sort.QsortFn) (parity : (Nat → Nat) → Nat → Bool) (fuel r : Nat)
    (junk : Nat → Mat K[X]) (perm0 rrp0 : Nat → Nat) (i : Nat) (s : DetState K) :
    Option (Bool ⊕ DetState K) :=
  (weakPopovSubmat fuel .rowUpper none s.mat none s.udet s.pivind rrp0 (i + 1) i 2).map fun sr =>
    let w := sr.1
    let rk := sr.2
    let oob := s.oob || w.oob
    if rk < (i : Int) ∨ w.mat i i = 0 then .inl oob
    else
      let t := PML.Sort.permuteRowsBySorting qs r w.mat rk.toNat w.pivind perm0
      .inr { mat := window i t.1 (junk i)
             udet := if parity t.2.2 rk.toNat then -w.det else w.det
             pivind := t.2.1
             oob := oob }

/-- The loop `for (i = mat->r - 1; i >= 1; i--)`, from index `i`, lines 43-68. -/
noncomputable def detLoop (qs : PML.Sort.QsortFn) (parity : (Nat → Nat) → Nat → Bool) (fuel r : Nat)
    (junk : Nat → Mat K[X]) (perm0 rrp0 : Nat → Nat) : Nat → DetState K → Option (Bool ⊕ DetState K)
  | 0, s => some (.inr s)
  | i + 1, s =>
    match detStep qs parity fuel r junk perm0 rrp0 (i + 1) s with
    | none => none
    | some (.inl b) => some (.inl b)
    | some (.inr s') => detLoop qs parity fuel r junk perm0 rrp0 i s'

/-- The product of lines 77-78: `for (i = 1; i < r; i++) det *= view[i,i]`. -/
noncomputable def diagLoop (M : Mat K[X]) (d : K[X]) : Nat → K[X]
  | 0 => d
  | n + 1 => diagLoop M d n * M (n + 1) (n + 1)

/-- `nmod_poly_mat_det_iter(det, mat)` for an `r × r` matrix, lines 22-86: the value of
    `det`, and whether an access was out of bounds. -/
noncomputable def detIter (qs : PML.Sort.QsortFn) (parity : (Nat → Nat) → Nat → Bool) (fuel r : Nat)
    (junk : Nat → Mat K[X]) (perm0 rrp0 : Nat → Nat) (piv0 : Nat → Int) (mat : Mat K[X]) :
    Option (K[X] × Bool) :=
  if r = 0 then some (1, false)
  else
    (detLoop qs parity fuel r junk perm0 rrp0 (r - 1)
      { mat := mat, udet := 1, pivind := piv0, oob := false }).map fun res =>
      match res with
      | .inl b => (0, b)
      | .inr s =>
        let det := s.mat 0 0
        if det ≠ 0 then
          let det := if s.udet = -1 then -det else det
          (diagLoop s.mat det (r - 1), s.oob)
        else (det, s.oob)

end PML.Det
