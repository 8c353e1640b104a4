import Verif.Ntl.SolveModel

/-!
# Model of the division of polynomial matrices

`/repo/ntl-extras/mat_lzz_pX_extra/src/mat_lzz_pX_division.cpp` lines 10-61, and the function `row_degree` of
`mat_lzz_pX_forms.cpp` lines 15-32.

The four matrices are designated by addresses, so that the output may be the input.  `solve_series` (C72)
and `multiply` (C67) are parameters.
-/

namespace PML.Ntl.Div

open Polynomial PML.Ntl.Utils PML.Ntl.Inv PML.Ntl.Solve

variable {F : Type} [Field F]

/-- `row_degree(rdeg, pmat)`, `mat_lzz_pX_forms.cpp` lines 15-32: entry `i` of the vector. -/
noncomputable def rowDegree (a : PMat F[X]) (i : Nat) : Int :=
  forN a.cols (fun j d => if d < pdeg (a.e (i, j)) then pdeg (a.e (i, j)) else d) (-1)

/-- `quo_rem(Q, R, A, B)`, lines 10-61, for matrices at the addresses `q`, `r`, `a`, `b` of the memory `σ`.  The vectors
    `rdegA` and `rdegB` have one entry for each row of `A` and `B`. -/
noncomputable def quoRem (solve : PMat F[X] → PMat F[X] → Nat → Out (PMat F[X])) (mul : PMat F[X] → PMat F[X] → Option (PMat F[X]))
    (q r a b : Nat) (σ : Nat → PMat F[X]) : Out (Nat → PMat F[X]) :=
  let m := (σ b).rows
  let n := (σ a).cols
  let rdegA := rowDegree (σ a)
  let rdegB := rowDegree (σ b)
  if m = 0 ∨ (σ a).rows < m then .ub
  else
    let d := forN (m - 1) (fun i d => if rdegA (i + 1) - rdegB (i + 1) > d then rdegA (i + 1) - rdegB (i + 1) else d) (rdegA 0 - rdegB 0)
    if d < 0 then
      let σ := write r (σ a) σ
      .ok (write q (clear ((σ q).setDims m n)) σ)
    else
      let new : PMat F[X] := ⟨0, 0, fun _ => 0⟩
      let Brev := rowReverse false new (σ b) rdegB
      if m < (σ a).rows then .ub
      else
        let buf := rowReverse false new (σ a) fun i => rdegB i + d
        andThen (solve Brev buf (d + 1).toNat) fun u =>
        let σ := write r u σ
        let σ := write q (reverse (q == r) (σ q) (σ r) d) σ
        andThen (ofOpt (mul (σ b) (σ q))) fun buf =>
        andThen (ofOpt (zipWith (· - ·) (r == a) false (σ r) (σ a) buf)) fun c =>
        .ok (write r c σ)

end PML.Ntl.Div
