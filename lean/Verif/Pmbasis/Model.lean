import Verif.Mbasis.Model
import Verif.PolyMul.Model

/-!
# Model: `nmod_poly_mat_mbasis` and `nmod_poly_mat_pmbasis`
(flint-extras/src/nmod_poly_mat_extra/approximant_basis.c:18-69)

Polynomial matrices are functions from indices to `(ZMod q)[X]`. The threshold
`PMBASIS_THRES` (nmod_poly_mat_approximant.h:101, 32) is the parameter `thr`.
Orders are natural numbers and shifts mathematical integers.
-/

namespace PML.Pmbasis

open PML.MatOps PML.MatPoly PML.Sort PML.Nullspace PML.Mbasis PML.PolyMul Polynomial

variable {q : Nat} [Fact q.Prime]

/-- The external functions used: FLINT's nullspace, `qsort`, and those of the
    products; `perm0` is the content of fresh permutation arrays, `geom` tells
    whether the geometric middle products are compiled in. -/
structure Env (q : Nat) where
  fl : RightNullspaceFn (ZMod q)
  qs : QsortFn
  mul : Oracles q
  perm0 : Nat → Nat
  geom : Bool
  thr : Nat

/-- `nmod_poly_mat_mbasis(appbas, shift, pmat, order)`, lines 18-31. -/
noncomputable def polyMbasis (e : Env q) (m n : Nat) (appbas : Mat (ZMod q)[X])
    (shift : Nat → Int) (pmat : Mat (ZMod q)[X]) (order : Nat) : Mat (ZMod q)[X] × (Nat → Int) :=
  let matp := setTruncFromPolyMat m n ⟨0, fun _ _ _ => 0⟩ pmat order
  let res := mbasis e.fl e.qs m n ⟨0, fun _ _ _ => 0⟩ shift matp order e.perm0
  (polyMatSetTrunc m m appbas res.app res.app.len, res.shift)

/-- `nmod_poly_mat_pmbasis(appbas, shift, ipmat, order)`, lines 33-69. `fuel`
    bounds the depth of the recursion. The fresh matrices `pmat`, `appbas2`,
    `residual` start as zero. -/
noncomputable def pmbasis (e : Env q) (m n : Nat) :
    (fuel : Nat) → (appbas : Mat (ZMod q)[X]) → (shift : Nat → Int) → (ipmat : Mat (ZMod q)[X]) →
      (order : Nat) → Outcome (Mat (ZMod q)[X] × (Nat → Int))
  | 0, _, _, _, _ => Outcome.fail
  | fuel + 1, appbas, shift, ipmat, order =>
    let pmat := truncPoly m n (fun _ _ => 0) ipmat order
    if order ≤ e.thr then Outcome.ok (polyMbasis e m n appbas shift pmat order)
    else
      let order1 := order / 2
      let order2 := order - order1
      match pmbasis e m n fuel appbas shift pmat order1 with
      | Outcome.fail => Outcome.fail
      | Outcome.ok (appbas, shift) =>
        match mulmid e.geom e.mul m m n order1 (fun _ _ => 0) 3 order appbas pmat with
        | Outcome.fail => Outcome.fail
        | Outcome.ok residual =>
          match pmbasis e m n fuel (fun _ _ => 0) shift residual order2 with
          | Outcome.fail => Outcome.fail
          | Outcome.ok (appbas2, shift) =>
            match multiply e.mul m m m appbas appbas2 appbas with
            | Outcome.fail => Outcome.fail
            | Outcome.ok appbas => Outcome.ok (appbas, shift)

end PML.Pmbasis
