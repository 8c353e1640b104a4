import Verif.Ntl.Fft
import Mathlib.Algebra.Polynomial.Derivative
import Mathlib.Algebra.Polynomial.FieldDivision
import Mathlib.Algebra.Polynomial.Reverse

/-!
# Model of `ntl-extras/lzz_pX_CRT`: subproduct trees, Chinese remaindering, multipoint evaluation

Vectors of polynomials are functions of the index together with a length.  `none` stands for an
error raised by NTL or for a computation that does not end.
-/

namespace PML.Ntl.Crt

open Polynomial

variable {K : Type} [Field K]

/-- One round of `build_subproduct_tree`, `lzz_pX_CRT.cpp:26-36`: entries of the next level. -/
noncomputable def nextLevel (len : Nat) (t : Nat → K[X]) : Nat → K[X] := fun j =>
  if j < len / 2 then t (2 * j) * t (2 * j + 1) else t (len - 1)

/-- `build_subproduct_tree`, `lzz_pX_CRT.cpp:8-41`: the levels, leaves first.  The first loop (lines
    11-17) only counts the levels.  Both loops run while `len ≠ 1`; `none` if they do not end within
    `fuel` rounds. -/
noncomputable def buildTree : Nat → Nat → (Nat → K[X]) → Option (List (Nat × (Nat → K[X])))
  | 0, _, _ => none
  | fuel + 1, len, t =>
    if len = 1 then some [(len, t)]
    else match buildTree fuel ((len + 1) / 2) (nextLevel len t) with
      | none => none
      | some L => some ((len, t) :: L)

/-- `tree[tree.length()-1][0]`. -/
noncomputable def root (L : List (Nat × (Nat → K[X]))) : K[X] := ((L.getLast?).map fun l => l.2 0).getD 0

/-- The loop `for (j = len/2-1; j >= 0; j--)` of `multimod`, `lzz_pX_CRT.cpp:80-84` and of
    `evaluate`, `lzz_pX_Multipoint_General.cpp:125-129`. -/
noncomputable def downLoop (t : Nat → K[X]) : Nat → (Nat → K[X]) → (Nat → K[X])
  | 0, v => v
  | j + 1, v =>
    let v1 := Function.update v (2 * j + 1) (v j % t (2 * j + 1))
    downLoop t j (Function.update v1 (2 * j) (v1 j % t (2 * j)))

/-- One level of `multimod`, `lzz_pX_CRT.cpp:75-84`. -/
noncomputable def stepDown (len : Nat) (t v : Nat → K[X]) : Nat → K[X] :=
  downLoop t (len / 2) (if len % 2 = 1 then Function.update v (len - 1) (v ((len - 1) / 2)) else v)

/-- `zz_pX_CRT::multimod`, `lzz_pX_CRT.cpp:65-86`, on the levels of the tree. -/
noncomputable def multimod : List (Nat × (Nat → K[X])) → K[X] → (Nat → K[X])
  | [], _ => 0
  | [l], f => Function.update 0 0 (f % l.2 0)
  | l :: L, f => stepDown l.1 l.2 (multimod L f)

/-- The loop `for (j = 0; j < len/2; j++)` of `combine`, `lzz_pX_CRT.cpp:106-109`. -/
noncomputable def upLoop (t : Nat → K[X]) : Nat → (Nat → K[X]) → (Nat → K[X])
  | 0, v => v
  | j + 1, v =>
    let v' := upLoop t j v
    Function.update v' j (v' (2 * j) * t (2 * j + 1) + v' (2 * j + 1) * t (2 * j))

/-- One level of `combine`, `lzz_pX_CRT.cpp:105-113`. -/
noncomputable def stepUp (len : Nat) (t v : Nat → K[X]) : Nat → K[X] :=
  let v' := upLoop t (len / 2) v
  if len % 2 = 1 then Function.update v' ((len - 1) / 2) (v' (len - 1)) else v'

/-- The loop over the levels of `combine`, `lzz_pX_CRT.cpp:103-116`, and of `up_tree`,
    `lzz_pX_Multipoint_General.cpp:33-45`; the top level is not processed. -/
noncomputable def combineUp : List (Nat × (Nat → K[X])) → (Nat → K[X]) → K[X]
  | [], v => v 0
  | [_], v => v 0
  | l :: L, v => combineUp L (stepUp l.1 l.2 v)

/-- A `zz_pX_CRT` object: number of moduli, tree, cofactors. -/
structure CRT (K : Type) [Field K] where
  n : Nat
  tree : List (Nat × (Nat → K[X]))
  cofactors : Nat → K[X]

/-- `InvMod(a, f)` of NTL. -/
abbrev InvMod (K : Type) [Field K] := K[X] → K[X] → Option K[X]

/-- Contract of `InvMod`: the inverse if there is one, an error otherwise. -/
structure InvModOK (inv : InvMod K) : Prop where
  unit : ∀ a f, 0 < f.natDegree → a.degree < f.degree → IsCoprime a f → ∃ b, inv a f = some b ∧ f ∣ a * b - 1
  nonunit : ∀ a f, ¬ IsCoprime a f → inv a f = none

/-- The loop over the cofactors, `lzz_pX_CRT.cpp:56-59`. -/
noncomputable def cofactorLoop (inv : InvMod K) (q : Nat → K[X]) : Nat → (Nat → K[X]) → Option (Nat → K[X])
  | 0, v => some v
  | i + 1, v => match cofactorLoop inv q i v with
    | none => none
    | some v' => match inv (v' i) (q i) with
      | none => none
      | some w => some (Function.update v' i ((w * derivative (q i)) % q i))

/-- The constructor `zz_pX_CRT(q)`, `lzz_pX_CRT.cpp:50-60`. -/
noncomputable def mkCRT (inv : InvMod K) (fuel n : Nat) (q : Nat → K[X]) : Option (CRT K) :=
  match buildTree fuel n q with
  | none => none
  | some L => match cofactorLoop inv q n (multimod L (derivative (root L))) with
    | none => none
    | some cof => some { n := n, tree := L, cofactors := cof }

/-- `zz_pX_CRT::combine`, `lzz_pX_CRT.cpp:91-118`. -/
noncomputable def combine (C : CRT K) (q : Nat → K[X]) (val : Nat → K[X]) : K[X] :=
  combineUp C.tree (fun i => ((val i % q i) * C.cofactors i) % q i)

/-! ### Multipoint evaluation -/

/-- A `zz_pX_Multipoint_General` object. -/
structure Multipoint (K : Type) [Field K] where
  n : Nat
  pts : Nat → K
  tree : List (Nat × (Nat → K[X]))
  cofactors : Nat → K
  reverse_root : K[X]
  inverse_root : K[X]

/-- `reverse(a, hi)` of NTL: coefficient `i` is coefficient `hi - i` of `a`, for `i ≤ hi`. -/
noncomputable def revTo (a : K[X]) (hi : Nat) : K[X] := ∑ i ∈ Finset.range (hi + 1), C (a.coeff (hi - i)) * X ^ i

/-- `InvTrunc(a, n)` of NTL: contract. -/
def InvTruncOK (it : K[X] → Nat → K[X]) : Prop := ∀ a n, a.coeff 0 ≠ 0 → X ^ n ∣ a * it a n - 1

/-- `evaluate`, `lzz_pX_Multipoint_General.cpp:109-135`. -/
noncomputable def evaluate (L : List (Nat × (Nat → K[X]))) (f : K[X]) : Nat → K := fun i => (multimod L f i).coeff 0

/-- The loop inverting the cofactors, `lzz_pX_Multipoint_General.cpp:66-69`; division by zero is an error. -/
def invLoop [DecidableEq K] : Nat → (Nat → K) → Option (Nat → K)
  | 0, v => some v
  | i + 1, v => match invLoop i v with
    | none => none
    | some v' => if v' i = 0 then none else some (Function.update v' i (1 / v' i))

/-- The constructors of `zz_pX_Multipoint_General`, `lzz_pX_Multipoint_General.cpp:52-73` (points
    `q[0..n)`) and 78-101 (points `q[offset..offset+length)`, the same with a shifted vector). -/
noncomputable def mkMultipoint [DecidableEq K] (it : K[X] → Nat → K[X]) (fuel n : Nat) (q : Nat → K) :
    Option (Multipoint K) :=
  match buildTree fuel n (fun i => C (-q i) + C 1 * X ^ 1) with
  | none => none
  | some L => match invLoop n (evaluate L (derivative (root L))) with
    | none => none
    | some cof =>
      let rr := revTo (root L) n
      some { n := n, pts := q, tree := L, cofactors := cof, reverse_root := rr, inverse_root := it rr n }

/-- `interpolate`, `lzz_pX_Multipoint_General.cpp:141-151`. -/
noncomputable def interpolate (M : Multipoint K) (val : Nat → K) : K[X] :=
  combineUp M.tree fun i => C (val i * M.cofactors i)

/-- `t_evaluate`, `lzz_pX_Multipoint_General.cpp:158-164`, whose parameter `output_size` is ignored. -/
noncomputable def tEvaluate (M : Multipoint K) (val : Nat → K) : K[X] :=
  let rev_num := combineUp M.tree fun i => C (val i)
  let num := revTo rev_num (M.n - 1)
  (num * M.inverse_root) %ₘ X ^ M.n

/-- `t_interpolate`, `lzz_pX_Multipoint_General.cpp:169-179`. -/
noncomputable def tInterpolate (M : Multipoint K) (f : K[X]) : Nat → K :=
  let num := (f * M.reverse_root) %ₘ X ^ M.n
  let rev_num := revTo num (M.n - 1)
  fun i => evaluate M.tree rev_num i * M.cofactors i

end PML.Ntl.Crt
