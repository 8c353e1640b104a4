import Verif.Word.Model
import Verif.MatOps.Model

/-!
# Model: matrix products by dot products
(flint-extras/src/nmod_mat_extra/nmod_mat_mul_2dot.c,
flint-extras/src/nmod_mat_extra/nmod_mat_mul_newdot.c,
flint-extras/src/nmod_mat_extra.h:57-66)

The matrices live in a heap, so that the arguments `C`, `A`, `B` can be the same
object. Entries are natural numbers (residues). The dot products of FLINT are
parameters: `dot2 v1 v2 len n pow2` for `_nmod_vec_dot2_split`, `dotp L v1 v2 len n`
for `_nmod_vec_dot` with the parameters computed by `_nmod_vec_dot_params(L, mod)`.
`_nmod_vec_2dot2_split` is the model of `Verif.Word`.
-/

namespace PML.MatMul

open PML.Word PML.MatOps

/-- The contents of the matrices, indexed by object. -/
abbrev Heap := Nat → Mat Nat

/-- FLINT `_nmod_vec_dot2_split(v1, v2, len, mod, pow2)`. -/
abbrev Dot2Fn := (v1 v2 : Nat → Nat) → (len n pow2 : Nat) → Nat

/-- FLINT `_nmod_vec_dot(v1, v2, len, mod, params)`, the parameters being those
    for length `L` and modulus `n`. -/
abbrev DotFn := (L : Nat) → (v1 v2 : Nat → Nat) → (len n : Nat) → Nat

/-- `nmod_mat_entry(C, i, j) = v`. -/
def write (h : Heap) (c i j v : Nat) : Heap :=
  Function.update h c fun i' j' => if i' = i ∧ j' = j then v else h c i' j'

/-- FLINT `nmod_mat_transpose` into a fresh matrix. -/
def transpose (B : Mat Nat) : Mat Nat := fun i j => B j i

/-- `for (j = 0; j < BT->r; j++)` for the rows `i`, `i+1`; nmod_mat_mul_2dot.c:44-60. -/
def pairCols (c a : Nat) (BT : Mat Nat) (n modn pow2 i : Nat) : Nat → Heap → Heap
  | 0, h => h
  | j + 1, h =>
    let h := pairCols c a BT n modn pow2 i j h
    let res := twoDotSplit (h a i) (h a (i + 1)) (BT j) n modn pow2
    write (write h c i j res.1) c (i + 1) j res.2

/-- `for (; i+1 < A->r; i += 2)`, `k` iterations; nmod_mat_mul_2dot.c:43-60. -/
def pairRows (c a : Nat) (BT : Mat Nat) (n p modn pow2 : Nat) : Nat → Heap → Heap
  | 0, h => h
  | k + 1, h =>
    pairCols c a BT n modn pow2 (2 * k) p (pairRows c a BT n p modn pow2 k h)

/-- `for (j = 0; j < BT->r; j++)` for one row `i`, with the dot product `dot`;
    nmod_mat_mul_2dot.c:63-70, nmod_mat_mul_newdot.c:42-50. -/
def oneCols (dot : (Nat → Nat) → (Nat → Nat) → Nat) (c a : Nat) (BT : Mat Nat) (i : Nat) :
    Nat → Heap → Heap
  | 0, h => h
  | j + 1, h =>
    let h := oneCols dot c a BT i j h
    write h c i j (dot (h a i) (BT j))

/-- `for (; i < A->r; i++)` from row `i0`, `k` iterations; nmod_mat_mul_2dot.c:62-70,
    nmod_mat_mul_newdot.c:41-50. -/
def oneRows (dot : (Nat → Nat) → (Nat → Nat) → Nat) (c a : Nat) (BT : Mat Nat) (p i0 : Nat) :
    Nat → Heap → Heap
  | 0, h => h
  | k + 1, h => oneCols dot c a BT (i0 + k) p (oneRows dot c a BT p i0 k h)

/-- FLINT `nmod_mat_swap_entrywise(C, T)` on `m × p` matrices. -/
def swapEntrywise (m p c t : Nat) (h : Heap) : Heap := fun o i j =>
  if i < m ∧ j < p then
    if o = c then h t i j else if o = t then h c i j else h o i j
  else h o i j

/-- `nmod_mat_mul_2dot(C, A, B)` when `C` is neither `A` nor `B`;
    nmod_mat_mul_2dot.c:33-72. `A` is `m × n`, `B` is `n × p`. -/
def mul2dotDistinct (dot2 : Dot2Fn) (m n p modn c a b : Nat) (h : Heap) : Heap :=
  let pow2 := nmod_red (2 ^ SB) modn
  let BT := transpose (h b)
  let h := pairRows c a BT n p modn pow2 (m / 2) h
  oneRows (fun v1 v2 => dot2 v1 v2 n modn pow2) c a BT p (2 * (m / 2)) (m % 2) h

/-- `nmod_mat_mul_2dot(C, A, B)`, nmod_mat_mul_2dot.c:20-73; `t` is the temporary,
    `nmod_mat_init` fills it with zeros. -/
def mul2dot (dot2 : Dot2Fn) (m n p modn c a b t : Nat) (h : Heap) : Heap :=
  if c = a ∨ c = b then
    let h := Function.update h t fun _ _ => 0
    swapEntrywise m p c t (mul2dotDistinct dot2 m n p modn t a b h)
  else mul2dotDistinct dot2 m n p modn c a b h

/-- `nmod_mat_mul_newdot(C, A, B)` when `C` is neither `A` nor `B`;
    nmod_mat_mul_newdot.c:33-52. -/
def mulNewdotDistinct (dotp : DotFn) (m n p modn c a b : Nat) (h : Heap) : Heap :=
  oneRows (fun v1 v2 => dotp n v1 v2 n modn) c a (transpose (h b)) p 0 m h

/-- `nmod_mat_mul_newdot(C, A, B)`, nmod_mat_mul_newdot.c:19-53. -/
def mulNewdot (dotp : DotFn) (m n p modn c a b t : Nat) (h : Heap) : Heap :=
  if c = a ∨ c = b then
    let h := Function.update h t fun _ _ => 0
    swapEntrywise m p c t (mulNewdotDistinct dotp m n p modn t a b h)
  else mulNewdotDistinct dotp m n p modn c a b h

/-- `nmod_mat_mul_pml(C, A, B)` compiled with AVX2, nmod_mat_extra.h:57-66. The
    condition is `A->mod.n < (1L < 29)`, a comparison with the truth value 1.
    `mul` is FLINT's `nmod_mat_mul` (result for the object `C`). -/
def mulPml (dot2 : Dot2Fn) (mul : Nat → Nat → Nat → Nat → Mat Nat → Mat Nat → Mat Nat)
    (m n p modn c a b t : Nat) (h : Heap) : Heap :=
  if modn < (if (1 : Nat) < 29 then 1 else 0) then mul2dot dot2 m n p modn c a b t h
  else Function.update h c fun i j =>
    if i < m ∧ j < p then mul m n p modn (h a) (h b) i j else h c i j

/-- The first loop of `nmod_mat_mul_nmod_vec_2dot`, `k` iterations: the two
    results are written in `v+i`; nmod_mat_mul_2dot.c:82-93. -/
def vecPairs (A : Mat Nat) (u : Nat → Nat) (len modn pow2 : Nat) : Nat → (Nat → Nat) → (Nat → Nat)
  | 0, v => v
  | k + 1, v =>
    let v := vecPairs A u len modn pow2 k v
    let res := twoDotSplit (A (2 * k)) (A (2 * k + 1)) u len modn pow2
    Function.update (Function.update v (2 * k) res.1) (2 * k + 1) res.2

/-- `for (; i < A->r; i++) v[i] = dot(A[i], u)`; nmod_mat_mul_2dot.c:95-101,
    nmod_mat_mul_newdot.c:58-63. -/
def vecOnes (dot : (Nat → Nat) → (Nat → Nat) → Nat) (A : Mat Nat) (u : Nat → Nat) (i0 : Nat) :
    Nat → (Nat → Nat) → (Nat → Nat)
  | 0, v => v
  | k + 1, v => Function.update (vecOnes dot A u i0 k v) (i0 + k) (dot (A (i0 + k)) u)

/-- `nmod_mat_mul_nmod_vec_2dot(v, A, u, len)`, `v` not aliasing `u`
    (nmod_mat_extra.h:47); nmod_mat_mul_2dot.c:75-102. -/
def mulVec2dot (dot2 : Dot2Fn) (m modn : Nat) (v : Nat → Nat) (A : Mat Nat) (u : Nat → Nat)
    (len : Nat) : Nat → Nat :=
  let pow2 := nmod_red (2 ^ SB) modn
  vecOnes (fun v1 v2 => dot2 v1 v2 len modn pow2) A u (2 * (m / 2)) (m % 2)
    (vecPairs A u len modn pow2 (m / 2) v)

/-- `nmod_mat_mul_nmod_vec_newdot(v, A, u, len)`; the parameters are those for
    the number of columns of `A`. nmod_mat_mul_newdot.c:55-64. -/
def mulVecNewdot (dotp : DotFn) (m n modn : Nat) (v : Nat → Nat) (A : Mat Nat) (u : Nat → Nat)
    (len : Nat) : Nat → Nat :=
  vecOnes (fun v1 v2 => dotp n v1 v2 len modn) A u 0 m v

end PML.MatMul
