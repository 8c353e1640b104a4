import Verif.Word.Model
import Verif.Common.Loop

/-!
# Several dot products with a common left operand (model)

flint-extras/src/nmod_vec_extra/nmod_vec_dot_product_multi.c.  A vector is a function of its index,
`v i j` is `v[i][j]`.  The two (three) accumulator vectors `uv_hi`, `uv` (`uv_hii`, `uv_hi`, `uv`) are
one vector of pairs (triples), most significant word first.  Index arithmetic in the loop tests is
modulo `2^64`, as for `ulong`.  The manually unrolled bodies (which are regular: the statement for
the offsets `a` and `b` is obtained from the one for `0` and `0` by this substitution) are written
as a loop over the column offset and a sum over the row offset.  The words of `uv` at indices `≥ k`
are kept in the model to be able to say that they are not changed.  Simplification: `uv` does not
overlap `u` nor any `v[i]`.
-/

namespace PML.Multi

open PML.Word

/-- `while (c) s = f(s)` for a body that contains loops itself; `none` = out of fuel. -/
def whileM {σ : Type} (c : σ → Bool) (f : σ → Option σ) : Nat → σ → Option σ
  | 0, s => if c s then none else some s
  | n + 1, s => if c s then (f s).bind (whileM c f n) else some s

/-- The loops on the columns `j` (e.g. lines 52-323): blocks of `B` columns while `j + (B-1) < k`,
then the remaining columns one by one; `g j x` is the new value of an entry `x` at column `j`. -/
def cols {α : Type} (B k : Nat) (g : Nat → α → α) (fuel : Nat) (a : Nat → α) : Option (Nat → α) :=
  (whileLoop (fun s : Nat × (Nat → α) => decide ((s.1 + (B - 1)) % W < k))
    (fun s => (s.1 + B, forN B (fun q a => write (s.1 + q) (g (s.1 + q) (a (s.1 + q))) a) s.2))
    fuel (0, a)).bind fun s =>
  (whileLoop (fun s : Nat × (Nat → α) => decide (s.1 < k))
    (fun s => (s.1 + 1, write s.1 (g s.1 (s.2 s.1)) s.2)) fuel s).map fun s => s.2

/-- The loops on the rows `i` (e.g. lines 49-363): blocks of `A` rows while `i + c < len`, then the
remaining rows one by one; `g A i j x` is the new value of an entry `x` at column `j` after the
rows `i, …, i+A-1`. -/
def rows {α : Type} (A c B len k : Nat) (g : Nat → Nat → Nat → α → α) (fuel : Nat) (a : Nat → α) :
    Option (Nat → α) :=
  (whileM (fun s : Nat × (Nat → α) => decide ((s.1 + c) % W < len))
    (fun s => (cols B k (g A s.1) fuel s.2).map fun a => (s.1 + A, a)) fuel (0, a)).bind fun s =>
  (whileM (fun s : Nat × (Nat → α) => decide (s.1 < len))
    (fun s => (cols B k (g 1 s.1) fuel s.2).map fun a => (s.1 + 1, a)) fuel s).map fun s => s.2

/-! ## One limb -/

/-- `x += u[i]*v[i][j] + … + u[i+A-1]*v[i+A-1][j]` on words (e.g. lines 54-61, 313-320, 362). -/
def add1 (u : Nat → Nat) (v : Nat → Nat → Nat) (A i j x : Nat) : Nat :=
  (x + acc1 u (fun i => v i j) i A 0) % W

/-- `_nmod_vec_zero(uv, k)`. -/
def zero (k : Nat) (uv : Nat → Nat) : Nat → Nat := forN k (fun j a => write j 0 a) uv

/-- `_nmod_vec_dot_product_multi_1` with blocks of `A` rows and `B` columns. -/
def multi1 (A c B : Nat) (fuel : Nat) (uv u : Nat → Nat) (v : Nat → Nat → Nat) (len k n : Nat) :
    Option (Nat → Nat) :=
  (rows A c B len k (add1 u v) fuel (zero k uv)).map fun a =>
    forN k (fun j a => write j (nmod_red (a j) n) a) a

/-- `_nmod_vec_dot_product_multi_1`, lines 43-367. -/
def multi_1 := multi1 8 7 32
/-- `_nmod_vec_dot_product_multi_1_v1_8`, lines 370-394 (its only loop on the rows is the one with
blocks of one row; the loop on the remaining rows, absent from the code, does nothing). -/
def multi_1_v1_8 := multi1 1 0 8
/-- `_nmod_vec_dot_product_multi_1_v8_8`, lines 397-504. -/
def multi_1_v8_8 := multi1 8 7 8
/-- `_nmod_vec_dot_product_multi_1_v8_32`, lines 507-830. -/
def multi_1_v8_32 := multi1 8 7 32
/-- `_nmod_vec_dot_product_multi_1_v16_16`, lines 832-1147. -/
def multi_1_v16_16 := multi1 16 15 16

/-! ## Two limbs -/

/-- `umul_ppmm(s1, s0, u[i+a], v[i+a][j]); add_ssaaaa(uv_hi[j], uv[j], uv_hi[j], uv[j], s1, s0)` for
`a = 0, …, A-1` (e.g. lines 1264-1271, 1338-1345). -/
def add2 (u : Nat → Nat) (v : Nat → Nat → Nat) (A i j : Nat) (x : Nat × Nat) : Nat × Nat :=
  accFrom u (fun i => v i j) i 0 A x

/-- The vectors `uv_hi`, `uv` after `_nmod_vec_zero` on both (lines 1153-1155, …). -/
def zero2 (k : Nat) (uv : Nat → Nat) : Nat → Nat × Nat :=
  forN k (fun j a => write j (0, 0) a) fun j => (0, uv j)

/-- `NMOD2_RED2(uv[j], uv_hi[j], uv[j], mod)` for `j < k`; the result is the vector `uv`
(lines 1166-1167, …). -/
def red2 (k n : Nat) (a : Nat → Nat × Nat) : Nat → Nat :=
  forN k (fun j r => write j (nmod2_red2 (a j) n) r) fun j => (a j).2

/-- `_nmod_vec_dot_product_multi_2`, lines 1149-1169. -/
def multi_2 (uv u : Nat → Nat) (v : Nat → Nat → Nat) (len k n : Nat) : Nat → Nat :=
  red2 k n (forN len (fun i a => forN k (fun j a => write j (add2 u v 1 i j (a j)) a) a) (zero2 k uv))

/-- The variants of `_nmod_vec_dot_product_multi_2` with blocks of `A` rows and `B` columns. -/
def multi2 (A c B : Nat) (fuel : Nat) (uv u : Nat → Nat) (v : Nat → Nat → Nat) (len k n : Nat) :
    Option (Nat → Nat) :=
  (rows A c B len k (add2 u v) fuel (zero2 k uv)).map (red2 k n)

/-- `_nmod_vec_dot_product_multi_2_v1_8`, lines 1210-1249 (one loop on the rows, as above). -/
def multi_2_v1_8 := multi2 1 0 8
/-- `_nmod_vec_dot_product_multi_2_v4_8`, lines 1251-1380. -/
def multi_2_v4_8 := multi2 4 3 8
/-- `_nmod_vec_dot_product_multi_2_v4_32`, lines 1382-1775. -/
def multi_2_v4_32 := multi2 4 3 32
/-- `_nmod_vec_dot_product_multi_2_v8_8`, lines 1777-1978 (the test, line 1785, is `i+8 < len`). -/
def multi_2_v8_8 := multi2 8 8 8

/-- One update of `uv[j]`, `uv_mi[j]`, `uv_hi[j]`, lines 1189-1195, with the splitting macro of
lines 6-8. -/
def add26 (x y : Nat) (s : Nat × Nat × Nat) : Nat × Nat × Nat :=
  ((s.1 + (lowhi26 x).1 * (lowhi26 y).1 % W) % W,
   (s.2.1 + ((lowhi26 x).1 * (lowhi26 y).2 % W + (lowhi26 x).2 * (lowhi26 y).1 % W) % W) % W,
   (s.2.2 + (lowhi26 x).2 * (lowhi26 y).2 % W) % W)

/-- `_nmod_vec_dot_product_multi_2_split26`, lines 1178-1208; the triples are
`(uv, uv_mi, uv_hi)`. -/
def multi_2_split26 (uv u : Nat → Nat) (v : Nat → Nat → Nat) (len k n : Nat) : Nat → Nat :=
  let a := forN k (fun j a => write j (0, 0, 0) a) fun j => (uv j, 0, 0)
  let a := forN len (fun i a => forN k (fun j a => write j (add26 (u i) (v i j) (a j)) a) a) a
  forN k (fun j r => write j (nmod2_red2 (split26Combine (a j)) n) r) fun j => (a j).1

/-! ## Three limbs -/

/-- One block of `nt` rows at row `i` on all the columns: lines 2001-2019 (`nt = 8`, unrolled) and
2024-2033. -/
def block3 (u : Nat → Nat) (v : Nat → Nat → Nat) (k nt i : Nat) (a : Nat → Nat × Nat × Nat) :
    Nat → Nat × Nat × Nat :=
  forN k (fun j a => write j (add_sssaaaaaa (a j)
    (0, (block u (fun i => v i j) i nt).1, (block u (fun i => v i j) i nt).2)) a) a

/-- The last loop, lines 2037-2049, from row `i`. `none` = the precondition of `NMOD_RED3` is
violated. -/
def last3 (u : Nat → Nat) (v : Nat → Nat → Nat) (len k n i : Nat) (a : Nat → Nat × Nat × Nat) :
    Option (Nat → Nat) :=
  forN k (fun j r => r.bind fun r =>
    let s := tailSum u (fun i => v i j) i (len - i)
    let t := add_sssaaaaaa (a j) (0, s.1, s.2)
    (nmod_red3 (nmod_red t.1 n, t.2.1, t.2.2) n).map fun x => write j x r) (some fun j => (a j).2.2)

/-- `_nmod_vec_dot_product_multi_3`, lines 1981-2052. -/
def multi_3 (fuel : Nat) (uv u : Nat → Nat) (v : Nat → Nat → Nat) (len k b1 b2 n : Nat) :
    Option (Nat → Nat) :=
  let nt := numTerms b1 b2
  let a := forN k (fun j a => write j (0, 0, 0) a) fun j => (0, 0, uv j)
  let r := if 8 ≤ nt
    then whileLoop (fun s : Nat × (Nat → Nat × Nat × Nat) => decide ((s.1 + 7) % W < len))
      (fun s => (s.1 + 8, block3 u v k 8 s.1 s.2)) fuel (0, a)
    else whileLoop (fun s : Nat × (Nat → Nat × Nat × Nat) => decide ((s.1 + nt) % W < len))
      (fun s => (s.1 + nt, block3 u v k nt s.1 s.2)) fuel (0, a)
  r.bind fun s => last3 u v len k n s.1 s.2

/-- `nmod_vec_dot_product_multi`, lines 2054-2079 (its copy of
`_nmod_vec_dot_bound_limbs_unbalanced`, lines 16-33, is the function of nmod_vec_dot_product.c). -/
def dotMulti (fuel : Nat) (uv u : Nat → Nat) (v : Nat → Nat → Nat) (len k b1 b2 n : Nat) :
    Option (Nat → Nat) :=
  let l := dotBoundLimbs len b1 b2
  if l = 2 then some (multi_2 uv u v len k n)
  else if l = 3 then multi_3 fuel uv u v len k b1 b2 n
  else if l = 1 then multi_1 fuel uv u v len k n
  else some (zero k uv)

end PML.Multi
