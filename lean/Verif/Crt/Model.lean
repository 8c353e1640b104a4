import Verif.Word.Model
import Mathlib.Data.Nat.Size
import Mathlib.Algebra.BigOperators.Group.Finset.Basic

/-!
# Model: multimodular reduction and Chinese remaindering of integers
(flint-extras/src/fmpz_extra)

An `fmpz` is an integer; it is small (`COEFF_IS_MPZ` false) when its absolute value
is below `2^62`, otherwise its limbs are those of its absolute value. Words are
natural numbers. The external functions are: `n_invmod`/`nmod_inv` (`inv`),
`fmpz_multi_mod_precomp` (`top`), the straight-line program precomputed by
`fmpz_multi_CRT_precompute` (`Tree`), and `_nmod_vec_dot2_split`, modelled by its scalar
code `dot2SplitOne` of `Verif.Word` (nmod_vec_extra.h:77 says the two are identical).
-/

namespace PML.Crt

open PML.Word

/-- Limb `k` of a natural number. -/
def limb (x k : Nat) : Nat := x / W ^ k % W

/-- Number of limbs: `fmpz_size`, `(fmpz_bits(x) + 63) / 64`. -/
def numLimbs (x : Nat) : Nat := (Nat.size x + 63) / 64

/-- `COEFF_IS_MPZ`. -/
def isMpz (a : Int) : Prop := 2 ^ 62 ≤ a.natAbs

instance (a : Int) : Decidable (isMpz a) := inferInstanceAs (Decidable (_ ≤ _))

/-- `nmod_mul`. -/
def nmodMul (a b p : Nat) : Nat := a * b % p

/-- `nmod_neg`. -/
def nmodNeg (a p : Nat) : Nat := if a = 0 then 0 else p - a

/-- The product loop: `fmpz_set_ui(prod, 1)`, then `fmpz_mul_ui(prod, prod, primes[i])`;
    fmpz_CRT_naive_init.c:30-37, fmpz_multimod_naive_init.c:32-43. -/
def prodLoop (p : Nat → Nat) : Nat → Nat
  | 0 => 1
  | i + 1 => prodLoop p i * p i

/-! ### Chinese remaindering, naive -/

/-- `fmpz_CRT_naive_t`, fmpz_extra.h:72-84. -/
structure NaiveCrt where
  num : Nat
  mod : Nat → Nat
  prod : Nat
  bits : Nat
  numLimbs : Nat
  inverses : Nat → Nat
  /-- `coefficients[k][i]` -/
  coeffs : Nat → Nat → Nat

/-- FLINT `_nmod_vec_max_bits`: the largest bit-length. -/
def maxBits (p : Nat → Nat) : Nat → Nat
  | 0 => 0
  | i + 1 => max (maxBits p i) (Nat.size (p i))

/-- `coefficients[k][i]` for a given cofactor, fmpz_CRT_naive_init.c:54-76. -/
def coeffOf (cof k : Nat) : Nat :=
  if ¬ isMpz (cof : Int) then (if k = 0 then cof else 0)
  else if k < numLimbs cof then limb cof k else 0

/-- `fmpz_CRT_naive_init(mCRT, primes, num_primes)`, fmpz_CRT_naive_init.c:20-80. -/
def naiveCrtInit (inv : Nat → Nat → Nat) (p : Nat → Nat) (n : Nat) : NaiveCrt :=
  let prod := prodLoop p n
  { num := n, mod := p, prod := prod, bits := maxBits p n
    numLimbs := numLimbs prod
    inverses := fun i => inv (prod / p i % p i) (p i)
    coeffs := fun k i => coeffOf (prod / p i) k }

/-- The limbs `dat` after `i` turns of the loop of fmpz_CRT_naive_combine.c:39-45.
    The dot product is the model of C01, with fuel `num_primes` for its loops. -/
def combineLoop (C : NaiveCrt) (m : Nat → Nat) : Nat → Option (Nat → Nat)
  | 0 => some fun _ => 0
  | i + 1 =>
    match combineLoop C m i with
    | none => none
    | some dat =>
      match integerDot C.num (C.coeffs i) m C.num 64 C.bits with
      | none => none
      | some tmp =>
        let r := add_sssaaaaaa (dat (i + 2), dat (i + 1), dat i) tmp
        some (Function.update (Function.update (Function.update dat (i + 2) r.1) (i + 1) r.2.1) i r.2.2)

/-- `while (size >= 1 && dat[size-1] == 0) size--;`, fmpz_CRT_naive_combine.c:48-52. -/
def trimSize (dat : Nat → Nat) : Nat → Nat
  | 0 => 0
  | s + 1 => if dat s = 0 then trimSize dat s else s + 1

/-- Value of an `mpz` with limbs `dat` and size `size`. -/
def mpzVal (dat : Nat → Nat) (size : Nat) : Nat := ∑ k ∈ Finset.range size, dat k * W ^ k

/-- `fmpz_CRT_naive_combine(A, m, mCRT)`, fmpz_CRT_naive_combine.c:22-63. -/
def combine (C : NaiveCrt) (m : Nat → Nat) : Option Int :=
  (combineLoop C m C.numLimbs).map fun dat =>
    let size := trimSize dat (C.numLimbs + 2)
    let size := if size = 1 ∧ dat 0 = 0 then 0 else size
    ((mpzVal dat size : Nat) : Int)

/-- `fmpz_CRT_naive_CRT(A, m, mCRT)`, fmpz_CRT_naive_CRT.c:21-39. -/
def naiveCrt (C : NaiveCrt) (m : Nat → Nat) : Option Int :=
  (combine C fun i => nmodMul (m i) (C.inverses i) (C.mod i)).map fun comb => comb % (C.prod : Int)

/-! ### Multimodular reduction, naive -/

/-- `fmpz_multimod_naive_t`, fmpz_extra.h:35-46. -/
structure NaiveMod where
  num : Nat
  mod : Nat → Nat
  prod : Nat
  small : Bool
  powers : Nat → Nat → Nat

/-- The largest modulus, fmpz_multimod_naive_init.c:35-43. -/
def maxLoop (p : Nat → Nat) : Nat → Nat
  | 0 => 0
  | i + 1 => if p i > maxLoop p i then p i else maxLoop p i

/-- `two_FLINT_BITS`: `(2^63 % p) + (2^63 % p)` modulo `p`, fmpz_multimod_naive_init.c:56-57. -/
def twoBits (p : Nat) : Nat := (2 ^ 63 % p + 2 ^ 63 % p) % p

/-- Length rounded up to a multiple of 4, fmpz_multimod_naive_init.c:69. -/
def roundUp4 (len : Nat) : Nat := (len + 3) / 4 * 4

/-- Turn `u` of the loop of fmpz_multimod_naive_init.c:77-86. -/
def powSmallStep (p len u : Nat) (v : Nat → Nat) : Nat → Nat :=
  let two24 := 2 ^ 24 % p
  let v := Function.update v u (nmodMul (v (u - 3)) (twoBits p) p)
  if u + 1 < len then
    let v := Function.update v (u + 1) (nmodMul (v u) two24 p)
    if u + 2 < len then Function.update v (u + 2) (nmodMul (v (u + 1)) two24 p) else v
  else v

/-- The first `k` turns (`u = 3, 6, ...`), after the initial values of lines 74-76. -/
def powSmall (p len : Nat) (v0 : Nat → Nat) : Nat → (Nat → Nat)
  | 0 => Function.update (Function.update (Function.update v0 0 1) 1 (2 ^ 24 % p)) 2 (2 ^ 48 % p)
  | k + 1 => powSmallStep p len (3 * (k + 1)) (powSmall p len v0 k)

/-- The powers of `2^64`, fmpz_multimod_naive_init.c:94-99: after `k` turns. -/
def powLarge (p : Nat) (v0 : Nat → Nat) : Nat → (Nat → Nat)
  | 0 => Function.update v0 0 1
  | k + 1 =>
    let v := powLarge p v0 k
    Function.update v (k + 1) (nmodMul (v k) (twoBits p) p)

/-- `fmpz_multimod_naive_init(mmod, primes, num_primes)`, fmpz_multimod_naive_init.c:22-102;
    `v0` is the content of freshly allocated arrays. -/
def naiveModInit (v0 : Nat → Nat) (p : Nat → Nat) (n : Nat) : NaiveMod :=
  let prod := prodLoop p n
  let small := decide (maxLoop p n < 2 ^ 30)
  { num := n, mod := p, prod := prod, small := small
    powers := fun i =>
      if small then
        let len := roundUp4 (3 * numLimbs prod)
        -- `for (u = 3; u < len; u += 3)`
        powSmall (p i) len v0 ((len - 1) / 3)
      else powLarge (p i) v0 (numLimbs prod - 1) }

/-- `_fmpz_reduce(a, powers_of_two, mod)`, fmpz_multimod_naive_reduce.c:24-58. The
    bit-length of the modulus bounds the powers. -/
def reduceOne (a : Int) (powers : Nat → Nat) (p : Nat) : Option Nat :=
  if ¬ isMpz a then
    if a < 0 then some (nmodNeg (nmod_red a.natAbs p) p) else some (nmod_red a.natAbs p)
  else
    let len := numLimbs a.natAbs
    let r := dotUnbalanced len powers (limb a.natAbs) len (Nat.size p) 64 p
    if a < 0 then r.map fun r => nmodNeg r p else r

/-- The slices of 24, 24 and 16 bits of the limbs, padded with zeros,
    fmpz_multimod_naive_reduce.c:107-122. -/
def slices (x : Nat) (j : Nat) : Nat :=
  if j < 3 * numLimbs x then
    if j % 3 = 0 then limb x (j / 3) % 2 ^ 24
    else if j % 3 = 1 then limb x (j / 3) / 2 ^ 24 % 2 ^ 24
    else limb x (j / 3) / 2 ^ 48
  else 0

/-- `_fmpz_reduce_small_moduli`, fmpz_multimod_naive_reduce.c:66-140, entry `i`. -/
def reduceSmall (a : Int) (M : NaiveMod) (i : Nat) : Nat :=
  let p := M.mod i
  if ¬ isMpz a then
    if a < 0 then nmodNeg (nmod_red a.natAbs p) p else nmod_red a.natAbs p
  else
    let len := roundUp4 (3 * numLimbs a.natAbs)
    let dot := dot2SplitOne (M.powers i) (slices a.natAbs) len p (nmod_red (2 ^ SB) p)
    if a < 0 then nmodNeg dot p else dot

/-- Lines 161-168 of fmpz_multimod_naive_reduce.c, for `|A| < prod`. -/
def naiveReduceCore (A : Int) (M : NaiveMod) : Nat → Option Nat := fun i =>
  if M.small then some (reduceSmall A M i) else reduceOne A (M.powers i) (M.mod i)

/-- `fmpz_multimod_naive_reduce(out, A, mmod)`, fmpz_multimod_naive_reduce.c:147-169. The
    recursive call is on an integer in `[0, prod)`, for which the test fails. -/
def naiveReduce (A : Int) (M : NaiveMod) : Nat → Option Nat :=
  if M.prod ≤ A.natAbs then naiveReduceCore (A % (M.prod : Int)) M else naiveReduceCore A M

/-! ### Subproduct tree -/

/-- One instruction of FLINT's `fmpz_multi_CRT_t`: `A = B * c_modulus + C * b_modulus`.
    Negative indices designate inputs. -/
structure Instr where
  a : Nat
  b : Int
  c : Int
  bm : Int
  cm : Int

/-- The part of FLINT's `fmpz_multi_CRT_t` used here. -/
structure Tree where
  count : Nat
  prog : List Instr
  t3 : Nat
  final : Int

/-- `outputs + b`, or `inputs + (-b-1)`. -/
def source (inputs regs : Nat → Int) (b : Int) : Int :=
  if b < 0 then inputs (-b - 1).toNat else regs b.toNat

/-- One turn of the loop of fmpz_multi_CRT_combine.c:36-68. -/
def instrStep (inputs : Nat → Int) (t3 : Nat) (ins : Instr) (regs : Nat → Int) : Nat → Int :=
  let regs := Function.update regs ins.a (source inputs regs ins.b * ins.cm)
  let regs := Function.update regs t3 (source inputs regs ins.c * ins.bm)
  Function.update regs ins.a (regs ins.a + regs t3)

/-- The whole loop; the index of the last `A` is kept. -/
def runProg (inputs : Nat → Int) (t3 : Nat) (prog : List Instr) (regs : Nat → Int) : Option Nat × (Nat → Int) :=
  prog.foldl (fun st ins => (some ins.a, instrStep inputs t3 ins st.2)) (none, regs)

/-- `fmpz_multi_CRT_combine(output, P, inputs)`, fmpz_multi_CRT_combine.c:74-101, and
    `_fmpz_multi_CRT_combine`, lines 20-71. `none`: `A` is `NULL` (line 71). -/
def treeCombine (T : Tree) (inputs : Nat → Int) : Option Int :=
  if T.count = 1 then some (inputs 0)
  else
    let st := runProg inputs T.t3 T.prog fun _ => 0
    st.1.map fun a => st.2 a % T.final

/-- The external functions used by `fmpz_multimod_CRT`. -/
structure Ext where
  inv : Nat → Nat → Nat
  /-- `fmpz_multi_mod_precomp(out, P, A, 0)` for the moduli `M 0, ..., M (k-1)` -/
  top : (M : Nat → Nat) → (k : Nat) → Int → Nat → Int
  /-- `fmpz_multi_CRT_precompute` -/
  tree : (M : Nat → Nat) → (k : Nat) → Tree
  /-- content of freshly allocated arrays -/
  fresh : Nat → Nat

/-- `fmpz_multimod_CRT_t`, fmpz_extra.h:113-126. -/
structure MultiCrt where
  num : Nat
  size : Nat
  leaves : Nat
  leavesMod : Nat → NaiveMod
  leavesCrt : Nat → NaiveCrt
  products : Nat → Nat
  tree : Tree
  product : Int
  invCof : Nat → Nat

/-- The fields of the structure set before line 83 of fmpz_multimod_CRT_init.c. -/
def multiBase (e : Ext) (size : Nat) (p : Nat → Nat) (n : Nat) : MultiCrt :=
  let leaves := (n + size - 1) / size
  let leafP := fun i j => p (i * size + j)
  let leafN := fun i => min (n - i * size) size
  let leavesMod := fun i => naiveModInit e.fresh (leafP i) (leafN i)
  let leavesCrt := fun i => naiveCrtInit e.inv (leafP i) (leafN i)
  { num := n, size := size, leaves := leaves
    leavesMod := leavesMod, leavesCrt := leavesCrt
    products := fun i => (leavesMod i).prod
    tree := e.tree (fun i => (leavesMod i).prod) leaves
    product := ((prodLoop (fun i => (leavesCrt i).prod) leaves : Nat) : Int)
    invCof := e.fresh }

/-- The loop of fmpz_multimod_CRT_reduce.c:38-42 after `i` leaves. -/
def reduceLeaves (mm : MultiCrt) (tmp : Nat → Int) (out : Nat → Option Nat) : Nat → (Nat → Option Nat)
  | 0 => out
  | i + 1 =>
    let o := reduceLeaves mm tmp out i
    let r := naiveReduce (tmp i) (mm.leavesMod i)
    fun k => if mm.size * i ≤ k ∧ k < mm.size * i + (mm.leavesMod i).num then r (k - mm.size * i) else o k

/-- `fmpz_multimod_CRT_reduce(out, A, mmod)`, fmpz_multimod_CRT_reduce.c:23-46. -/
def multiReduce (e : Ext) (mm : MultiCrt) (out : Nat → Option Nat) (A : Int) : Nat → Option Nat :=
  if mm.leaves = 1 then
    fun k => if k < (mm.leavesMod 0).num then naiveReduce A (mm.leavesMod 0) k else out k
  else reduceLeaves mm (e.top mm.products mm.leaves A) out mm.leaves

/-- Inner loops over the moduli of a leaf with the running index `cpt`:
    `for (j < nb) { arr[cpt] = f(cpt, j); cpt++; }`, after `j` turns. -/
def fillLeaf (f : Nat → Nat → Nat) (cpt : Nat) (arr : Nat → Nat) : Nat → Nat × (Nat → Nat)
  | 0 => (cpt, arr)
  | j + 1 =>
    let st := fillLeaf f cpt arr j
    (st.1 + 1, Function.update st.2 st.1 (f st.1 j))

/-- The loop of fmpz_multimod_CRT_init.c:88-98 after `i` leaves. -/
def invLoop (e : Ext) (mm : MultiCrt) (cof : Nat → Nat) (arr : Nat → Nat) : Nat → Nat × (Nat → Nat)
  | 0 => (0, arr)
  | i + 1 =>
    let st := invLoop e mm cof arr i
    fillLeaf (fun cpt j => e.inv (cof cpt) ((mm.leavesCrt i).mod j)) st.1 st.2 (mm.leavesCrt i).num

/-- Sequence of values, all of which must be defined. -/
def combineAll (mm : MultiCrt) (m : Nat → Nat → Nat) : Nat → Option (Nat → Int)
  | 0 => some fun _ => 0
  | i + 1 =>
    match combineAll mm m i, combine (mm.leavesCrt i) (m i) with
    | some t, some v => some (Function.update t i v)
    | _, _ => none

/-- `fmpz_multimod_CRT_init(mmod, primes, num_primes)`, fmpz_multimod_CRT_init.c:24-108. The
    leaf size of lines 33-40 is computed in floating point from `num_primes`: it is
    a parameter here (`size = num_primes` below 200 moduli). `none` stands for a failure
    of an inner computation. -/
def multiInit (e : Ext) (size : Nat) (p : Nat → Nat) (n : Nat) : Option MultiCrt :=
  let mm := multiBase e size p n
  match combineAll mm (fun _ _ => 1) mm.leaves with
  | none => none
  | some partials =>
    match treeCombine mm.tree partials with
    | none => none
    | some lin =>
      let cof := multiReduce e mm (fun _ => none) lin
      some { mm with invCof := (invLoop e mm (fun k => (cof k).getD 0) e.fresh mm.leaves).2 }

/-- The loop of fmpz_multimod_CRT_CRT.c:31-47 after `i` leaves: `cpt`, `precomp_m`. -/
def premulLoop (mm : MultiCrt) (m : Nat → Nat) (arr : Nat → Nat) : Nat → Nat × (Nat → Nat)
  | 0 => (0, arr)
  | i + 1 =>
    let st := premulLoop mm m arr i
    fillLeaf (fun cpt j => nmodMul (mm.invCof cpt) (m cpt) ((mm.leavesCrt i).mod j)) st.1 st.2
      (mm.leavesCrt i).num

/-- `fmpz_multimod_CRT_CRT(A, m, mmod)`, fmpz_multimod_CRT_CRT.c:22-64. The leaf `i` is
    combined right after its part of `precomp_m` is written, which later turns do not
    change. -/
def multiCrt (e : Ext) (mm : MultiCrt) (m : Nat → Nat) : Option Int :=
  match combineAll mm (fun i j => (premulLoop mm m e.fresh (i + 1)).2 (mm.size * i + j)) mm.leaves with
  | none => none
  | some tmp =>
    if mm.leaves = 1 then some (tmp 0 % ((mm.leavesCrt 0).prod : Int))
    else treeCombine mm.tree tmp

end PML.Crt
