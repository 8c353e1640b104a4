import Mathlib.Data.Nat.Size
import Mathlib.Data.Nat.Prime.Basic

/-!
# Storage of the objects for Chinese remaindering

`init` and `clear` of `fmpz_multimod_naive_t`, `fmpz_CRT_naive_t`, `fmpz_multimod_CRT_t` (flint-extras/src/fmpz_extra) and `nmod_multimod_CRT_t`
(flint-extras/src/nmod_extra).  The values are those of C42, C43, C45 and C53; here only the blocks of memory and the accesses to them are modelled.

An integer (`fmpz_t`) is one block of size 1 between `fmpz_init` and `fmpz_clear`; so are the objects `fmpz_multi_mod_t` and `fmpz_multi_CRT_t` of FLINT.
`flint_malloc`, `aligned_alloc`, `flint_free`, `free` work on the same heap (FLINT's default allocator).
-/

namespace PML.CrtMem

/-- Outcome of a call; `ub` is undefined behaviour (an access outside of a block or to a block that is not allocated, a free of such a block, a
    division by zero); `error` is an error raised by the library. -/
inductive Res (α : Type) where
  | ok (a : α)
  | ub
  | error

/-- The blocks which are allocated, with their sizes, and the name of the next one. -/
structure Heap where
  live : Nat → Option Nat
  next : Nat

/-- A computation with the heap. -/
def M (α : Type) : Type := Heap → Res (α × Heap)

/-- Sequencing. -/
instance : Monad M where
  pure a := fun h => .ok (a, h)
  bind m f := fun h =>
    match m h with
    | .ok (a, h') => f a h'
    | .ub => .ub
    | .error => .error

/-- Undefined behaviour. -/
def ub {α : Type} : M α := fun _ => .ub

/-- An error. -/
def raise {α : Type} : M α := fun _ => .error

/-- `flint_malloc`, `_nmod_vec_init`, `FLINT_ARRAY_ALLOC` with the number of elements; `fmpz_init` and the other `init` of FLINT with size 1. -/
def malloc (n : Nat) : M Nat := fun h => .ok (h.next, ⟨Function.update h.live h.next (some n), h.next + 1⟩)

/-- `aligned_alloc(32, n * sizeof(ulong))`: the size must be a multiple of 32. -/
def alignedAlloc (n : Nat) : M Nat := if n * 8 % 32 = 0 then malloc n else ub

/-- `flint_free`, `free`, `_nmod_vec_clear`, `fmpz_clear` and the other `clear` of FLINT. -/
def free (b : Nat) : M Unit := fun h =>
  match h.live b with
  | some _ => .ok ((), ⟨Function.update h.live b none, h.next⟩)
  | none => .ub

/-- A read or write of element `i`. -/
def touch (b i : Nat) : M Unit := fun h =>
  match h.live b with
  | some n => if i < n then .ok ((), h) else .ub
  | none => .ub

/-- `for (i = 0; i < n; i++)`. -/
def rep : Nat → (Nat → M Unit) → M Unit
  | 0, _ => pure ()
  | n + 1, body => do
    rep n body
    body n

/-- `for (i = 0; i < n; i++)`, with the values that are stored. -/
def tab {α : Type} (dflt : α) : Nat → (Nat → M α) → M (Nat → α)
  | 0, _ => pure fun _ => dflt
  | n + 1, body => do
    let f ← tab dflt n body
    let a ← body n
    pure (Function.update f n a)

/-- The number of limbs, `fmpz_size`. -/
def limbs (n : Nat) : Nat := (Nat.size n + 63) / 64

/-- The product of `p 0, ..., p (n-1)`. -/
def prodTo (p : Nat → Nat) : Nat → Nat
  | 0 => 1
  | n + 1 => prodTo p n * p n

/-- The largest of `p 0, ..., p (n-1)`. -/
def maxTo (p : Nat → Nat) : Nat → Nat
  | 0 => 0
  | n + 1 => if maxTo p n < p n then p n else maxTo p n

/-- `fmpz_multimod_naive_struct`, fmpz_extra.h:31-41; `row i` is `powers_of_two[i]`. -/
structure Mmod where
  num : Nat
  primes : Nat
  mod : Nat
  pow : Nat
  row : Nat → Nat
  limbs : Nat
  small : Bool
  prod : Nat
deriving Inhabited

/-- The length of `powers_of_two[i]`, fmpz_multimod_naive_init.c:71-72, 94. -/
def rowLen (small : Bool) (limbs : Nat) : Nat := if small then (3 * limbs + 3) / 4 * 4 else limbs

/-- `fmpz_multimod_naive_init(mmod, primes, num_primes)`, fmpz_multimod_naive_init.c:22-102. -/
def mmodInit (p : Nat → Nat) (n : Nat) : M Mmod := do
  let primes ← malloc n
  let mod ← malloc n
  let pow ← malloc n
  let prod ← malloc 1
  rep n fun i => do
    touch primes i
    if p i = 0 then ub else touch mod i
  let l := limbs (prodTo p n)
  let small : Bool := maxTo p n < 2 ^ 30
  let row ← tab 0 n fun i => do
    touch mod i
    touch pow i
    if small then
      let len := rowLen true l
      let v ← alignedAlloc len
      touch v 0
      touch v 1
      touch v 2
      rep ((len - 1) / 3) fun t => do
        let u := 3 + 3 * t
        touch v (u - 3)
        touch v u
        if u + 1 < len then do
          touch v (u + 1)
          if u + 2 < len then touch v (u + 2) else pure ()
        else pure ()
      pure v
    else
      let v ← malloc l
      touch v 0
      rep (l - 1) fun t => do
        touch v t
        touch v (t + 1)
      pure v
  pure ⟨n, primes, mod, pow, row, l, small, prod⟩

/-- `fmpz_multimod_naive_clear(mmod)`, fmpz_multimod_naive_clear.c:21-35. -/
def mmodClear (o : Mmod) : M Unit := do
  free o.primes
  free o.mod
  rep o.num fun i => do
    touch o.pow i
    free (o.row i)
  free o.pow
  free o.prod

/-- `fmpz_CRT_naive_struct`, fmpz_extra.h:66-78; `row k` is `coefficients[k]`. -/
structure Naive where
  num : Nat
  limbs : Nat
  primes : Nat
  inverses : Nat
  mod : Nat
  coeffs : Nat
  row : Nat → Nat
  prod : Nat
deriving Inhabited

/-- The limbs of the cofactor `c` are written in column `i` of `coefficients`, fmpz_CRT_naive_init.c:55-76.  The cofactor is a small integer of FLINT
    if it is less than `2 ^ 62`. -/
def writeCofactor (coeffs : Nat) (row : Nat → Nat) (l c i : Nat) : M Unit :=
  if c < 2 ^ 62 then do
    touch coeffs 0
    touch (row 0) i
    rep (l - 1) fun k => do
      touch coeffs (1 + k)
      touch (row (1 + k)) i
  else do
    rep (limbs c) fun j => do
      touch coeffs j
      touch (row j) i
    rep (l - limbs c) fun k => do
      touch coeffs (limbs c + k)
      touch (row (limbs c + k)) i

/-- `fmpz_CRT_naive_init(mCRT, primes, num_primes)`, fmpz_CRT_naive_init.c:21-80.  `n_invmod` raises an error if the cofactor is not invertible. -/
def naiveInit (p : Nat → Nat) (n : Nat) : M Naive := do
  let primes ← malloc n
  let inverses ← malloc n
  let mod ← malloc n
  let prod ← malloc 1
  rep n fun i => if p i = 0 then ub else touch mod i
  let P := prodTo p n
  let l := (Nat.size P + 63) / 64
  let coeffs ← malloc l
  let row ← tab 0 l fun k => do
    touch coeffs k
    malloc n
  rep n fun i => do
    let cofactor ← malloc 1
    let c := P / p i
    if Nat.gcd (c % p i) (p i) ≠ 1 then raise
    else do
      touch inverses i
      writeCofactor coeffs row l c i
      free cofactor
  pure ⟨n, l, primes, inverses, mod, coeffs, row, prod⟩

/-- `fmpz_CRT_naive_clear(mCRT)`, fmpz_CRT_naive_clear.c:21-34. -/
def naiveClear (o : Naive) : M Unit := do
  free o.primes
  free o.inverses
  rep o.limbs fun i => do
    touch o.coeffs i
    free (o.row i)
  free o.coeffs
  free o.mod
  free o.prod

/-- `fmpz_multimod_CRT_struct`, fmpz_extra.h:113-126; `leafMod i` is `leaves_mod[i]`, `leafCrt i` is `leaves_CRT[i]`, `product i` is the integer in
    `products_leaves[i]`. -/
structure Tree where
  num : Nat
  size : Nat
  leaves : Nat
  leavesMod : Nat
  products : Nat
  leavesCrt : Nat
  inverse : Nat
  prod : Nat
  leafMod : Nat → Mmod
  product : Nat → Nat
  leafCrt : Nat → Naive
  topMod : Nat
  topCrt : Nat

/-- The number of moduli of leaf `i`: line 62. -/
def leafNum (n size i : Nat) : Nat := min (n - i * size) size

/-- The index `cpt` of lines 90-99 at the start of turn `i` of the loop, if leaf `i` has `nb i` moduli. -/
def cptAt (nb : Nat → Nat) : Nat → Nat
  | 0 => 0
  | i + 1 => cptAt nb i + nb i

/-- `fmpz_multimod_CRT_init(mmod, primes, num_primes)`, fmpz_multimod_CRT_init.c:24-108.  The leaf size for at least 200 moduli, lines 37-39, is
    computed in floating point and is the parameter `big`.  Lines 74-82 raise errors for products of leaves that are zero or not coprime. -/
def treeInit (big : Nat) (p : Nat → Nat) (n : Nat) : M Tree := do
  let size := if n < 200 then n else big
  if size = 0 then ub
  else do
    let leaves := (n + size - 1) / size
    let leavesMod ← malloc leaves
    let products ← malloc leaves
    let leavesCrt ← malloc leaves
    let inverse ← malloc n
    let prod ← malloc 1
    let cofactors ← malloc n
    let one ← malloc n
    let partials ← malloc leaves
    let lin ← malloc 1
    rep n fun i => touch one i
    let leaf ← tab default leaves fun i => do
      touch leavesMod i
      let a ← mmodInit (fun j => p (i * size + j)) (leafNum n size i)
      touch products i
      let b ← malloc 1
      touch leavesCrt i
      let c ← naiveInit (fun j => p (i * size + j)) (leafNum n size i)
      touch partials i
      let d ← malloc 1
      rep c.num fun j => touch one (i * size + j)
      pure (a, b, c, d)
    let topMod ← malloc 1
    let topCrt ← malloc 1
    if ∃ i < leaves, ∃ j < leaves, i ≠ j ∧ ¬Nat.Coprime (prodTo (fun k => p (i * size + k)) (leafNum n size i)) (prodTo (fun k => p (j * size + k)) (leafNum n size j)) then raise
    else do
      rep n fun i => touch cofactors i
      rep leaves fun i => do
        touch leavesCrt i
        rep (leaf i).2.2.1.num fun j => do
          touch cofactors (cptAt (fun i => (leaf i).2.2.1.num) i + j)
          touch (leaf i).2.2.1.mod j
          touch inverse (cptAt (fun i => (leaf i).2.2.1.num) i + j)
      free lin
      rep leaves fun i => do
        touch partials i
        free (leaf i).2.2.2
      free partials
      free cofactors
      free one
      pure ⟨n, size, leaves, leavesMod, products, leavesCrt, inverse, prod, fun i => (leaf i).1, fun i => (leaf i).2.1, fun i => (leaf i).2.2.1, topMod, topCrt⟩

/-- `fmpz_multimod_CRT_clear(mmod)`, fmpz_multimod_CRT_clear.c:23-42. -/
def treeClear (o : Tree) : M Unit := do
  free o.prod
  free o.topMod
  free o.topCrt
  rep o.leaves fun i => do
    touch o.products i
    free (o.product i)
    touch o.leavesMod i
    mmodClear (o.leafMod i)
    touch o.leavesCrt i
    naiveClear (o.leafCrt i)
  free o.leavesMod
  free o.leavesCrt
  free o.products
  free o.inverse

/-- `nmod_multimod_CRT_struct`, nmod_extra.h:71-83; `data` has no value if it is not set. -/
structure Word where
  num : Nat
  p : Nat
  data : Option Nat

/-- `nmod_multimod_CRT_init(C, modulus, num_primes)`, nmod_multimod_CRT_init.c:21-111; `avx2` is `PML_HAVE_AVX2`.  Line 47: the default value 4 is only
    given to the local variable. -/
def wordInit (avx2 : Bool) (p num : Nat) : M Word := do
  let k := if num = 0 then 4 else num
  if avx2 ∧ p < 2 ^ 50 then pure ⟨num, p, none⟩
  else if k = 1 then pure ⟨num, p, none⟩
  else do
    let prod ← malloc 1
    let len := k * k + k + k
    let data ← malloc len
    rep len fun i => touch data i
    rep k fun i => touch data (k * k + i)
    rep k fun i => do
      rep k fun j => touch data (i * k + j)
      touch data (k * k + k + i)
    free prod
    pure ⟨num, p, some data⟩

/-- `nmod_multimod_CRT_clear(C)`, nmod_multimod_CRT_clear.c:18-25. -/
def wordClear (avx2 : Bool) (o : Word) : M Unit :=
  if avx2 ∧ o.p < 2 ^ 50 then pure ()
  else if 1 < o.num then
    match o.data with
    | some b => free b
    | none => ub
  else pure ()

/-! ### Histories of calls -/

/-- An object of one of the four types. -/
inductive Obj where
  | mmod (o : Mmod)
  | naive (o : Naive)
  | tree (o : Tree)
  | word (o : Word)

/-- A call; `d` is the variable. -/
inductive Op where
  | mmodInit (d : Nat) (p : Nat → Nat) (n : Nat)
  | naiveInit (d : Nat) (p : Nat → Nat) (n : Nat)
  | treeInit (d : Nat) (big : Nat) (p : Nat → Nat) (n : Nat)
  | wordInit (d : Nat) (p num : Nat)
  | clear (d : Nat)

/-- The variables. -/
abbrev Store : Type := Nat → Option Obj

/-- The call of `clear` for the type of the object. -/
def objClear (avx2 : Bool) : Obj → M Unit
  | .mmod o => mmodClear o
  | .naive o => naiveClear o
  | .tree o => treeClear o
  | .word o => wordClear avx2 o

/-- One call; to clear a variable that is not initialised is undefined behaviour. -/
def exec (avx2 : Bool) (op : Op) (s : Store) : M Store :=
  match op with
  | .mmodInit d p n => do let o ← mmodInit p n; pure (Function.update s d (some (.mmod o)))
  | .naiveInit d p n => do let o ← naiveInit p n; pure (Function.update s d (some (.naive o)))
  | .treeInit d big p n => do let o ← treeInit big p n; pure (Function.update s d (some (.tree o)))
  | .wordInit d p num => do let o ← wordInit avx2 p num; pure (Function.update s d (some (.word o)))
  | .clear d =>
    match s d with
    | some o => do objClear avx2 o; pure (Function.update s d none)
    | none => ub

/-- A sequence of calls. -/
def run (avx2 : Bool) : List Op → Store → M Store
  | [], s => pure s
  | op :: ops, s => do
    let s' ← exec avx2 op s
    run avx2 ops s'

end PML.CrtMem
