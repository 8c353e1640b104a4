import Verif.MatPoly.Model

/-!
# Model: storage of matrix polynomials (flint-extras/src/nmod_mat_poly.h and flint-extras/src/nmod_mat_poly_extra/*.c)

An object has an array `coeffs` of `size` cells; a cell is either raw memory (`none`), or holds an initialised `nmod_mat_struct` (`some A`).
The fields `alloc` and `length` are only numbers: nothing but the code relates them to the array.  `nmod_mat_init` on a cell which holds
a matrix loses it (`leak`), and so does an array which is freed, shrunk or replaced while it holds matrices; the use of a raw cell, of a cell
outside of the array, or of an object which is not initialised, is undefined (`ub`).  Lengths are natural numbers, allocations succeed, and
products like `2 * alloc` do not overflow.  The dimensions of the matrices in the array are `r` and `c`, which no function changes;
matrices which are passed as arguments have these dimensions.
-/

namespace PML.MatPoly.Mem

open PML.MatOps PML.MatPoly

variable {K : Type} [Field K] [DecidableEq K]

/-- The outcome of a function on the storage. -/
inductive Res (α : Type) where
  | ok (a : α)
  | ub
  | leak

/-- Sequence. -/
def Res.bind {α β : Type} (x : Res α) (f : α → Res β) : Res β :=
  match x with
  | .ok a => f a
  | .ub => .ub
  | .leak => .leak

/-- `nmod_mat_poly_struct`, nmod_mat_poly.h:70-78, with the array behind `coeffs`. -/
structure Obj (K : Type) where
  r : Nat
  c : Nat
  /-- `coeffs != NULL` -/
  ptr : Bool
  /-- number of cells of the array -/
  size : Nat
  /-- the field `alloc` -/
  alloc : Nat
  /-- the field `length` -/
  length : Nat
  /-- the cells -/
  cell : Nat → Option (Mat K)

/-! ### FLINT's functions on one cell, and the allocation of the array -/

/-- `nmod_mat_init(matp->coeffs + i, ...)`. -/
def matInit (i : Nat) (o : Obj K) : Res (Obj K) :=
  if i < o.size then
    if (o.cell i).isSome then .leak else .ok { o with cell := Function.update o.cell i (some matZero) }
  else .ub

/-- `nmod_mat_clear(matp->coeffs + i)`. -/
def matClear (i : Nat) (o : Obj K) : Res (Obj K) :=
  if i < o.size ∧ (o.cell i).isSome then .ok { o with cell := Function.update o.cell i none } else .ub

/-- Reading the matrix `matp->coeffs + i`. -/
def matGet (i : Nat) (o : Obj K) : Res (Mat K) :=
  if i < o.size then
    match o.cell i with
    | some A => .ok A
    | none => .ub
  else .ub

/-- Writing the matrix `matp->coeffs + i`, which must exist. -/
def matPut (i : Nat) (A : Mat K) (o : Obj K) : Res (Obj K) :=
  if i < o.size ∧ (o.cell i).isSome then .ok { o with cell := Function.update o.cell i (some A) } else .ub

/-- `flint_free(matp->coeffs)`: the matrices which the array holds are lost. -/
def freeArr (o : Obj K) : Res Unit := if ∃ i, i < o.size ∧ (o.cell i).isSome then .leak else .ok ()

/-- `matp->coeffs = flint_realloc(matp->coeffs, n * sizeof(nmod_mat_struct))`, `n > 0`. -/
def reallocArr (n : Nat) (o : Obj K) : Res (Obj K) :=
  if ∃ i, i < o.size ∧ n ≤ i ∧ (o.cell i).isSome then .leak
  else .ok { o with ptr := true, size := n, cell := fun i => if i < o.size ∧ i < n then o.cell i else none }

/-- `matp->coeffs = flint_malloc(n * sizeof(nmod_mat_struct))`, `n > 0`: an array which was there is lost. -/
def mallocArr (n : Nat) (o : Obj K) : Res (Obj K) := if o.ptr then .leak else .ok { o with ptr := true, size := n, cell := fun _ => none }

/-- `for (i = lo; i < lo + n; i++) f(i)`. -/
def loop {σ : Type} (f : Nat → σ → Res σ) : Nat → Nat → σ → Res σ
  | _, 0, s => .ok s
  | lo, n + 1, s => (f lo s).bind (loop f (lo + 1) n)

/-- `for (i = n - 1; i >= 0; i--) f(i)`. -/
def downLoop {σ : Type} (f : Nat → σ → Res σ) : Nat → σ → Res σ
  | 0, s => .ok s
  | n + 1, s => (f n s).bind (downLoop f n)

/-! ### Memory management -/

/-- `nmod_mat_poly_init`, `_init_preinv` and `_init_mod`, nmod_mat_poly_mem.c:11-36, nmod_mat_poly.h:126-138. -/
def init (r c : Nat) : Obj K := ⟨r, c, false, 0, 0, 0, fun _ => none⟩

/-- `nmod_mat_poly_init2` and `_init2_preinv`, nmod_mat_poly_mem.c:39-70. -/
def init2 (r c alloc : Nat) : Obj K :=
  if alloc = 0 then ⟨r, c, false, 0, 0, 0, fun _ => none⟩ else ⟨r, c, true, alloc, alloc, 0, fun _ => none⟩

/-- `_nmod_mat_poly_set_length(matp, length)`, nmod_mat_poly.h:165-175. -/
def setLength (o : Obj K) (len : Nat) : Res (Obj K) :=
  (if o.length > len then loop matClear len (o.length - len) o else loop matInit o.length (len - o.length) o).bind fun o =>
  .ok { o with length := len }

/-- The loop of `_nmod_mat_poly_normalise(matp)`, nmod_mat_poly.h:180-188, at most `fuel` times. -/
def normLoop : Nat → Obj K → Res (Obj K)
  | 0, o => .ok o
  | fuel + 1, o =>
    if o.length = 0 then .ok o
    else
      (matGet (o.length - 1) o).bind fun A =>
      if matIsZero o.r o.c A then (matClear (o.length - 1) o).bind fun o => normLoop fuel { o with length := o.length - 1 } else .ok o

/-- `_nmod_mat_poly_normalise(matp)`, nmod_mat_poly.h:180-188. -/
def normalise (o : Obj K) : Res (Obj K) := normLoop o.length o

/-- `nmod_mat_poly_truncate(matp, order)`, nmod_mat_poly.h:369-379. -/
def truncate (o : Obj K) (order : Nat) : Res (Obj K) :=
  if o.length > order then (loop matClear order (o.length - order) o).bind fun o => normalise { o with length := order } else .ok o

/-- `nmod_mat_poly_clear(matp)`, nmod_mat_poly_mem.c:98-106. -/
def clear (o : Obj K) : Res Unit :=
  (loop matClear 0 o.length o).bind fun o => if o.ptr then freeArr o else .ok ()

/-- `nmod_mat_poly_realloc(matp, alloc)`, nmod_mat_poly_mem.c:108-130. -/
def realloc (o : Obj K) (alloc : Nat) : Res (Obj K) :=
  if alloc = 0 then (clear o).bind fun _ => .ok ⟨o.r, o.c, false, 0, 0, 0, fun _ => none⟩
  else
    (if o.alloc ≠ 0 then (truncate o alloc).bind (reallocArr alloc) else mallocArr alloc o).bind fun o =>
    .ok { o with alloc := alloc }

/-- `nmod_mat_poly_fit_length(matp, alloc)`, nmod_mat_poly_mem.c:132-143. -/
def fitLength (o : Obj K) (alloc : Nat) : Res (Obj K) :=
  if alloc > o.alloc then realloc o (if alloc < 2 * o.alloc then 2 * o.alloc else alloc) else .ok o

/-- `nmod_mat_poly_zero(matp)`, nmod_mat_poly.h:205-209. -/
def zero (o : Obj K) : Res (Obj K) := setLength o 0

/-- `nmod_mat_poly_one(matp)`, nmod_mat_poly.h:218-224. -/
def one (o : Obj K) : Res (Obj K) :=
  (fitLength o 1).bind fun o => (setLength o 1).bind fun o => matPut 0 matOne o

/-- `nmod_mat_poly_set(matp1, matp2)`, distinct objects, nmod_mat_poly_mem.c:76-88; `nmod_mat_set` requires equal dimensions. -/
def set (o p : Obj K) : Res (Obj K) :=
  if o.r ≠ p.r ∨ o.c ≠ p.c then .ub
  else
    (fitLength o p.length).bind fun o => (setLength o p.length).bind fun o =>
    loop (fun i o => (matGet i p).bind fun A => matPut i A o) 0 p.length o

/-! ### Shifts, conversions, random matrices, entries -/

/-- `nmod_mat_swap(coeffs + i, coeffs + j)`: the structures are exchanged. -/
def matSwap (i j : Nat) (o : Obj K) : Res (Obj K) :=
  (matGet i o).bind fun A => (matGet j o).bind fun B => (matPut i B o).bind (matPut j A)

/-- `nmod_mat_poly_shift_left(smatp, matp, n)`, distinct objects, nmod_mat_poly_shift.c:3-22 and 31-50. -/
def shiftLeft (o p : Obj K) (n : Nat) : Res (Obj K) :=
  if n = 0 then set o p
  else if p.length = 0 then zero o
  else if o.r ≠ p.r ∨ o.c ≠ p.c then .ub
  else
    (fitLength o (p.length + n)).bind fun o => (setLength o (p.length + n)).bind fun o =>
    (loop (fun i o => (matGet i p).bind fun A => matPut (n + i) A o) 0 (p.length - n) o).bind fun o =>
    loop (fun i o => matPut i matZero o) 0 n o

/-- `nmod_mat_poly_shift_left(matp, matp, n)`, nmod_mat_poly_shift.c:3-22 and 31-50. -/
def shiftLeftAliased (o : Obj K) (n : Nat) : Res (Obj K) :=
  if n = 0 then .ok o
  else if o.length = 0 then zero o
  else
    (fitLength o (o.length + n)).bind fun o => (setLength o (o.length + n)).bind fun o =>
    (downLoop (fun i o => matSwap (n + i) i o) (o.length - n) o).bind fun o =>
    loop (fun i o => matPut i matZero o) 0 n o

/-- `nmod_mat_poly_init_set_from_nmod_mat(matp, cmat)`, nmod_mat_poly_set_from.c:5-16. -/
def initSet (r c : Nat) (A : Mat K) : Res (Obj K) :=
  if matIsZero r c A then .ok (init2 r c 1)
  else (matInit 0 (init2 r c 1)).bind fun o => (matPut 0 A o).bind fun o => .ok { o with length := 1 }

/-- `nmod_mat_poly_set_from_nmod_mat(matp, cmat)`, nmod_mat_poly_set_from.c:18-29. -/
def setFromMat (o : Obj K) (A : Mat K) : Res (Obj K) :=
  if matIsZero o.r o.c A then zero o
  else (fitLength o 1).bind fun o => (setLength o 1).bind fun o => matPut 0 A o

/-- `nmod_mat_poly_set_trunc_from_poly_mat(matp, pmat, order)`, nmod_mat_poly_set_from.c:31-52.  The entries of a coefficient are
    written together. -/
noncomputable def setTrunc (o : Obj K) (M : Mat (Polynomial K)) (order : Nat) : Res (Obj K) :=
  let len := maxLength o.r o.c M
  let order := if order > len then len else order
  (fitLength o order).bind fun o => (setLength o order).bind fun o =>
  (loop (fun k o => (matGet k o).bind fun A => matPut k (fun i j => if i < o.r ∧ j < o.c then (M i j).coeff k else A i j) o) 0 order o).bind fun o =>
  if order < len then normalise o else .ok o

/-- `nmod_mat_poly_rand` and `nmod_mat_poly_randtest`, nmod_mat_poly_rand.c:5-25; `v i` is the matrix drawn for the coefficient `i`. -/
def rand (o : Obj K) (len : Nat) (v : Nat → Mat K) : Res (Obj K) :=
  (fitLength o len).bind fun o => (setLength o len).bind fun o =>
  (loop (fun i o => matPut i (v i) o) 0 len o).bind normalise

/-- `nmod_mat_poly_set_entry(matp, k, i, j, x)`, nmod_mat_poly.h:339-345. -/
def setEntry (o : Obj K) (k i j : Nat) (x : K) : Res (Obj K) :=
  (matGet k o).bind fun A => if i < o.r ∧ j < o.c then matPut k (fun u v => if u = i ∧ v = j then x else A u v) o else .ub

/-- `nmod_mat_poly_permute_rows(matp, perm_act, NULL)`, nmod_mat_poly.h:413-446, on one coefficient after the other; `perm_act` has indices of rows
    as entries.  The buffer is not modelled. -/
def permuteRowsObj (o : Obj K) (act : Nat → Nat) : Res (Obj K) :=
  if ∀ i, i < o.r → act i < o.r then
    loop (fun k o => (matGet k o).bind fun A => matPut k (permuteRows o.r A act none).1 o) 0 o.length o
  else .ub

/-- `nmod_mat_poly_get_entry(matp, k, i, j)`, nmod_mat_poly.h:321-326. -/
def getEntry (o : Obj K) (k i j : Nat) : Res K :=
  (matGet k o).bind fun A => if i < o.r ∧ j < o.c then .ok (A i j) else .ub

/-- `nmod_mat_poly_get_coeff(coeff, matp, k)`, nmod_mat_poly.h:291-298. -/
def getCoeff (o : Obj K) (k : Nat) : Res (Mat K) := if k < o.length then matGet k o else .ok matZero

/-- `nmod_mat_poly_is_one(matp)`, nmod_mat_poly.h:228-232. -/
def isOne (o : Obj K) : Res Bool := if o.length = 1 then (matGet 0 o).bind fun A => .ok (matIsOne o.r o.c A) else .ok false

/-- `nmod_mat_poly_mul_coeff(coeff, mat1, mat2, k)`, nmod_mat_poly_arith.c:4-41; `nmod_mat_mul` requires matching dimensions. -/
def mulCoeff (o p : Obj K) (k : Nat) : Res (Mat K) :=
  let ubound := min (k + 1) o.length
  let lbound := k + 1 - p.length
  if lbound ≥ ubound then .ok matZero
  else if o.c ≠ p.r then .ub
  else
    (matGet lbound o).bind fun A => (matGet (k - lbound) p).bind fun B =>
    loop (fun i acc => (matGet i o).bind fun A => (matGet (k - i) p).bind fun B => .ok (matAdd acc (matMul o.c A B))) (lbound + 1) (ubound - (lbound + 1))
      (matMul o.c A B)

/-- `nmod_mat_poly_evaluate_nmod(eval, matp, pt)`, nmod_mat_poly_arith.c:43-68. -/
def evaluate (o : Obj K) (pt : K) : Res (Mat K) :=
  if o.length = 0 then .ok matZero
  else if o.length = 1 ∨ pt = 0 then matGet 0 o
  else (matGet (o.length - 1) o).bind fun E => downLoop (fun k e => (matGet k o).bind fun A => .ok (matScalarAddmul A e pt)) (o.length - 1) E

/-! ### Programs -/

/-- The variables of a program; `none` is a variable which is not initialised, or which is cleared. -/
abbrev Store (K : Type) := Nat → Option (Obj K)

/-- Calls; the first argument is the variable which is modified (or read). -/
inductive Op (K : Type) [Field K] where
  | init (d r c : Nat)
  | init2 (d r c alloc : Nat)
  | initSet (d r c : Nat) (A : Mat K)
  | clear (d : Nat)
  | realloc (d alloc : Nat)
  | fitLength (d alloc : Nat)
  | setLength (d len : Nat)
  | normalise (d : Nat)
  | truncate (d order : Nat)
  | zero (d : Nat)
  | one (d : Nat)
  | set (d s : Nat)
  | shiftLeft (d s n : Nat)
  | setFromMat (d : Nat) (A : Mat K)
  | setTrunc (d : Nat) (M : Mat (Polynomial K)) (order : Nat)
  | rand (d len : Nat) (v : Nat → Mat K)
  | setEntry (d k i j : Nat) (x : K)
  | permuteRows (d : Nat) (act : Nat → Nat)
  | getEntry (d k i j : Nat)
  | getCoeff (d k : Nat)
  | isOne (d : Nat)
  | mulCoeff (d s k : Nat)
  | evaluate (d : Nat) (pt : K)

/-- A variable in use. -/
def use {α : Type} (s : Store K) (d : Nat) (f : Obj K → Res α) : Res α :=
  match s d with
  | some o => f o
  | none => .ub

/-- A call which modifies the variable `d`. -/
def modify (s : Store K) (d : Nat) (f : Obj K → Res (Obj K)) : Res (Store K) :=
  (use s d f).bind fun o => .ok (Function.update s d (some o))

/-- A call which initialises the variable `d`: if it held an array, the array is lost. -/
def create (s : Store K) (d : Nat) (x : Res (Obj K)) : Res (Store K) :=
  if (∃ o, s d = some o ∧ o.ptr = true) then .leak else x.bind fun o => .ok (Function.update s d (some o))

/-- A call which only reads. -/
def query {α : Type} (s : Store K) (x : Res α) : Res (Store K) := x.bind fun _ => .ok s

/-- One call. -/
noncomputable def exec (op : Op K) (s : Store K) : Res (Store K) :=
  match op with
  | .init d r c => create s d (.ok (init r c))
  | .init2 d r c a => create s d (.ok (init2 r c a))
  | .initSet d r c A => create s d (initSet r c A)
  | .clear d => (use s d clear).bind fun _ => .ok (Function.update s d none)
  | .realloc d a => modify s d (realloc · a)
  | .fitLength d a => modify s d (fitLength · a)
  | .setLength d n => modify s d (setLength · n)
  | .normalise d => modify s d normalise
  | .truncate d n => modify s d (truncate · n)
  | .zero d => modify s d zero
  | .one d => modify s d one
  | .set d e => if d = e then modify s d .ok else modify s d fun o => use s e (set o)
  | .shiftLeft d e n => if d = e then modify s d (shiftLeftAliased · n) else modify s d fun o => use s e fun p => shiftLeft o p n
  | .setFromMat d A => modify s d (setFromMat · A)
  | .setTrunc d M n => modify s d (setTrunc · M n)
  | .rand d n v => modify s d (rand · n v)
  | .setEntry d k i j x => modify s d (setEntry · k i j x)
  | .permuteRows d act => modify s d (permuteRowsObj · act)
  | .getEntry d k i j => query s (use s d (getEntry · k i j))
  | .getCoeff d k => query s (use s d (getCoeff · k))
  | .isOne d => query s (use s d isOne)
  | .mulCoeff d e k => query s (use s d fun o => use s e fun p => mulCoeff o p k)
  | .evaluate d pt => query s (use s d (evaluate · pt))

/-- A sequence of calls. -/
noncomputable def run : List (Op K) → Store K → Res (Store K)
  | [], s => .ok s
  | op :: ops, s => (exec op s).bind (run ops)

end PML.MatPoly.Mem
