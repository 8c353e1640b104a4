import Verif.Common.While

/-!
# flint-extras/src/nmod_extra: nmod_extra.c, nmod_find_root.c

Words are integers in `[0, 2^64)`; `int` values are integers in
`[-2^31, 2^31)`. An undefined behaviour is the explicit outcome `ub`.
-/

namespace PML.NmodExtra

/-- Outcome of a C call: a value, or undefined behaviour. -/
inductive Outcome (α : Type) where
  | ok (a : α)
  | ub
  deriving DecidableEq, Repr

/-! ## `inverse_mod_power_of_two` (nmod_extra.c:37-49) -/

/-- Body of the do-while loop, lines 43-44: `old = ip; ip = 2*ip - p*ip*ip`
(arithmetic of `ulong`, i.e. modulo `2^64`). State `(ip, old)`. -/
def newtonBody (p : Int) (s : Int × Int) : Int × Int :=
  ((2 * s.1 - p * s.1 * s.1) % 2 ^ 64, s.1)

/-- `inverse_mod_power_of_two(p, k)`, nmod_extra.c:37-49. The do-while is one
execution of the body followed by a while loop (`fuel` iterations at most;
outer `none` = not finished). The mask `(1L << k) - 1` is undefined when
`k < 0`, `k ≥ 64` (shift count) and `k = 63` (signed overflow). -/
def inversePow2 (fuel : Nat) (p : Int) (k : Int) : Option (Outcome Int) :=
  (whileLoop (fun s => decide (s.1 ≠ s.2)) (newtonBody p) fuel (newtonBody p (1, 1))).map
    fun s => if 0 ≤ k ∧ k ≤ 62 then .ok (s.1 % 2 ^ k.toNat) else .ub

/-! ## `next_power_of_two` (nmod_extra.c:22-31) -/

/-- Conversion `(int) x` of a 64-bit word (two's complement truncation). -/
def toInt32 (x : Int) : Int :=
  let r := x % 2 ^ 32
  if r < 2 ^ 31 then r else r - 2 ^ 32

/-- State of the loop: `(i, j)` or undefined behaviour reached. `j <<= 1` on an
`int` is undefined if the result does not fit (line 28). -/
def npBody : Outcome (Int × Int) → Outcome (Int × Int)
  | .ub => .ub
  | .ok (i, j) => if 2 * j < 2 ^ 31 then .ok (i + 1, 2 * j) else .ub

/-- Loop test `j < (int) x`, line 25 (stop once undefined behaviour occurred). -/
def npTest (x : Int) : Outcome (Int × Int) → Bool
  | .ub => false
  | .ok (_, j) => decide (j < toInt32 x)

/-- `next_power_of_two(x)`, nmod_extra.c:22-31. -/
def nextPowerOfTwo (fuel : Nat) (x : Int) : Option (Outcome Int) :=
  (whileLoop (npTest x) npBody fuel (.ok (0, 1))).map fun
    | .ub => .ub
    | .ok (i, _) => .ok i

/-! ## `nmod_find_root` (nmod_find_root.c:19-37) -/

/-- Inner while loop, lines 25-29: state `(k, qk)`. -/
def rootInner (fuel n p q : Nat) : Option (Nat × Nat) :=
  whileLoop (fun s => decide (s.2 ≠ 1 ∧ s.1 < n)) (fun s => (s.1 + 1, s.2 * q % p)) fuel (1, q)

/-- Outer loop, lines 21-35, over the remaining `m` candidates `q, q+1, ...`. -/
def rootOuter (fuel n p : Nat) : Nat → Nat → Option Nat
  | 0, _ => some 0
  | m + 1, q =>
    match rootInner fuel n p q with
    | none => none
    | some s => if s.2 ≠ 1 then some q else rootOuter fuel n p m (q + 1)

/-- `nmod_find_root(n, mod)` with `mod.n = p`: candidates `2 ≤ q < p`. -/
def findRoot (fuel n p : Nat) : Option Nat := rootOuter fuel n p (p - 2) 2

end PML.NmodExtra
