import Mathlib.Data.ZMod.Basic
import Mathlib.Algebra.Field.ZMod

/-!
# Model of `ntl-extras/lzz_p_extra/src/lzz_p_extra.cpp` and `ntl-extras/vec_lzz_p_extra/src/vec_lzz_p_extra.cpp`

Elements of `zz_p` are elements of `ZMod m`, where `m ≥ 2` is the current modulus, prime or not.
-/

namespace PML.Ntl.Order

variable {m : Nat}

/-- The loop of `order`, lines 18-27; `none` if the fuel is exhausted. -/
def orderLoop (a : ZMod m) : Nat → Nat → ZMod m → Option Int
  | 0, _, _ => none
  | fuel + 1, o, ap =>
    if ap ≠ 1 then
      if o = m then some (-1) else orderLoop a fuel (o + 1) (ap * a)
    else some o

/-- `order`, lines 12-28. -/
def order (a : ZMod m) : Option Int := if a = 0 then some (-1) else orderLoop a (m + 1) 1 a

/-- The `for` loop of `element_of_order`, lines 49-58, for `i = 1, …, c`: `ok`, `prod`, `ap`.  After
    `ok` has become false the loop is left. -/
def tryLoop (a : ZMod m) : Nat → Bool × ZMod m × ZMod m
  | 0 => (true, a, a)
  | c + 1 =>
    let u := tryLoop a c
    if u.1 = false then u
    else
      let prod := u.2.1 * (1 - u.2.2)
      if u.2.2 = 1 then (false, prod, u.2.2) else (true, prod, u.2.2 * a)

/-- The trials of `element_of_order`, lines 41-69; `rnd nb` is the `nb`-th random element. -/
def trials (rnd : Nat → ZMod m) (ord : Nat) (strong : Bool) : Nat → Nat → ZMod m
  | 0, _ => 0
  | c + 1, nb =>
    let a := rnd nb
    let u := tryLoop a (ord - 1)
    if u.1 then
      if strong = false then a
      else if Nat.gcd u.2.1.val m = 1 then a
      else trials rnd ord strong c (nb + 1)
    else trials rnd ord strong c (nb + 1)

/-- `element_of_order`, lines 36-70; `none` is the logic error. -/
def elementOfOrder (rnd : Nat → ZMod m) (ord nbTrials : Nat) (strong : Bool) : Option (ZMod m) :=
  if m - 1 < ord then none else some (trials rnd ord strong nbTrials 0)

/-- The products of `inv`, vec_lzz_p_extra.cpp:43-46: `tmp[c]`. -/
def prefixProd {K : Type} [Mul K] (A : Nat → K) : Nat → K
  | 0 => A 0
  | c + 1 => prefixProd A c * A (c + 1)

/-- The loop of `inv`, vec_lzz_p_extra.cpp:51-56, for `i = c, …, 1`, and the last assignment. -/
def invLoop {K : Type} [Mul K] (A tmp : Nat → K) : Nat → K → (Nat → K) → (Nat → K)
  | 0, aux, r => Function.update r 0 aux
  | c + 1, aux, r => invLoop A tmp c (aux * A (c + 1)) (Function.update r (c + 1) (aux * tmp c))

/-- `inv(Vec& invA, const Vec& A)`, vec_lzz_p_extra.cpp:26-57, for vectors of length `n`; `none` is the
    division by zero. If `invA` and `A` are the same vector the result is computed apart and copied. -/
def invVec {K : Type} [Field K] [DecidableEq K] (n : Nat) (A r : Nat → K) : Option (Nat → K) :=
  if n = 0 then some r
  else if prefixProd A (n - 1) = 0 then none
  else some (invLoop A (prefixProd A) (n - 1) (prefixProd A (n - 1))⁻¹ r)

/-- `inv_naive`, vec_lzz_p_extra.cpp:16-21: entries `0, …, c - 1`. -/
def invNaive {K : Type} [Field K] [DecidableEq K] (A r : Nat → K) : Nat → Option (Nat → K)
  | 0 => some r
  | c + 1 => match invNaive A r c with
    | none => none
    | some r => if A c = 0 then none else some (Function.update r c (A c)⁻¹)

end PML.Ntl.Order
