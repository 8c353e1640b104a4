import Verif.Ntl.SeriesModel
import Mathlib.Algebra.Field.ZMod
import Mathlib.Data.Nat.Size

/-!
# Model of the Taylor shift of `ntl-extras/lzz_pX_extra/src/lzz_pX_extra.cpp`

Polynomials are values (their storage is modelled only for `add_LeftShift`); degrees `d` are
integers since `-1` is allowed.  `none` stands for an error or an out-of-bounds access.
-/

namespace PML.Ntl.Shift

open Polynomial

variable {R : Type} [CommRing R]

/-! ### Divide and conquer -/

/-- The table `precomp`, lines 272-277: `(x+c)^4`, then squares. -/
noncomputable def precomp (c : R) : Nat → R[X]
  | 0 => ((X + C c) ^ 2) ^ 2
  | k + 1 => precomp c k ^ 2

/-- Its length, lines 269-270; `NumBits(d)` is the bit length of `|d|`. -/
def precompLen (d : Int) : Nat := max 1 (Nat.size d.natAbs - 2)

/-- A polynomial given by four coefficients. -/
noncomputable def quad (v0 v1 v2 v3 : R) : R[X] := C v0 + C v1 * X + C v2 * X ^ 2 + C v3 * X ^ 3

/-- The loop over the full blocks of four coefficients, lines 299-321; `V` is the length of `v`. -/
noncomputable def leafLoop (c : R) (f : R[X]) (V : Nat) : Nat → Option (Nat → R[X])
  | 0 => some fun _ => 0
  | j + 1 => match leafLoop c f V j with
    | none => none
    | some v =>
      let cc := c * c
      let c3 := 3 * c
      let f0 := f.coeff (4 * j)
      let f1 := f.coeff (4 * j + 1)
      let f2 := f.coeff (4 * j + 2)
      let f3 := f.coeff (4 * j + 3)
      let buf := c3 * f3 + f2
      if V ≤ j then none
      else some (Function.update v j (quad ((c * f3 + f2) * cc + c * f1 + f0) ((buf + f2) * c + f1) buf f3))

/-- The last block, lines 322-331; `n` is the number of coefficients of `f`. -/
noncomputable def lastLeaf (c : R) (f : R[X]) (V n : Nat) (v : Nat → R[X]) : Option (Nat → R[X]) :=
  let cc := c * c
  let c3 := 3 * c
  let j := n / 4
  if 4 * j < n then
    let f0 := f.coeff (4 * j)
    let f1 := f.coeff (4 * j + 1)
    let f2 := f.coeff (4 * j + 2)
    let f3 := f.coeff (4 * j + 3)
    if V ≤ j then none
    else some (Function.update v j
      (quad (f0 + c * f1 + cc * (f2 + c * f3)) (f1 + c * (2 * f2 + c3 * f3)) (f2 + c3 * f3) f3))
  else some v

/-- The loop `for (i = 1, j = 2; j+1 < v.length(); ++i, j+=2)`, lines 339-343; the argument counts the
    rounds done. -/
noncomputable def pairLoop (P : R[X]) (v : Nat → R[X]) : Nat → (Nat → R[X])
  | 0 => v
  | k + 1 =>
    let v' := pairLoop P v k
    Function.update v' (k + 1) (P * v' (2 * (k + 1) + 1) + v' (2 * (k + 1)))

/-- One round of the loop on the length of `v`, lines 337-348. -/
noncomputable def mergeStep (P : R[X]) (V : Nat) (v : Nat → R[X]) : Nat → R[X] :=
  let v1 := Function.update v 1 (v 1 * P)
  let v2 := Function.update v1 0 (v1 0 + v1 1)
  let v3 := pairLoop P v2 (V / 2 - 1)
  let i := V / 2
  let j := 2 * i
  if j + 1 = V then Function.update (Function.update v3 j (v3 i)) i (v3 j) else v3

/-- The loop `while (v.length() > 1)`, lines 333-351. -/
noncomputable def mergeLoop (pre : Nat → R[X]) (plen : Nat) : Nat → Nat → Nat → (Nat → R[X]) → Option R[X]
  | 0, _, _, _ => none
  | fuel + 1, idx, V, v =>
    if 1 < V then
      if plen ≤ idx then none
      else mergeLoop pre plen fuel (idx + 1) (V / 2 + V % 2) (mergeStep (pre idx) V v)
    else some (v 0)

/-- `zz_pX_shift_DAC(d, c)` (lines 261-278) followed by `shift(g, f)` (lines 284-353). -/
noncomputable def shiftDAC [DecidableEq R] (d : Int) (c : R) (f : R[X]) : Option R[X] :=
  if d = -1 then some 0
  else if d + 1 < (if f = 0 then 0 else f.natDegree + 1 : Nat) then none
  else
    let n : Nat := if f = 0 then 0 else f.natDegree + 1
    let D := (d + 1).toNat
    let V := if D % 4 ≠ 0 then 1 + D / 4 else D / 4
    match leafLoop c f V (n / 4) with
    | none => none
    | some v => match lastLeaf c f V n v with
      | none => none
      | some v => mergeLoop (precomp c) (precompLen d) (V + 1) 0 V v

/-! ### Large characteristic -/

variable {K : Type} [Field K]

/-- The table `fact`, lines 372-374. -/
def fact : Nat → K
  | 0 => 1
  | i + 1 => ((i + 1 : Nat) : K) * fact i

/-- The table `c^i`, lines 380-382. -/
def powTab (c : K) : Nat → K
  | 0 => 1
  | i + 1 => c * powTab c i

/-- `zz_pX_shift_large_characteristic(d, c)` (lines 367-385) followed by `shift(g, f)` (lines 391-415).
    For `d = -1` the constructor writes `fact[0]` in an empty vector.  `inv(ifact, fact)` fails if
    some factorial is not invertible.  `u[d-i]` is out of bounds if `deg(f) > d`. -/
noncomputable def shiftLarge [DecidableEq K] (d : Int) (c : K) (f : K[X]) : Option K[X] :=
  if d < 0 then none
  else
    let D := d.toNat
    if ∃ i ∈ Finset.range (D + 1), (fact i : K) = 0 then none
    else if d < f.natDegree then none
    else
      let ifact : Nat → K := fun i => (fact i)⁻¹
      let v := Series.build (D + 1) fun i => powTab c i * ifact i
      let u := Series.build (D + 1) fun i => f.coeff (D - i) * fact (D - i)
      let w := (u * v) %ₘ X ^ (D + 1)
      some (Series.build (D + 1) fun i => w.coeff (D - i) * ifact i)

/-- The product `2 * 3 * … * d`, lines 423-425. -/
def prodTest (p : Nat) (d : Int) : ZMod p := (List.range' 3 (d - 2).toNat).foldl (fun (a : ZMod p) (i : Nat) => a * (i : ZMod p)) 2

/-- `get_shift(deg(f), c)` followed by `shift`, lines 420-442. -/
noncomputable def shift {p : Nat} [Fact p.Prime] (f : (ZMod p)[X]) (c : ZMod p) : Option (ZMod p)[X] :=
  let d : Int := if f = 0 then -1 else f.natDegree
  if Nat.gcd (prodTest p d).val p = 1 then shiftLarge d c f else shiftDAC d c f

/-! ### `add_LeftShift` -/

/-- `normalize()`: the length without trailing zeros. -/
def normLen [DecidableEq R] (c : Nat → R) : Nat → Nat
  | 0 => 0
  | n + 1 => if c n ≠ 0 then n + 1 else normLen c n

/-- `add_LeftShift(c, a, b, k)`, lines 447-483: the length and the coefficients of `c`.  `a` and `b` are
    given by their lengths (`deg(a) = la - 1`, `deg(b) + k = lb + k - 1`) and coefficients.  `aliased` tells
    whether `c` is `a`; entries then not written keep their value, which is that of `a`.  `c` is not `b`. -/
def addLeftShift [DecidableEq R] (aliased : Bool) (la : Nat) (a : Nat → R) (lb : Nat) (b : Nat → R) (k : Nat) :
    Nat × (Nat → R) :=
  let lbk := lb + k
  let minab := min la lbk
  let maxab := max la lbk
  let c : Nat → R := fun i =>
    if i < min la k then a i
    else if i < k then 0
    else if i < minab then a i + b (i - k)
    else if minab < la then a i
    else b (i - k)
  if minab < la ∧ aliased = false then (maxab, c)
  else if minab < lbk then (maxab, c)
  else (normLen c maxab, c)

end PML.Ntl.Shift
