import Verif.Ntl.Fft
import Mathlib.Data.ZMod.Basic

/-!
# Model of `ntl-extras/lzz_pX_middle_product/src/lzz_pX_middle_product.cpp`

Coefficients are elements of `ZMod p`; `rep(x)` is `x.val`.  Arrays are functions of the index; the
output arrays do not overlap the inputs.  `none` stands for undefined behaviour: a read beyond the
`sc` entries of `c`, a write beyond the extra storage, or a signed overflow.
-/

namespace PML.Ntl.Middle

open Polynomial

variable {p : Nat} [NeZero p]

/-- `KARX`, `lzz_pX_middle_product.h:13`. -/
abbrev KARX : Nat := 32

/-- `NTL_SP_BOUND` of NTL on 64-bit machines. -/
abbrev SP_BOUND : Nat := 2 ^ 60

/-- Bound of `long`. -/
abbrev LONG_BOUND : Nat := 2 ^ 63

/-- The inner loop of the case `use_long == 0` of `tPlainMul2`, lines 41-42. -/
def addRow (b : Nat → ZMod p) (ai : ZMod p) (c : Nat → ZMod p) (sc i : Nat) : Nat → Option (Nat → ZMod p)
  | 0 => some b
  | j + 1 => match addRow b ai c sc i j with
    | none => none
    | some b' => if sc ≤ i + j then none else some (Function.update b' j (c (i + j) * ai + b' j))

/-- The outer loop of the case `use_long == 0`, lines 37-43. -/
def rowLoop (b a c : Nat → ZMod p) (sb sc : Nat) : Nat → Option (Nat → ZMod p)
  | 0 => some b
  | i + 1 => match rowLoop b a c sb sc i with
    | none => none
    | some b' => addRow b' (a i) c sc i sb

/-- The accumulation of the case `use_long == 1`, lines 49-51. -/
def accLoop (a c : Nat → ZMod p) (sc j : Nat) : Nat → Option Nat
  | 0 => some 0
  | i + 1 => match accLoop a c sc j i with
    | none => none
    | some s => if sc ≤ i + j then none
        else if LONG_BOUND ≤ s + (c (i + j)).val * (a i).val then none
        else some (s + (c (i + j)).val * (a i).val)

/-- The loop of the case `use_long == 1`, lines 47-53; `red` is `reduce` (lines 18-22). -/
def accRows (red : Nat → ZMod p) (b a c : Nat → ZMod p) (sa sc : Nat) : Nat → Option (Nat → ZMod p)
  | 0 => some b
  | j + 1 => match accRows red b a c sa sc j with
    | none => none
    | some b' => match accLoop a c sc j sa with
      | none => none
      | some s => some (Function.update b' j (red s))

/-- `tPlainMul2`, lines 28-55. -/
def tPlainMul2 (red : Nat → ZMod p) (b : Nat → ZMod p) (sb : Nat) (a : Nat → ZMod p) (sa : Nat)
    (c : Nat → ZMod p) (sc : Nat) (useLong : Bool) : Option (Nat → ZMod p) :=
  if useLong then accRows red b a c sa sc sb
  else rowLoop (fun i => if i < sb then 0 else b i) a c sb sc sa

/-- `Kar_stk_size`, lines 60-71; the loop halves `n`, so it ends within `N` rounds. -/
def stkLoop : Nat → Nat → Nat
  | 0, _ => 0
  | fuel + 1, n =>
    let hn := (n + 1) / 2
    hn * 4 - 1 + if KARX ≤ hn then stkLoop fuel hn else 0

/-- `Kar_stk_size`, lines 60-71. -/
def karStkSize (N : Nat) : Nat := stkLoop (N + 1) N

/-- `KarSub`, lines 76-82. -/
def karSub (T b : Nat → ZMod p) (sb : Nat) : Nat → ZMod p := fun i => if i < sb then T i - b i else T i

/-- `KarFoldSub`, lines 87-97. -/
def karFoldSub (T b : Nat → ZMod p) (sb hsa : Nat) : Nat → ZMod p := fun i =>
  if i < sb - hsa then b (hsa + i) - b i else if i < hsa then 0 - b i else T i

/-- `KarAdd2`, lines 102-107. -/
def karAdd2 (T a b : Nat → ZMod p) (s : Nat) : Nat → ZMod p := fun i => if i < s then a i + b i else T i

/-- `KarAdd`, lines 112-117. -/
def karAdd (T b : Nat → ZMod p) (sb : Nat) : Nat → ZMod p := fun i => if i < sb then T i + b i else T i

/-- The array starting `o` entries further. -/
def from_ (o : Nat) (a : Nat → ZMod p) : Nat → ZMod p := fun i => a (o + i)

/-- Writing the `n` first entries of `v` from index `o` of `b` on. -/
def place (b : Nat → ZMod p) (o n : Nat) (v : Nat → ZMod p) : Nat → ZMod p := fun i =>
  if o ≤ i ∧ i < o + n then v (i - o) else b i

/-- `tKarMul_aux`, lines 123-181.  `stk` is the number of entries left in the extra storage, whose
    content before the call is irrelevant (here 0).  The recursion ends since the sizes decrease. -/
def tKar (red : Nat → ZMod p) (useLong : Bool) : Nat → (Nat → ZMod p) → Nat → (Nat → ZMod p) → Nat →
    (Nat → ZMod p) → Nat → Nat → Option (Nat → ZMod p)
  | 0, _, _, _, _, _, _, _ => none
  | fuel + 1, b, sb, a, sa, c, sc, stk =>
    if sa < KARX ∨ sb < KARX then tPlainMul2 red b sb a sa c sc useLong
    else
      let hsa := (sa + 1) / 2
      let hsb := (sb + 1) / 2
      if sb ≤ sa ∧ sb ≤ hsa then
        if stk < sb then none
        else match tKar red useLong fuel b sb (from_ hsa a) (sa - hsa) (from_ hsa c) (sc - hsa) (stk - sb) with
          | none => none
          | some b1 => match tKar red useLong fuel 0 sb a hsa c (min (sb + hsa - 1) sc) (stk - sb) with
            | none => none
            | some T => some (karAdd b1 T sb)
      else if sa < sb ∧ sa ≤ hsb then
        match tKar red useLong fuel b hsb a sa c (min (sa + hsb - 1) sc) stk with
        | none => none
        | some b1 => match tKar red useLong fuel (from_ hsb b1) (sb - hsb) a sa (from_ hsb c) (sc - hsb) stk with
          | none => none
          | some b2 => some (place b1 hsb (sb - hsb) b2)
      else
        let hs := if sa < sb then hsb else hsa
        let hs2 := hs * 2
        let hs3 := hs2 + hs
        if stk < hs3 then none
        else
          let T := karFoldSub 0 a sa hs
          match tKar red useLong fuel b hs T hs (from_ hs c) (min (hs2 - 1) (sc - hs)) (stk - hs3) with
          | none => none
          | some b1 =>
            let T' : Nat → ZMod p := fun i =>
              if i < sc - hs then karAdd2 T (from_ hs c) c (sc - hs) i
              else if i < min sc (sa + sb - 1 - hs) then c i
              else if i < sa + sb - 1 - hs then 0 else T i
            -- writes beyond the 3 hs entries of T
            if hs3 < max (sc - hs) (sa + sb - 1 - hs) then none
            else match tKar red useLong fuel (from_ hs b1) (sb - hs) (from_ hs a) (sa - hs) (from_ hs T')
                (sa + sb - 1 - hs2) (stk - hs3) with
            | none => none
            | some b2 =>
              let b3 := place b1 hs (sb - hs) (karSub b2 b1 (sb - hs))
              match tKar red useLong fuel (from_ hs2 T') hs a hs T' (hs2 - 1) (stk - hs3) with
              | none => none
              | some T2 => some (karAdd b3 T2 hs)

/-- The choice of delayed reductions, lines 187 and 252. -/
def useLong (p : Nat) : Bool := decide (p < SP_BOUND / KARX ∧ p * KARX < SP_BOUND / p)

/-- `middle_FFT`, lines 197-205. -/
noncomputable def middleFFT (a c : (ZMod p)[X]) (dA dB : Nat) : (ZMod p)[X] :=
  let k := nextPow2 (dA + dB + 1)
  let R1 := toRep k 0 dA a
  let R2 := toRep k 0 (dA + dB) c
  fromRep dA (dA + dB) (mulRep k R1 R2)

open Classical in
/-- `middle_product`, lines 212-266.  `cross` is `NTL_zz_pX_MUL_CROSSOVER`. -/
noncomputable def middleProduct (red : Nat → ZMod p) (cross : Nat) (a c : (ZMod p)[X]) (dA dB : Nat) :
    Option (ZMod p)[X] :=
  if c = 0 ∨ a = 0 then some 0
  else if cross < dA ∧ cross < dB then some (middleFFT a c dA dB)
  else
    let ap : Nat → ZMod p := fun i => if i < dA - a.natDegree then 0 else a.coeff (dA - i)
    let cp : Nat → ZMod p := fun i => if i < c.natDegree + 1 then c.coeff i else 0
    let bp := if min dA dB < KARX then tPlainMul2 red 0 (dB + 1) ap (dA + 1) cp (dA + dB + 1) (useLong p)
      else tKar red (useLong p) (dA + dB + 2) 0 (dB + 1) ap (dA + 1) cp (dA + dB + 1) (karStkSize (1 + max dA dB))
    match bp with
    | none => none
    | some bp => some (∑ i ∈ Finset.range (dB + 1), C (bp i) * X ^ i)

end PML.Ntl.Middle
