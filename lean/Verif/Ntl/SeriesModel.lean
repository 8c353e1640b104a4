import Verif.Ntl.Fft

/-!
# Model of the power series division of `ntl-extras/lzz_pX_extra/src/lzz_pX_extra.cpp`

Polynomials over a field; `fftRep` objects as in `Verif.Ntl.Fft`.  Storage is not modelled: entries
of `x.rep` exposed by `SetLength` above the current length are read as zero.  `none` stands for an
error raised by NTL.  The precision is nonnegative (a negative one raises an error).
-/

namespace PML.Ntl.Series

open Polynomial

variable {K : Type} [Field K]

/-- The polynomial with coefficients `v 0, …, v (n-1)`. -/
noncomputable def build (n : Nat) (v : Nat → K) : K[X] := ∑ i ∈ Finset.range n, C (v i) * X ^ i

/-- `x.rep.length()`. -/
noncomputable def len [DecidableEq K] (a : K[X]) : Nat := if a = 0 then 0 else a.natDegree + 1

/-- The inner loop `for (i = max(k - na, 0); i < k; ++i)`, lines 70-74, started at `lo`. -/
noncomputable def innerLoop (x : Nat → K) (a : K[X]) (k lo : Nat) (buf : K) : Nat → K
  | 0 => buf
  | c + 1 => innerLoop x a k lo buf c - x (lo + c) * a.coeff (k - (lo + c))

/-- The loop `for (k = 1; k < m; ++k)`, lines 67-80; the argument counts the rounds done. -/
noncomputable def plainLoop [DecidableEq K] (a : K[X]) (na : Nat) (s : K) (x : Nat → K) : Nat → (Nat → K)
  | 0 => x
  | c + 1 =>
    let x' := plainLoop a na s x c
    let k := c + 1
    let lo := k - na
    let buf := innerLoop x' a k lo (x' k) (k - lo)
    Function.update x' k (if s = 1 then buf else buf * s)

/-- `PlainInvTruncMul`, lines 21-82. -/
noncomputable def plainInvTruncMul [DecidableEq K] (b a : K[X]) (m : Nat) : Option K[X] :=
  if a = 0 then none
  else if a.coeff 0 = 0 then none
  else
    let s := (a.coeff 0)⁻¹
    if a.natDegree = 0 then
      some (build (min m (len b)) fun k => if s = 1 then b.coeff k else b.coeff k * s)
    else
      let x : Nat → K := fun k => if k < min m (len b) then b.coeff k else 0
      let x1 := Function.update x 0 (x 0 * s)
      some (build m (plainLoop a a.natDegree s x1 (m - 1)))

/-- The loop of `NewtonInvTruncMul`, lines 107-132: returns `t, k, l, x`. -/
noncomputable def newtonLoop (a : K[X]) (m : Nat) : Nat → Nat → Nat → Nat → K[X] → Option (Nat × Nat × Nat × K[X])
  | 0, _, _, _, _ => none
  | fuel + 1, t, k, l, x =>
    if k < m then
      let l := min (2 * k) m
      if m ≤ l then some (t, k, l, x)
      else
        let t := t + 1
        let R1 := toRepAll t x
        let R2 := mulRep t (toRep t 0 (l - 1) a) R1
        let P1 := fromRep k (l - 1) R2
        let R2 := mulRep t (toRepAll t P1) R1
        let P1 := fromRep 0 (l - k - 1) R2
        newtonLoop a m fuel t l l (build l fun i => if i < k then x.coeff i else -P1.coeff (i - k))
    else some (t, k, l, x)

/-- The case `deg(a) < k && deg(b) < k && l == m`, lines 138-170. -/
noncomputable def finalShort (b a : K[X]) (t k l : Nat) (x : K[X]) : K[X] :=
  let R1 := toRepAll (t + 1) x
  let R2 := toRepAll (t + 1) b
  let r0 := fromRep 0 (k - 1) (mulRep (t + 1) R1 R2)
  let R3 := mulRep t (toRepAll t r0) (toRepAll t a)
  let r1 := fromRep 0 (2 * k - 2) R3 - b
  let R3 := mulRep (t + 1) (toRepAll (t + 1) r1) R1
  let r1 := fromRep 0 (l - k - 1) R3
  build l fun i => if i < k then r0.coeff i else -r1.coeff (i - k)

/-- The other case, lines 171-217. -/
noncomputable def finalLong (b a : K[X]) (t k l : Nat) (x : K[X]) : K[X] :=
  let t := t + 1
  let l := l - 1
  let lmk := l - k
  let R1 := toRepAll t x
  let P2h := fromRep 0 lmk (mulRep t R1 (toRep t k l b))
  let P2l := fromRep 0 l (mulRep t R1 (toRep t 0 (k - 1) b))
  let P1 := fromRep k l (mulRep t R1 (toRep t 0 l a))
  let P1 := fromRep 0 lmk (mulRep t (toRep t 0 lmk P1) (toRep t 0 lmk P2l))
  build (l + 1) fun i =>
    if i < k then P2l.coeff i
    else (if k ≤ b.natDegree then P2l.coeff i + P2h.coeff (i - k) else P2l.coeff i) - P1.coeff (i - k)

/-- Contract of NTL's `PlainInvTrunc(x, a, k)`: the inverse of `a` modulo `X^k`. -/
def PlainInvTruncOK (pit : K[X] → Nat → K[X]) : Prop := ∀ a k, a.coeff 0 ≠ 0 →
  (∀ j, k ≤ j → (pit a k).coeff j = 0) ∧ X ^ k ∣ a * pit a k - 1

/-- `NewtonInvTruncMul`, lines 90-218; `co` is `NTL_zz_pX_NEWTON_CROSSOVER`. -/
noncomputable def newtonInvTruncMul [DecidableEq K] (pit : K[X] → Nat → K[X]) (co : Nat) (b a : K[X]) (m : Nat) : Option K[X] :=
  if a.coeff 0 = 0 then none
  else
    let t := nextPow2 co - 3
    let k := 2 ^ t
    match newtonLoop a m (m + 1) t k 0 (pit a k) with
    | none => none
    | some (t, k, l, x) =>
      some (if a.natDegree < k ∧ b.natDegree < k ∧ l = m then finalShort b a t k l x else finalLong b a t k l x)

/-- `InvTruncMul`, lines 224-247.  Aliased outputs go through a fresh polynomial (lines 235-241). -/
noncomputable def invTruncMul [DecidableEq K] (pit : K[X] → Nat → K[X]) (co : Nat) (b a : K[X]) (m : Nat) :
    Option K[X] :=
  if m = 0 then some 0
  else if co < m ∧ 0 < a.natDegree then newtonInvTruncMul pit co b a m
  else plainInvTruncMul b a m

end PML.Ntl.Series
