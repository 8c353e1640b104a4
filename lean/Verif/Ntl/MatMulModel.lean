import Verif.Ntl.MatUtilsModel

/-!
# Model of the products of polynomial matrices without evaluation

`ntl-extras/mat_lzz_pX_extra/src/mat_lzz_pX_multiply_naive.cpp`, `mat_lzz_pX_multiply_transform.cpp`
and `ntl-extras/lzz_pX_CRT/src/lzz_pX_Transform{,_naive,_montgomery}.cpp`.

When the output is one of the inputs these functions start by calling themselves with a fresh output,
or write the output only after their last read of the inputs: so the value does not depend on
aliasing, and the output is the value of the model function.  `none` is an access outside of an array
or an error of NTL.
-/

namespace PML.Ntl.MatMul

open Polynomial PML.Ntl.Utils

variable {R : Type} [CommRing R]

/-- `multiply_naive(c, a, b)`, `mat_lzz_pX_multiply_naive.cpp` lines 162-188.  Entries `a[i][0]` and
    `b[k][j]`, `k < a.NumCols()`, are read without any check on dimensions. -/
noncomputable def naive (a b : PMat R[X]) : Option (PMat R[X]) :=
  let u := a.rows
  let v := a.cols
  let w := b.cols
  if 0 < u ∧ 0 < w ∧ (v = 0 ∨ b.rows < v) then none
  else some ⟨u, w, loop2 u w (fun i j _ =>
    forN (v - 1) (fun k acc => acc + a.e (i, k + 1) * b.e (k + 1, j)) (a.e (i, 0) * b.e (0, j))) fun _ => 0⟩

/-! ### Waksman's algorithm, `mat_lzz_pX_multiply_naive.cpp` lines 10-154 -/

/-- The arrays `c`, `d`, `e`. -/
structure Wak (R : Type) [CommRing R] where
  /-- `c` -/
  c : Nat × Nat → R[X]
  /-- `d` -/
  d : Nat → R[X]
  /-- `e` -/
  e : Nat → R[X]

/-- `x = t` in the first iteration (lines 42-72), `x += t` in the next ones (lines 77-114). -/
noncomputable def acc (first : Bool) (x t : R[X]) : R[X] := if first then t else x + t

/-- `(a[l][j2-1]+b[j2][k]) * (a[l][j2]+b[j2-1][k])`, lines 46-50, 58-62, 69-71, 83-88, 97-102, 110-112. -/
noncomputable def wakP (a b : Nat × Nat → R[X]) (j2 l k : Nat) : R[X] :=
  (a (l, j2 - 1) + b (j2, k)) * (a (l, j2) + b (j2 - 1, k))

/-- `(a[l][j2-1]-b[j2][k]) * (a[l][j2]-b[j2-1][k])`, lines 47-51, 59-63, 84-90, 98-104. -/
noncomputable def wakM (a b : Nat × Nat → R[X]) (j2 l k : Nat) : R[X] :=
  (a (l, j2 - 1) - b (j2, k)) * (a (l, j2) - b (j2 - 1, k))

/-- One iteration of the main loop, lines 42-72 (`first`, `j2 = 1`) and 77-114. -/
noncomputable def wakPass (first : Bool) (a b : Nat × Nat → R[X]) (m p j2 : Nat) (w : Wak R) : Wak R :=
  let w := forN p (fun k w => { w with
    c := write (0, k) (acc first (w.c (0, k)) (wakP a b j2 0 k)) w.c
    d := write k (acc first (w.d k) (wakM a b j2 0 k)) w.d }) w
  let w := forN (m - 1) (fun l w => { w with
    c := write (l + 1, 0) (acc first (w.c (l + 1, 0)) (wakP a b j2 (l + 1) 0)) w.c
    e := write (l + 1) (acc first (w.e (l + 1)) (wakM a b j2 (l + 1) 0)) w.e }) w
  { w with c := forN (m - 1) (fun l => forN (p - 1) fun k c =>
      write (l + 1, k + 1) (acc first (c (l + 1, k + 1)) (wakP a b j2 (l + 1) (k + 1))) c) w.c }

/-- Lines 119-125. -/
noncomputable def wakCol (inv2 : R) (m : Nat) (w : Wak R) : Wak R :=
  forN (m - 1) (fun l w =>
    let el := (w.e (l + 1) + w.c (l + 1, 0)) * C inv2
    { w with e := write (l + 1) el w.e, c := write (l + 1, 0) (w.c (l + 1, 0) - el) w.c }) w

/-- Lines 127-144. -/
noncomputable def wakRows (inv2 : R) (m p : Nat) (w : Wak R) : Nat × Nat → R[X] :=
  let buf0 := (w.d 0 + w.c (0, 0)) * C inv2
  let c := write (0, 0) (w.c (0, 0) - buf0) w.c
  forN (p - 1) (fun k c =>
    let buf1 := (w.d (k + 1) + c (0, k + 1)) * C inv2
    let c := write (0, k + 1) (c (0, k + 1) - buf1) c
    let buf1 := buf1 - buf0
    forN (m - 1) (fun l c => write (l + 1, k + 1) (c (l + 1, k + 1) - (buf1 + w.e (l + 1))) c) c) c

/-- `multiply_waksman(c, a, b)`, lines 10-154.  `pm` is the modulus and `inv2` the result of
    `inv(to_zz_p(2))`, `none` if 2 is not invertible. -/
noncomputable def waksman (pm : Nat) (inv2 : Option R) (a b : PMat R[X]) : Option (PMat R[X]) :=
  let n := a.cols
  if pm = 2 ∨ n < 2 then naive a b
  else
    let m := a.rows
    let p := b.cols
    if m = 0 ∨ p = 0 ∨ b.rows < n then none
    else
      let w := wakPass true a.e b.e m p 1 ⟨fun _ => 0, fun _ => 0, fun _ => 0⟩
      let w := forN (n / 2 - 1) (fun j => wakPass false a.e b.e m p (2 * (j + 2) - 1)) w
      inv2.map fun inv2 =>
        let c := wakRows inv2 m p (wakCol inv2 m w)
        ⟨m, p, if n % 2 = 1 then loop2 m p (fun l k c => c (l, k) + a.e (l, n - 1) * b.e (n - 1, k)) c else c⟩

/-! ### Transforms -/

/-- A `zz_pX_Transform`, `lzz_pX_Transform.cpp`: input length, transform length, the two forward
    transforms and the backward one. -/
structure Transform (R : Type) [CommRing R] where
  /-- input length -/
  m : Nat
  /-- transform length -/
  n : Nat
  /-- `forward_left` -/
  left : R[X] → Nat → R
  /-- `forward_right` -/
  right : R[X] → Nat → R
  /-- `backward` -/
  back : (Nat → R) → R[X]

/-- `SetCoeff(P, i, v)` of NTL. -/
noncomputable def setC (i : Nat) (v : R) (P : R[X]) : R[X] := P.erase i + C v * X ^ i

/-- `for (j = 0; j < cnt; j++) val[idx++] = v(j)`. -/
def segWrite (cnt : Nat) (v : Nat → R) (st : Nat × (Nat → R)) : Nat × (Nat → R) :=
  forN cnt (fun j st => (st.1 + 1, write st.1 (v j) st.2)) st

/-- `res = val[idx++]; for (j = 1; j <= extra; j++) res += val[idx++]; SetCoeff(P, i, res)`. -/
noncomputable def segRead (val : Nat → R) (i extra : Nat) (st : Nat × R[X]) : Nat × R[X] :=
  let s := forN extra (fun _ (s : Nat × R) => (s.1 + 1, s.2 + val s.1)) (st.1 + 1, val st.1)
  (s.1, setC i s.2 st.2)

/-- `forward_left`, `lzz_pX_Transform_naive.cpp` lines 21-41 (`j` counts from the start of each loop). -/
noncomputable def naiveLeft (m : Nat) (P : R[X]) : Nat → R :=
  let st := forN m (fun i => segWrite (i + 1) fun j => P.coeff (i - j)) (0, fun _ => 0)
  let st := forN (m - 1) (fun i => segWrite (m - (i + 1)) fun j => P.coeff (m - 1 - j)) st
  st.2

/-- `forward_right`, lines 46-66. -/
noncomputable def naiveRight (m : Nat) (P : R[X]) : Nat → R :=
  let st := forN m (fun i => segWrite (i + 1) fun j => P.coeff j) (0, fun _ => 0)
  let st := forN (m - 1) (fun i => segWrite (m - (i + 1)) fun j => P.coeff (i + 1 + j)) st
  st.2

/-- `backward`, lines 71-94. -/
noncomputable def naiveBack (m : Nat) (val : Nat → R) : R[X] :=
  let st := forN m (fun i => segRead val i i) (0, 0)
  let st := forN (2 * m - 1 - m) (fun i => segRead val (m + i) (2 * m - 2 - (m + i))) st
  st.2

/-- `zz_pX_Transform_naive(d)`, `lzz_pX_Transform_naive.cpp` lines 12-16. -/
noncomputable def trsNaive (d : Nat) : Transform R := ⟨d, d * d, naiveLeft d, naiveRight d, naiveBack d⟩

/-- An array given by the list of its first entries. -/
def arr (l : List R) : Nat → R := fun i => l.getD i 0

/-- `zz_pX_Transform_karatsuba`, `lzz_pX_Transform_montgomery.cpp` lines 18-55. -/
noncomputable def trsKaratsuba : Transform R where
  m := 2
  n := 3
  left P := arr [P.coeff 0, P.coeff 1, P.coeff 0 + P.coeff 1]
  right P := arr [P.coeff 0, P.coeff 1, P.coeff 0 + P.coeff 1]
  back val := setC 2 (val 1) (setC 1 (val 2 - val 0 - val 1) (setC 0 (val 0) 0))

/-- `forward_left` of `zz_pX_Transform_montgomery3`, lines 76-89; `forward_right` is the same function
    (`lzz_pX_CRT.h`). -/
noncomputable def mont3Fwd (P : R[X]) : Nat → R :=
  let a0 := P.coeff 0
  let a1 := P.coeff 1
  let a2 := P.coeff 2
  let s := a1 + a2
  arr [a0, a1, a2, a0 + a2, s, a0 + s]

/-- `zz_pX_Transform_montgomery3`, lines 67-103. -/
noncomputable def trsMontgomery3 : Transform R where
  m := 3
  n := 6
  left := mont3Fwd
  right := mont3Fwd
  back val :=
    let s := val 2 - val 3
    setC 4 (val 2) (setC 3 (val 4 - val 1 - val 2) (setC 2 (val 1 - val 0 - s)
      (setC 1 (s - val 4 + val 5) (setC 0 (val 0) 0))))

/-- `forward_left` of `zz_pX_Transform_karatsuba4`, lines 123-142; `forward_right` is the same
    function (`lzz_pX_CRT.h`). -/
noncomputable def kar4Fwd (P : R[X]) : Nat → R :=
  let a0 := P.coeff 0
  let a1 := P.coeff 1
  let a2 := P.coeff 2
  let a3 := P.coeff 3
  let s1 := a0 + a2
  let s2 := a1 + a3
  arr [a0, a1, a0 + a1, a2, a3, a2 + a3, s1, s2, s1 + s2]

/-- `zz_pX_Transform_karatsuba4`, lines 114-161. -/
noncomputable def trsKaratsuba4 : Transform R where
  m := 4
  n := 9
  left := kar4Fwd
  right := kar4Fwd
  back val :=
    let c0 := val 0
    let c1 := val 2 - val 0 - val 1
    let s := val 1 - val 3
    let c2 := s + val 6 - val 0
    let c4 := val 7 - val 4 - s
    let c5 := val 5 - val 3 - val 4
    let c6 := val 4
    let c3 := val 8 - (c1 + c5 + val 6 + val 7)
    ofCoeffs 7 (arr [c0, c1, c2, c3, c4, c5, c6])

/-- `multiply_transform_*`, `mat_lzz_pX_multiply_transform.cpp` lines 10-87, with
    `forward_left_matrix`, `forward_right_matrix` and `backward_matrix` of `lzz_pX_Transform.cpp` lines
    76-182.  `mul` of NTL raises an error if the inner dimensions differ.  The loops that copy entries
    of `tmp` into the matrices of values and back touch every entry once; the arrays they fill are
    written as functions. -/
noncomputable def transformMul (T : Transform R) (a b : PMat R[X]) : Option (PMat R[X]) :=
  let valA : Nat → Nat × Nat → R := fun j x => T.left (a.e x) j
  let valB : Nat → Nat × Nat → R := fun j x => T.right (b.e x) j
  if T.n = 0 then some ⟨0, 0, fun _ => 0⟩
  else if a.cols ≠ b.rows then none
  else
    let valC : Nat → Nat × Nat → R := fun j x => ∑ k ∈ Finset.range a.cols, valA j (x.1, k) * valB j (k, x.2)
    some ⟨a.rows, b.cols, loop2 a.rows b.cols (fun i k _ => T.back fun j => valC j (i, k)) fun _ => 0⟩

/-- `multiply_transform_naive`, lines 10-27. -/
noncomputable def transformNaive (a b : PMat R[X]) : Option (PMat R[X]) :=
  transformMul (trsNaive (max (deg a) (deg b) + 1).toNat) a b

/-- `multiply_transform(c, a, b, len)`, lines 93-109. -/
noncomputable def transform (len : Nat) (a b : PMat R[X]) : Option (PMat R[X]) :=
  if len = 2 then transformMul trsKaratsuba a b
  else if len = 3 then transformMul trsMontgomery3 a b
  else if len = 4 then transformMul trsKaratsuba4 a b
  else transformNaive a b

end PML.Ntl.MatMul
