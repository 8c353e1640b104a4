import Verif.Ntl.StructModel
import Verif.Ntl.MiddleLemmas

/-!
# Specification of structured matrices (C83)

The entries of the five kinds of matrices, as the headers of the files draw them, and what a product is.
-/

namespace PML.Ntl.Struct

open Polynomial PML.Ntl.Utils PML.Ntl.Inv PML.Ntl.Middle

variable {p : Nat} [NeZero p]

/-- The drawing of `toeplitz_lzz_p.cpp:13-16`: the first row is `a_{m-1}, …, a_0`, the first column `a_{m-1}, …, a_{n+m-2}`. -/
def toeplitzEntry (a : Nat → ZMod p) (m i j : Nat) : ZMod p := a (m - 1 + i - j)

/-- The drawing of `hankel_lzz_p.cpp:13-16`: the first row is `a_{n+m-2}, …, a_{n-1}`. -/
def hankelEntry (a : Nat → ZMod p) (n m i j : Nat) : ZMod p := a (n + m - 2 - (i + j))

/-- Lower triangular, first column `a_0, …, a_{n-1}`, constant along the diagonals. -/
def triEntry (a : Nat → ZMod p) (i j : Nat) : ZMod p := if j ≤ i then a (i - j) else 0

/-- First column `a_0, …, a_{n-1}`; the next columns are obtained by turning it downwards. -/
def circColumnEntry (a : Nat → ZMod p) (n i j : Nat) : ZMod p := a (((i : Int) - j) % n).toNat

/-- First row `a_{m-1}, …, a_0`; the next rows are obtained by turning it to the right. -/
def circRowEntry (a : Nat → ZMod p) (m i j : Nat) : ZMod p := a (((i : Int) - j - 1) % m).toNat

/-- `r` is the vector `M v`, where `M` has `rows` rows, `cols` columns and the entries `M`. -/
def IsRight (r : Out (NVec (ZMod p))) (rows cols : Nat) (M : Nat → Nat → ZMod p) (v : Nat → ZMod p) : Prop :=
  ∃ w, r = .ok w ∧ w.len = rows ∧ ∀ i, i < rows → w.e i = ∑ j ∈ Finset.range cols, M i j * v j

/-- `r` is the vector `v M`. -/
def IsLeft (r : Out (NVec (ZMod p))) (rows cols : Nat) (M : Nat → Nat → ZMod p) (v : Nat → ZMod p) : Prop :=
  ∃ w, r = .ok w ∧ w.len = cols ∧ ∀ j, j < cols → w.e j = ∑ i ∈ Finset.range rows, v i * M i j

/-- `r` is a `rows` by `cols` matrix with the entries `M`. -/
def IsMat (r : Out (PMat (ZMod p))) (rows cols : Nat) (M : Nat → Nat → ZMod p) : Prop :=
  ∃ w, r = .ok w ∧ w.rows = rows ∧ w.cols = cols ∧ ∀ i j, i < rows → j < cols → w.e (i, j) = M i j

/-- On the Karatsuba path, sums of `s` products of representatives are not reduced until the end: they must fit. -/
def NoOverflow (p cross n m s : Nat) : Prop :=
  min n m ≤ 2 * cross / 4 → useLong p = true → s * (p - 1) ^ 2 < SP_BOUND

end PML.Ntl.Struct
