import Verif.Ntl.SylvModel
import Verif.Ntl.LikeSpec

/-!
# Specification of Sylvester matrices (C86)

The Sylvester matrix of `a` and `b` is the matrix of `(F, G) ↦ F a + G b`, with `deg F < deg b` and `deg G < deg a`: its columns are
`a, X a, …, X^(deg b - 1) a, b, X b, …, X^(deg a - 1) b`.
-/

namespace PML.Ntl.Struct

open Polynomial PML.Ntl.Utils PML.Ntl.Inv

variable {p : Nat} [Fact p.Prime]

/-- The entries of the Sylvester matrix: the coefficient of degree `i` of the `j`-th column. -/
noncomputable def sylvEntry (a b : (ZMod p)[X]) (i j : Nat) : ZMod p :=
  if j < b.natDegree then (X ^ j * a).coeff i else (X ^ (j - b.natDegree) * b).coeff i

/-- What NTL documents for `XGCD(d, s, t, a, b)`: `d` is the monic gcd and `s a + t b = d`; if `a` and `b` are coprime, and none is a
    constant, then `deg s < deg b` and `deg t < deg a`. -/
structure XgcdOK (g : Xgcd p) : Prop where
  monic : ∀ a b, a ≠ 0 → b ≠ 0 → (g.d a b).Monic
  left : ∀ a b, g.d a b ∣ a
  right : ∀ a b, g.d a b ∣ b
  bezout : ∀ a b, g.s a b * a + g.t a b * b = g.d a b
  degS : ∀ a b, IsCoprime a b → 0 < a.natDegree → 0 < b.natDegree → (g.s a b).degree < b.degree
  degT : ∀ a b, IsCoprime a b → 0 < a.natDegree → 0 < b.natDegree → (g.t a b).degree < a.degree

/-- The states of an object `sylvester_lzz_p(a, b)`: after the constructor, and after any number of calls to `prepare_inverse`. -/
inductive Reach (g : Xgcd p) (a b : (ZMod p)[X]) : Sylv p → Prop
  | make : Reach g a b (Sylv.make a b)
  | prepare {s u : Sylv p} : Reach g a b s → s.prepare g = .ok u → Reach g a b u

/-- `M N` is the identity, in dimension `n`. -/
def IsInv (n : Nat) (M N : Nat → Nat → ZMod p) : Prop :=
  ∀ i j, i < n → j < n → ∑ k ∈ Finset.range n, M i k * N k j = if i = j then 1 else 0

/-- `r` is a vector `w` with `M w = v`. -/
def SolvesRight (r : Out (Option (NVec (ZMod p)))) (n : Nat) (M : Nat → Nat → ZMod p) (v : Nat → ZMod p) : Prop :=
  ∃ w, r = .ok (some w) ∧ w.len = n ∧ ∀ i, i < n → ∑ j ∈ Finset.range n, M i j * w.e j = v i

/-- `r` is a vector `w` with `w M = v`. -/
def SolvesLeft (r : Out (Option (NVec (ZMod p)))) (n : Nat) (M : Nat → Nat → ZMod p) (v : Nat → ZMod p) : Prop :=
  ∃ w, r = .ok (some w) ∧ w.len = n ∧ ∀ j, j < n → ∑ i ∈ Finset.range n, w.e i * M i j = v j

/-- `r` is a matrix `W` with `c` columns and `M W = v`. -/
def SolvesRightMat (r : Out (Option (PMat (ZMod p)))) (n c : Nat) (M : Nat → Nat → ZMod p) (v : Nat × Nat → ZMod p) : Prop :=
  ∃ w, r = .ok (some w) ∧ w.rows = n ∧ w.cols = c ∧ ∀ i j, i < n → j < c → ∑ k ∈ Finset.range n, M i k * w.e (k, j) = v (i, j)

/-- `r` is a matrix `W` with `c` rows and `W M = v`. -/
def SolvesLeftMat (r : Out (Option (PMat (ZMod p)))) (n c : Nat) (M : Nat → Nat → ZMod p) (v : Nat × Nat → ZMod p) : Prop :=
  ∃ w, r = .ok (some w) ∧ w.rows = c ∧ w.cols = n ∧ ∀ i j, i < c → j < n → ∑ k ∈ Finset.range n, w.e (i, k) * M k j = v (i, j)

end PML.Ntl.Struct
