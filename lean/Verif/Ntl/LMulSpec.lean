import Verif.Ntl.LMulModel
import Verif.Ntl.MatEvalSpec
import Verif.Ntl.ThreeSpec

/-!
# What a left multiplier is
-/

namespace PML.Ntl.LMul

open Polynomial PML.Ntl.Utils PML.Ntl.MatMul PML.Ntl.MatEval

/-- `f` multiplies `a` by every matrix of degree at most `dB` that has the right number of rows. -/
def Multiplies {R : Type} [CommRing R] (a : PMat R[X]) (dB : Nat) (f : PMat R[X] → Res (PMat R[X])) : Prop :=
  ∀ b, a.cols = b.rows → deg b ≤ dB → ∃ c, f b = .ok c ∧ IsProduct a b c

/-- `f` reports an error if the degree is more than `dB`. -/
def Rejects {R : Type} [CommRing R] (a : PMat R[X]) (dB : Nat) (f : PMat R[X] → Res (PMat R[X])) : Prop :=
  ∀ b, a.cols = b.rows → (dB : Int) < deg b → f b = .error

/-- Transforms of size `2^K` are available, and `FFTRoundUp` is nondecreasing. -/
structure FFTReady {F : Type} [Field F] (T : FFT F) (K : Nat) : Prop where
  ok : FFTOk T K
  mono : ∀ n n', n ≤ n' → n' ≤ 2 ^ K → T.roundUp n K ≤ T.roundUp n' K

/-- A multipoint object of length `n`: it evaluates and interpolates at `n` distinct points. -/
def PointsOk {F : Type} [Field F] (n : Nat) (ev : F[X] → Option (Nat → F)) (ip : (Nat → F) → Option F[X]) : Prop :=
  ∃ pt : Nat → F, (∀ P : F[X], P.natDegree < n → ∃ v, ev P = some v ∧ ∀ i, i < n → v i = P.eval (pt i)) ∧
    (∀ v : Nat → F, ∃ P, ip v = some P ∧ P.natDegree < n ∧ ∀ i, i < n → P.eval (pt i) = v i) ∧
    ∀ r r', r < n → r' < n → pt r = pt r' → r = r'

/-- What is assumed of the functions of NTL used by `get_lmultiplier(a, dB)`: transforms if the modulus is
    an FFT prime, and otherwise three distinct FFT primes (of at most 60 bits) with transforms, the inverse of
    matrices, geometric points. -/
structure Env.Ok {p : Nat} [Fact p.Prime] {q : Nat → Nat} [∀ i, Fact (q i).Prime] (E : Env p q) (a : PMat (ZMod p)[X]) (dB : Nat) :
    Prop where
  fft : E.fft = true → FFTReady E.T (nextPow2 (deg a + dB + 1).toNat)
  inv : InvOk E.inv
  ne : ∀ i j, i < 3 → j < 3 → i ≠ j → q i ≠ q j
  lt : ∀ i, i < 3 → q i < 2 ^ 60
  fftq : E.fft = false → ∀ i, i < 3 → ∀ K, K ≤ nextPow2 (deg a + dB + 1).toNat → FFTReady (E.Tq i) K
  geom : ∀ n ev ip, E.geom n = some (ev, ip) → PointsOk n ev ip

end PML.Ntl.LMul
