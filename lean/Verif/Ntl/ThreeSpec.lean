import Verif.Ntl.ThreeModel

/-!
# What a product modulo `q` is, on representatives
-/

namespace PML.Ntl.Three

open Polynomial PML.Ntl.Utils

/-- All coefficients are less than `q`. -/
def Reduced (q : Nat) (a : PMat ℕ[X]) : Prop := ∀ i j k, i < a.rows → j < a.cols → (a.e (i, j)).coeff k < q

/-- `c` represents the product of `a` and `b` modulo `q`. -/
def IsProdMod (q : Nat) (a b c : PMat ℕ[X]) : Prop :=
  c.rows = a.rows ∧ c.cols = b.cols ∧ Reduced q c ∧ ∀ i j k, i < a.rows → j < b.cols →
    (c.e (i, j)).coeff k ≡ (∑ l ∈ Finset.range a.cols, a.e (i, l) * b.e (l, j)).coeff k [MOD q]

/-- `f` multiplies reduced matrices modulo `q`, for given dimensions and degrees up to given bounds. -/
def MulModOk (f : PMat ℕ[X] → PMat ℕ[X] → Option (PMat ℕ[X])) (q m n u : Nat) (dA dB : Int) : Prop :=
  ∀ a b : PMat ℕ[X], a.rows = m → a.cols = n → b.rows = n → b.cols = u → Reduced q a → Reduced q b → rdeg a ≤ dA → rdeg b ≤ dB →
    ∃ c, f a b = some c ∧ IsProdMod q a b c

/-- `c` is an `m x u` matrix reduced modulo `q` of the image of integers `X`. -/
structure Img (m u q : Nat) (c : PMat ℕ[X]) (x : Nat → Nat → Nat → Nat) : Prop where
  rows : c.rows = m
  cols : c.cols = u
  lt : ∀ i j k, i < m → j < u → (c.e (i, j)).coeff k < q
  mod : ∀ i j k, i < m → j < u → (c.e (i, j)).coeff k ≡ x i j k [MOD q]

/-- The output: the integers reduced modulo `p`. -/
structure Out (m u p : Nat) (c : PMat ℕ[X]) (x : Nat → Nat → Nat → Nat) : Prop where
  rows : c.rows = m
  cols : c.cols = u
  val : ∀ i j k, i < m → j < u → (c.e (i, j)).coeff k = x i j k % p

/-- Three distinct primes. -/
structure Primes (q : Nat → Nat) : Prop where
  prime : ∀ i, i < 3 → (q i).Prime
  ne : ∀ i j, i < 3 → j < 3 → i ≠ j → q i ≠ q j

end PML.Ntl.Three
