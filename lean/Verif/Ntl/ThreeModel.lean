import Verif.Ntl.MatUtilsModel
import Mathlib.Data.ZMod.Basic

/-!
# Products modulo up to three FFT primes

Model of `/repo/ntl-extras/mat_lzz_pX_extra/src/mat_lzz_pX_multiply_3_primes.cpp`.

The functions of this file work on the representatives: the same matrix is read modulo several primes.
So matrices have entries in `Nat[X]`; a matrix modulo `q` is one whose coefficients are less than `q`.
`none` is an error of NTL.  The product modulo an FFT prime, `multiply_evaluate_FFT`, is a parameter; it
is given meaning only on reduced matrices.
-/

namespace PML.Ntl.Three

open Polynomial PML.Ntl.Utils

/-- Coefficients of `f` of degree less than `n`, from an array (NTL's `SetLength`, assignments,
    `normalize`). -/
noncomputable def ofArr (n : Nat) (v : Nat → Nat) : ℕ[X] := ∑ k ∈ Finset.range n, C (v k) * X ^ k

/-- `deg(f) + 1`. -/
noncomputable def len (f : ℕ[X]) : Nat := if f.degree = ⊥ then 0 else f.natDegree + 1

/-- `reduce_mod_p(ap, a)`, lines 25-41, and its version in place, lines 9-20: `p` is the current modulus. -/
noncomputable def reduce (p : Nat) (a : PMat ℕ[X]) : PMat ℕ[X] :=
  ⟨a.rows, a.cols, loop2 a.rows a.cols (fun i j _ => ofArr (len (a.e (i, j))) fun k => (a.e (i, j)).coeff k % p) fun _ => 0⟩

/-- `SubMod(a, b, n)` of NTL, for `0 ≤ a, b < n`. -/
def subMod (a b n : Nat) : Nat := if a < b then a + n - b else a - b

/-- `AddMod(a, b, n)` of NTL, for `0 ≤ a, b < n`. -/
def addMod (a b n : Nat) : Nat := if n ≤ a + b then a + b - n else a + b

/-- `MulMod(a, b, n)`, `MulModPrecon(a, b, n, ..)`. -/
def mulMod (a b n : Nat) : Nat := a * b % n

/-- `InvMod(a, n)`: `0 ≤ a < n`, an error if `a` is not invertible. -/
noncomputable def invMod (a n : Nat) : Option Nat := if a < n ∧ Nat.Coprime a n then some ((a : ZMod n)⁻¹).val else none

/-- One coefficient of `reconstruct_2CRT`, lines 76-81 and 85-90. -/
def coef2 (p p0 p1 p0inv m0 m1 : Nat) : Nat :=
  let alpha := subMod m1 m0 p1
  let alpha := mulMod alpha p0inv p1
  let alpha := alpha % p
  let m0 := m0 % p
  addMod m0 (mulMod alpha (p0 % p) p) p

/-- `reconstruct_2CRT`, lines 47-94, for `p0 ≤ p1`. -/
noncomputable def recon2 (p : Nat) (c0 : PMat ℕ[X]) (p0 : Nat) (c1 : PMat ℕ[X]) (p1 : Nat) : Option (PMat ℕ[X]) :=
  (invMod p0 p1).map fun p0inv =>
    ⟨c0.rows, c0.cols, loop2 c0.rows c0.cols (fun i j _ =>
      let lo := min (len (c0.e (i, j))) (len (c1.e (i, j)))
      let hi := max (len (c0.e (i, j))) (len (c1.e (i, j)))
      let v : Nat → Nat := forN lo (fun k => write k (coef2 p p0 p1 p0inv ((c0.e (i, j)).coeff k) ((c1.e (i, j)).coeff k))) fun _ => 0
      let v := forN (hi - lo) (fun k => write (lo + k)
        (coef2 p p0 p1 p0inv ((c0.e (i, j)).coeff (lo + k)) ((c1.e (i, j)).coeff (lo + k)))) v
      ofArr hi v) fun _ => 0⟩

/-- `reconstruct_2CRT` with its first lines: the recursive call has its primes in the right order, so there
    is at most one. -/
noncomputable def reconstruct2 (p : Nat) (c0 : PMat ℕ[X]) (p0 : Nat) (c1 : PMat ℕ[X]) (p1 : Nat) : Option (PMat ℕ[X]) :=
  if p0 > p1 then recon2 p c1 p1 c0 p0 else recon2 p c0 p0 c1 p1

/-- One coefficient of `reconstruct_3CRT`, lines 149-171 and 176-198. -/
def coef3 (p p0 p1 p2 p0inv1 p01inv2 m0 m1 m2 : Nat) : Nat :=
  let alpha0 := m0
  let alpha1 := subMod m1 alpha0 p1
  let alpha1 := mulMod alpha1 p0inv1 p1
  let alpha1p0 := mulMod alpha1 p0 p2
  let alpha1p0 := addMod alpha0 alpha1p0 p2
  let alpha2 := subMod m2 alpha1p0 p2
  let alpha2 := mulMod alpha2 p01inv2 p2
  let alpha0 := alpha0 % p
  let alpha1 := alpha1 % p
  let alpha2 := alpha2 % p
  let p0p := p0 % p
  let p0p1p := mulMod p0p (p1 % p) p
  addMod alpha0 (addMod (mulMod alpha1 p0p p) (mulMod alpha2 p0p1p p) p) p

/-- `reconstruct_3CRT`, lines 116-203, for `p0 ≤ p1 ≤ p2`. -/
noncomputable def recon3 (p : Nat) (c0 : PMat ℕ[X]) (p0 : Nat) (c1 : PMat ℕ[X]) (p1 : Nat) (c2 : PMat ℕ[X]) (p2 : Nat) :
    Option (PMat ℕ[X]) :=
  (invMod p0 p1).bind fun p0inv1 =>
    let p0p1 := mulMod p0 p1 p2
    (invMod p0p1 p2).map fun p01inv2 =>
      ⟨c0.rows, c0.cols, loop2 c0.rows c0.cols (fun i j _ =>
        let l0 := len (c0.e (i, j))
        let l1 := len (c1.e (i, j))
        let l2 := len (c2.e (i, j))
        let lo := min l0 (min l1 l2)
        let hi := max l0 (max l1 l2)
        let w : Nat → Nat := fun k => coef3 p p0 p1 p2 p0inv1 p01inv2 ((c0.e (i, j)).coeff k) ((c1.e (i, j)).coeff k)
          ((c2.e (i, j)).coeff k)
        let v : Nat → Nat := forN lo (fun k => write k (w k)) fun _ => 0
        let v := forN (hi - lo) (fun k => write (lo + k) (w (lo + k))) v
        ofArr hi v) fun _ => 0⟩

/-- `reconstruct_3CRT`, lines 100-203: the arguments are sorted by recursive calls.  The first argument
    bounds the depth of the recursion, `none` if it is exceeded. -/
noncomputable def reconstruct3 (p : Nat) : Nat → PMat ℕ[X] → Nat → PMat ℕ[X] → Nat → PMat ℕ[X] → Nat → Option (PMat ℕ[X])
  | 0, _, _, _, _, _, _ => none
  | n + 1, c0, p0, c1, p1, c2, p2 =>
    if p0 > p1 then reconstruct3 p n c1 p1 c0 p0 c2 p2
    else if p1 > p2 then reconstruct3 p n c0 p0 c2 p2 c1 p1
    else recon3 p c0 p0 c1 p1 c2 p2

/-- The constructor of `lzz_pX_3_primes`, lines 253-276: the number of primes.  `q i` is the `i`-th FFT
    prime of NTL. -/
def nbPrimes (p : Nat) (q : Nat → Nat) (ncols : Nat) (dA dB : Int) : Option Nat :=
  let maxCoeff : Int := ncols * min (dA + 1) (dB + 1) * (p - 1) * (p - 1)
  if (q 0 : Int) > maxCoeff then some 1
  else if (q 0 : Int) * q 1 > 2 * maxCoeff then some 2
  else if (q 0 : Int) * q 1 * q 2 > 2 * maxCoeff then some 3
  else none

/-- `lzz_pX_3_primes::reconstruct`, lines 281-298. -/
noncomputable def reconstruct (p : Nat) (q : Nat → Nat) (nb : Nat) (cs : Nat → PMat ℕ[X]) : Option (PMat ℕ[X]) :=
  match nb with
  | 1 => some (reduce p (cs 0))
  | 2 => reconstruct2 p (cs 0) (q 0) (cs 1) (q 1)
  | 3 => reconstruct3 p 4 (cs 0) (q 0) (cs 1) (q 1) (cs 2) (q 2)
  | _ => none

/-- `multiply_modulo_FFT_prime`, lines 209-225, and `middle_product_modulo_FFT_prime`, lines 232-248: `f`
    is the function called, `q` the FFT prime, `p` the modulus of the context. -/
noncomputable def moduloFFTPrime (f : PMat ℕ[X] → PMat ℕ[X] → Option (PMat ℕ[X])) (p q : Nat) (a b : PMat ℕ[X]) :
    Option (PMat ℕ[X]) :=
  if q < p then f (reduce q a) (reduce q b) else f a b

/-- `multiply_3_primes`, lines 306-325, and `middle_product_3_primes`, lines 333-352, given the degree
    parameters: `f i` is the function called modulo the `i`-th FFT prime. -/
noncomputable def threePrimes (f : Nat → PMat ℕ[X] → PMat ℕ[X] → Option (PMat ℕ[X])) (p : Nat) (q : Nat → Nat) (dA dB : Int)
    (a b : PMat ℕ[X]) : Option (PMat ℕ[X]) :=
  (nbPrimes p q a.cols dA dB).bind fun nb =>
    if nb = 1 then (moduloFFTPrime (f 0) p (q 0) a b).map fun c => reduce p c
    else
      let cs : Nat → Option (PMat ℕ[X]) := fun i => moduloFFTPrime (f i) p (q i) a b
      if (List.range nb).all fun i => (cs i).isSome then
        reconstruct p q nb fun i => (cs i).getD ⟨0, 0, fun _ => 0⟩
      else none

/-- `deg(a)` of a matrix of representatives. -/
noncomputable def rdeg (a : PMat ℕ[X]) : Int := deg ⟨a.rows, a.cols, fun x => (a.e x).map (Nat.castRingHom ℤ)⟩

/-- `multiply_3_primes(c, a, b)`, lines 306-325.  `f i` is `multiply_evaluate_FFT` modulo the `i`-th prime. -/
noncomputable def multiply3 (f : Nat → PMat ℕ[X] → PMat ℕ[X] → Option (PMat ℕ[X])) (p : Nat) (q : Nat → Nat) (a b : PMat ℕ[X]) :
    Option (PMat ℕ[X]) := threePrimes f p q (rdeg a) (rdeg b) a b

/-- The representatives of a matrix modulo `p`. -/
noncomputable def rep {p : Nat} (a : PMat (ZMod p)[X]) : PMat ℕ[X] :=
  ⟨a.rows, a.cols, fun x => ofArr ((a.e x).natDegree + 1) fun k => ((a.e x).coeff k).val⟩

/-- The matrix modulo `p` with given representatives. -/
noncomputable def ofRep (p : Nat) (a : PMat ℕ[X]) : PMat (ZMod p)[X] :=
  ⟨a.rows, a.cols, fun x => (a.e x).map (Nat.castRingHom (ZMod p))⟩

end PML.Ntl.Three
