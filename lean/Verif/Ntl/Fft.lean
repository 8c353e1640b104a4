import Mathlib.Algebra.Polynomial.Div
import Mathlib.Data.Nat.Log
import Mathlib.Algebra.Ring.GeomSum
import Mathlib.Tactic.Ring
import Mathlib.Tactic.LinearCombination
import Mathlib.Tactic.Linarith

/-!
# NTL's `fftRep`

The functions `TofftRep`, `mul` and `FromfftRep` of NTL, used throughout `ntl-extras`, are external.
They are represented by their documented values: an `fftRep` of size `2^k` stands for a residue
class modulo `X^(2^k) - 1`, given here by its representative of degree less than `2^k`.
-/

namespace PML.Ntl

open Polynomial

variable {R : Type} [CommRing R]

/-- `NextPowerOfTwo(m)` of NTL: the least `k` with `m ≤ 2^k`. -/
def nextPow2 (m : Nat) : Nat := Nat.clog 2 m

/-- Coefficients `lo, …, lo + n - 1` of `a`, as a polynomial with `n` coefficients. -/
noncomputable def slice (a : R[X]) (lo n : Nat) : R[X] :=
  ∑ i ∈ Finset.range n, C (a.coeff (lo + i)) * X ^ i

/-- `TofftRep(y, a, k, lo, hi)`: coefficients `lo..hi` of `a`, reduced modulo `X^(2^k) - 1`. -/
noncomputable def toRep (k lo hi : Nat) (a : R[X]) : R[X] := slice a lo (hi + 1 - lo) %ₘ (X ^ 2 ^ k - 1)

/-- `TofftRep(y, a, k)`. -/
noncomputable def toRepAll (k : Nat) (a : R[X]) : R[X] := a %ₘ (X ^ 2 ^ k - 1)

/-- `mul(z, x, y)` for representations of size `2^k`. -/
noncomputable def mulRep (k : Nat) (x y : R[X]) : R[X] := (x * y) %ₘ (X ^ 2 ^ k - 1)

/-- `FromfftRep(a, x, lo, hi)`. -/
noncomputable def fromRep (lo hi : Nat) (x : R[X]) : R[X] := slice x lo (hi + 1 - lo)

theorem slice_coeff (a : R[X]) (lo n j : Nat) : (slice a lo n).coeff j = if j < n then a.coeff (lo + j) else 0 := by
  unfold slice
  rw [finsetSum_coeff]
  simp only [coeff_C_mul, coeff_X_pow, mul_ite, mul_one, mul_zero]
  rw [Finset.sum_ite_eq (Finset.range n) j]
  simp only [Finset.mem_range]

theorem monic_cyc [Nontrivial R] (N : Nat) (hN : 0 < N) : (X ^ N - 1 : R[X]).Monic := by
  have := monic_X_pow_sub_C (1 : R) (n := N) (by omega)
  simpa using this

theorem natDegree_cyc [Nontrivial R] (N : Nat) (hN : 0 < N) : (X ^ N - 1 : R[X]).natDegree = N := by
  have := natDegree_X_pow_sub_C (n := N) (r := (1 : R))
  simpa using this

/-- Folding modulo `X^N - 1`. -/
theorem cyc_coeff [Nontrivial R] (N : Nat) (hN : 0 < N) (A : R[X]) (i : Nat) (hi : i < N) :
    (A %ₘ (X ^ N - 1)).coeff i = ∑ n ∈ A.support, if n % N = i then A.coeff n else 0 := by
  have hm := monic_cyc (R := R) N hN
  have h1 : A %ₘ (X ^ N - 1) = ∑ n ∈ A.support, C (A.coeff n) * X ^ (n % N) := by
    have hd : (∑ n ∈ A.support, C (A.coeff n) * X ^ (n % N) : R[X]).degree < (X ^ N - 1 : R[X]).degree := by
      rw [degree_eq_natDegree hm.ne_zero, natDegree_cyc N hN]
      refine lt_of_le_of_lt (degree_sum_le _ _) ((Finset.sup_lt_iff (WithBot.bot_lt_coe _)).2 fun n _ => ?_)
      refine lt_of_le_of_lt (degree_C_mul_X_pow_le _ _) ?_
      exact_mod_cast Nat.mod_lt n hN
    rw [← (modByMonic_eq_self_iff hm).2 hd]
    refine modByMonic_eq_of_dvd_sub hm ?_
    conv_lhs => skip
    have h2 : A = ∑ n ∈ A.support, C (A.coeff n) * X ^ n := by
      conv_lhs => rw [A.as_sum_support_C_mul_X_pow]
    have h3 : A - ∑ n ∈ A.support, C (A.coeff n) * X ^ (n % N) =
        ∑ n ∈ A.support, C (A.coeff n) * (X ^ n - X ^ (n % N)) := by
      conv_lhs => enter [1]; rw [h2]
      rw [← Finset.sum_sub_distrib]
      exact Finset.sum_congr rfl fun n _ => by ring
    rw [h3]
    refine Finset.dvd_sum fun n _ => Dvd.dvd.mul_left ?_ _
    have h4 : (X ^ n - X ^ (n % N) : R[X]) = X ^ (n % N) * ((X ^ N) ^ (n / N) - 1 ^ (n / N)) := by
      have : (X : R[X]) ^ n = X ^ (n % N) * (X ^ N) ^ (n / N) := by
        rw [← pow_mul, ← pow_add, Nat.mod_add_div]
      rw [this]; ring
    rw [h4]
    exact Dvd.dvd.mul_left (sub_dvd_pow_sub_pow (X ^ N : R[X]) 1 (n / N)) _
  rw [h1, finsetSum_coeff]
  refine Finset.sum_congr rfl fun n _ => ?_
  rw [coeff_C_mul, coeff_X_pow]
  by_cases h : n % N = i
  · rw [if_pos h, if_pos h.symm, mul_one]
  · rw [if_neg h, if_neg (Ne.symm h), mul_zero]

/-- No wrap-around in coefficient `i` if the coefficients from `i + N` on vanish. -/
theorem cyc_coeff_eq [Nontrivial R] {N : Nat} {A : R[X]} {i : Nat} (hi : i < N)
    (h : ∀ n, i + N ≤ n → A.coeff n = 0) : (A %ₘ (X ^ N - 1)).coeff i = A.coeff i := by
  rw [cyc_coeff N (by omega) A i hi]
  have key : ∀ n, n ∈ A.support → n ≠ i → (if n % N = i then A.coeff n else 0) = 0 := by
    intro n hn hne
    by_cases hc : n % N = i
    · have := Nat.mod_add_div n N
      generalize n / N = d at this
      have h1 : 1 ≤ d := by
        by_contra h0
        have h0 : d = 0 := by omega
        rw [h0] at this
        omega
      have h2 : N * 1 ≤ N * d := Nat.mul_le_mul_left N h1
      rw [Nat.mul_one] at h2
      rw [if_pos hc, h n (by omega)]
    · rw [if_neg hc]
  by_cases hmem : i ∈ A.support
  · rw [Finset.sum_eq_single_of_mem i hmem key, if_pos (Nat.mod_eq_of_lt hi)]
  · rw [Finset.sum_eq_zero fun n hn => key n hn (fun e => hmem (e ▸ hn)), notMem_support_iff.1 hmem]

theorem cyc_coeff_high [Nontrivial R] {N : Nat} (hN : 0 < N) (A : R[X]) {i : Nat} (hi : N ≤ i) :
    (A %ₘ (X ^ N - 1)).coeff i = 0 := by
  refine coeff_eq_zero_of_natDegree_lt ?_
  have hm := monic_cyc (R := R) N hN
  have := natDegree_modByMonic_lt A hm (fun e => by
    have h := natDegree_cyc (R := R) N hN
    rw [e, natDegree_one] at h; omega)
  rw [natDegree_cyc N hN] at this
  omega

theorem cyc_mul [Nontrivial R] {N : Nat} (hN : 0 < N) (A B : R[X]) :
    ((A %ₘ (X ^ N - 1)) * (B %ₘ (X ^ N - 1))) %ₘ (X ^ N - 1) = (A * B) %ₘ (X ^ N - 1) := by
  have hm := monic_cyc (R := R) N hN
  refine modByMonic_eq_of_dvd_sub hm ?_
  obtain ⟨u, hu⟩ : (X ^ N - 1 : R[X]) ∣ A - A %ₘ (X ^ N - 1) :=
    ⟨A /ₘ (X ^ N - 1), by linear_combination -(modByMonic_add_div A (q := (X ^ N - 1 : R[X])))⟩
  obtain ⟨v, hv⟩ : (X ^ N - 1 : R[X]) ∣ B - B %ₘ (X ^ N - 1) :=
    ⟨B /ₘ (X ^ N - 1), by linear_combination -(modByMonic_add_div B (q := (X ^ N - 1 : R[X])))⟩
  refine ⟨-(u * B + v * (A %ₘ (X ^ N - 1))), ?_⟩
  linear_combination -B * hu - (A %ₘ (X ^ N - 1)) * hv

theorem slice_mod (a : R[X]) (n : Nat) [Nontrivial R] : a %ₘ X ^ n = slice a 0 n := by
  have hm : (X ^ n : R[X]).Monic := monic_X_pow n
  have hd : (slice a 0 n).degree < (X ^ n : R[X]).degree := by
    rw [degree_X_pow, degree_lt_iff_coeff_zero]
    intro m hm
    rw [slice_coeff, if_neg (by omega)]
  rw [← (modByMonic_eq_self_iff hm).2 hd]
  refine modByMonic_eq_of_dvd_sub hm ?_
  rw [X_pow_dvd_iff]
  intro d hd
  rw [coeff_sub, slice_coeff, if_pos hd, Nat.zero_add, sub_self]

/-- Coefficients of `a mod X^n`. -/
theorem coeff_mod_X_pow [Nontrivial R] (a : R[X]) (n j : Nat) :
    (a %ₘ X ^ n).coeff j = if j < n then a.coeff j else 0 := by
  rw [slice_mod, slice_coeff, Nat.zero_add]

theorem le_nextPow2 (m : Nat) : m ≤ 2 ^ nextPow2 m := Nat.le_pow_clog (by omega) m

end PML.Ntl
