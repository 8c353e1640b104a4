import Verif.Ntl.BlockSeqModel
import Verif.Ntl.MatEvalDense
import Verif.Ntl.MatUtilsProps
import Mathlib.Algebra.Polynomial.Reverse

/-!
# Lemmas for C108: reversed quotients and blocks of coefficients
-/

namespace PML.Ntl.BlockSeq

open Polynomial PML.Ntl.Utils PML.Ntl.Inv PML.Ntl.Solve PML.Ntl.MatEval PML.Ntl.MatMul
open PML.Ntl.Struct (loopOut NVec)

variable {F : Type} [Field F]

theorem preverse_reflect (f : F[X]) (N : Nat) (h : f.natDegree ≤ N) : preverse f (N : Int) = reflect N f := by
  ext k
  rw [preverse_coeff, coeff_reflect]
  by_cases hk : k ≤ N
  · rw [if_pos (by omega), revAt_le hk]; congr 1; omega
  · rw [if_neg (by omega), ← revAtFun_eq]
    unfold revAtFun
    rw [if_neg hk, coeff_eq_zero_of_natDegree_lt (by omega)]

theorem natDegree_preverse (f : F[X]) (N : Nat) : (preverse f (N : Int)).natDegree ≤ N := by
  rw [natDegree_le_iff_coeff_eq_zero]
  intro k hk
  rw [preverse_coeff, if_neg (by omega)]

theorem invTrunc_spec (f : F[X]) (n : Nat) (h : f.coeff 0 ≠ 0) : X ^ n ∣ f * invTrunc f n - 1 := by
  rw [X_pow_dvd_iff]
  intro k hk
  have h0 : PowerSeries.constantCoeff (f : PowerSeries F) ≠ 0 := by
    rw [← PowerSeries.coeff_zero_eq_constantCoeff_apply, Polynomial.coeff_coe]; exact h
  have h1 := congrArg (PowerSeries.coeff k) (PowerSeries.mul_inv_cancel (f : PowerSeries F) h0)
  rw [PowerSeries.coeff_mul] at h1
  rw [coeff_sub, coeff_mul, sub_eq_zero, coeff_one]
  rw [PowerSeries.coeff_one] at h1
  rw [← h1]
  refine Finset.sum_congr rfl fun x hx => ?_
  rw [Finset.mem_antidiagonal] at hx
  unfold invTrunc
  rw [PowerSeries.coeff_trunc, if_pos (by omega), Polynomial.coeff_coe]

theorem natDegree_invTrunc (f : F[X]) (n : Nat) : (invTrunc f (n + 1)).natDegree ≤ n := by
  rw [natDegree_le_iff_coeff_eq_zero]
  intro k hk
  unfold invTrunc
  rw [PowerSeries.coeff_trunc, if_neg (by omega)]

/-- The polynomial `upper` after it is reversed. -/
noncomputable def up (g A : F[X]) : F[X] :=
  preverse (ofCoeffs ((g.natDegree : Int) - 1).toNat fun k => (A * modH g).coeff (((g.natDegree : Int) - 1).toNat + k)) ((g.natDegree : Int) - 2)

/-- `upper` is the product of the reverses of `A` and of the inverse, truncated. -/
theorem up_coeff {g A : F[X]} {n : Nat} (hn : g.natDegree = n + 2) (hA : A.natDegree ≤ n + 1) (k : Nat) (hk : k ≤ n) :
    (up g A).coeff k = (reflect (n + 1) A * invTrunc (reflect (n + 2) g) (n + 1)).coeff k := by
  have hS := natDegree_invTrunc (reflect (n + 2) g) n
  have hH : modH g = reflect n (invTrunc (reflect (n + 2) g) (n + 1)) := by
    unfold modH
    rw [hn, preverse_reflect g _ (by omega), show ((n + 2 : Nat) : Int) - 2 = (n : Int) by push_cast; ring, show n + 2 - 1 = n + 1 by omega,
      preverse_reflect _ _ hS]
  have hHd : (modH g).natDegree ≤ n := by
    rw [hH, ← preverse_reflect _ _ hS]; exact natDegree_preverse _ _
  have hrr : reflect n (modH g) = invTrunc (reflect (n + 2) g) (n + 1) := by
    rw [hH]
    ext i
    rw [coeff_reflect, coeff_reflect, revAt_invol]
  rw [← hrr, ← reflect_mul A (modH g) hA hHd, coeff_reflect, revAt_le (by omega)]
  unfold up
  rw [hn, preverse_coeff, if_pos (by push_cast; omega), ofCoeffs_coeff, if_pos (by push_cast; omega)]
  congr 1
  push_cast
  omega

theorem up_natDegree {g A : F[X]} {n : Nat} (hn : g.natDegree = n + 2) : (up g A).natDegree ≤ n := by
  unfold up
  rw [hn, show ((n + 2 : Nat) : Int) - 2 = (n : Int) by push_cast; ring]
  exact natDegree_preverse _ _

/-- The coefficients of the quotient of `α A` by `g`. -/
theorem quo_coeff {g α A : F[X]} {n : Nat} (hn : g.natDegree = n + 2) (hα : α.natDegree ≤ n + 1) (hA : A.natDegree ≤ n + 1) (s : Nat) (hs : s ≤ n) :
    (α * A / g).coeff s = (reflect (n + 1) α * up g A).coeff (n - s) := by
  have hg : g ≠ 0 := fun h => by rw [h, natDegree_zero] at hn; omega
  have hdiv : g * (α * A / g) + α * A % g = α * A := EuclideanDomain.div_add_mod _ _
  have hq : (α * A / g).natDegree ≤ n := by
    by_contra hc
    have hq0 : α * A / g ≠ 0 := fun h => by rw [h, natDegree_zero] at hc; omega
    have h1 : (g * (α * A / g)).natDegree = n + 2 + (α * A / g).natDegree := by rw [natDegree_mul hg hq0, hn]
    have h2 := natDegree_mul_le (p := α) (q := A)
    have h3 := natDegree_mod_lt (α * A) (q := g) (by omega)
    have h4 : (g * (α * A / g)).natDegree ≤ max (α * A).natDegree (α * A % g).natDegree := by
      rw [show g * (α * A / g) = α * A - α * A % g from eq_sub_of_add_eq hdiv]
      exact natDegree_sub_le _ _
    omega
  have hr : (α * A % g).natDegree ≤ n + 1 := by
    have := natDegree_mod_lt (α * A) (q := g) (by omega)
    omega
  set q := α * A / g
  set r := α * A % g
  -- reverse everything at 2 n + 2
  have e1 : reflect (n + 1) α * reflect (n + 1) A = reflect (n + 2) g * reflect n q + reflect (2 * n + 2) r := by
    rw [← reflect_mul α A hα hA, ← reflect_mul g q (by omega) hq, show n + 1 + (n + 1) = 2 * n + 2 by omega, show n + 2 + n = 2 * n + 2 by omega,
      ← reflect_add, hdiv]
  have hrX : X ^ (n + 1) ∣ reflect (2 * n + 2) r := by
    rw [X_pow_dvd_iff]
    intro k hk
    rw [coeff_reflect, revAt_le (by omega), coeff_eq_zero_of_natDegree_lt (by omega)]
  have hg0 : (reflect (n + 2) g).coeff 0 ≠ 0 := by
    rw [coeff_reflect, revAt_zero, ← hn]
    exact leadingCoeff_ne_zero.2 hg
  obtain ⟨c, hc⟩ := invTrunc_spec (reflect (n + 2) g) (n + 1) hg0
  set S := invTrunc (reflect (n + 2) g) (n + 1) with hSdef
  obtain ⟨ρ, hρ⟩ := hrX
  have e2 : reflect (n + 1) α * (reflect (n + 1) A * S) = reflect n q + X ^ (n + 1) * (c * reflect n q + ρ * S) := by
    calc reflect (n + 1) α * (reflect (n + 1) A * S) = reflect (n + 1) α * reflect (n + 1) A * S := by ring
      _ = (reflect (n + 2) g * S) * reflect n q + reflect (2 * n + 2) r * S := by rw [e1]; ring
      _ = (X ^ (n + 1) * c + 1) * reflect n q + X ^ (n + 1) * ρ * S := by rw [← hc, ← hρ]; ring
      _ = _ := by ring
  have e3 : (reflect (n + 1) α * up g A).coeff (n - s) = (reflect (n + 1) α * (reflect (n + 1) A * S)).coeff (n - s) := by
    rw [coeff_mul, coeff_mul]
    refine Finset.sum_congr rfl fun x hx => ?_
    rw [Finset.mem_antidiagonal] at hx
    rw [up_coeff hn hA _ (by omega)]
  rw [e3, e2, coeff_add, coeff_X_pow_mul', if_neg (by omega), add_zero, coeff_reflect, revAt_le (by omega), show n - (n - s) = s by omega]

/-! ### Blocks -/

theorem sum_blocks (L len : Nat) (hL : 0 < L) (Q : F[X]) (M : Nat → F[X]) (hM : ∀ j, j < len → ∀ k, (M j).coeff k = if k < L then Q.coeff (L * j + k) else 0)
    (k : Nat) (hk : k < L * len) : (∑ j ∈ Finset.range len, X ^ (L * j) * M j).coeff k = Q.coeff k := by
  have hdiv := Nat.div_add_mod k L
  have hmod := Nat.mod_lt k hL
  have hlt : k / L < len := Nat.div_lt_of_lt_mul hk
  rw [finsetSum_coeff, Finset.sum_eq_single (k / L)]
  · rw [coeff_X_pow_mul', if_pos (by omega), hM _ hlt, if_pos (by omega)]
    congr 1; omega
  · intro j hj hne
    rw [coeff_X_pow_mul']
    by_cases h : L * j ≤ k
    · rw [if_pos h, hM _ (Finset.mem_range.1 hj), if_neg]
      intro h2
      have : j = k / L := by
        symm
        refine Nat.div_eq_of_lt_le ?_ ?_
        · rw [mul_comm]; exact h
        · rw [add_mul, one_mul, mul_comm]; omega
      exact hne this
    · rw [if_neg h]
  · intro h; exact absurd (Finset.mem_range.2 hlt) h

/-- A window of `L` coefficients of a product, from the blocks of `L` coefficients of the operands. -/
theorem window_blocks (L len : Nat) (hL : 0 < L) (Q U : F[X]) (M N : Nat → F[X])
    (hM : ∀ j, j < len → ∀ k, (M j).coeff k = if k < L then Q.coeff (L * j + k) else 0)
    (hN : ∀ j, j < len → ∀ k, (N j).coeff k = if k < L then U.coeff (L * j + k) else 0) (hlen : 0 < len) (s : Nat) (hs : s < L) :
    (Q * U).coeff (L * (len - 1) + s) = (∑ j ∈ Finset.range len, M j * N (len - 1 - j)).coeff s +
      (∑ j ∈ Finset.range len, if j + 1 < len then M j * N (len - 2 - j) else 0).coeff (L + s) := by
  obtain ⟨e, rfl⟩ : ∃ e, len = e + 1 := ⟨len - 1, by omega⟩
  simp only [Nat.add_sub_cancel]
  have hidx : L * e + s < L * (e + 1) := by rw [mul_add]; omega
  have e1 : (Q * U).coeff (L * e + s) = ((∑ j ∈ Finset.range (e + 1), X ^ (L * j) * M j) * ∑ j ∈ Finset.range (e + 1), X ^ (L * j) * N j).coeff (L * e + s) := by
    rw [coeff_mul, coeff_mul]
    refine Finset.sum_congr rfl fun x hx => ?_
    rw [Finset.mem_antidiagonal] at hx
    rw [sum_blocks L _ hL Q M hM _ (by omega), sum_blocks L _ hL U N hN _ (by omega)]
  rw [e1, Finset.sum_mul_sum, finsetSum_coeff, finsetSum_coeff, finsetSum_coeff, ← Finset.sum_add_distrib]
  refine Finset.sum_congr rfl fun j hj => ?_
  have hj := Finset.mem_range.1 hj
  have hdeg : ∀ j', j' < e + 1 → ∀ k, 2 * L ≤ k + 1 → (M j * N j').coeff k = 0 := by
    intro j' hj' k hk
    rw [coeff_mul]
    refine Finset.sum_eq_zero fun x hx => ?_
    rw [Finset.mem_antidiagonal] at hx
    rw [hM j hj, hN j' hj']
    by_cases h : x.1 < L
    · rw [if_neg (by omega : ¬ x.2 < L), mul_zero]
    · rw [if_neg h, zero_mul]
  have hterm : ∀ j', j' < e + 1 → (X ^ (L * j) * M j * (X ^ (L * j') * N j')).coeff (L * e + s) =
      (if j' = e - j then (M j * N j').coeff s else 0) + (if j' + 1 = e - j then (M j * N j').coeff (L + s) else 0) := by
    intro j' hj'
    rw [show X ^ (L * j) * M j * (X ^ (L * j') * N j') = X ^ (L * (j + j')) * (M j * N j') by rw [mul_add, pow_add]; ring, coeff_X_pow_mul']
    rcases Nat.lt_trichotomy (j + j') e with h | h | h
    · rw [if_pos (le_trans (Nat.mul_le_mul_left L h.le) (Nat.le_add_right _ _)), if_neg (by omega : ¬ j' = e - j), zero_add]
      by_cases h2 : j' + 1 = e - j
      · rw [if_pos h2, show e = j + j' + 1 by omega, mul_add L (j + j') 1, mul_one]
        congr 1; omega
      · rw [if_neg h2]
        refine hdeg j' hj' _ ?_
        have : L * (j + j' + 2) ≤ L * e := Nat.mul_le_mul_left L (by omega)
        rw [mul_add] at this
        omega
    · rw [if_pos (by rw [h]; omega), if_pos (by omega : j' = e - j), if_neg (by omega : ¬ j' + 1 = e - j), add_zero, h]
      congr 1; omega
    · have : L * (e + 1) ≤ L * (j + j') := Nat.mul_le_mul_left L (by omega)
      rw [if_neg (by omega), if_neg (by omega : ¬ j' = e - j), if_neg (by omega : ¬ j' + 1 = e - j), add_zero]
  rw [finsetSum_coeff, Finset.sum_congr rfl fun j' hj' => hterm j' (Finset.mem_range.1 hj'), Finset.sum_add_distrib]
  congr 1
  · rw [Finset.sum_ite_eq', if_pos (Finset.mem_range.2 (by omega))]
  · by_cases h : j + 1 < e + 1
    · rw [if_pos h, Finset.sum_eq_single (e - 1 - j)]
      · rw [if_pos (by omega)]
        congr 3
      · intro b _ hb; rw [if_neg (by omega)]
      · intro hb; exact absurd (Finset.mem_range.2 (by omega)) hb
    · rw [if_neg h, coeff_zero]
      exact Finset.sum_eq_zero fun b _ => by rw [if_neg (by omega)]

end PML.Ntl.BlockSeq
