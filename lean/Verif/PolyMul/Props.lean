import Verif.PolyMul.Lemmas
import Verif.Common.Prime

/-!
# C24-C28: products and middle products of polynomial matrices

`asMatrix r c M` is the Mathlib matrix stored in `M`; `*` is Mathlib's matrix
product over `(ZMod q)[X]`.
-/

namespace PML.PolyMul

open PML.MatOps PML.MatPoly PML.PolyMul.Spec PML.NmodExtra Polynomial

set_option linter.unusedSectionVars false

/-- `c` is the product `a b` on the `m × p` block and unchanged elsewhere. -/
theorem asMatrix_mul_of_apply {R : Type} [CommRing R] {m n p : Nat} {a b c : Mat R}
    (h : ∀ u v, u < m → v < p → c u v = ∑ k ∈ Finset.range n, a u k * b k v) :
    asMatrix m p c = asMatrix m n a * asMatrix n p b := by
  refine Matrix.ext fun i j => ?_
  rw [Matrix.mul_apply]
  exact (h i j i.2 j.2).trans (Finset.sum_range (fun k => a i k * b k j))

/-! ### C24 -/

theorem halfPoly_spec (q : Nat) (hq : q % 2 = 1) : 2 * halfPoly q = 1 := by
  have h : ((2 : Nat) : ZMod q) * (((q + 1) / 2 : Nat) : ZMod q) = 1 := by
    rw [← Nat.cast_mul, show 2 * ((q + 1) / 2) = q + 1 by omega]; simp
  have h2 : (2 : (ZMod q)[X]) = C ((2 : Nat) : ZMod q) := (C_eq_natCast 2).symm
  rw [halfPoly, h2, ← C_mul, h, C_1]

/-- C24 (distinct arguments): Waksman's algorithm gives the product, for every
    odd modulus and all dimensions, and touches nothing else. -/
theorem C24_waksman (q : Nat) (hq : q % 2 = 1) (m n p : Nat) (c0 a b : Mat (ZMod q)[X]) :
    asMatrix m p (waksman m n p (halfPoly q) c0 a b) = asMatrix m n a * asMatrix n p b ∧
    ∀ u v, ¬(u < m ∧ v < p) → waksman m n p (halfPoly q) c0 a b u v = c0 u v := by
  have h := waksman_apply m n p (halfPoly q) (halfPoly_spec q hq) c0 a b
  exact ⟨asMatrix_mul_of_apply fun u v hu hv => by rw [h, if_pos ⟨hu, hv⟩],
    fun u v huv => by rw [h, if_neg huv]⟩

/-- C24 (aliasing): right when the output is the first argument (then `n = p`),
    and when it is the second one with at most as many columns as rows. -/
theorem C24_waksman_alias_partial (q : Nat) (hq : q % 2 = 1) (al : Alias) (m n p : Nat)
    (c0 a b : Mat (ZMod q)[X]) (h : al = Alias.none ∨ p ≤ n) :
    ∃ c, waksmanAlias al m n p (halfPoly q) c0 a b = Outcome.ok c ∧
      asMatrix m p c = asMatrix m n a * asMatrix n p b ∧
      ∀ u v, ¬(u < m ∧ v < p) → c u v = c0 u v := by
  unfold waksmanAlias
  by_cases h0 : m < 1 ∨ n < 1 ∨ p < 1 ∨ al = Alias.none
  · rw [if_pos h0]; exact ⟨_, rfl, C24_waksman q hq m n p c0 a b⟩
  · have hnp : ¬ n < p := by
      rcases h with h | h
      · exact absurd (Or.inr (Or.inr (Or.inr h))) h0
      · omega
    rw [if_neg h0, if_neg hnp]
    refine ⟨_, rfl, asMatrix_mul_of_apply fun u v hu hv => ?_, fun u v huv => if_neg huv⟩
    rw [if_pos ⟨hu, hv⟩, waksman_apply m n p _ (halfPoly_spec q hq), if_pos ⟨hu, hv⟩]

/-- C24 fails for `C == B` when `B` has more columns than rows: the temporary is
    too small and is written outside its bounds. (`C == B` forces `m = n`.) -/
theorem C24_waksman_alias_not_correct (q : Nat) (n p : Nat) (hn : 0 < n) (hnp : n < p)
    (c0 a b : Mat (ZMod q)[X]) :
    waksmanAlias Alias.second n n p (halfPoly q) c0 a b = Outcome.fail := by
  unfold waksmanAlias
  rw [if_neg, if_pos hnp]
  rintro (h | h | h | h) <;> first | omega | cases h

/-! ### C25 -/

section Prime

variable {q : Nat} [hqp : Fact q.Prime]

theorem cast_inj_lt {i j : Nat} (hi : i < q) (hj : j < q) (h : (i : ZMod q) = (j : ZMod q)) :
    i = j := by
  rw [ZMod.natCast_eq_natCast_iff'] at h
  rwa [Nat.mod_eq_of_lt hi, Nat.mod_eq_of_lt hj] at h

theorem cast_ne_zero {i : Nat} (h0 : 0 < i) (hi : i < q) : (i : ZMod q) ≠ 0 := by
  intro h
  have := cast_inj_lt hi (hqp.out.pos) (by rw [h]; simp)
  omega

theorem squares_distinct {i j N : Nat} (hi : i < N) (hj : j < N) (hN : 2 * N ≤ q)
    (h : ((i + 1 : Nat) : ZMod q) * ((i + 1 : Nat) : ZMod q) =
      ((j + 1 : Nat) : ZMod q) * ((j + 1 : Nat) : ZMod q)) : i = j := by
  rcases mul_self_eq_mul_self_iff.1 h with h1 | h1
  · have := cast_inj_lt (by omega) (by omega) h1; omega
  · by_contra hne
    have h2 : ((i + 1 + (j + 1) : Nat) : ZMod q) = 0 := by rw [Nat.cast_add, h1]; ring
    exact cast_ne_zero (by omega) (by omega) h2

/-- C25, `nmod_poly_mat_mul_vandermonde1`: right as soon as the field has at least
    as many elements as the length of the product. -/
theorem C25_vandermonde1 (inv : MatInvFn (ZMod q)) (hinv : InvContract inv) (m n p : Nat)
    (c0 a b : Mat (ZMod q)[X]) (hlen : maxLength m n a + maxLength n p b - 1 ≤ q) :
    asMatrix m p (vandermonde1 inv m n p c0 a b) = asMatrix m n a * asMatrix n p b ∧
    ∀ u v, ¬(u < m ∧ v < p) → vandermonde1 inv m n p c0 a b u v = c0 u v := by
  have h := vandermonde1_apply hinv m n p c0 a b
    (fun i j hi hj => cast_inj_lt (by omega) (by omega))
  exact ⟨asMatrix_mul_of_apply fun u v hu hv => by rw [h, if_pos ⟨hu, hv⟩],
    fun u v huv => by rw [h, if_neg huv]⟩

/-- C25, `nmod_poly_mat_mul_vandermonde2`, for odd moduli: right as soon as the
    modulus is at least twice the length of the product. -/
theorem C25_vandermonde2_partial (inv : MatInvFn (ZMod q)) (hinv : InvContract inv) (m n p : Nat)
    (c0 a b : Mat (ZMod q)[X]) (hlen : 2 * (maxLength m n a + maxLength n p b - 1) ≤ q)
    (h2 : q ≠ 2) :
    ∃ c, vandermonde2 inv m n p c0 a b = Outcome.ok c ∧
      asMatrix m p c = asMatrix m n a * asMatrix n p b ∧
      ∀ u v, ¬(u < m ∧ v < p) → c u v = c0 u v := by
  have hq2 := hqp.out.two_le
  have htwo : (2 : ZMod q) ≠ 0 := by
    have := cast_ne_zero (q := q) (i := 2) (by omega) (by omega)
    exact_mod_cast this
  obtain ⟨c, hc, h⟩ := vandermonde2_apply hinv m n p c0 a b htwo
    (fun i hi => cast_ne_zero (by omega) (by omega))
    (fun i j hi hj => squares_distinct (N := (maxLength m n a + maxLength n p b - 2) / 2 + 1)
      (by omega) (by omega) (by omega))
  exact ⟨c, hc, asMatrix_mul_of_apply fun u v hu hv => by rw [h, if_pos ⟨hu, hv⟩],
    fun u v huv => by rw [h, if_neg huv]⟩

end Prime

/-- C25 fails for modulus 2: the size test `2 * len ≤ 2` accepts constant
    matrices, and the function stops on the inverse of 2. -/
theorem C25_vandermonde2_modulus_two (inv : MatInvFn (ZMod 2)) :
    ∃ a b : Mat (ZMod 2)[X], 2 * (maxLength 1 1 a + maxLength 1 1 b - 1) ≤ 2 ∧
      asMatrix 1 1 a * asMatrix 1 1 b ≠ 0 ∧
      vandermonde2 inv 1 1 1 (fun _ _ => 0) a b = Outcome.fail := by
  have hl : maxLength 1 1 (fun _ _ => (1 : (ZMod 2)[X])) = 1 := by
    simp [maxLength, polyLength]
  refine ⟨fun _ _ => 1, fun _ _ => 1, by rw [hl], ?_, ?_⟩
  · intro h
    have := congrFun (congrFun h 0) 0
    simp [asMatrix, Matrix.mul_apply] at this
  · unfold vandermonde2
    rw [hl]
    simp only
    rw [if_neg (by omega), if_pos (Or.inl (by decide))]

/-- C25 fails for aliased arguments: the entries of the result carry the number
    of columns as modulus. -/
theorem C25_alias_modulus_not_preserved (al : Alias) (p modn : Nat) (hal : al ≠ Alias.none)
    (h : p ≠ modn) : vandermondeEntryModulus al p modn ≠ modn := by
  unfold vandermondeEntryModulus; rw [if_neg hal]; exact h

/-! ### C26 -/

section Prime2

variable {q : Nat} [hqp : Fact q.Prime]

/-- The element found by `nmod_find_root(2N)` gives `N` distinct points. -/
theorem goodRoot_of_largeOrder {w N : Nat} (h2 : 2 ≤ w) (hw : w < q) (h : LargeOrder (2 * N) q w) :
    GoodRoot (w : ZMod q) N := by
  have hw0 : (w : ZMod q) ≠ 0 := cast_ne_zero (by omega) hw
  have hpow : ∀ i j, i < N → j < N → i < j → (w : ZMod q) ^ (2 * i) ≠ (w : ZMod q) ^ (2 * j) := by
    intro i j hi hj hij he
    have e : 2 * j = 2 * i + 2 * (j - i) := by omega
    rw [e, pow_add] at he
    have h1 : (w : ZMod q) ^ (2 * (j - i)) = 1 :=
      (mul_left_cancel₀ (pow_ne_zero (2 * i) hw0) (by rw [mul_one]; exact he)).symm
    apply h (2 * (j - i)) (by omega) (by omega)
    have h3 : ((w ^ (2 * (j - i)) : Nat) : ZMod q) = ((1 : Nat) : ZMod q) := by
      rw [Nat.cast_pow, h1, Nat.cast_one]
    rw [ZMod.natCast_eq_natCast_iff', Nat.mod_eq_of_lt (by omega : 1 < q)] at h3
    exact h3
  intro i j hi hj he
  by_contra hne
  rcases Nat.lt_or_ge i j with h1 | h1
  · exact hpow i j hi hj h1 he
  · exact hpow j i hj hi (by omega) he.symm

/-- The root search succeeds for lengths accepted by the size test. -/
theorem findRoot_good {N : Nat} (hN : 1 ≤ N) (h : 10 * N ≤ q) :
    ∃ w, findRoot (2 * N) (2 * N) q = some w ∧ GoodRoot (w : ZMod q) N := by
  obtain ⟨w, hw, h2, h3, h4⟩ := C09_find_root_succeeds (2 * N) q (2 * N) hqp.out (by omega) (by omega)
    (le_refl _)
  exact ⟨w, hw, goodRoot_of_largeOrder h2 h3 h4⟩

/-- C26: if the modulus passes the size test, a root is found, the evaluation
    points are distinct, and the result is the product. -/
theorem C26_mul_geometric (o : Oracles q) (ho : InterpContract o.interp) (m n p : Nat)
    (c0 a b : Mat (ZMod q)[X])
    (hlen : canGeometric q (maxLength m n a + maxLength n p b - 1) = true) :
    ∃ c, mulGeometric o m n p c0 a b = Outcome.ok c ∧
      asMatrix m p c = asMatrix m n a * asMatrix n p b ∧
      ∀ u v, ¬(u < m ∧ v < p) → c u v = c0 u v := by
  simp only [canGeometric, decide_eq_true_eq] at hlen
  unfold mulGeometric
  by_cases h0 : maxLength m n a = 0 ∨ maxLength n p b = 0
  · simp only [if_pos h0]
    refine ⟨_, rfl, asMatrix_mul_of_apply fun u v hu hv => ?_, fun u v huv => if_neg huv⟩
    rw [if_pos ⟨hu, hv⟩, prod_zero h0 hu hv]
  · simp only [if_neg h0]
    obtain ⟨w, hw, hg⟩ := findRoot_good (q := q)
      (N := maxLength m n a + maxLength n p b - 1) (by omega) hlen
    rw [hw]
    have h := mulGeometricPrecomp_apply ho (w : ZMod q) m n p _ _ c0 a b (le_refl _) (le_refl _) hg
    refine ⟨_, rfl, asMatrix_mul_of_apply fun u v hu hv => ?_, fun u v huv => ?_⟩
    · rw [h, if_pos ⟨hu, hv⟩]
    · rw [h, if_neg huv]

/-! ### C27 -/

/-- The contracts of the FLINT functions used by the products. -/
structure OraclesOK (o : Oracles q) : Prop where
  inv : InvContract o.inv
  interp : InterpContract o.interp

theorem oracles_satisfiable : ∃ o : Oracles q, OraclesOK o := by
  obtain ⟨inv, h1⟩ := invContract_satisfiable (K := ZMod q)
  obtain ⟨interp, h2⟩ := interpContract_satisfiable (K := ZMod q)
  exact ⟨⟨inv, interp, fun _ => 13⟩, h1, h2⟩

theorem flintMul_spec (m n p : Nat) (c0 a b : Mat (ZMod q)[X]) :
    asMatrix m p (flintMul m n p c0 a b) = asMatrix m n a * asMatrix n p b ∧
    ∀ u v, ¬(u < m ∧ v < p) → flintMul m n p c0 a b u v = c0 u v :=
  ⟨asMatrix_mul_of_apply fun u v hu hv => if_pos ⟨hu, hv⟩, fun u v huv => if_neg huv⟩

/-- C27: whatever algorithm the dispatcher selects (for any value of the integer
    cube root), its preconditions hold: the call does not fail and gives the
    product, and nothing else is written. -/
theorem C27_multiply (o : Oracles q) (ho : OraclesOK o) (m n p : Nat) (c0 a b : Mat (ZMod q)[X]) :
    ∃ c, multiply o m n p c0 a b = Outcome.ok c ∧
      asMatrix m p c = asMatrix m n a * asMatrix n p b ∧
      ∀ u v, ¬(u < m ∧ v < p) → c u v = c0 u v := by
  have hq2 := hqp.out.two_le
  unfold multiply
  by_cases h0 : maxLength m n a = 0 ∨ maxLength n p b = 0
  · simp only [if_pos h0]
    refine ⟨_, rfl, asMatrix_mul_of_apply fun u v hu hv => ?_, fun u v huv => if_neg huv⟩
    rw [if_pos ⟨hu, hv⟩, prod_zero h0 hu hv]
  simp only [if_neg h0]
  by_cases h1 : m = 1 ∨ p = 1 ∨ n = 1 ∨ maxLength m n a = 1 ∨ maxLength n p b = 1
  · simp only [if_pos h1]
    exact ⟨_, rfl, flintMul_spec m n p c0 a b⟩
  simp only [if_neg h1]
  have hwak : canWaksman q = true → ∃ c, Outcome.ok (waksman m n p (halfPoly q) c0 a b) = Outcome.ok c ∧
      asMatrix m p c = asMatrix m n a * asMatrix n p b ∧
      ∀ u v, ¬(u < m ∧ v < p) → c u v = c0 u v := by
    intro h
    simp only [canWaksman, decide_eq_true_eq] at h
    have hodd : q % 2 = 1 := by
      rcases hqp.out.eq_two_or_odd with h' | h'
      · exact absurd h' h
      · exact h'
    exact ⟨_, rfl, C24_waksman q hodd m n p c0 a b⟩
  have hvdm : canVandermonde2 q (maxLength m n a + maxLength n p b - 1) = true →
      ∃ c, vandermonde2 o.inv m n p c0 a b = Outcome.ok c ∧
      asMatrix m p c = asMatrix m n a * asMatrix n p b ∧
      ∀ u v, ¬(u < m ∧ v < p) → c u v = c0 u v := by
    intro h
    simp only [canVandermonde2, decide_eq_true_eq] at h
    exact C25_vandermonde2_partial o.inv ho.inv m n p c0 a b h (by omega)
  have hmul : ∃ c, Outcome.ok (flintMul m n p c0 a b) = Outcome.ok c ∧
      asMatrix m p c = asMatrix m n a * asMatrix n p b ∧
      ∀ u v, ¬(u < m ∧ v < p) → c u v = c0 u v := ⟨_, rfl, flintMul_spec m n p c0 a b⟩
  split_ifs with c1 c2 c3 c4 c5 c6 c7 c8 c9 c10
  · exact C26_mul_geometric o ho.interp m n p c0 a b c2.1
  all_goals first
    | exact hmul
    | exact hvdm (by first | assumption | exact And.left (by assumption))
    | exact hwak (by assumption)

/-! ### C28 -/

theorem shiftRight_coeff (m p : Nat) (c0 a : Mat (ZMod q)[X]) (s i j : Nat) (h : i < m ∧ j < p)
    (k : Nat) : (shiftRight m p c0 a s i j).coeff k = (a i j).coeff (k + s) := by
  unfold shiftRight
  rw [if_pos h, coeff_ofCoeffs]
  by_cases hk : k < polyLength (a i j) - s
  · rw [if_pos hk]
  · rw [if_neg hk, polyLength_coeff _ _ (by omega)]

theorem truncPoly_coeff (m p : Nat) (c0 a : Mat (ZMod q)[X]) (s i j : Nat) (h : i < m ∧ j < p)
    (k : Nat) : (truncPoly m p c0 a s i j).coeff k = if k < s then (a i j).coeff k else 0 := by
  unfold truncPoly
  rw [if_pos h, coeff_ofCoeffs]
  by_cases hk : k < s
  · rw [if_pos hk]
    by_cases hl : k < polyLength (a i j)
    · rw [if_pos (by omega)]
    · rw [if_neg (by omega), polyLength_coeff _ _ (by omega)]
  · rw [if_neg hk, if_neg (by omega)]

/-- A middle product, as a property of the entries. -/
def MidSpec (m n p nlo nhi : Nat) (c0 a b c : Mat (ZMod q)[X]) : Prop :=
  (∀ i j, i < m → j < p → IsWindow nlo nhi (∑ k ∈ Finset.range n, a i k * b k j) (c i j)) ∧
  ∀ i j, ¬(i < m ∧ j < p) → c i j = c0 i j

theorem mid_zero {m n p len1 len2 nlo nhi : Nat} {c0 a b : Mat (ZMod q)[X]}
    (h1 : maxLength m n a ≤ len1) (h2 : maxLength n p b ≤ len2)
    (h : len1 = 0 ∨ len2 = 0 ∨ nlo ≥ min nhi (len1 + len2 - 1)) :
    MidSpec m n p nlo nhi c0 a b (fun i j => if i < m ∧ j < p then 0 else c0 i j) := by
  refine ⟨fun i j hi hj k => ?_, fun i j hij => if_neg hij⟩
  have hc : i < m ∧ j < p := ⟨hi, hj⟩
  simp only [if_pos hc, coeff_zero]
  by_cases hk : nlo + k < nhi
  · rw [if_pos hk]
    rcases h with h | h | h
    · rw [prod_zero (Or.inl (by omega)) hi hj, coeff_zero]
    · rw [prod_zero (Or.inr (by omega)) hi hj, coeff_zero]
    · rw [prod_coeff_zero h1 h2 hi hj (by omega)]
  · rw [if_neg hk]

theorem mulmidNaive_spec (o : Oracles q) (ho : OraclesOK o) (m n p len1 len2 nlo nhi : Nat)
    (c0 a b : Mat (ZMod q)[X]) (h1 : maxLength m n a ≤ len1) (h2 : maxLength n p b ≤ len2) :
    ∃ c, mulmidNaive o m n p len1 len2 nlo nhi c0 a b = Outcome.ok c ∧
      MidSpec m n p nlo nhi c0 a b c := by
  unfold mulmidNaive
  by_cases h0 : len1 = 0 ∨ len2 = 0 ∨ nlo ≥ nhi
  · rw [if_pos h0]
    exact ⟨_, rfl, mid_zero h1 h2 (by omega)⟩
  · rw [if_neg h0]
    obtain ⟨c, hc, hprod, hframe⟩ := C27_multiply o ho m n p c0 a b
    rw [hc]
    refine ⟨_, rfl, fun i j hi hj k => ?_, fun i j hij => ?_⟩
    · have hcij : c i j = ∑ k ∈ Finset.range n, a i k * b k j := by
        have := congrFun (congrFun hprod ⟨i, hi⟩) ⟨j, hj⟩
        rw [Matrix.mul_apply] at this
        exact this.trans (Finset.sum_range (fun k => a i k * b k j)).symm
      rw [truncPoly_coeff _ _ _ _ _ _ _ ⟨hi, hj⟩, shiftRight_coeff _ _ _ _ _ _ _ ⟨hi, hj⟩, hcij,
        Nat.add_comm k nlo]
      by_cases hk : nlo + k < nhi
      · rw [if_pos hk, if_pos (by omega)]
      · rw [if_neg hk, if_neg (by omega)]
    · unfold truncPoly shiftRight
      rw [if_neg hij, if_neg hij, hframe i j hij]

theorem mulmidDispatch_spec (geom : Bool) (o : Oracles q) (ho : OraclesOK o)
    (m n p len1 len2 nlo nhi : Nat)
    (c0 a b : Mat (ZMod q)[X]) (h1 : maxLength m n a ≤ len1) (h2 : maxLength n p b ≤ len2) :
    ∃ c, mulmidDispatch geom o m n p len1 len2 nlo nhi c0 a b = Outcome.ok c ∧
      MidSpec m n p nlo nhi c0 a b c := by
  unfold mulmidDispatch
  by_cases h0 : len1 = 0 ∨ len2 = 0 ∨ nlo ≥ nhi
  · rw [if_pos h0]
    exact ⟨_, rfl, mid_zero h1 h2 (by omega)⟩
  rw [if_neg h0]
  split_ifs with hg
  · obtain ⟨-, hcan, -, hlen⟩ := hg
    simp only [canGeometric, decide_eq_true_eq] at hcan
    obtain ⟨w, hw, hgood⟩ := findRoot_good (q := q) (N := nhi) (by omega) hcan
    unfold mulmidGeometric
    rw [if_neg (by omega), hw]
    simp only
    by_cases hl : len1 ≤ nlo + 1
    · rw [if_pos hl]
      refine ⟨_, rfl, fun i j hi hj => ?_, fun i j hij => if_neg hij⟩
      exact mulmidGeometric1_apply ho.interp _ m n p nlo nhi c0 a b (by omega) hgood i j ⟨hi, hj⟩
    · rw [if_neg hl]
      refine ⟨_, rfl, fun i j hi hj => ?_, fun i j hij => if_neg hij⟩
      exact mulmidGeometric2_apply ho.interp _ m n p nlo nhi c0 a b (by omega) hgood i j ⟨hi, hj⟩
  · exact mulmidNaive_spec o ho m n p len1 len2 nlo nhi c0 a b h1 h2

/-- Shifting the second factor right by `s` shifts the coefficients of index at
    least `L + s - 1` of the product, `L` being the length of the first one. -/
theorem coeff_mul_shift {f g g' : (ZMod q)[X]} {L s N : Nat} (hf : ∀ t, L ≤ t → f.coeff t = 0)
    (hg : ∀ k, g'.coeff k = g.coeff (k + s)) (hN : L ≤ N + 1) :
    (f * g).coeff (N + s) = (f * g').coeff N := by
  have hr : ∀ t, s ≤ t → (g - X ^ s * g').coeff t = 0 := by
    intro t ht
    obtain ⟨u, rfl⟩ := Nat.exists_eq_add_of_le' ht
    rw [coeff_sub, coeff_X_pow_mul, hg, sub_self]
  have e : f * g = X ^ s * (f * g') + f * (g - X ^ s * g') := by ring
  rw [e, coeff_add, coeff_X_pow_mul, coeff_mul f (g - X ^ s * g')]
  rw [Finset.sum_eq_zero, add_zero]
  rintro ⟨u, v⟩ huv
  rw [Finset.mem_antidiagonal] at huv
  dsimp only at huv ⊢
  by_cases hu : L ≤ u
  · rw [hf u hu, zero_mul]
  · rw [hr v (by omega), mul_zero]

theorem coeff_mul_congr_lt {f f' g g' : (ZMod q)[X]} {N : Nat}
    (hf : ∀ t, t ≤ N → f.coeff t = f'.coeff t) (hg : ∀ t, t ≤ N → g.coeff t = g'.coeff t) :
    (f * g).coeff N = (f' * g').coeff N := by
  rw [coeff_mul, coeff_mul]
  refine Finset.sum_congr rfl ?_
  rintro ⟨u, v⟩ huv
  rw [Finset.mem_antidiagonal] at huv
  dsimp only at huv ⊢
  rw [hf u (by omega), hg v (by omega)]

theorem maxLength_shiftRight_le (m p : Nat) (a : Mat (ZMod q)[X]) (s : Nat) :
    maxLength m p (shiftRight m p a a s) ≤ maxLength m p a - s := by
  rw [maxLength_le_iff]
  intro i hi j hj k hk
  rw [shiftRight_coeff _ _ _ _ _ _ _ ⟨hi, hj⟩]
  exact maxLength_coeff (le_refl _) hi hj (by omega)

theorem maxLength_truncPoly_le (m p : Nat) (a : Mat (ZMod q)[X]) (s : Nat) :
    maxLength m p (truncPoly m p a a s) ≤ s := by
  rw [maxLength_le_iff]
  intro i hi j hj k hk
  rw [truncPoly_coeff _ _ _ _ _ _ _ ⟨hi, hj⟩, if_neg (by omega)]

theorem mulmidShift_spec (geom : Bool) (o : Oracles q) (ho : OraclesOK o)
    (m n p nlo nhi : Nat) (c0 a b : Mat (ZMod q)[X])
    (h1 : 0 < maxLength m n a) (h2 : 0 < maxLength n p b) (hlt : nlo < nhi)
    (hn : nhi ≤ maxLength m n a + maxLength n p b - 1) :
    ∃ c, mulmidShift geom o m n p (maxLength m n a) (maxLength n p b) nlo nhi c0 a b = Outcome.ok c ∧
      MidSpec m n p nlo nhi c0 a b c := by
  generalize hl1 : maxLength m n a = len1 at *
  generalize hl2 : maxLength n p b = len2 at *
  unfold mulmidShift
  by_cases c1 : len1 ≤ len2 ∧ len1 ≤ nlo
  · rw [if_pos c1]
    have hb := maxLength_shiftRight_le n p b (nlo - len1 + 1)
    obtain ⟨c, hc, hw, hfr⟩ := mulmidDispatch_spec geom o ho m n p len1 (len2 + len1 - nlo - 1)
      (len1 - 1) (nhi + len1 - nlo - 1) c0 a (shiftRight n p b b (nlo - len1 + 1)) (by omega) (by omega)
    refine ⟨c, hc, fun i j hi hj k => ?_, hfr⟩
    rw [hw i j hi hj k]
    by_cases hk : nlo + k < nhi
    · rw [if_pos hk, if_pos (by omega), finsetSum_coeff, finsetSum_coeff]
      refine Finset.sum_congr rfl fun l hl => ?_
      rw [Finset.mem_range] at hl
      rw [show nlo + k = (len1 - 1 + k) + (nlo - len1 + 1) by omega]
      refine (coeff_mul_shift (L := len1) (fun t ht => maxLength_coeff (by omega) hi hl ht) ?_
        (by omega)).symm
      exact fun t => shiftRight_coeff n p b b _ l j ⟨hl, hj⟩ t
    · rw [if_neg hk, if_neg (by omega)]
  · rw [if_neg c1]
    by_cases c2 : len2 ≤ nlo
    · rw [if_pos c2]
      have ha := maxLength_shiftRight_le m n a (nlo - len2 + 1)
      obtain ⟨c, hc, hw, hfr⟩ := mulmidDispatch_spec geom o ho m n p (len1 + len2 - nlo - 1) len2
        (len2 - 1) (nhi + len2 - nlo - 1) c0 (shiftRight m n a a (nlo - len2 + 1)) b (by omega) (by omega)
      refine ⟨c, hc, fun i j hi hj k => ?_, hfr⟩
      rw [hw i j hi hj k]
      by_cases hk : nlo + k < nhi
      · rw [if_pos hk, if_pos (by omega), finsetSum_coeff, finsetSum_coeff]
        refine Finset.sum_congr rfl fun l hl => ?_
        rw [Finset.mem_range] at hl
        rw [show nlo + k = (len2 - 1 + k) + (nlo - len2 + 1) by omega, mul_comm, mul_comm (a i l)]
        refine (coeff_mul_shift (L := len2) (fun t ht => maxLength_coeff (by omega) hl hj ht) ?_
          (by omega)).symm
        exact fun t => shiftRight_coeff m n a a _ i l ⟨hi, hl⟩ t
      · rw [if_neg hk, if_neg (by omega)]
    · rw [if_neg c2]
      exact mulmidDispatch_spec geom o ho m n p len1 len2 nlo nhi c0 a b (by omega) (by omega)

/-- Coefficients beyond the length of the product are zero. -/
theorem MidSpec.extend {m n p nlo nhi : Nat} {c0 a b c : Mat (ZMod q)[X]}
    (h : MidSpec m n p nlo (min nhi (maxLength m n a + maxLength n p b - 1)) c0 a b c) :
    MidSpec m n p nlo nhi c0 a b c := by
  refine ⟨fun i j hi hj k => ?_, h.2⟩
  rw [h.1 i j hi hj k]
  by_cases hk : nlo + k < min nhi (maxLength m n a + maxLength n p b - 1)
  · rw [if_pos hk, if_pos (by omega)]
  · rw [if_neg hk]
    by_cases hk2 : nlo + k < nhi
    · rw [if_pos hk2, prod_coeff_zero (le_refl _) (le_refl _) hi hj (by omega)]
    · rw [if_neg hk2]

/-- Truncating the factors at `nhi` does not change the window. -/
theorem MidSpec.of_congr {m n p nlo nhi : Nat} {c0 a b a' b' c : Mat (ZMod q)[X]}
    (ha : ∀ i j, i < m → j < n → ∀ t, t < nhi → (a i j).coeff t = (a' i j).coeff t)
    (hb : ∀ i j, i < n → j < p → ∀ t, t < nhi → (b i j).coeff t = (b' i j).coeff t)
    (h : MidSpec m n p nlo nhi c0 a' b' c) : MidSpec m n p nlo nhi c0 a b c := by
  refine ⟨fun i j hi hj k => ?_, h.2⟩
  rw [h.1 i j hi hj k]
  by_cases hk : nlo + k < nhi
  · rw [if_pos hk, if_pos hk, finsetSum_coeff, finsetSum_coeff]
    refine Finset.sum_congr rfl fun l hl => ?_
    rw [Finset.mem_range] at hl
    exact (coeff_mul_congr_lt (fun t ht => ha i l hi hl t (by omega))
      (fun t ht => hb l j hl hj t (by omega))).symm
  · rw [if_neg hk, if_neg hk]

theorem mulmid_spec1 (geom : Bool) (o : Oracles q) (ho : OraclesOK o) (m n p nlo nhi fuel : Nat)
    (c0 a b : Mat (ZMod q)[X]) (h1 : maxLength m n a ≤ nhi) (h2 : maxLength n p b ≤ nhi) :
    ∃ c, mulmid geom o m n p nlo c0 (fuel + 1) nhi a b = Outcome.ok c ∧
      MidSpec m n p nlo nhi c0 a b c := by
  unfold mulmid
  simp only
  by_cases h0 : maxLength m n a = 0 ∨ maxLength n p b = 0 ∨
      nlo ≥ min nhi (maxLength m n a + maxLength n p b - 1)
  · rw [if_pos h0]
    exact ⟨_, rfl, mid_zero (le_refl _) (le_refl _) h0⟩
  · have c1 : ¬ maxLength m n a > min nhi (maxLength m n a + maxLength n p b - 1) := by omega
    have c2 : ¬ maxLength n p b > min nhi (maxLength m n a + maxLength n p b - 1) := by omega
    rw [if_neg h0, if_neg c1, if_neg c2]
    obtain ⟨c, hc, hs⟩ := mulmidShift_spec geom o ho m n p nlo
      (min nhi (maxLength m n a + maxLength n p b - 1)) c0 a b (by omega) (by omega) (by omega)
      (by omega)
    exact ⟨c, hc, hs.extend⟩

theorem mulmid_spec2 (geom : Bool) (o : Oracles q) (ho : OraclesOK o) (m n p nlo nhi fuel : Nat)
    (c0 a b : Mat (ZMod q)[X]) (h1 : maxLength m n a ≤ nhi) :
    ∃ c, mulmid geom o m n p nlo c0 (fuel + 2) nhi a b = Outcome.ok c ∧
      MidSpec m n p nlo nhi c0 a b c := by
  by_cases h2 : maxLength n p b ≤ nhi
  · exact mulmid_spec1 geom o ho m n p nlo nhi (fuel + 1) c0 a b h1 h2
  unfold mulmid
  simp only
  by_cases h0 : maxLength m n a = 0 ∨ maxLength n p b = 0 ∨
      nlo ≥ min nhi (maxLength m n a + maxLength n p b - 1)
  · rw [if_pos h0]
    exact ⟨_, rfl, mid_zero (le_refl _) (le_refl _) h0⟩
  · have c1 : ¬ maxLength m n a > min nhi (maxLength m n a + maxLength n p b - 1) := by omega
    have c2 : maxLength n p b > min nhi (maxLength m n a + maxLength n p b - 1) := by omega
    rw [if_neg h0, if_neg c1, if_pos c2]
    have hm : min nhi (maxLength m n a + maxLength n p b - 1) = nhi := by omega
    rw [hm]
    obtain ⟨c, hc, hs⟩ := mulmid_spec1 geom o ho m n p nlo nhi fuel c0 a (truncPoly n p b b nhi) h1
      (maxLength_truncPoly_le n p b nhi)
    refine ⟨c, hc, hs.of_congr (fun i j hi hj t ht => rfl) (fun i j hi hj t ht => ?_)⟩
    rw [truncPoly_coeff _ _ _ _ _ _ _ ⟨hi, hj⟩, if_pos ht]

/-- C28: for every window, all lengths and dimensions, with or without the
    geometric variants, the middle product returns (three nested calls at most)
    the coefficients `nlo, ..., nhi - 1` of every entry of the product, moved to
    degrees `0, ..., nhi - nlo - 1`, and writes nothing else. -/
theorem C28_mulmid (geom : Bool) (o : Oracles q) (ho : OraclesOK o) (m n p nlo nhi fuel : Nat)
    (hfuel : 3 ≤ fuel) (c0 a b : Mat (ZMod q)[X]) :
    ∃ c, mulmid geom o m n p nlo c0 fuel nhi a b = Outcome.ok c ∧
      (∀ (i : Fin m) (j : Fin p),
        IsWindow nlo nhi ((asMatrix m n a * asMatrix n p b) i j) (asMatrix m p c i j)) ∧
      ∀ i j, ¬(i < m ∧ j < p) → c i j = c0 i j := by
  obtain ⟨fuel, rfl⟩ := Nat.exists_eq_add_of_le' hfuel
  suffices h : ∃ c, mulmid geom o m n p nlo c0 (fuel + 3) nhi a b = Outcome.ok c ∧
      MidSpec m n p nlo nhi c0 a b c by
    obtain ⟨c, hc, hs⟩ := h
    refine ⟨c, hc, fun i j => ?_, hs.2⟩
    have := hs.1 i j i.2 j.2
    rw [Finset.sum_range (fun k => a i k * b k j)] at this
    rw [Matrix.mul_apply]
    exact this
  by_cases h1 : maxLength m n a ≤ nhi
  · exact mulmid_spec2 geom o ho m n p nlo nhi (fuel + 1) c0 a b h1
  unfold mulmid
  simp only
  by_cases h0 : maxLength m n a = 0 ∨ maxLength n p b = 0 ∨
      nlo ≥ min nhi (maxLength m n a + maxLength n p b - 1)
  · rw [if_pos h0]
    exact ⟨_, rfl, mid_zero (le_refl _) (le_refl _) h0⟩
  · have c1 : maxLength m n a > min nhi (maxLength m n a + maxLength n p b - 1) := by omega
    rw [if_neg h0, if_pos c1]
    have hm : min nhi (maxLength m n a + maxLength n p b - 1) = nhi := by omega
    rw [hm]
    obtain ⟨c, hc, hs⟩ := mulmid_spec2 geom o ho m n p nlo nhi fuel c0 (truncPoly m n a a nhi) b
      (maxLength_truncPoly_le m n a nhi)
    refine ⟨c, hc, hs.of_congr (fun i j hi hj t ht => ?_) (fun i j hi hj t ht => rfl)⟩
    rw [truncPoly_coeff _ _ _ _ _ _ _ ⟨hi, hj⟩, if_pos ht]

end Prime2

/-! ### Concrete instances -/

/-- C24: `[x, 1] * [1; x] = [2x]` over `ZMod 5`. -/
example : ∃ a b : Mat (ZMod 5)[X],
    asMatrix 1 1 (waksman 1 2 1 (halfPoly 5) (fun _ _ => 0) a b) = fun _ _ => X + X :=
  ⟨fun _ j => if j = 0 then X else 1, fun i _ => if i = 0 then 1 else X, by
    rw [(C24_waksman 5 (by decide) 1 2 1 _ _ _).1]
    refine Matrix.ext fun i j => ?_
    rw [Matrix.mul_apply, Fin.sum_univ_two]
    simp [asMatrix]⟩

/-- C24, aliasing: square matrices meet the hypothesis. -/
example (a b c0 : Mat (ZMod 5)[X]) :
    ∃ c, waksmanAlias Alias.second 3 3 3 (halfPoly 5) c0 a b = Outcome.ok c ∧
      asMatrix 3 3 c = asMatrix 3 3 a * asMatrix 3 3 b :=
  let ⟨c, h1, h2, _⟩ := C24_waksman_alias_partial 5 (by decide) Alias.second 3 3 3 c0 a b
    (Or.inr (le_refl _))
  ⟨c, h1, h2⟩

theorem maxLength_X : maxLength 2 2 (fun _ _ => (X : (ZMod 5)[X])) = 2 := by
  have h : polyLength (X : (ZMod 5)[X]) = 2 := by simp [polyLength]
  unfold maxLength; simp only [h]; decide

/-- C25: `2 × 2` matrices of length 2 over `ZMod 5`. -/
example : ∃ inv : MatInvFn (ZMod 5), InvContract inv ∧
    maxLength 2 2 (fun _ _ => (X : (ZMod 5)[X])) +
      maxLength 2 2 (fun _ _ => (X : (ZMod 5)[X])) - 1 ≤ 5 := by
  obtain ⟨inv, h⟩ := invContract_satisfiable (K := ZMod 5)
  exact ⟨inv, h, by rw [maxLength_X]; decide⟩

/-- C25: the even/odd variant, `2 * 1 ≤ 5` with constants. -/
example : 2 * (maxLength 2 2 (fun _ _ => (1 : (ZMod 5)[X])) +
    maxLength 2 2 (fun _ _ => (1 : (ZMod 5)[X])) - 1) ≤ 5 ∧ (5 : Nat) ≠ 2 := by
  have h : polyLength (1 : (ZMod 5)[X]) = 1 := by simp [polyLength]
  have : maxLength 2 2 (fun _ _ => (1 : (ZMod 5)[X])) = 1 := by
    unfold maxLength; simp only [h]; decide
  rw [this]; decide

/-- C26: the size test holds for lengths 2 and modulus 31. -/
example : canGeometric 31 (2 + 2 - 1) = true ∧ ∃ w, findRoot 6 6 31 = some w :=
  ⟨by decide, 3, by decide +kernel⟩

/-- C27, C28: oracles meeting the contracts exist for every prime. -/
example : ∃ o : Oracles 5, OraclesOK o := oracles_satisfiable

end PML.PolyMul
