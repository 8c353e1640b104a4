import Verif.Ntl.ShiftModel
import Verif.Ntl.SeriesProps
import Mathlib.Data.Nat.Choose.Sum

/-!
# C60 and C61: Taylor shift and shifted addition
-/

namespace PML.Ntl.Shift

open Polynomial

set_option linter.unusedSectionVars false

variable {R : Type} [CommRing R]

/-! ### Divide and conquer -/

/-- The shifted block of four coefficients. -/
noncomputable def block (c : R) (f : R[X]) (j : Nat) : R[X] :=
  C (f.coeff (4 * j)) + C (f.coeff (4 * j + 1)) * (X + C c) + C (f.coeff (4 * j + 2)) * (X + C c) ^ 2
    + C (f.coeff (4 * j + 3)) * (X + C c) ^ 3

theorem leafLoop_spec (c : R) (f : R[X]) (V J : Nat) (h : J ≤ V) :
    ∃ v, leafLoop c f V J = some v ∧ ∀ j, v j = if j < J then block c f j else 0 := by
  induction J with
  | zero => exact ⟨fun _ => 0, rfl, fun j => by rw [if_neg (by omega)]⟩
  | succ J ih =>
    obtain ⟨v, hv, hs⟩ := ih (by omega)
    unfold leafLoop
    rw [hv]
    dsimp only
    rw [if_neg (by omega)]
    refine ⟨_, rfl, fun j => ?_⟩
    by_cases hj : j = J
    · subst hj
      rw [Function.update_self, if_pos (by omega)]
      unfold quad block
      simp only [C_add, C_mul, C_ofNat]
      ring
    · rw [Function.update_of_ne hj, hs]
      by_cases h1 : j < J
      · rw [if_pos h1, if_pos (by omega)]
      · rw [if_neg h1, if_neg (by omega)]

theorem block_zero (c : R) (f : R[X]) (n j : Nat) (hn : ∀ i, n ≤ i → f.coeff i = 0) (hj : n ≤ 4 * j) :
    block c f j = 0 := by
  unfold block
  rw [hn _ hj, hn _ (by omega), hn _ (by omega), hn _ (by omega)]
  simp

theorem leaves_spec (c : R) (f : R[X]) (V n : Nat) (hn : ∀ i, n ≤ i → f.coeff i = 0) (hV : n ≤ 4 * V) :
    ∃ v v', leafLoop c f V (n / 4) = some v ∧ lastLeaf c f V n v = some v' ∧ ∀ j, v' j = block c f j := by
  obtain ⟨v, hv, hs⟩ := leafLoop_spec c f V (n / 4) (by omega)
  refine ⟨v, ?_⟩
  unfold lastLeaf
  dsimp only
  by_cases h : 4 * (n / 4) < n
  · rw [if_pos h, if_neg (by omega)]
    refine ⟨_, hv, rfl, ?_⟩
    · intro j
      by_cases hj : j = n / 4
      · rw [hj, Function.update_self]
        unfold quad block
        simp only [C_add, C_mul, C_ofNat]
        ring
      · rw [Function.update_of_ne hj, hs]
        by_cases h1 : j < n / 4
        · rw [if_pos h1]
        · rw [if_neg h1, block_zero c f n j hn (by omega)]
  · refine ⟨v, hv, by rw [if_neg h], fun j => ?_⟩
    rw [hs]
    by_cases h1 : j < n / 4
    · rw [if_pos h1]
    · rw [if_neg h1, block_zero c f n j hn (by omega)]

theorem sum_blocks (c : R) (f : R[X]) (V : Nat) :
    ∑ k ∈ Finset.range V, block c f k * ((X + C c) ^ 4) ^ k
      = ∑ i ∈ Finset.range (4 * V), C (f.coeff i) * (X + C c) ^ i := by
  induction V with
  | zero => rfl
  | succ V ih =>
    rw [Finset.sum_range_succ, ih, show 4 * (V + 1) = 4 * V + 1 + 1 + 1 + 1 by omega, Finset.sum_range_succ,
      Finset.sum_range_succ, Finset.sum_range_succ, Finset.sum_range_succ, ← pow_mul]
    unfold block
    ring

theorem comp_sum (f : R[X]) (c : R) (N : Nat) (h : f.natDegree < N) :
    f.comp (X + C c) = ∑ i ∈ Finset.range N, C (f.coeff i) * (X + C c) ^ i :=
  eval₂_eq_sum_range' C h (X + C c)

theorem pairLoop_spec (P : R[X]) (v : Nat → R[X]) (n k : Nat) :
    pairLoop P v n k = if 1 ≤ k ∧ k ≤ n then P * v (2 * k + 1) + v (2 * k) else v k := by
  induction n generalizing k with
  | zero => rw [if_neg (by omega)]; rfl
  | succ n ih =>
    rw [pairLoop]
    by_cases h : k = n + 1
    · subst h
      rw [Function.update_self, ih, ih, if_neg (by omega), if_neg (by omega), if_pos (by omega)]
    · rw [Function.update_of_ne h, ih]
      by_cases h2 : 1 ≤ k ∧ k ≤ n
      · rw [if_pos h2, if_pos (by omega)]
      · rw [if_neg h2, if_neg (by omega)]

theorem mergeStep_spec (P : R[X]) (V : Nat) (v : Nat → R[X]) (hV : 2 ≤ V) (i : Nat) (hi : i < V / 2 + V % 2) :
    mergeStep P V v i = if 2 * i + 1 < V then v (2 * i) + P * v (2 * i + 1) else v (2 * i) := by
  have key : ∀ k, k < V → pairLoop P (Function.update (Function.update v 1 (v 1 * P)) 0
      ((Function.update v 1 (v 1 * P)) 0 + (Function.update v 1 (v 1 * P)) 1)) (V / 2 - 1) k
      = if k < V / 2 then v (2 * k) + P * v (2 * k + 1) else if k = 1 then v 1 * P else v k := by
    intro k _
    rw [pairLoop_spec]
    by_cases h : 1 ≤ k ∧ k ≤ V / 2 - 1
    · rw [if_pos h, if_pos (by omega), Function.update_of_ne (by omega), Function.update_of_ne (by omega),
        Function.update_of_ne (by omega), Function.update_of_ne (by omega), add_comm]
    · rw [if_neg h]
      by_cases h0 : k = 0
      · subst h0
        rw [Function.update_self, Function.update_self, Function.update_of_ne (by omega), if_pos (by omega)]
        rw [mul_comm P]
      · rw [if_neg (by omega), Function.update_of_ne h0]
        by_cases h1 : k = 1
        · subst h1
          rw [Function.update_self, if_pos rfl]
        · rw [Function.update_of_ne h1, if_neg h1]
  unfold mergeStep
  by_cases ho : 2 * (V / 2) + 1 = V
  · rw [if_pos ho]
    by_cases hiv : i = V / 2
    · rw [hiv, Function.update_self, key _ (by omega), if_neg (by omega), if_neg (by omega), if_neg (by omega)]
    · rw [Function.update_of_ne hiv, Function.update_of_ne (by omega), key _ (by omega), if_pos (by omega),
        if_pos (by omega)]
  · rw [if_neg ho, key _ (by omega), if_pos (by omega), if_pos (by omega)]

theorem sum_pairs (u : Nat → R[X]) (m : Nat) :
    ∑ k ∈ Finset.range (2 * m), u k = ∑ i ∈ Finset.range m, (u (2 * i) + u (2 * i + 1)) := by
  induction m with
  | zero => rfl
  | succ m ih =>
    rw [show 2 * (m + 1) = 2 * m + 1 + 1 by omega, Finset.sum_range_succ, Finset.sum_range_succ, ih,
      Finset.sum_range_succ]
    ring

theorem merge_sum (P : R[X]) (V : Nat) (v : Nat → R[X]) (hV : 2 ≤ V) :
    ∑ i ∈ Finset.range (V / 2 + V % 2), mergeStep P V v i * (P ^ 2) ^ i = ∑ k ∈ Finset.range V, v k * P ^ k := by
  have e : ∀ m, 2 * m ≤ V → ∑ i ∈ Finset.range m, mergeStep P V v i * (P ^ 2) ^ i
      = ∑ k ∈ Finset.range (2 * m), v k * P ^ k := by
    intro m hm
    rw [sum_pairs]
    refine Finset.sum_congr rfl fun i hi => ?_
    have := Finset.mem_range.1 hi
    rw [mergeStep_spec P V v hV i (by omega), if_pos (by omega), ← pow_mul]
    ring
  rcases Nat.mod_two_eq_zero_or_one V with h | h
  · rw [h, Nat.add_zero, e _ (by omega), show 2 * (V / 2) = V by omega]
  · rw [h, Finset.sum_range_succ, e _ (by omega), mergeStep_spec P V v hV _ (by omega), if_neg (by omega), ← pow_mul]
    conv_rhs => rw [show V = 2 * (V / 2) + 1 by omega]
    rw [Finset.sum_range_succ]

theorem mergeLoop_spec (c : R) (plen : Nat) : ∀ (fuel idx V : Nat) (v : Nat → R[X]), 1 ≤ V → V < fuel →
    V ≤ 2 ^ (plen - idx) →
    mergeLoop (precomp c) plen fuel idx V v = some (∑ k ∈ Finset.range V, v k * precomp c idx ^ k) := by
  intro fuel
  induction fuel with
  | zero => intro idx V v _ h; omega
  | succ fuel ih =>
    intro idx V v h1 h2 h3
    unfold mergeLoop
    by_cases h : 1 < V
    · have hidx : idx < plen := by
        by_contra hc
        rw [show plen - idx = 0 by omega, pow_zero] at h3
        omega
      rw [if_pos h, if_neg (by omega), ih]
      · congr 1
        exact merge_sum _ V v (by omega)
      · omega
      · omega
      · have : 2 ^ (plen - idx) = 2 ^ (plen - (idx + 1)) * 2 := by
          rw [← pow_succ]; congr 1; omega
        omega
    · rw [if_neg h, show V = 1 by omega, Finset.sum_range_one, pow_zero, mul_one]

/-- C60, divide and conquer (no assumption on the ring): for `d ≥ deg f` the shifted polynomial. -/
theorem C60_shift_dac [DecidableEq R] (d : Int) (c : R) (f : R[X])
    (hd : (if f = 0 then -1 else (f.natDegree : Int)) ≤ d) : shiftDAC d c f = some (f.comp (X + C c)) := by
  unfold shiftDAC
  by_cases h1 : d = -1
  · have hf : f = 0 := by
      by_contra h
      rw [if_neg h] at hd
      omega
    rw [if_pos h1, hf, zero_comp]
  · have hd0 : 0 ≤ d := by
      split_ifs at hd <;> omega
    obtain ⟨n, hn⟩ : ∃ n : Nat, n = if f = 0 then 0 else f.natDegree + 1 := ⟨_, rfl⟩
    have hnd : (n : Int) ≤ d + 1 := by
      split_ifs at hn hd <;> omega
    have hnc : ∀ i, n ≤ i → f.coeff i = 0 := by
      intro i hi
      split_ifs at hn with h
      · rw [h, coeff_zero]
      · exact coeff_eq_zero_of_natDegree_lt (by omega)
    rw [if_neg h1, ← hn, if_neg (by omega)]
    dsimp only
    obtain ⟨D, hD⟩ : ∃ D : Nat, d = D := ⟨d.toNat, by omega⟩
    subst hD
    rw [show ((D : Int) + 1).toNat = D + 1 by omega]
    obtain ⟨V, hV⟩ : ∃ V : Nat, V = if (D + 1) % 4 ≠ 0 then 1 + (D + 1) / 4 else (D + 1) / 4 := ⟨_, rfl⟩
    rw [← hV]
    have hV1 : D + 1 ≤ 4 * V ∧ 4 * V ≤ D + 4 := by
      split_ifs at hV <;> omega
    obtain ⟨v, v', hv, hv', hs⟩ := leaves_spec c f V n hnc (by omega)
    rw [hv]
    dsimp only
    rw [hv']
    dsimp only
    rw [mergeLoop_spec c _ _ _ _ _ (by omega) (by omega)]
    · congr 1
      have hpre : precomp c 0 = (X + C c) ^ 4 := by
        show ((X + C c) ^ 2) ^ 2 = _
        rw [← pow_mul]
      rw [comp_sum f c (4 * V)]
      · rw [← sum_blocks, hpre]
        exact Finset.sum_congr rfl fun k _ => by rw [hs k]
      · split_ifs at hn with h
        · rw [h, natDegree_zero]; omega
        · omega
    · unfold precompLen
      rw [Int.natAbs_natCast, Nat.sub_zero]
      have hsz := Nat.lt_size_self D
      by_cases h3 : 3 ≤ Nat.size D
      · rw [show max 1 (Nat.size D - 2) = Nat.size D - 2 by omega]
        have : 2 ^ Nat.size D = 2 ^ (Nat.size D - 2) * 4 := by
          rw [show (4 : Nat) = 2 ^ 2 by rfl, ← pow_add]; congr 1; omega
        omega
      · rw [show max 1 (Nat.size D - 2) = 1 by omega]
        have : 2 ^ Nat.size D ≤ 2 ^ 2 := Nat.pow_le_pow_right (by omega) (by omega)
        omega

/-! ### Large characteristic -/

variable {K : Type} [Field K]

theorem fact_eq (i : Nat) : (fact i : K) = (i.factorial : K) := by
  induction i with
  | zero => simp [fact]
  | succ i ih => rw [fact, ih, Nat.factorial_succ, Nat.cast_mul]

theorem powTab_eq (c : K) (i : Nat) : powTab c i = c ^ i := by
  induction i with
  | zero => rw [powTab, pow_zero]
  | succ i ih => rw [powTab, ih, pow_succ, mul_comm]

/-- C60, large characteristic: for `d ≥ deg f` with `1, …, d` invertible, the shifted polynomial. -/
theorem C60_shift_large [DecidableEq K] (d : Nat) (c : K) (f : K[X]) (hf : f.natDegree ≤ d)
    (hinv : ∀ i, 1 ≤ i → i ≤ d → (i : K) ≠ 0) : shiftLarge d c f = some (f.comp (X + C c)) := by
  have hfac : ∀ i, i ≤ d → (i.factorial : K) ≠ 0 := by
    intro i
    induction i with
    | zero => intro _; simp
    | succ i ih =>
      intro hi
      rw [Nat.factorial_succ, Nat.cast_mul]
      exact mul_ne_zero (hinv _ (by omega) hi) (ih (by omega))
  unfold shiftLarge
  rw [if_neg (by omega)]
  dsimp only
  rw [Int.toNat_natCast, if_neg ?_, if_neg (by omega)]
  swap
  · rintro ⟨i, hi, h⟩
    rw [fact_eq] at h
    exact hfac i (by have := Finset.mem_range.1 hi; omega) h
  congr 1
  ext j
  rw [Series.build_coeff, comp_sum f c (d + 1) (by omega), finsetSum_coeff]
  simp only [coeff_C_mul, coeff_X_add_C_pow]
  by_cases hj : j < d + 1
  · rw [if_pos hj, coeff_mod_X_pow, if_pos (by omega), mul_comm (Series.build _ _), coeff_mul,
      Finset.Nat.sum_antidiagonal_eq_sum_range_succ
        (fun x y => (Series.build (d + 1) fun i => powTab c i * (fact i)⁻¹).coeff x *
          (Series.build (d + 1) fun i => f.coeff (d - i) * fact (d - i)).coeff y)]
    have hsplit : ∑ m ∈ Finset.range (d + 1), f.coeff m * (c ^ (m - j) * (m.choose j : K))
        = ∑ k ∈ Finset.range (d + 1 - j), f.coeff (j + k) * (c ^ k * ((j + k).choose j : K)) := by
      rw [← Finset.sum_range_add_sum_Ico _ (show j ≤ d + 1 by omega), Finset.sum_eq_zero, zero_add,
        Finset.sum_Ico_eq_sum_range]
      · refine Finset.sum_congr rfl fun k _ => ?_
        rw [Nat.add_sub_cancel_left]
      · intro m hm
        have := Finset.mem_range.1 hm
        rw [Nat.choose_eq_zero_of_lt this]
        simp
    rw [hsplit, Finset.sum_mul, show (d - j).succ = d + 1 - j by omega]
    refine Finset.sum_congr rfl fun k hk => ?_
    have hk := Finset.mem_range.1 hk
    rw [Series.build_coeff, Series.build_coeff, if_pos (by omega), if_pos (by omega),
      show d - (d - j - k) = j + k by omega, powTab_eq, fact_eq, fact_eq, fact_eq]
    have hc : (((j + k).choose j : Nat) : K) * (j.factorial : K) * (k.factorial : K) = ((j + k).factorial : K) := by
      have := Nat.add_choose_mul_factorial_mul_factorial j k
      rw [← Nat.choose_symm_add] at this
      rw [← Nat.cast_mul, ← Nat.cast_mul, this]
    rw [← hc]
    have h1 := hfac j (by omega)
    have h2 := hfac k (by omega)
    field_simp
  · rw [if_neg hj]
    symm
    refine Finset.sum_eq_zero fun m hm => ?_
    have := Finset.mem_range.1 hm
    rw [Nat.choose_eq_zero_of_lt (by omega)]
    simp

/-! ### The dispatcher -/

theorem foldl_mul_list {p : Nat} (l : List Nat) : ∀ z : ZMod p,
    l.foldl (fun (a : ZMod p) (i : Nat) => a * (i : ZMod p)) z = z * (l.map fun (i : Nat) => (i : ZMod p)).prod := by
  induction l with
  | nil => intro z; simp
  | cons a l ih => intro z; rw [List.foldl_cons, ih, List.map_cons, List.prod_cons, mul_assoc]

theorem prodTest_units {p : Nat} [Fact p.Prime] (d : Nat) (h : Nat.gcd (prodTest p d).val p = 1) (i : Nat) (h1 : 1 ≤ i)
    (h2 : i ≤ d) : (i : ZMod p) ≠ 0 := by
  have hp : p.Prime := Fact.out
  have hne : prodTest p d ≠ 0 := by
    intro e
    rw [e, ZMod.val_zero, Nat.gcd_zero_left] at h
    exact hp.one_lt.ne' h
  unfold prodTest at hne
  rw [foldl_mul_list] at hne
  intro e
  rcases Nat.lt_or_ge i 3 with h3 | h3
  · interval_cases i
    · exact one_ne_zero (α := ZMod p) (by exact_mod_cast e)
    · refine hne ?_
      have : (2 : ZMod p) = 0 := by exact_mod_cast e
      rw [this, zero_mul]
  · refine hne ?_
    rw [List.prod_eq_zero (List.mem_map.2 ⟨i, ?_, e⟩), mul_zero]
    rw [List.mem_range'_1]
    omega

/-- C60: `shift(g, f, c)` sets `g` to `f(x + c)` for every nonzero `f`, every prime and every `c`. -/
theorem C60_shift_partial {p : Nat} [Fact p.Prime] (f : (ZMod p)[X]) (c : ZMod p) (hf : f ≠ 0) :
    shift f c = some (f.comp (X + C c)) := by
  unfold shift
  rw [if_neg hf]
  dsimp only
  split_ifs with h
  · exact C60_shift_large f.natDegree c f le_rfl fun i h1 h2 => prodTest_units _ h i h1 h2
  · exact C60_shift_dac _ c f (by rw [if_neg hf])

/-- What fails: for the zero polynomial and an odd prime, the constructor writes in an empty vector. -/
theorem C60_shift_zero_fails {p : Nat} [Fact p.Prime] (hp : p ≠ 2) (c : ZMod p) : shift 0 c = none := by
  have hp' : p.Prime := Fact.out
  unfold shift
  rw [if_pos rfl]
  dsimp only
  have : prodTest p (-1) = 2 := rfl
  rw [this, if_pos]
  · rfl
  · have h2 : (2 : ZMod p).val = 2 := by
      have h3 : 2 < p := lt_of_le_of_ne hp'.two_le (Ne.symm hp)
      have := ZMod.val_natCast_of_lt h3
      exact_mod_cast this
    rw [h2]
    exact (Nat.coprime_primes Nat.prime_two hp').2 (Ne.symm hp)

example : shift (X ^ 7 + C 2 * X : (ZMod 5)[X]) 3 = some ((X ^ 7 + C 2 * X : (ZMod 5)[X]).comp (X + C 3)) :=
  C60_shift_partial _ _ (by
    intro h
    have := congrArg (fun q : (ZMod 5)[X] => q.coeff 7) h
    simp [coeff_X] at this)

/-! ### `add_LeftShift` -/

theorem normLen_le [DecidableEq R] (c : Nat → R) (n : Nat) : normLen c n ≤ n := by
  induction n with
  | zero => exact le_rfl
  | succ n ih => unfold normLen; split_ifs <;> omega

theorem normLen_spec [DecidableEq R] (c : Nat → R) (n : Nat) :
    (∀ i, normLen c n ≤ i → i < n → c i = 0) ∧ (normLen c n = 0 ∨ c (normLen c n - 1) ≠ 0) := by
  induction n with
  | zero => exact ⟨fun i _ h => absurd h (by omega), Or.inl rfl⟩
  | succ n ih =>
    unfold normLen
    split_ifs with h
    · exact ⟨fun i h1 h2 => absurd h1 (by omega), Or.inr (by rw [Nat.add_sub_cancel]; exact h)⟩
    · refine ⟨fun i h1 h2 => ?_, ih.2⟩
      by_cases hi : i = n
      · rw [hi]; exact not_not.1 h
      · exact ih.1 i h1 (by omega)

/-- Coefficient `i` of `a + X^k b`. -/
def sumCoeff (la : Nat) (a : Nat → R) (lb : Nat) (b : Nat → R) (k i : Nat) : R :=
  (if i < la then a i else 0) + (if k ≤ i ∧ i < lb + k then b (i - k) else 0)

/-- C61: `add_LeftShift` computes `a + X^k b`, in place or not; the result is normalised (no zero
    leading coefficient) if `b` is not zero or `deg a ≥ k - 1`. -/
theorem C61_add_left_shift_partial [DecidableEq R] (aliased : Bool) (la lb k : Nat) (a b : Nat → R)
    (ha : la = 0 ∨ a (la - 1) ≠ 0) (hb : lb = 0 ∨ b (lb - 1) ≠ 0) :
    (∀ i, i < (addLeftShift aliased la a lb b k).1 →
      (addLeftShift aliased la a lb b k).2 i = sumCoeff la a lb b k i) ∧
    (∀ i, (addLeftShift aliased la a lb b k).1 ≤ i → sumCoeff la a lb b k i = 0) ∧
    (lb ≠ 0 ∨ k ≤ la → (addLeftShift aliased la a lb b k).1 = 0 ∨
      (addLeftShift aliased la a lb b k).2 ((addLeftShift aliased la a lb b k).1 - 1) ≠ 0) := by
  obtain ⟨c, hc⟩ : ∃ c : Nat → R, c = fun i =>
    if i < min la k then a i
    else if i < k then 0
    else if i < min la (lb + k) then a i + b (i - k)
    else if min la (lb + k) < la then a i
    else b (i - k) := ⟨_, rfl⟩
  have hcv : ∀ i, i < max la (lb + k) → c i = sumCoeff la a lb b k i := by
    intro i hi
    rw [hc]
    unfold sumCoeff
    dsimp only
    by_cases h1 : i < k
    · rw [if_neg (show ¬ (k ≤ i ∧ i < lb + k) by omega), add_zero]
      by_cases h2 : i < la
      · rw [if_pos (by omega), if_pos h2]
      · rw [if_neg (by omega), if_pos h1, if_neg h2]
    · rw [if_neg (by omega), if_neg h1]
      by_cases h2 : i < la
      · by_cases h3 : i < lb + k
        · rw [if_pos (by omega), if_pos h2, if_pos (by omega)]
        · rw [if_neg (by omega), if_pos (by omega), if_pos h2, if_neg (by omega), add_zero]
      · rw [if_neg (by omega), if_neg (by omega), if_neg h2, if_pos (by omega), zero_add]
  have hz : ∀ i, max la (lb + k) ≤ i → sumCoeff la a lb b k i = 0 := by
    intro i hi
    unfold sumCoeff
    rw [if_neg (by omega), if_neg (by omega), add_zero]
  have hnorm : ∀ M, M = normLen c (max la (lb + k)) →
      (∀ i, i < M → c i = sumCoeff la a lb b k i) ∧ (∀ i, M ≤ i → sumCoeff la a lb b k i = 0) ∧
      (M = 0 ∨ c (M - 1) ≠ 0) := by
    intro M hM
    have h1 := normLen_le c (max la (lb + k))
    have h2 := normLen_spec c (max la (lb + k))
    rw [← hM] at h1 h2
    refine ⟨fun i hi => hcv i (by omega), fun i hi => ?_, h2.2⟩
    by_cases hlt : i < max la (lb + k)
    · rw [← hcv i hlt]; exact h2.1 i hi hlt
    · exact hz i (by omega)
  unfold addLeftShift
  dsimp only
  rw [← hc]
  by_cases h1 : min la (lb + k) < la ∧ aliased = false
  · rw [if_pos h1]
    refine ⟨hcv, hz, fun _ => Or.inr ?_⟩
    show c (max la (lb + k) - 1) ≠ 0
    rw [hcv _ (by omega)]
    unfold sumCoeff
    rw [if_pos (by omega), if_neg (by omega), add_zero, show max la (lb + k) - 1 = la - 1 by omega]
    rcases ha with h | h
    · omega
    · exact h
  · rw [if_neg h1]
    by_cases h2 : min la (lb + k) < lb + k
    · rw [if_pos h2]
      refine ⟨hcv, hz, fun h => ?_⟩
      right
      have hlb : lb ≠ 0 := by
        rcases h with h | h
        · exact h
        · omega
      show c (max la (lb + k) - 1) ≠ 0
      rw [hcv _ (by omega)]
      unfold sumCoeff
      rw [if_neg (by omega), if_pos (by omega), zero_add, show max la (lb + k) - 1 - k = lb - 1 by omega]
      rcases hb with h | h
      · exact absurd h hlb
      · exact h
    · rw [if_neg h2]
      obtain ⟨g1, g2, g3⟩ := hnorm _ rfl
      exact ⟨g1, g2, fun _ => g3⟩

/-- What fails: if `b = 0` and `deg a < k - 1` the result has `k` coefficients, the last one being
    zero, so that its degree is reported as `k - 1`. -/
theorem C61_add_left_shift_not_normalised [DecidableEq R] (aliased : Bool) (la k : Nat) (a b : Nat → R) (h : la < k) :
    (addLeftShift aliased la a 0 b k).1 = k ∧ (addLeftShift aliased la a 0 b k).2 (k - 1) = 0 := by
  unfold addLeftShift
  dsimp only
  rw [if_neg (by omega), if_pos (by omega)]
  refine ⟨by show max la (0 + k) = k; omega, ?_⟩
  dsimp only
  rw [if_neg (by omega), if_pos (by omega)]

example : (addLeftShift (R := ℤ) true 2 (fun i => i + 1) 2 (fun i => i + 5) 1).1 = 3 := by decide

end PML.Ntl.Shift
