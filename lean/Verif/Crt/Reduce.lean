import Verif.Crt.Lemmas

/-!
# Lemmas for multimodular reduction
-/

namespace PML.Crt

open PML.Word PML.Crt.Spec Finset

/-! ### Split dot products with entries bounded by powers of two -/

/-- The split dot product, entries below `2^30` and `2^24`. -/
theorem dot2SplitOne_slices (v1 v2 : Nat → Nat) (len n : Nat) (hn : n ≤ 2 ^ 30) (hn0 : 0 < n)
    (h1 : Bits v1 len 30) (h2 : Bits v2 len 24) (hlen : len < 2 ^ 34) :
    dot2SplitOne v1 v2 len n (2 ^ SB % n) = dot v1 v2 len % n := by
  obtain ⟨i1, i2, i3, i4⟩ := split_tail v1 v2 (2 ^ 30) len (by norm_num [maxModulus]) (by norm_num)
    (fun i hi => h1 i hi) (fun i hi => lt_trans (h2 i hi) (by norm_num)) (by omega)
  have hle := dotOff_le v1 v2 0 len (2 ^ 30 - 1) (2 ^ 24 - 1)
    (fun j hj => by have := h1 (0 + j) (by omega); omega)
    (fun j hj => by have := h2 (0 + j) (by omega); omega)
  have hd : dot v1 v2 len = dotOff v1 v2 0 len := by simp [dot, dotOff]
  unfold dot2SplitOne
  refine pow2_combine _ _ n _ i1 ?_
  have hp : 2 ^ SB % n < 2 ^ 30 := lt_of_lt_of_le (Nat.mod_lt _ hn0) hn
  generalize (splitBlocks v1 v2 (len / 8)).1 = hi at *
  have hhi : hi ≤ len / 4 := by
    have : hi * 2 ^ 56 ≤ len * ((2 ^ 30 - 1) * (2 ^ 24 - 1)) := by
      rw [← hd, ← i1] at hle
      exact (Nat.le_add_right _ _).trans hle
    norm_num at this
    omega
  have : (2 ^ SB % n) * hi ≤ 2 ^ 30 * (len / 4) := Nat.mul_le_mul (le_of_lt hp) hhi
  simp only [SB, W] at *
  omega

/-- The split dot product, entries below `2^30`, up to length `2^29`. -/
theorem dot2SplitOne_thirty (v1 v2 : Nat → Nat) (len n : Nat) (hn : n ≤ 2 ^ 30) (hn0 : 0 < n)
    (h1 : Bits v1 len 30) (h2 : Bits v2 len 30) (hlen : len ≤ 2 ^ 29) :
    dot2SplitOne v1 v2 len n (2 ^ SB % n) = dot v1 v2 len % n := by
  obtain ⟨i1, i2, i3, i4⟩ := split_tail v1 v2 (2 ^ 30) len (by norm_num [maxModulus]) (by norm_num)
    (fun i hi => h1 i hi) (fun i hi => h2 i hi) (by omega)
  unfold dot2SplitOne
  refine pow2_combine _ _ n _ i1 ?_
  have hp : 2 ^ SB % n < 2 ^ 30 := lt_of_lt_of_le (Nat.mod_lt _ hn0) hn
  have hle := dotOff_le v1 v2 0 len (2 ^ 30 - 1) (2 ^ 30 - 1)
    (fun j hj => by have := h1 (0 + j) (by omega); omega)
    (fun j hj => by have := h2 (0 + j) (by omega); omega)
  have hd : dot v1 v2 len = dotOff v1 v2 0 len := by simp [dot, dotOff]
  generalize (splitBlocks v1 v2 (len / 8)).1 = hi at *
  have hhi : hi ≤ 16 * len := by
    have : hi * 2 ^ 56 ≤ len * ((2 ^ 30 - 1) * (2 ^ 30 - 1)) := by
      rw [← hd, ← i1] at hle
      exact (Nat.le_add_right _ _).trans hle
    norm_num at this
    omega
  have : (2 ^ SB % n) * hi ≤ (2 ^ 30 - 1) * (16 * len) := Nat.mul_le_mul (by omega) hhi
  simp only [SB, W] at *
  omega

/-! ### Powers -/

theorem twoBits_eq (p : Nat) : twoBits p = 2 ^ 64 % p := by
  unfold twoBits
  rw [← Nat.add_mod, show (2 : Nat) ^ 64 = 2 ^ 63 + 2 ^ 63 by norm_num]

theorem nmodMul_pow (p a b : Nat) : nmodMul (2 ^ a % p) (2 ^ b % p) p = 2 ^ (a + b) % p := by
  unfold nmodMul
  rw [← Nat.mul_mod, pow_add]

theorem powLarge_spec {p : Nat} (hp : 2 ≤ p) (v0 : Nat → Nat) : ∀ k u, u ≤ k →
    powLarge p v0 k u = 2 ^ (64 * u) % p := by
  intro k
  induction k with
  | zero =>
    intro u hu
    obtain rfl : u = 0 := by omega
    rw [powLarge, Function.update_self, Nat.mul_zero, pow_zero, Nat.mod_eq_of_lt (by omega)]
  | succ k ih =>
    intro u hu
    rw [powLarge]
    by_cases h : u = k + 1
    · rw [h, Function.update_self, ih k (le_refl _), twoBits_eq, nmodMul_pow]
      rfl
    · rw [Function.update_of_ne h, ih u (by omega)]

/-- Exponent of the power of two at index `j`. -/
def expo (j : Nat) : Nat := 64 * (j / 3) + 24 * (j % 3)

theorem powSmall_spec {p : Nat} (hp : 2 ≤ p) (len : Nat) (v0 : Nat → Nat) : ∀ k, 3 * k ≤ len - 1 →
    ∀ u, u < 3 * (k + 1) → (u < len ∨ u < 3) → powSmall p len v0 k u = 2 ^ expo u % p := by
  intro k
  induction k with
  | zero =>
    intro _ u hu _
    rw [powSmall]
    have : u = 0 ∨ u = 1 ∨ u = 2 := by omega
    rcases this with rfl | rfl | rfl
    · rw [Function.update_of_ne (by omega), Function.update_of_ne (by omega), Function.update_self]
      rw [show expo 0 = 0 from rfl, pow_zero, Nat.mod_eq_of_lt (by omega)]
    · rw [Function.update_of_ne (by omega), Function.update_self]
      rfl
    · rw [Function.update_self]
      rfl
  | succ k ih =>
    intro hk u hu hlen
    have ih := ih (by omega)
    have e0 : powSmall p len v0 k (3 * (k + 1) - 3) = 2 ^ (64 * k) % p := by
      rw [ih _ (by omega) (Or.inl (by omega))]
      congr 2
      unfold expo
      omega
    have x0 : expo (3 * (k + 1)) = 64 * k + 64 := by unfold expo; omega
    have x1 : expo (3 * (k + 1) + 1) = 64 * k + 64 + 24 := by unfold expo; omega
    have x2 : expo (3 * (k + 1) + 2) = 64 * k + 64 + 24 + 24 := by unfold expo; omega
    rw [powSmall]
    unfold powSmallStep
    simp only [e0, twoBits_eq, nmodMul_pow, Function.update_self]
    by_cases h1 : 3 * (k + 1) + 1 < len
    · rw [if_pos h1]
      by_cases h2 : 3 * (k + 1) + 2 < len
      · rw [if_pos h2]
        by_cases c2 : u = 3 * (k + 1) + 2
        · rw [c2, Function.update_self, x2]
        · rw [Function.update_of_ne c2]
          by_cases c1 : u = 3 * (k + 1) + 1
          · rw [c1, Function.update_self, x1]
          · rw [Function.update_of_ne c1]
            by_cases c0 : u = 3 * (k + 1)
            · rw [c0, Function.update_self, x0]
            · rw [Function.update_of_ne c0]
              exact ih u (by omega) hlen
      · rw [if_neg h2]
        by_cases c1 : u = 3 * (k + 1) + 1
        · rw [c1, Function.update_self, x1]
        · rw [Function.update_of_ne c1]
          by_cases c0 : u = 3 * (k + 1)
          · rw [c0, Function.update_self, x0]
          · rw [Function.update_of_ne c0]
            exact ih u (by omega) hlen
    · rw [if_neg h1]
      by_cases c0 : u = 3 * (k + 1)
      · rw [c0, Function.update_self, x0]
      · rw [Function.update_of_ne c0]
        exact ih u (by omega) hlen

/-! ### Reductions of the absolute value -/

theorem dot_limbs (x p : Nat) (v : Nat → Nat) (k : Nat) (hv : ∀ u, u < k → v u = 2 ^ (64 * u) % p) :
    dot v (limb x) k % p = x % W ^ k % p := by
  induction k with
  | zero => simp [dot, Nat.mod_one]
  | succ k ih =>
    rw [mod_pow_succ]
    unfold dot at *
    rw [sum_range_succ, Nat.add_mod, ih fun u hu => hv u (by omega), hv k (by omega), Nat.mod_mul_mod,
      ← Nat.add_mod]
    congr 2
    rw [mul_comm, W, ← pow_mul]

theorem limb_slices (l : Nat) :
    l % 2 ^ 24 + 2 ^ 24 * (l / 2 ^ 24 % 2 ^ 24) + 2 ^ 48 * (l / 2 ^ 48) = l := by omega

theorem dot_slices (x p : Nat) (v : Nat → Nat) (k : Nat) (hk : k ≤ numLimbs x)
    (hv : ∀ u, u < 3 * k → v u = 2 ^ expo u % p) : dot v (slices x) (3 * k) % p = x % W ^ k % p := by
  induction k with
  | zero => simp [dot, Nat.mod_one]
  | succ k ih =>
    have ih := ih (by omega) fun u hu => hv u (by omega)
    have s0 : slices x (3 * k) = limb x k % 2 ^ 24 := by
      unfold slices
      rw [if_pos (by omega), if_pos (by omega), show 3 * k / 3 = k by omega]
    have s1 : slices x (3 * k + 1) = limb x k / 2 ^ 24 % 2 ^ 24 := by
      unfold slices
      rw [if_pos (by omega), if_neg (by omega), if_pos (by omega), show (3 * k + 1) / 3 = k by omega]
    have s2 : slices x (3 * k + 2) = limb x k / 2 ^ 48 := by
      unfold slices
      rw [if_pos (by omega), if_neg (by omega), if_neg (by omega), show (3 * k + 2) / 3 = k by omega]
    have x0 : expo (3 * k) = 64 * k := by unfold expo; omega
    have x1 : expo (3 * k + 1) = 24 + 64 * k := by unfold expo; omega
    have x2 : expo (3 * k + 2) = 48 + 64 * k := by unfold expo; omega
    have hl := limb_slices (limb x k)
    have hs : dot v (slices x) (3 * (k + 1)) = dot v (slices x) (3 * k) +
        (2 ^ (64 * k) % p * (limb x k % 2 ^ 24) + 2 ^ (24 + 64 * k) % p * (limb x k / 2 ^ 24 % 2 ^ 24) +
        2 ^ (48 + 64 * k) % p * (limb x k / 2 ^ 48)) := by
      rw [show 3 * (k + 1) = 3 * k + 1 + 1 + 1 by ring]
      unfold dot
      rw [sum_range_succ, sum_range_succ, sum_range_succ, s0, s1, s2, hv _ (by omega), hv _ (by omega),
        hv _ (by omega), x0, x1, x2]
      ring
    rw [hs, mod_pow_succ]
    have key : (2 ^ (64 * k) % p * (limb x k % 2 ^ 24) + 2 ^ (24 + 64 * k) % p * (limb x k / 2 ^ 24 % 2 ^ 24) +
        2 ^ (48 + 64 * k) % p * (limb x k / 2 ^ 48)) ≡ limb x k * W ^ k [MOD p] := by
      have h1 : limb x k * W ^ k = 2 ^ (64 * k) * (limb x k % 2 ^ 24) +
          2 ^ (24 + 64 * k) * (limb x k / 2 ^ 24 % 2 ^ 24) + 2 ^ (48 + 64 * k) * (limb x k / 2 ^ 48) := by
        rw [pow_add 2 24, pow_add 2 48, W, ← pow_mul]
        conv_lhs => rw [← hl]
        ring
      rw [h1]
      exact Nat.ModEq.add (Nat.ModEq.add ((Nat.mod_modEq _ _).mul_right _)
        ((Nat.mod_modEq _ _).mul_right _)) ((Nat.mod_modEq _ _).mul_right _)
    exact Nat.ModEq.add ih key

theorem dot_slices_pad (x : Nat) (v : Nat → Nat) (len : Nat) (hlen : 3 * numLimbs x ≤ len) :
    dot v (slices x) len = dot v (slices x) (3 * numLimbs x) := by
  unfold dot
  refine (sum_subset (range_mono hlen) fun j _ hj => ?_).symm
  rw [mem_range] at hj
  unfold slices
  rw [if_neg hj, Nat.mul_zero]

theorem slices_lt (x j : Nat) : slices x j < 2 ^ 24 := by
  unfold slices
  have := limb_lt x (j / 3)
  simp only [W] at this
  split
  · split
    · omega
    · split <;> omega
  · norm_num

/-- Sign of the result. -/
theorem nmodNeg_spec {p r : Nat} (a : Int) (hp : 0 < p) (hr : (r : Int) = (-a) % (p : Int)) :
    ((nmodNeg r p : Nat) : Int) = a % (p : Int) := by
  have hpos : (0 : Int) < p := by exact_mod_cast hp
  have h0 := Int.emod_nonneg (-a) (ne_of_gt hpos)
  have h1 := Int.emod_lt_of_pos (-a) hpos
  unfold nmodNeg
  have hneg : a % (p : Int) = (-((-a) % (p : Int))) % (p : Int) := by
    have := (Int.mod_modEq (-a) p).neg
    rw [neg_neg] at this
    exact this.symm
  by_cases h : r = 0
  · rw [if_pos h]
    rw [h] at hr
    rw [hneg, ← hr]
    simp
  · rw [if_neg h, hneg, ← hr, Nat.cast_sub (by omega)]
    have : (-(r : Int)) = ((p : Int) - r) + p * (-1) := by ring
    rw [this, Int.add_mul_emod_self_left, Int.emod_eq_of_lt (by omega) (by omega)]

/-- Reduction of an absolute value, then the sign. -/
theorem sign_spec {p r : Nat} (a : Int) (hp : 0 < p) (hr : r = a.natAbs % p) :
    (((if a < 0 then nmodNeg r p else r) : Nat) : Int) = a % (p : Int) := by
  by_cases h : a < 0
  · rw [if_pos h]
    refine nmodNeg_spec a hp ?_
    rw [hr]
    push_cast
    rw [abs_of_neg h]
  · rw [if_neg h, hr]
    push_cast
    rw [abs_of_nonneg (by omega)]

variable {p : Nat → Nat} {n : Nat}

theorem numLimbs_modProd_le (h : Moduli p n) (hn : 0 < n) : numLimbs (modProd p n) ≤ n := by
  have h2 : modProd p n < (2 ^ 64) ^ n := by
    unfold modProd
    have := prod_lt_prod_of_nonempty (s := range n) (f := p) (g := fun _ => 2 ^ 64)
      (fun i hi => by have := h.two_le i (mem_range.1 hi); omega) (fun i hi => h.word i (mem_range.1 hi))
      ⟨0, mem_range.2 (by omega)⟩
    rwa [prod_const, card_range] at this
  rw [← pow_mul] at h2
  have := Nat.size_le.2 h2
  unfold numLimbs
  omega

theorem naiveReduceCore_spec (h : Moduli p n) (v0 : Nat → Nat) (A : Int) (hA : A.natAbs < modProd p n) :
    ∀ i, i < n → ∃ r, naiveReduceCore A (naiveModInit v0 p n) i = some r ∧ (r : Int) = A % (p i : Int) := by
  intro i hi
  have hp := h.two_le i hi
  have hn64 : n < 2 ^ 64 := h.num_lt h.word (by norm_num)
  have hlimbs := numLimbs_modProd_le h (by omega)
  have hAl : numLimbs A.natAbs ≤ numLimbs (modProd p n) := numLimbs_mono (le_of_lt hA)
  have hAlt := lt_numLimbs A.natAbs
  unfold naiveReduceCore
  by_cases hs : maxLoop p n < 2 ^ 30
  · have hsm : (naiveModInit v0 p n).small = true := decide_eq_true hs
    rw [if_pos hsm]
    refine ⟨_, rfl, ?_⟩
    unfold reduceSmall
    show (((if ¬ isMpz A then if A < 0 then nmodNeg (nmod_red A.natAbs (p i)) (p i)
      else nmod_red A.natAbs (p i) else _) : Nat) : Int) = _
    by_cases hm : isMpz A
    · rw [if_neg (not_not.2 hm)]
      refine sign_spec (p := p i) A (by omega) ?_
      have hp30 : p i < 2 ^ 30 := lt_of_le_of_lt (maxLoop_spec p n i hi) hs
      have hn30 : n < 2 ^ 30 := h.num_lt (fun j hj => lt_of_le_of_lt (maxLoop_spec p n j hj) hs) (by norm_num)
      have hpow : ∀ u, u < roundUp4 (3 * numLimbs A.natAbs) →
          (naiveModInit v0 p n).powers i u = 2 ^ expo u % p i := by
        intro u hu
        show (if decide (maxLoop p n < 2 ^ 30) = true then _ else _ : Nat → Nat) u = _
        rw [if_pos (decide_eq_true hs), prodLoop_eq]
        have hle : roundUp4 (3 * numLimbs A.natAbs) ≤ roundUp4 (3 * numLimbs (modProd p n)) := by
          unfold roundUp4; omega
        exact powSmall_spec hp _ v0 _ (by omega) u (by omega) (Or.inl (by omega))
      have hpad : 3 * numLimbs A.natAbs ≤ roundUp4 (3 * numLimbs A.natAbs) := by
        unfold roundUp4; omega
      show dot2SplitOne _ _ _ (p i) (nmod_red (2 ^ SB) (p i)) = _
      unfold nmod_red
      rw [dot2SplitOne_slices _ _ _ (p i) (by omega) (by omega)
        (fun u hu => by rw [hpow u hu]; exact lt_trans (Nat.mod_lt _ (by omega)) hp30)
        (fun u _ => slices_lt _ u) (by unfold roundUp4; omega), dot_slices_pad _ _ _ hpad,
        dot_slices _ _ _ _ (le_refl _) fun u hu => hpow u (by omega), Nat.mod_eq_of_lt hAlt]
    · rw [if_pos hm]
      exact sign_spec A (by omega) rfl
  · have hsm : ¬ (naiveModInit v0 p n).small = true := by
      show ¬ decide _ = true
      simpa using hs
    rw [if_neg hsm]
    unfold reduceOne
    show ∃ r, (if ¬ isMpz A then if A < 0 then some (nmodNeg (nmod_red A.natAbs (p i)) (p i))
      else some (nmod_red A.natAbs (p i)) else _) = some r ∧ _
    by_cases hm : isMpz A
    · rw [if_neg (not_not.2 hm)]
      have hpow : ∀ u, u < numLimbs A.natAbs →
          (naiveModInit v0 p n).powers i u = 2 ^ (64 * u) % p i := by
        intro u hu
        show (if decide (maxLoop p n < 2 ^ 30) = true then _ else _ : Nat → Nat) u = _
        rw [if_neg (by simpa using hs), prodLoop_eq]
        exact powLarge_spec hp v0 _ u (by omega)
      have hd := C02_dot_product_unbalanced ((naiveModInit v0 p n).powers i) (limb A.natAbs)
        (numLimbs A.natAbs) (Nat.size (p i)) 64 (p i) (Nat.size_le.2 (h.word i hi)) (le_refl _) (by omega)
        (by omega) (fun u hu => by
          rw [hpow u hu]; exact lt_trans (Nat.mod_lt _ (by omega)) (Nat.lt_size_self _))
        (fun u _ => limb_lt _ _) (numLimbs A.natAbs) (le_refl _)
      refine ⟨if A < 0 then nmodNeg (A.natAbs % p i) (p i) else A.natAbs % p i, ?_,
        sign_spec A (by omega) rfl⟩
      have hv := dot_limbs A.natAbs (p i) _ _ hpow
      rw [Nat.mod_eq_of_lt hAlt] at hv
      rw [hv] at hd
      show (if A < 0 then Option.map _ (dotUnbalanced _ _ _ _ _ _ (p i)) else dotUnbalanced _ _ _ _ _ _ (p i)) = _
      have hd' : dotUnbalanced (numLimbs A.natAbs) ((naiveModInit v0 p n).powers i) (limb A.natAbs)
        (numLimbs A.natAbs) (Nat.size ((naiveModInit v0 p n).mod i)) 64 (p i) = some (A.natAbs % p i) := hd
      rw [hd']
      by_cases hneg : A < 0
      · rw [if_pos hneg, if_pos hneg]; rfl
      · rw [if_neg hneg, if_neg hneg]
    · rw [if_pos hm]
      refine ⟨if A < 0 then nmodNeg (A.natAbs % p i) (p i) else A.natAbs % p i, ?_,
        sign_spec A (by omega) rfl⟩
      by_cases hneg : A < 0
      · rw [if_pos hneg, if_pos hneg]; rfl
      · rw [if_neg hneg, if_neg hneg]; rfl

theorem naiveReduce_spec (h : Moduli p n) (v0 : Nat → Nat) (A : Int) :
    ∀ i, i < n → ∃ r, naiveReduce A (naiveModInit v0 p n) i = some r ∧ (r : Int) = A % (p i : Int) := by
  intro i hi
  have hprod : (naiveModInit v0 p n).prod = modProd p n := prodLoop_eq p n
  have hpos := modProd_pos h
  unfold naiveReduce
  rw [hprod]
  by_cases hA : modProd p n ≤ A.natAbs
  · rw [if_pos hA]
    have h0 := Int.emod_nonneg A (b := (modProd p n : Int)) (by omega)
    have h1 := Int.emod_lt_of_pos A (b := (modProd p n : Int)) (by omega)
    obtain ⟨r, h2, h3⟩ := naiveReduceCore_spec h v0 (A % (modProd p n : Int)) (by omega) i hi
    refine ⟨r, h2, h3.trans (Int.emod_emod_of_dvd _ ?_)⟩
    exact_mod_cast dvd_prod_of_mem p (mem_range.2 hi)
  · rw [if_neg hA]
    exact naiveReduceCore_spec h v0 A (by omega) i hi

end PML.Crt
