import Verif.Crt.Model
import Verif.Crt.Spec
import Verif.Word.Props
import Mathlib.Algebra.BigOperators.Ring.Finset
import Mathlib.Algebra.Order.BigOperators.Group.Finset
import Mathlib.Algebra.BigOperators.Ring.Nat
import Mathlib.Data.ZMod.Basic
import Mathlib.Data.Nat.Size
import Mathlib.Algebra.Order.BigOperators.Ring.Finset
import Mathlib.Data.Nat.GCD.BigOperators

/-!
# Lemmas for multimodular reduction and Chinese remaindering
-/

namespace PML.Crt

open PML.Word PML.Crt.Spec Finset

/-! ### Products, limbs -/

theorem prodLoop_eq (p : Nat → Nat) (n : Nat) : prodLoop p n = modProd p n := by
  induction n with
  | zero => rfl
  | succ n ih => rw [prodLoop, ih, modProd, modProd, prod_range_succ]

theorem lt_numLimbs (x : Nat) : x < W ^ numLimbs x := by
  refine lt_of_lt_of_le (Nat.lt_size_self x) ?_
  unfold numLimbs W
  rw [← pow_mul]
  exact Nat.pow_le_pow_right (by norm_num) (by omega)

theorem numLimbs_mono {x y : Nat} (h : x ≤ y) : numLimbs x ≤ numLimbs y := by
  have := Nat.size_le_size h
  unfold numLimbs
  omega

theorem limb_zero_of_lt {x k : Nat} (h : x < W ^ k) : limb x k = 0 := by
  unfold limb
  rw [Nat.div_eq_of_lt h]
  rfl

theorem coeffOf_eq (x k : Nat) : coeffOf x k = limb x k := by
  unfold coeffOf
  by_cases hm : isMpz (x : Int)
  · rw [if_neg (not_not.2 hm)]
    by_cases hk : k < numLimbs x
    · rw [if_pos hk]
    · rw [if_neg hk]
      refine (limb_zero_of_lt (lt_of_lt_of_le (lt_numLimbs x) ?_)).symm
      exact Nat.pow_le_pow_right (by norm_num [W]) (by omega)
  · rw [if_pos hm]
    have hx : x < 2 ^ 62 := by
      unfold isMpz at hm
      simpa using hm
    by_cases hk : k = 0
    · rw [if_pos hk, hk]
      unfold limb
      rw [pow_zero, Nat.div_one, Nat.mod_eq_of_lt (by simp only [W]; omega)]
    · rw [if_neg hk]
      refine (limb_zero_of_lt (lt_of_lt_of_le hx ?_)).symm
      calc 2 ^ 62 ≤ W ^ 1 := by norm_num [W]
        _ ≤ W ^ k := Nat.pow_le_pow_right (by norm_num [W]) (by omega)

theorem limb_lt (x k : Nat) : limb x k < W := Nat.mod_lt _ (by norm_num [W])

/-- Adding one limb. -/
theorem mod_pow_succ (x k : Nat) : x % W ^ (k + 1) = x % W ^ k + limb x k * W ^ k := by
  unfold limb
  rw [Nat.pow_succ, Nat.mod_mul, mul_comm (W ^ k)]

theorem limb_sum (x k : Nat) : ∑ i ∈ range k, limb x i * W ^ i = x % W ^ k := by
  induction k with
  | zero => rw [sum_range_zero, pow_zero, Nat.mod_one]
  | succ k ih => rw [sum_range_succ, ih, mod_pow_succ]

theorem maxBits_spec (p : Nat → Nat) : ∀ n i, i < n → Nat.size (p i) ≤ maxBits p n := by
  intro n
  induction n with
  | zero => intro i hi; omega
  | succ n ih =>
    intro i hi
    rw [maxBits]
    by_cases h : i = n
    · rw [h]; exact le_max_right _ _
    · exact (ih i (by omega)).trans (le_max_left _ _)

theorem maxBits_le (p : Nat → Nat) (b : Nat) : ∀ n, (∀ i, i < n → p i < 2 ^ b) → maxBits p n ≤ b := by
  intro n
  induction n with
  | zero => intro _; exact Nat.zero_le _
  | succ n ih =>
    intro h
    exact max_le (ih fun i hi => h i (by omega)) (Nat.size_le.2 (h n (by omega)))

theorem maxLoop_spec (p : Nat → Nat) : ∀ n i, i < n → p i ≤ maxLoop p n := by
  intro n
  induction n with
  | zero => intro i hi; omega
  | succ n ih =>
    intro i hi
    rw [maxLoop]
    by_cases h : i = n
    · rw [h]; split <;> omega
    · have := ih i (by omega)
      split <;> omega

/-! ### The combination -/

theorem mpzVal_update {dat : Nat → Nat} {s k : Nat} (v : Nat) (hk : k < s) :
    mpzVal (Function.update dat k v) s + dat k * W ^ k = mpzVal dat s + v * W ^ k := by
  unfold mpzVal
  rw [← Finset.add_sum_erase _ _ (mem_range.2 hk), ← Finset.add_sum_erase (range s) _ (mem_range.2 hk),
    Function.update_self]
  have : ∑ x ∈ (range s).erase k, Function.update dat k v x * W ^ x = ∑ x ∈ (range s).erase k, dat x * W ^ x :=
    sum_congr rfl fun x hx => by rw [Function.update_of_ne (ne_of_mem_erase hx)]
  rw [this]
  ring

theorem mpzVal_lt (dat : Nat → Nat) (h : ∀ k, dat k < W) (s : Nat) : mpzVal dat s < W ^ s := by
  induction s with
  | zero => simp [mpzVal]
  | succ s ih =>
    unfold mpzVal at *
    rw [sum_range_succ, pow_succ]
    have := h s
    calc _ < W ^ s + dat s * W ^ s := by omega
      _ = (dat s + 1) * W ^ s := by ring
      _ ≤ W * W ^ s := Nat.mul_le_mul_right _ this
      _ = _ := mul_comm _ _

theorem mpzVal_succ (dat : Nat → Nat) (s : Nat) : mpzVal dat (s + 1) = mpzVal dat s + dat s * W ^ s :=
  sum_range_succ _ _

theorem trim_val (dat : Nat → Nat) (s : Nat) : mpzVal dat (trimSize dat s) = mpzVal dat s := by
  induction s with
  | zero => rfl
  | succ s ih =>
    rw [trimSize]
    by_cases h : dat s = 0
    · rw [if_pos h, ih, mpzVal_succ, h, Nat.zero_mul, Nat.add_zero]
    · rw [if_neg h]

/-- The combination of residues. -/
def combSum (p m : Nat → Nat) (n : Nat) : Nat := ∑ j ∈ range n, m j * (modProd p n / p j)

theorem combineLoop_spec (C : NaiveCrt) (m : Nat → Nat) (cof : Nat → Nat)
    (hcof : ∀ k i, C.coeffs k i = limb (cof i) k) (hn : C.num < 2 ^ 64) (hb : C.bits ≤ 64)
    (hm : ∀ i, i < C.num → m i < 2 ^ C.bits) : ∀ i, ∃ dat, combineLoop C m i = some dat ∧
      (∀ k, dat k < W) ∧ (∀ k, i + 2 ≤ k → dat k = 0) ∧
      mpzVal dat (i + 2) = ∑ j ∈ range C.num, m j * (cof j % W ^ i) := by
  intro i
  have hW : 0 < W := by norm_num [W]
  induction i with
  | zero =>
    refine ⟨_, rfl, fun _ => hW, fun _ _ => rfl, ?_⟩
    simp [mpzVal, Nat.mod_one]
  | succ i ih =>
    obtain ⟨dat, h1, h2, h3, h4⟩ := ih
    obtain ⟨tmp, ht1, ht2, ht3⟩ := C01_integer_dot_exact (C.coeffs i) m C.num 64 C.bits (le_refl _) hb hn
      (fun j _ => by rw [hcof]; exact limb_lt _ _) hm
    rw [combineLoop, h1]
    simp only [ht1 C.num (le_refl _)]
    -- the new total
    have hnew : ∑ j ∈ range C.num, m j * (cof j % W ^ (i + 1)) = mpzVal dat (i + 2) + value3 tmp * W ^ i := by
      rw [h4, ht3]
      unfold dot
      rw [sum_mul, ← sum_add_distrib]
      refine sum_congr rfl fun j _ => ?_
      rw [mod_pow_succ, hcof]
      ring
    have hbound : ∑ j ∈ range C.num, m j * (cof j % W ^ (i + 1)) < W ^ (i + 3) := by
      have h1 : ∑ j ∈ range C.num, m j * (cof j % W ^ (i + 1)) ≤ ∑ _j ∈ range C.num, W * W ^ (i + 1) := by
        refine sum_le_sum fun j hj => Nat.mul_le_mul ?_ (le_of_lt (Nat.mod_lt _ (by positivity)))
        exact le_of_lt (lt_of_lt_of_le (hm j (mem_range.1 hj)) (Nat.pow_le_pow_right (by norm_num) hb))
      rw [sum_const, card_range, smul_eq_mul] at h1
      refine lt_of_le_of_lt h1 ?_
      calc C.num * (W * W ^ (i + 1)) < W * (W * W ^ (i + 1)) :=
            Nat.mul_lt_mul_of_pos_right hn (by positivity)
        _ = W ^ (i + 3) := by ring
    have hz : dat (i + 2) = 0 := h3 _ (le_refl _)
    have hval : mpzVal dat (i + 2) = mpzVal dat i + value3 (dat (i + 2), dat (i + 1), dat i) * W ^ i := by
      rw [mpzVal_succ, mpzVal_succ, hz]
      unfold value3
      simp only [W]
      ring
    have hfit : value3 (dat (i + 2), dat (i + 1), dat i) + value3 tmp < W ^ 3 := by
      have : (value3 (dat (i + 2), dat (i + 1), dat i) + value3 tmp) * W ^ i < W ^ 3 * W ^ i := by
        calc _ ≤ mpzVal dat (i + 2) + value3 tmp * W ^ i := by rw [hval]; ring_nf; omega
          _ < W ^ (i + 3) := by rw [← hnew]; exact hbound
          _ = _ := by ring
      exact lt_of_mul_lt_mul_right this (Nat.zero_le _)
    have hr := add3_val (dat (i + 2), dat (i + 1), dat i) tmp hfit
    have hw := add3_words (dat (i + 2), dat (i + 1), dat i) tmp
    generalize add_sssaaaaaa (dat (i + 2), dat (i + 1), dat i) tmp = r at *
    obtain ⟨hw1, hw2, hw3⟩ := hw
    refine ⟨_, rfl, fun k => ?_, fun k hk => ?_, ?_⟩
    · by_cases e0 : k = i
      · rw [e0, Function.update_self]; exact hw3
      · rw [Function.update_of_ne e0]
        by_cases e1 : k = i + 1
        · rw [e1, Function.update_self]; exact hw2
        · rw [Function.update_of_ne e1]
          by_cases e2 : k = i + 2
          · rw [e2, Function.update_self]; exact hw1
          · rw [Function.update_of_ne e2]; exact h2 k
    · rw [Function.update_of_ne (by omega), Function.update_of_ne (by omega),
        Function.update_of_ne (by omega)]
      exact h3 k (by omega)
    · rw [hnew, hval]
      have hlow : mpzVal (Function.update (Function.update (Function.update dat (i + 2) r.1) (i + 1) r.2.1)
          i r.2.2) i = mpzVal dat i := by
        unfold mpzVal
        refine sum_congr rfl fun k hk => ?_
        have := mem_range.1 hk
        rw [Function.update_of_ne (by omega), Function.update_of_ne (by omega),
          Function.update_of_ne (by omega)]
      rw [show i + 1 + 2 = i + 1 + 1 + 1 by omega, mpzVal_succ, mpzVal_succ, mpzVal_succ, hlow,
        Function.update_self, Function.update_of_ne (by omega), Function.update_self,
        Function.update_of_ne (by omega), Function.update_of_ne (by omega), Function.update_self,
        Nat.add_assoc (mpzVal dat i) (_ * W ^ i) (_ * W ^ i), ← Nat.add_mul, ← hr]
      unfold value3
      simp only [W]
      ring

variable {p : Nat → Nat} {n : Nat}

theorem modProd_pos (h : Moduli p n) : 0 < modProd p n :=
  prod_pos fun i hi => by have := h.two_le i (mem_range.1 hi); omega

theorem _root_.PML.Crt.Spec.Moduli.inj (h : Moduli p n) : ∀ i j, i < n → j < n → p i = p j → i = j := by
  intro i j hi hj hij
  by_contra hne
  have := h.coprime i j hi hj hne
  rw [hij, Nat.coprime_self] at this
  have := h.two_le j hj
  omega

/-- There are fewer moduli than their bound. -/
theorem _root_.PML.Crt.Spec.Moduli.num_lt (h : Moduli p n) {B : Nat} (hB : ∀ i, i < n → p i < B) (hB0 : 0 < B) : n < B := by
  have h1 : (range n).card ≤ ((range B).erase 0).card :=
    card_le_card_of_injOn p (fun i hi => by
      have hi := mem_range.1 hi
      rw [mem_coe, mem_erase, mem_range]
      exact ⟨by have := h.two_le i hi; omega, hB i hi⟩)
      fun i hi j hj hij => h.inj i j (mem_range.1 hi) (mem_range.1 hj) hij
  rw [card_range, card_erase_of_mem (mem_range.2 hB0), card_range] at h1
  omega

theorem combine_spec (inv : Nat → Nat → Nat) (h : Moduli p n) (m : Nat → Nat)
    (hm : ∀ i, i < n → m i < p i) :
    combine (naiveCrtInit inv p n) m = some ((combSum p m n : Nat) : Int) := by
  have hn : n < 2 ^ 64 := h.num_lt h.word (by norm_num)
  obtain ⟨dat, h1, h2, h3, h4⟩ := combineLoop_spec (naiveCrtInit inv p n) m (fun i => modProd p n / p i)
    (fun k i => by
      show coeffOf (prodLoop p n / p i) k = _
      rw [coeffOf_eq, prodLoop_eq]) hn (maxBits_le p 64 n h.word)
    (fun i hi => lt_of_lt_of_le (lt_trans (hm i hi) (Nat.lt_size_self _))
      (Nat.pow_le_pow_right (by norm_num) (maxBits_spec p n i hi))) (naiveCrtInit inv p n).numLimbs
  unfold combine
  rw [h1, Option.map_some]
  have hsize : mpzVal dat (if trimSize dat ((naiveCrtInit inv p n).numLimbs + 2) = 1 ∧ dat 0 = 0 then 0
      else trimSize dat ((naiveCrtInit inv p n).numLimbs + 2)) =
      mpzVal dat ((naiveCrtInit inv p n).numLimbs + 2) := by
    by_cases hc : trimSize dat ((naiveCrtInit inv p n).numLimbs + 2) = 1 ∧ dat 0 = 0
    · rw [if_pos hc, ← trim_val dat (_ + 2), hc.1]
      simp [mpzVal, hc.2]
    · rw [if_neg hc, trim_val]
  show some (((mpzVal dat _ : Nat)) : Int) = _
  rw [hsize, h4]
  congr 2
  refine sum_congr rfl fun j hj => ?_
  rw [Nat.mod_eq_of_lt]
  refine lt_of_le_of_lt (Nat.div_le_self _ _) ?_
  have := lt_numLimbs (prodLoop p n)
  rw [← prodLoop_eq]
  exact this

/-! ### Sums over sets of indices -/

/-- `∑ m_i ∏_{j ≠ i} p_j` over a set. -/
def cs (p m : Nat → Int) (S : Finset Nat) : Int := ∑ i ∈ S, m i * ∏ j ∈ S.erase i, p j

theorem cs_singleton (p m : Nat → Int) (i : Nat) : cs p m {i} = m i := by
  simp [cs]

theorem cs_union (p m : Nat → Int) {S T : Finset Nat} (h : Disjoint S T) :
    cs p m (S ∪ T) = cs p m S * ∏ j ∈ T, p j + cs p m T * ∏ j ∈ S, p j := by
  unfold cs
  rw [sum_union h, sum_mul, sum_mul]
  congr 1
  · refine sum_congr rfl fun i hi => ?_
    have hiT : i ∉ T := disjoint_left.1 h hi
    rw [erase_union_distrib, erase_eq_of_notMem hiT, prod_union (h.mono_left (erase_subset _ _))]
    ring
  · refine sum_congr rfl fun i hi => ?_
    have hiS : i ∉ S := disjoint_right.1 h hi
    rw [erase_union_distrib, erase_eq_of_notMem hiS, prod_union (h.mono_right (erase_subset _ _))]
    ring

theorem cs_biUnion (p m : Nat → Int) (L : Nat → Finset Nat) (hL : ∀ i j, i ≠ j → Disjoint (L i) (L j))
    (S : Finset Nat) : cs (fun i => ∏ j ∈ L i, p j) (fun i => cs p m (L i)) S = cs p m (S.biUnion L) := by
  induction S using Finset.induction_on with
  | empty => simp [cs]
  | insert a S ha ih =>
    have hd : Disjoint {a} S := disjoint_singleton_left.2 ha
    have hd2 : Disjoint (L a) (S.biUnion L) := by
      rw [disjoint_biUnion_right]
      exact fun i hi => hL a i fun e => ha (e ▸ hi)
    rw [insert_eq, cs_union _ _ hd, cs_singleton, prod_singleton, ih, ← insert_eq, biUnion_insert,
      cs_union _ _ hd2]
    congr 2
    exact (prod_biUnion fun i _ j _ hij => hL i j hij).symm

theorem cs_map (p m : Nat → Int) (f : Nat ↪ Nat) (S : Finset Nat) :
    cs p m (S.map f) = cs (fun i => p (f i)) (fun i => m (f i)) S := by
  unfold cs
  rw [sum_map]
  refine sum_congr rfl fun i _ => ?_
  rw [← map_erase, prod_map]

theorem combSum_eq (h : Moduli p n) (m : Nat → Nat) :
    ((combSum p m n : Nat) : Int) = cs (fun i => (p i : Int)) (fun i => (m i : Int)) (range n) := by
  unfold combSum cs
  push_cast
  refine sum_congr rfl fun i hi => ?_
  congr 1
  have hp : 0 < p i := by have := h.two_le i (mem_range.1 hi); omega
  have : modProd p n / p i = ∏ j ∈ (range n).erase i, p j := by
    unfold modProd
    rw [← mul_prod_erase _ _ hi, Nat.mul_div_cancel_left _ hp]
  have h2 : ((modProd p n / p i : Nat) : Int) = ∏ j ∈ (range n).erase i, (p j : Int) := by
    rw [this]; push_cast; rfl
  exact_mod_cast h2

/-- Modulo `p_i` only one term is left. -/
theorem cs_mod (p m : Nat → Int) {S : Finset Nat} {i : Nat} (hi : i ∈ S) :
    cs p m S % p i = (m i * ∏ j ∈ S.erase i, p j) % p i := by
  unfold cs
  rw [← add_sum_erase _ _ hi]
  have : p i ∣ ∑ x ∈ S.erase i, m x * ∏ j ∈ S.erase x, p j := by
    refine dvd_sum fun x hx => Dvd.dvd.mul_left ?_ _
    exact dvd_prod_of_mem p (mem_erase.2 ⟨(ne_of_mem_erase hx).symm, hi⟩)
  obtain ⟨c, hc⟩ := this
  rw [hc, Int.add_mul_emod_self_left]

/-- Contract of `n_invmod` and `nmod_inv`. -/
def InvOK (inv : Nat → Nat → Nat) : Prop :=
  ∀ a p, 2 ≤ p → Nat.Coprime a p → inv a p < p ∧ inv a p * a % p = 1

theorem invOK_satisfiable : ∃ inv, InvOK inv := by
  refine ⟨fun a p => ((a : ZMod p)⁻¹).val, fun a p hp hc => ?_⟩
  haveI : NeZero p := ⟨by omega⟩
  haveI : Fact (1 < p) := ⟨by omega⟩
  refine ⟨ZMod.val_lt _, ?_⟩
  have h1 : (a : ZMod p) * (a : ZMod p)⁻¹ = 1 := ZMod.coe_mul_inv_eq_one a hc
  have h2 : ((((a : ZMod p)⁻¹).val * a : Nat) : ZMod p) = 1 := by
    push_cast
    rw [ZMod.natCast_zmod_val, mul_comm]; exact h1
  have h3 := congrArg ZMod.val h2
  rw [ZMod.val_natCast, ZMod.val_one] at h3
  exact h3

/-- The product of the other moduli. -/
def cofactor (p : Nat → Nat) (n i : Nat) : Nat := ∏ j ∈ (range n).erase i, p j

theorem cofactor_coprime (h : Moduli p n) {i : Nat} (hi : i < n) : Nat.Coprime (cofactor p n i) (p i) := by
  refine Nat.Coprime.prod_left fun j hj => ?_
  exact h.coprime j i (mem_range.1 (mem_of_mem_erase hj)) hi (ne_of_mem_erase hj)

theorem modProd_div (h : Moduli p n) {i : Nat} (hi : i < n) : modProd p n / p i = cofactor p n i := by
  unfold modProd cofactor
  have hp : 0 < p i := by have := h.two_le i hi; omega
  rw [← mul_prod_erase _ _ (mem_range.2 hi), Nat.mul_div_cancel_left _ hp]

/-- Chinese remaindering, once the inverses are right. -/
theorem crt_correct (h : Moduli p n) (m inv : Nat → Nat) (hm : ∀ i, i < n → m i < p i)
    (hinv : ∀ i, i < n → inv i * cofactor p n i % p i = 1) :
    IsCrt p n m (cs (fun i => (p i : Int)) (fun i => ((m i * inv i % p i : Nat) : Int)) (range n) %
      (modProd p n : Int)) := by
  have hpos := modProd_pos h
  refine ⟨Int.emod_nonneg _ (by omega), Int.emod_lt_of_pos _ (by omega), fun i hi => ?_⟩
  have hdvd : (p i : Int) ∣ (modProd p n : Int) := by
    exact_mod_cast dvd_prod_of_mem p (mem_range.2 hi)
  rw [Int.emod_emod_of_dvd _ hdvd, cs_mod (fun i => (p i : Int)) _ (mem_range.2 hi)]
  have e : (∏ j ∈ (range n).erase i, (p j : Int)) = ((cofactor p n i : Nat) : Int) := by
    unfold cofactor; push_cast; rfl
  simp only [e]
  have : (m i * inv i % p i * cofactor p n i) % p i = m i := by
    rw [Nat.mod_mul_mod, Nat.mul_assoc, Nat.mul_mod, hinv i hi, Nat.mul_one, Nat.mod_mod,
      Nat.mod_eq_of_lt (hm i hi)]
  exact_mod_cast this

end PML.Crt
