import Verif.NmodExtra.Model
import Mathlib.Tactic.Ring
import Mathlib.Tactic.Linarith
import Mathlib.Tactic.NormNum
import Mathlib.Tactic.NormNum.Prime
import Mathlib.Data.Int.ModEq
import Mathlib.Data.Int.GCD
import Mathlib.FieldTheory.Finite.Basic
import Mathlib.RingTheory.IntegralDomain

/-!
# Properties C07-C09
-/

namespace PML.NmodExtra

/-! ## C07 -/

/-- `ip` after `n` iterations of the Newton step. -/
def newtonIp (p : Int) (n : Nat) : Int := (iter (newtonBody p) n (1, 1)).1

theorem newtonIp_succ (p : Int) (n : Nat) :
    newtonIp p (n + 1) = (2 * newtonIp p n - p * newtonIp p n * newtonIp p n) % 2 ^ 64 := by
  rw [newtonIp, iter_succ_apply]; rfl

theorem newton_err (p : Int) (hp : p % 2 = 1) (n : Nat) :
    (2 : Int) ^ (min (2 ^ n) 64) ∣ 1 - p * newtonIp p n := by
  induction n with
  | zero =>
    have h0 : newtonIp p 0 = 1 := rfl
    rw [h0]; norm_num; omega
  | succ n ih =>
    rw [newtonIp_succ]
    obtain ⟨c, hc⟩ := ih
    have hdm := Int.mul_ediv_add_emod (2 * newtonIp p n - p * newtonIp p n * newtonIp p n) (2 ^ 64)
    set r := (2 * newtonIp p n - p * newtonIp p n * newtonIp p n) % 2 ^ 64
    set t := (2 * newtonIp p n - p * newtonIp p n * newtonIp p n) / 2 ^ 64
    have e : 1 - p * r = (1 - p * newtonIp p n) ^ 2 + 2 ^ 64 * (p * t) := by
      have : r = (2 * newtonIp p n - p * newtonIp p n * newtonIp p n) - 2 ^ 64 * t := by linarith
      rw [this]; ring
    rw [e, hc]
    apply dvd_add
    · rw [mul_pow, ← pow_mul]
      apply Dvd.dvd.mul_right
      apply pow_dvd_pow
      rw [pow_succ]
      omega
    · apply Dvd.dvd.mul_right
      apply pow_dvd_pow
      omega

/-- **C07.** For every odd 64-bit `p` and every `0 ≤ k ≤ 62`,
`inverse_mod_power_of_two` terminates (7 iterations are enough), without
undefined behaviour, and returns the unique `r` in `[0, 2^k)` with
`p * r = 1 mod 2^k`. -/
theorem C07_inverse_mod_power_of_two (p k : Int) (hp : p % 2 = 1)
    (hk0 : 0 ≤ k) (hk : k ≤ 62) (fuel : Nat) (hf : 7 ≤ fuel) :
    ∃ r, inversePow2 fuel p k = some (.ok r) ∧ 0 ≤ r ∧ r < 2 ^ k.toNat ∧
      (p * r) ≡ 1 [ZMOD 2 ^ k.toNat] ∧
      ∀ r', 0 ≤ r' → r' < 2 ^ k.toNat → (p * r') ≡ 1 [ZMOD 2 ^ k.toNat] → r' = r := by
  -- the loop stops within 7 iterations
  have hstop : (fun s : Int × Int => decide (s.1 ≠ s.2))
      (iter (newtonBody p) 6 (newtonBody p (1, 1))) = false := by
    have h6 := newton_err p hp 6
    norm_num at h6
    have e : iter (newtonBody p) 6 (newtonBody p (1, 1)) = (newtonIp p 7, newtonIp p 6) := by
      show iter (newtonBody p) 7 (1, 1) = _
      rw [iter_succ_apply]; rfl
    rw [e]
    have h7 : newtonIp p 7 = newtonIp p 6 := by
      have hr : newtonIp p 6 = newtonIp p 6 % 2 ^ 64 := by
        rw [newtonIp_succ, Int.emod_emod]
      rw [newtonIp_succ]
      conv_rhs => rw [hr]
      apply Int.emod_emod_of_dvd _ (dvd_refl _) |>.symm.trans
      rw [Int.emod_emod]
      apply Int.emod_emod_of_dvd _ (dvd_refl _) |>.symm.trans
      rw [Int.emod_emod]
      refine (Int.emod_emod_of_dvd _ (dvd_refl _)).symm.trans ?_
      rw [Int.emod_emod]
      rw [Int.emod_eq_emod_iff_emod_sub_eq_zero]
      apply Int.emod_eq_zero_of_dvd
      have : 2 * newtonIp p 6 - p * newtonIp p 6 * newtonIp p 6 - newtonIp p 6
          = (1 - p * newtonIp p 6) * newtonIp p 6 := by ring
      rw [this]
      norm_num
      exact Dvd.dvd.mul_right h6 _
    simp [h7]
  obtain ⟨j, hj, hw, hc⟩ :=
    whileLoop_of_iter (c := fun s : Int × Int => decide (s.1 ≠ s.2)) 6 (newtonBody p (1, 1)) hstop
  have hw' := whileLoop_mono hw fuel (by omega)
  -- the value reached is an exact inverse modulo 2^64
  have hval : iter (newtonBody p) j (newtonBody p (1, 1)) = (newtonIp p (j + 1), newtonIp p j) := by
    show iter (newtonBody p) (j + 1) (1, 1) = _
    rw [newtonIp_succ, iter_succ_apply]; rfl
  rw [hval] at hc hw'
  have hfix : newtonIp p (j + 1) = newtonIp p j := by simpa using hc
  have hinv : (2 : Int) ^ 64 ∣ 1 - p * newtonIp p j := by
    have hodd : newtonIp p j % 2 = 1 := by
      have h2 : (2 : Int) ∣ 1 - p * newtonIp p j := by
        refine dvd_trans ?_ (newton_err p hp j)
        have : 1 ≤ min (2 ^ j) 64 := by
          have : 0 < 2 ^ j := by positivity
          omega
        calc (2 : Int) = 2 ^ 1 := by norm_num
          _ ∣ _ := pow_dvd_pow _ this
      by_contra hne
      have h0 : newtonIp p j % 2 = 0 := by omega
      obtain ⟨c, hc2⟩ := Int.dvd_of_emod_eq_zero h0
      rw [hc2] at h2
      have : p * (2 * c) = 2 * (p * c) := by ring
      rw [this] at h2
      omega
    rw [newtonIp_succ] at hfix
    have hd : (2 : Int) ^ 64 ∣ newtonIp p j * (1 - p * newtonIp p j) := by
      have hdm := Int.mul_ediv_add_emod (2 * newtonIp p j - p * newtonIp p j * newtonIp p j) (2 ^ 64)
      rw [hfix] at hdm
      refine ⟨(2 * newtonIp p j - p * newtonIp p j * newtonIp p j) / 2 ^ 64, ?_⟩
      linarith
    have hcop : IsCoprime ((2 : Int) ^ 64) (newtonIp p j) := by
      apply IsCoprime.pow_left
      refine ⟨-(newtonIp p j / 2), 1, ?_⟩
      omega
    exact hcop.dvd_of_dvd_mul_left hd
  set K := k.toNat with hK
  have hKle : K ≤ 62 := by omega
  have hdk : (2 : Int) ^ K ∣ 1 - p * newtonIp p j := dvd_trans (pow_dvd_pow _ (by omega)) hinv
  have hpos : (0 : Int) < 2 ^ K := by positivity
  refine ⟨newtonIp p j % 2 ^ K, ?_, Int.emod_nonneg _ (by positivity), Int.emod_lt_of_pos _ hpos, ?_, ?_⟩
  · simp only [inversePow2, hw', Option.map_some, hk0, hk, and_self, if_true, hfix]
    rfl
  · have h1 : p * newtonIp p j ≡ 1 [ZMOD 2 ^ K] := (Int.modEq_iff_dvd).2 hdk
    exact ((Int.ModEq.refl p).mul (Int.mod_modEq _ _)).trans h1
  · intro r' h0 hlt hr'
    have h1 : p * newtonIp p j ≡ 1 [ZMOD 2 ^ K] := (Int.modEq_iff_dvd).2 hdk
    have : r' ≡ newtonIp p j [ZMOD 2 ^ K] := by
      calc r' = 1 * r' := by ring
        _ ≡ (p * newtonIp p j) * r' [ZMOD 2 ^ K] := (h1.symm).mul_right _
        _ = (p * r') * newtonIp p j := by ring
        _ ≡ 1 * newtonIp p j [ZMOD 2 ^ K] := hr'.mul_right _
        _ = newtonIp p j := by ring
    rw [← this, Int.emod_eq_of_lt h0 hlt]

example : inversePow2 7 12345678901234567 62 = some (.ok 3434284262531303991) := by decide +kernel

/-- Outside of that range of `k`, the call has undefined behaviour (k = 63 and
above included, although the comment says "1/p mod 2^k"). -/
theorem C07_mask_undefined (p k : Int) (hk : k < 0 ∨ 62 < k) (fuel : Nat) (o : Outcome Int) :
    inversePow2 fuel p k = some o → o = .ub := by
  intro h
  simp only [inversePow2, Option.map_eq_some_iff] at h
  obtain ⟨s, -, h⟩ := h
  rw [if_neg (by omega)] at h
  exact h.symm

/-! ## C08 -/

/-- **C08, the part that holds.** For `x ≤ 2^30`, `next_power_of_two` terminates
without undefined behaviour and returns the smallest `i` with `2^i ≥ x`.
Missing with respect to C08: `x > 2^30`, for which the property is false, see
`C08_next_power_of_two_wrong` and `C08_next_power_of_two_ub`. -/
theorem C08_next_power_of_two_partial (x : Int) (h0 : 0 ≤ x) (hx : x ≤ 2 ^ 30)
    (fuel : Nat) (hf : 30 ≤ fuel) :
    ∃ i : Nat, nextPowerOfTwo fuel x = some (.ok i) ∧ x ≤ 2 ^ i ∧ ∀ i' : Nat, x ≤ 2 ^ i' → i ≤ i' := by
  have hx32 : toInt32 x = x := by
    simp only [toInt32]; omega
  have key := whileLoop_spec (c := npTest x) (b := npBody)
    (fun s => ∃ i : Nat, s = .ok (i, 2 ^ i) ∧ i ≤ 30 ∧ ∀ i' : Nat, i' < i → (2 : Int) ^ i' < x)
    (fun s => match s with | .ub => 0 | .ok (i, _) => (30 - i).toNat)
    (by
      rintro s ⟨i, rfl, hi, hlt⟩ hc
      simp only [npTest, hx32, decide_eq_true_eq] at hc
      have hi30 : i < 30 := by
        by_contra h
        have : i = 30 := by omega
        subst this; omega
      have h31 : (2 : Int) * 2 ^ i < 2 ^ 31 := by
        have : (2 : Int) ^ i ≤ 2 ^ 29 := pow_le_pow_right₀ (by norm_num) (by omega)
        omega
      simp only [npBody, h31, if_true]
      refine ⟨⟨i + 1, by push_cast; rw [pow_succ]; simp [mul_comm], by omega, ?_⟩, ?_⟩
      · intro i' hi'
        rcases Nat.lt_succ_iff_lt_or_eq.1 hi' with h | h
        · exact hlt i' h
        · subst h; exact hc
      · omega)
    fuel (.ok (0, 1)) ⟨0, rfl, by omega, by intro i' h; omega⟩ (by simpa using hf)
  obtain ⟨s', hw, ⟨i, rfl, hi, hlt⟩, hc⟩ := key
  refine ⟨i, ?_, ?_, ?_⟩
  · simp [nextPowerOfTwo, hw]
  · simpa [npTest, hx32] using hc
  · intro i' hi'
    by_contra h
    have := hlt i' (by omega)
    omega

example : nextPowerOfTwo 30 1000000 = some (.ok 20) := by decide +kernel

/-- **C08, violated.** For `x = 2^31`, the answer is 0 although `2^0 < x`. -/
theorem C08_next_power_of_two_wrong :
    ∃ x : Int, 0 ≤ x ∧ x < 2 ^ 64 ∧
      (∀ fuel, nextPowerOfTwo fuel x = some (.ok 0)) ∧ ¬ x ≤ 2 ^ 0 := by
  refine ⟨2 ^ 31, by norm_num, by norm_num, ?_, by norm_num⟩
  intro fuel
  have : npTest (2 ^ 31) (.ok (0, 1)) = false := by decide +kernel
  have h : whileLoop (npTest (2 ^ 31)) npBody fuel (.ok (0, 1)) = some (.ok (0, 1)) := by
    cases fuel <;> simp only [whileLoop, this] <;> rfl
  rw [nextPowerOfTwo, h]; rfl

/-- **C08, violated.** Each `x` in `(2^30, 2^31)` reaches undefined behaviour
(overflow of the `int` shift). -/
theorem C08_next_power_of_two_ub (x : Int) (h0 : 2 ^ 30 < x) (hx : x < 2 ^ 31)
    (fuel : Nat) (hf : 31 ≤ fuel) : nextPowerOfTwo fuel x = some .ub := by
  have hx32 : toInt32 x = x := by simp only [toInt32]; omega
  have key := whileLoop_spec (c := npTest x) (b := npBody)
    (fun s => s = .ub ∨ ∃ i : Nat, s = .ok (i, 2 ^ i) ∧ i ≤ 30)
    (fun s => match s with | .ub => 0 | .ok (i, _) => (31 - i).toNat)
    (by
      rintro s (rfl | ⟨i, rfl, hi⟩) hc
      · simp [npTest] at hc
      · simp only [npBody]
        split
        · rename_i h
          have hi30 : i < 30 := by
            by_contra h'
            have : i = 30 := by omega
            subst this; omega
          refine ⟨Or.inr ⟨i + 1, by push_cast; rw [pow_succ]; simp [mul_comm], by omega⟩, ?_⟩
          dsimp only; omega
        · refine ⟨Or.inl rfl, ?_⟩
          dsimp only; omega)
    fuel (.ok (0, 1)) (Or.inr ⟨0, rfl, by omega⟩) (by simpa using hf)
  obtain ⟨s', hw, (rfl | ⟨i, rfl, hi⟩), hc⟩ := key
  · simp [nextPowerOfTwo, hw]
  · exfalso
    simp only [npTest, hx32, decide_eq_false_iff_not] at hc
    have : (2 : Int) ^ i ≤ 2 ^ 30 := pow_le_pow_right₀ (by norm_num) (by omega)
    omega

example : (2 : Int) ^ 30 < 2 ^ 30 + 1 ∧ (2 : Int) ^ 30 + 1 < 2 ^ 31 := by norm_num

/-! ## C09 -/

/-- `q` has none of its first `n` powers equal to 1 modulo `p`. -/
def LargeOrder (n p q : Nat) : Prop := ∀ i, 1 ≤ i → i ≤ n → q ^ i % p ≠ 1

theorem rootInner_spec (fuel n p q : Nat) (hq : 2 ≤ q) (hqp : q < p) (hf : n ≤ fuel) :
    ∃ s, rootInner fuel n p q = some s ∧ (s.2 ≠ 1 ↔ LargeOrder n p q) := by
  have key := whileLoop_spec (c := fun s : Nat × Nat => decide (s.2 ≠ 1 ∧ s.1 < n))
    (b := fun s => (s.1 + 1, s.2 * q % p))
    (fun s => 1 ≤ s.1 ∧ (s.1 ≤ n ∨ s.1 = 1) ∧ s.2 = q ^ s.1 % p ∧ ∀ i, 1 ≤ i → i < s.1 → q ^ i % p ≠ 1)
    (fun s => n - s.1)
    (by
      rintro ⟨k, qk⟩ ⟨h1, h2, h3, h4⟩ hc
      simp only [ne_eq, decide_eq_true_eq] at *
      refine ⟨⟨by omega, by omega, ?_, ?_⟩, by omega⟩
      · rw [h3, pow_succ, Nat.mod_mul_mod]
      · intro i hi hlt
        rcases Nat.lt_succ_iff_lt_or_eq.1 hlt with h | h
        · exact h4 i hi h
        · subst h; rw [← h3]; exact hc.1)
    fuel (1, q) ⟨by simp, by simp, by simp [Nat.mod_eq_of_lt hqp], by intro i h h'; simp at h'; omega⟩
    (by simp; omega)
  obtain ⟨⟨k, qk⟩, hw, ⟨h1, h2, h3, h4⟩, hc⟩ := key
  refine ⟨(k, qk), hw, ?_⟩
  simp only at *
  have hc' : ¬ (qk ≠ 1 ∧ k < n) := by simpa using hc
  constructor
  · intro hne i hi hin
    have hk : n ≤ k := by
      by_contra h; exact hc' ⟨hne, by omega⟩
    rcases Nat.lt_or_ge i k with h | h
    · exact h4 i hi h
    · have : i = k := by omega
      subst this; rw [← h3]; exact hne
  · intro hlo h
    rcases Nat.lt_or_ge n k with hnk | hnk
    · -- n = 0 and k = 1: q ≠ 1
      have hk1 : k = 1 := by omega
      subst hk1
      rw [pow_one, Nat.mod_eq_of_lt hqp] at h3
      omega
    · exact hlo k h1 hnk (by rw [← h3]; exact h)

theorem rootOuter_spec (fuel n p : Nat) (hf : n ≤ fuel) : ∀ m q, 2 ≤ q → q + m ≤ max p 2 →
    ∃ r, rootOuter fuel n p m q = some r ∧
      ((r = 0 ∧ ∀ x, q ≤ x → x < q + m → ¬ LargeOrder n p x) ∨
       (q ≤ r ∧ r < q + m ∧ LargeOrder n p r ∧ ∀ x, q ≤ x → x < r → ¬ LargeOrder n p x)) := by
  intro m
  induction m with
  | zero => intro q _ _; exact ⟨0, rfl, Or.inl ⟨rfl, by intro x h1 h2; omega⟩⟩
  | succ m ih =>
    intro q hq hqp
    obtain ⟨s, hs, hiff⟩ := rootInner_spec fuel n p q hq (by omega) hf
    by_cases h1 : s.2 ≠ 1
    · refine ⟨q, by simp [rootOuter, hs, h1], Or.inr ⟨le_rfl, by omega, hiff.1 h1, ?_⟩⟩
      intro x hx hx'; omega
    · obtain ⟨r, hr, hor⟩ := ih (q + 1) (by omega) (by omega)
      have hno : ¬ LargeOrder n p q := fun h => h1 (hiff.2 h)
      refine ⟨r, by simp only [rootOuter, hs, if_neg h1, hr], ?_⟩
      have ext : ∀ {y}, (∀ x, q + 1 ≤ x → x < y → ¬ LargeOrder n p x) →
          ∀ x, q ≤ x → x < y → ¬ LargeOrder n p x := by
        intro y h x hx hy
        rcases Nat.lt_or_ge q x with h' | h'
        · exact h x h' hy
        · have : x = q := by omega
          subst this; exact hno
      rcases hor with ⟨h0, hall⟩ | ⟨h2, h3, h4, h5⟩
      · exact Or.inl ⟨h0, ext (by simpa [Nat.add_assoc, Nat.add_comm, Nat.add_left_comm] using hall)⟩
      · exact Or.inr ⟨by omega, by omega, h4, ext h5⟩

/-- **C09 (result).** For every `n` and every modulus `p`, `nmod_find_root`
terminates; it returns 0 exactly when no element of `[2, p)` has its `n` first
powers different from 1, and otherwise the smallest such element. -/
theorem C09_find_root_correct (n p fuel : Nat) (hf : n ≤ fuel) :
    ∃ r, findRoot fuel n p = some r ∧
      ((r = 0 ∧ ∀ x, 2 ≤ x → x < p → ¬ LargeOrder n p x) ∨
       (2 ≤ r ∧ r < p ∧ LargeOrder n p r ∧ ∀ x, 2 ≤ x → x < r → ¬ LargeOrder n p x)) := by
  obtain ⟨r, hr, hor⟩ := rootOuter_spec fuel n p hf (p - 2) 2 le_rfl (by omega)
  refine ⟨r, hr, ?_⟩
  rcases hor with ⟨h0, hall⟩ | ⟨h2, h3, h4, h5⟩
  · exact Or.inl ⟨h0, fun x h1 h2 => hall x h1 (by omega)⟩
  · exact Or.inr ⟨h2, by omega, h4, h5⟩

/-- **C09 (existence).** For a prime modulus `p` and `1 ≤ n < p - 1`,
`nmod_find_root` always finds an element: the result is never 0. -/
theorem C09_find_root_succeeds (n p fuel : Nat) (hp : p.Prime) (hn : 1 ≤ n) (hnp : n < p - 1)
    (hf : n ≤ fuel) :
    ∃ r, findRoot fuel n p = some r ∧ 2 ≤ r ∧ r < p ∧ LargeOrder n p r := by
  obtain ⟨r, hr, hor⟩ := C09_find_root_correct n p fuel hf
  rcases hor with ⟨h0, hall⟩ | ⟨h2, h3, h4, -⟩
  · exfalso
    have : Fact p.Prime := ⟨hp⟩
    obtain ⟨g, hg⟩ := IsCyclic.exists_generator (α := (ZMod p)ˣ)
    have hord : orderOf g = p - 1 := by
      rw [orderOf_eq_card_of_forall_mem_zpowers hg, Nat.card_eq_fintype_card, ZMod.card_units_eq_totient,
        Nat.totient_prime hp]
    -- the representative of g
    let x := ((g : ZMod p)).val
    have hxp : x < p := ZMod.val_lt _
    have hpow : ∀ i, x ^ i % p = 1 → g ^ i = 1 := by
      intro i hi
      have : ((x ^ i : ℕ) : ZMod p) = ((1 : ℕ) : ZMod p) := by
        rw [ZMod.natCast_eq_natCast_iff']
        rw [hi, Nat.mod_eq_of_lt hp.one_lt]
      apply Units.ext
      push_cast at this ⊢
      rw [show ((x : ℕ) : ZMod p) = (g : ZMod p) from ZMod.natCast_zmod_val _] at this
      exact this
    have hx2 : 2 ≤ x := by
      by_contra h
      have hx01 : x = 0 ∨ x = 1 := by omega
      rcases hx01 with h | h
      · have : (g : ZMod p) = 0 := (ZMod.val_eq_zero _).1 h
        exact g.ne_zero this
      · have := hpow 1 (by rw [pow_one, h, Nat.mod_eq_of_lt hp.one_lt])
        rw [pow_one] at this
        rw [this, orderOf_one] at hord
        omega
    refine hall x hx2 hxp ?_
    intro i hi hin h1
    have := orderOf_dvd_of_pow_eq_one (hpow i h1)
    rw [hord] at this
    have := Nat.le_of_dvd (by omega) this
    omega
  · exact ⟨r, hr, h2, h3, h4⟩

example : Nat.Prime 101 ∧ 1 ≤ 60 ∧ 60 < 101 - 1 ∧ findRoot 60 60 101 = some 2 := by
  refine ⟨by norm_num, by norm_num, by norm_num, by decide +kernel⟩

end PML.NmodExtra
