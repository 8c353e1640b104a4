import Verif.WordCrt.Model
import Verif.Crt.Props
import Mathlib.Tactic.NormNum.GCD

/-!
# Lemmas for word-size Chinese remaindering
-/

namespace PML.WordCrt

open PML.Word PML.Crt.Spec PML.Crt Finset

/-- Contract of the floating-point primitives. -/
structure VecOK (v : VecOps) : Prop where
  mulmod : ∀ a b n : Int, 0 < n → n < 2 ^ 50 → -(2 * (n * n)) < a * b → a * b < 2 * (n * n) →
    -n < v.mulmod a b n ∧ v.mulmod a b n < n ∧ v.mulmod a b n % n = a * b % n
  redPm : ∀ a n : Int, 0 < n → n < 2 ^ 50 → 0 ≤ a → a < 2 ^ 50 →
    -n < v.redPm a n ∧ v.redPm a n < n ∧ v.redPm a n % n = a % n

/-- Contract of the word-level primitives. -/
structure WordOK (w : WordOps) : Prop where
  inv : InvOK w.inv
  red3 : ∀ hi me lo p, hi < p → p < 2 ^ 64 → me < 2 ^ 64 → lo < 2 ^ 64 →
    w.red3 hi me lo p = (hi * W ^ 2 + me * W + lo) % p

theorem vecOK_satisfiable : ∃ v, VecOK v := by
  refine ⟨⟨fun a b n => a * b % n, fun a n => a % n⟩, fun a b n hn _ _ _ => ?_, fun a n hn _ _ _ => ?_⟩
  · have h0 := Int.emod_nonneg (a * b) (ne_of_gt hn)
    have h1 := Int.emod_lt_of_pos (a * b) hn
    exact ⟨by show -n < _ % _; omega, h1, Int.emod_emod _ _⟩
  · have h0 := Int.emod_nonneg a (ne_of_gt hn)
    have h1 := Int.emod_lt_of_pos a hn
    exact ⟨by show -n < _ % _; omega, h1, Int.emod_emod _ _⟩

theorem wordOK_satisfiable : ∃ w, WordOK w := by
  obtain ⟨inv, h⟩ := invOK_satisfiable
  exact ⟨⟨inv, fun hi me lo p => (hi * W ^ 2 + me * W + lo) % p⟩, h, fun _ _ _ _ _ _ _ _ => rfl⟩

/-! ### Arithmetic -/

theorem to0n_eq {a n x : Int} (h1 : -n < a) (h2 : a < n) (h : a % n = x) : to0n a n = x := by
  unfold to0n
  by_cases h0 : a < 0
  · rw [if_pos h0, ← h, ← Int.add_emod_right, Int.emod_eq_of_lt (by omega) (by omega)]
  · rw [if_neg h0, ← h, Int.emod_eq_of_lt (by omega) (by omega)]

theorem mulz_eq {v : VecOps} (hv : VecOK v) {a b n : Int} (hn : 0 < n) (hn' : n < 2 ^ 50)
    (ha : -(2 * n) < a) (ha' : a < 2 * n) (hb : 0 ≤ b) (hb' : b < n) : mulz v a b n = a * b % n := by
  obtain ⟨h1, h2, h3⟩ := hv.mulmod a b n hn hn' (by nlinarith) (by nlinarith)
  exact to0n_eq h1 h2 h3

theorem redz_eq {v : VecOps} (hv : VecOK v) {a n : Int} (hn : 0 < n) (hn' : n < 2 ^ 50) (ha : 0 ≤ a)
    (ha' : a < 2 ^ 50) : redz v a n = a % n := by
  obtain ⟨h1, h2, h3⟩ := hv.redPm a n hn hn' ha ha'
  exact to0n_eq h1 h2 h3

theorem addmod_eq {a b n : Int} (ha : 0 ≤ a) (ha' : a < n) (hb : 0 ≤ b) (hb' : b < n) :
    addmod a b n = (a + b) % n := by
  unfold addmod
  by_cases h : n - b > a
  · rw [if_pos h, Int.emod_eq_of_lt (by omega) (by omega)]
  · rw [if_neg h]
    have : a + b = (a + b - n) + n := by ring
    rw [this, Int.add_emod_right, Int.emod_eq_of_lt (by omega) (by omega)]
    ring

/-! ### The primes -/

theorem prime_moduli (k : Nat) (hk : k ≤ 4) : Moduli prime k := by
  refine ⟨fun i hi => ?_, fun i hi => ?_, fun i j hi hj hij => ?_⟩
  · have : i < 4 := by omega
    interval_cases i <;> decide
  · have : i < 4 := by omega
    interval_cases i <;> decide
  · have h1 : i < 4 := by omega
    have h2 : j < 4 := by omega
    interval_cases i <;> interval_cases j <;> first | omega | (unfold prime; norm_num)

theorem prime_lt (j : Nat) : prime j < 2 ^ 50 := by
  unfold prime; split_ifs <;> norm_num

/-! ### Mixed radix -/

/-- Value of the mixed-radix digits. -/
def mixed (a0 a1 a2 a3 : Int) : Nat → Int
  | 1 => a0
  | 2 => a0 + prime 0 * a1
  | 3 => a0 + prime 0 * a1 + prime 0 * prime 1 * a2
  | _ => a0 + prime 0 * a1 + prime 0 * prime 1 * a2 + prime 0 * prime 1 * prime 2 * a3

/-- Digit with a given residue. -/
theorem digit_spec {x c i q : Int} (hi : i * c % q = 1 % q) (r : Int) :
    (x + c * ((r - x) * i % q)) % q = r % q := by
  have h1 : (r - x) * i % q ≡ (r - x) * i [ZMOD q] := Int.mod_modEq _ _
  have h2 : i * c ≡ 1 [ZMOD q] := hi
  have h3 : x + c * ((r - x) * i % q) ≡ x + (r - x) * (i * c) [ZMOD q] := by
    have := (h1.mul_left c).add_left x
    refine this.trans ?_
    have e : x + c * ((r - x) * i) = x + (r - x) * (i * c) := by ring
    rw [e]
  refine h3.trans ?_
  have := (h2.mul_left (r - x)).add_left x
  refine this.trans ?_
  have e : x + (r - x) * 1 = r := by ring
  rw [e]

/-- Constants of the branch for small moduli. -/
structure Consts (C : Crt) (p : Nat) : Prop where
  p0 : C.p0_red = (prime 0 : Int) % p
  p01 : C.p0p1_red = ((prime 0 : Int) * prime 1) % p
  p012 : C.p0p1p2_red = ((prime 0 : Int) * prime 1 * prime 2) % p
  i1 : 0 ≤ C.invp0_p1 ∧ C.invp0_p1 < prime 1 ∧ C.invp0_p1 * prime 0 % prime 1 = 1
  i2 : 0 ≤ C.invp0p1_p2 ∧ C.invp0p1_p2 < prime 2 ∧ C.invp0p1_p2 * (prime 0 * prime 1) % prime 2 = 1
  i3 : 0 ≤ C.invp0p1p2_p3 ∧ C.invp0p1p2_p3 < prime 3 ∧
    C.invp0p1p2_p3 * (prime 0 * prime 1 * prime 2) % prime 3 = 1
  r3 : C.p0p1_red3 = (prime 0 : Int) * prime 1 % prime 3

theorem inv_facts {w : WordOps} (hw : WordOK w) {c q : Nat} (hq : 2 ≤ q) (hc : Nat.Coprime c q) :
    (0 : Int) ≤ (w.inv (c % q) q : Int) ∧ (w.inv (c % q) q : Int) < q ∧
      (w.inv (c % q) q : Int) * c % q = 1 := by
  have hcop : Nat.Coprime (c % q) q := by
    unfold Nat.Coprime at *
    rw [← hc, Nat.gcd_comm c]
    exact (Nat.gcd_rec _ _).symm
  obtain ⟨h1, h2⟩ := hw.inv (c % q) q hq hcop
  refine ⟨by omega, by exact_mod_cast h1, ?_⟩
  have : w.inv (c % q) q * c % q = 1 := by
    rw [← h2, Nat.mul_mod, Nat.mul_mod (w.inv _ _) (c % q), Nat.mod_mod]
  exact_mod_cast this

theorem init_consts {v : VecOps} (hv : VecOK v) {w : WordOps} (hw : WordOK w) {p : Nat} (hp : 0 < p)
    (hp' : p < 2 ^ 50) (k : Nat) : Consts (init true v w p k) p := by
  have hm := prime_moduli 4 (le_refl _)
  have e : init true v w p k = _ := if_pos ⟨rfl, hp'⟩
  rw [e]
  have hpi : (0 : Int) < p := by exact_mod_cast hp
  have hpi' : (p : Int) < 2 ^ 50 := by exact_mod_cast hp'
  have c01 : mulz v ((prime 0 % p : Nat) : Int) ((prime 1 % p : Nat) : Int) p =
      ((prime 0 : Int) * prime 1) % p := by
    have a0 := Nat.mod_lt (prime 0) hp
    have a1 := Nat.mod_lt (prime 1) hp
    rw [mulz_eq hv hpi hpi' (by omega) (by omega) (by omega) (by omega)]
    push_cast
    rw [← Int.mul_emod]
  have hlt : ∀ x : Int, 0 ≤ x % (p : Int) ∧ x % (p : Int) < p := fun x =>
    ⟨Int.emod_nonneg _ (by omega), Int.emod_lt_of_pos _ hpi⟩
  refine ⟨by show ((prime 0 % p : Nat) : Int) = _; push_cast; rfl, c01, ?_, ?_, ?_, ?_, ?_⟩
  · show mulz v (mulz v ((prime 0 % p : Nat) : Int) ((prime 1 % p : Nat) : Int) p)
      ((prime 2 % p : Nat) : Int) p = _
    rw [c01]
    have a2 := Nat.mod_lt (prime 2) hp
    have b := hlt ((prime 0 : Int) * prime 1)
    rw [mulz_eq hv hpi hpi' (by omega) (by omega) (by omega) (by omega)]
    push_cast
    rw [← Int.mul_emod]
  · have := inv_facts hw (c := prime 0) (q := prime 1) (hm.two_le 1 (by omega))
      (hm.coprime 0 1 (by omega) (by omega) (by omega))
    rw [Nat.mod_eq_of_lt (by unfold prime; norm_num)] at this
    exact this
  · have := inv_facts hw (c := prime 0 * prime 1) (q := prime 2) (hm.two_le 2 (by omega))
      (Nat.Coprime.mul_left (hm.coprime 0 2 (by omega) (by omega) (by omega))
        (hm.coprime 1 2 (by omega) (by omega) (by omega)))
    push_cast at this
    exact this
  · have := inv_facts hw (c := prime 0 * prime 1 % prime 3 * prime 2) (q := prime 3) (hm.two_le 3 (by omega))
      (Nat.Coprime.mul_left (by
        have h := Nat.Coprime.mul_left (hm.coprime 0 3 (by omega) (by omega) (by omega))
          (hm.coprime 1 3 (by omega) (by omega) (by omega))
        unfold Nat.Coprime at *
        rw [← h, Nat.gcd_comm (prime 0 * prime 1)]
        exact (Nat.gcd_rec _ _).symm)
        (hm.coprime 2 3 (by omega) (by omega) (by omega)))
    refine ⟨this.1, this.2.1, ?_⟩
    refine Eq.trans ?_ this.2.2
    push_cast
    have e1 : (prime 0 : Int) * prime 1 % prime 3 ≡ prime 0 * prime 1 [ZMOD prime 3] := Int.mod_modEq _ _
    exact ((e1.mul_right _).mul_left _).symm
  · show ((prime 0 * prime 1 % prime 3 : Nat) : Int) = _
    push_cast
    rfl

section small

variable {v : VecOps} (hv : VecOK v) {C : Crt} {p : Nat} (hC : Consts C p) {r : Nat → Nat}

include hv hC

theorem alpha1_eq (h0 : r 0 < prime 0) (h1 : r 1 < prime 1) :
    alpha1 v C r = ((r 1 : Int) - r 0) * C.invp0_p1 % prime 1 := by
  unfold alpha1
  have e0 : (prime 0 : Int) < prime 1 := by unfold prime; norm_num
  have := prime_lt 1
  exact mulz_eq hv (by omega) (by exact_mod_cast this) (by omega) (by omega) hC.i1.1 hC.i1.2.1

theorem alpha1_range (h0 : r 0 < prime 0) (h1 : r 1 < prime 1) :
    0 ≤ alpha1 v C r ∧ alpha1 v C r < prime 1 := by
  rw [alpha1_eq hv hC h0 h1]
  exact ⟨Int.emod_nonneg _ (by unfold prime; norm_num), Int.emod_lt_of_pos _ (by unfold prime; norm_num)⟩

theorem alpha1_residue (h0 : r 0 < prime 0) (h1 : r 1 < prime 1) :
    ((r 0 : Int) + prime 0 * alpha1 v C r) % prime 1 = r 1 := by
  rw [alpha1_eq hv hC h0 h1, digit_spec (by rw [hC.i1.2.2]; unfold prime; norm_num)]
  exact Int.emod_eq_of_lt (by omega) (by omega)

theorem alpha2_eq (h0 : r 0 < prime 0) (h1 : r 1 < prime 1) (h2 : r 2 < prime 2) :
    alpha2 v C r = ((r 2 : Int) - ((r 0 : Int) + prime 0 * alpha1 v C r)) * C.invp0p1_p2 % prime 2 := by
  unfold alpha2
  have e0 : (prime 0 : Int) < prime 2 := by unfold prime; norm_num
  have e1 : (prime 1 : Int) < prime 2 := by unfold prime; norm_num
  have hp2 : (0 : Int) < prime 2 := by unfold prime; norm_num
  have hlt : (prime 2 : Int) < 2 ^ 50 := by exact_mod_cast prime_lt 2
  obtain ⟨a1, a2⟩ := alpha1_range hv hC h0 h1
  have hred := mulz_eq hv (a := alpha1 v C r) (b := prime 0) hp2 hlt (by omega) (by omega) (by omega) e0
  simp only [hred]
  have b1 := Int.emod_nonneg (alpha1 v C r * prime 0) (ne_of_gt hp2)
  have b2 := Int.emod_lt_of_pos (alpha1 v C r * prime 0) hp2
  rw [mulz_eq hv hp2 hlt (by omega) (by omega) hC.i2.1 hC.i2.2.1]
  have : alpha1 v C r * prime 0 % prime 2 ≡ prime 0 * alpha1 v C r [ZMOD prime 2] := by
    rw [mul_comm (prime 0 : Int)]; exact Int.mod_modEq _ _
  exact (((this.add_left (r 0 : Int)).sub_left (r 2 : Int)).mul_right _)

theorem alpha2_range (h0 : r 0 < prime 0) (h1 : r 1 < prime 1) (h2 : r 2 < prime 2) :
    0 ≤ alpha2 v C r ∧ alpha2 v C r < prime 2 := by
  rw [alpha2_eq hv hC h0 h1 h2]
  exact ⟨Int.emod_nonneg _ (by unfold prime; norm_num), Int.emod_lt_of_pos _ (by unfold prime; norm_num)⟩

theorem alpha2_residue (h0 : r 0 < prime 0) (h1 : r 1 < prime 1) (h2 : r 2 < prime 2) :
    ((r 0 : Int) + prime 0 * alpha1 v C r + prime 0 * prime 1 * alpha2 v C r) % prime 2 = r 2 := by
  rw [alpha2_eq hv hC h0 h1 h2, digit_spec (by rw [hC.i2.2.2]; unfold prime; norm_num)]
  exact Int.emod_eq_of_lt (by omega) (by omega)

theorem alpha3_eq (h0 : r 0 < prime 0) (h1 : r 1 < prime 1) (h2 : r 2 < prime 2) (h3 : r 3 < prime 3) :
    alpha3 v C r = ((r 3 : Int) - ((r 0 : Int) + prime 0 * alpha1 v C r +
      prime 0 * prime 1 * alpha2 v C r)) * C.invp0p1p2_p3 % prime 3 := by
  unfold alpha3
  have e0 : (prime 0 : Int) < prime 3 := by unfold prime; norm_num
  have e1 : (prime 1 : Int) < prime 3 := by unfold prime; norm_num
  have e2 : (prime 2 : Int) < prime 3 := by unfold prime; norm_num
  have hp3 : (0 : Int) < prime 3 := by unfold prime; norm_num
  have hlt : (prime 3 : Int) < 2 ^ 50 := by exact_mod_cast prime_lt 3
  obtain ⟨a1, a2⟩ := alpha1_range hv hC h0 h1
  obtain ⟨c1, c2⟩ := alpha2_range hv hC h0 h1 h2
  have hred := mulz_eq hv (a := alpha1 v C r) (b := prime 0) hp3 hlt (by omega) (by omega) (by omega) e0
  have d1 := Int.emod_nonneg ((prime 0 : Int) * prime 1) (ne_of_gt hp3)
  have d2 := Int.emod_lt_of_pos ((prime 0 : Int) * prime 1) hp3
  have hred' := mulz_eq hv (a := alpha2 v C r) (b := C.p0p1_red3) hp3 hlt (by omega) (by omega)
    (by rw [hC.r3]; exact d1) (by rw [hC.r3]; exact d2)
  have b1 := Int.emod_nonneg (alpha1 v C r * prime 0) (ne_of_gt hp3)
  have b2 := Int.emod_lt_of_pos (alpha1 v C r * prime 0) hp3
  have f1 := Int.emod_nonneg (alpha2 v C r * C.p0p1_red3) (ne_of_gt hp3)
  have f2 := Int.emod_lt_of_pos (alpha2 v C r * C.p0p1_red3) hp3
  have g1 := Int.emod_nonneg ((r 0 : Int) + alpha1 v C r * prime 0 % prime 3) (ne_of_gt hp3)
  have g2 := Int.emod_lt_of_pos ((r 0 : Int) + alpha1 v C r * prime 0 % prime 3) hp3
  have hadd : addmod (r 0 : Int) (alpha1 v C r * prime 0 % prime 3) (prime 3) =
      ((r 0 : Int) + alpha1 v C r * prime 0 % prime 3) % prime 3 :=
    addmod_eq (by omega) (by omega) b1 b2
  simp only [hred, hred', hadd]
  rw [mulz_eq hv hp3 hlt (by omega) (by omega) hC.i3.1 hC.i3.2.1]
  have m1 : ((r 0 : Int) + alpha1 v C r * prime 0 % prime 3) % prime 3 ≡
      (r 0 : Int) + prime 0 * alpha1 v C r [ZMOD prime 3] := by
    refine (Int.mod_modEq _ _).trans (Int.ModEq.add_left _ ?_)
    rw [mul_comm (prime 0 : Int)]; exact Int.mod_modEq _ _
  have m2 : alpha2 v C r * C.p0p1_red3 % prime 3 ≡ prime 0 * prime 1 * alpha2 v C r [ZMOD prime 3] := by
    refine (Int.mod_modEq _ _).trans ?_
    rw [hC.r3, mul_comm]
    exact (Int.mod_modEq _ _).mul_right _
  exact ((m1.add m2).sub_left (r 3 : Int)).mul_right _

theorem alpha3_range (h0 : r 0 < prime 0) (h1 : r 1 < prime 1) (h2 : r 2 < prime 2) (h3 : r 3 < prime 3) :
    0 ≤ alpha3 v C r ∧ alpha3 v C r < prime 3 := by
  rw [alpha3_eq hv hC h0 h1 h2 h3]
  exact ⟨Int.emod_nonneg _ (by unfold prime; norm_num), Int.emod_lt_of_pos _ (by unfold prime; norm_num)⟩

theorem alpha3_residue (h0 : r 0 < prime 0) (h1 : r 1 < prime 1) (h2 : r 2 < prime 2) (h3 : r 3 < prime 3) :
    ((r 0 : Int) + prime 0 * alpha1 v C r + prime 0 * prime 1 * alpha2 v C r +
      prime 0 * prime 1 * prime 2 * alpha3 v C r) % prime 3 = r 3 := by
  rw [alpha3_eq hv hC h0 h1 h2 h3, digit_spec (by rw [hC.i3.2.2]; unfold prime; norm_num)]
  exact Int.emod_eq_of_lt (by omega) (by omega)

/-- The digits represent the wanted integer. -/
theorem mixed_isCrt (k : Nat) (hk1 : 1 ≤ k) (hk4 : k ≤ 4) (hr : ∀ j, j < k → r j < prime j) :
    IsCrt prime k r (mixed (r 0) (alpha1 v C r) (alpha2 v C r) (alpha3 v C r) k) := by
  have h0 := hr 0 (by omega)
  have z0 : (r 0 : Int) % prime 0 = r 0 := Int.emod_eq_of_lt (by omega) (by omega)
  have hk : k = 1 ∨ k = 2 ∨ k = 3 ∨ k = 4 := by omega
  rcases hk with rfl | rfl | rfl | rfl
  · refine ⟨by show 0 ≤ (r 0 : Int); omega, ?_, fun i hi => ?_⟩
    · show (r 0 : Int) < _
      simp only [modProd, prod_range_succ, prod_range_zero, one_mul]
      omega
    · obtain rfl : i = 0 := by omega
      exact z0
  · have h1 := hr 1 (by omega)
    obtain ⟨a1, a2⟩ := alpha1_range hv hC h0 h1
    refine ⟨?_, ?_, fun i hi => ?_⟩
    · show 0 ≤ (r 0 : Int) + prime 0 * alpha1 v C r
      positivity
    · show (r 0 : Int) + prime 0 * alpha1 v C r < _
      simp only [modProd, prod_range_succ, prod_range_zero, one_mul]
      simp only [prime] at *
      norm_num at *
      omega
    · have : i = 0 ∨ i = 1 := by omega
      rcases this with rfl | rfl
      · show ((r 0 : Int) + prime 0 * alpha1 v C r) % _ = _
        rw [Int.add_mul_emod_self_left, z0]
      · exact alpha1_residue hv hC h0 h1
  · have h1 := hr 1 (by omega)
    have h2 := hr 2 (by omega)
    obtain ⟨a1, a2⟩ := alpha1_range hv hC h0 h1
    obtain ⟨b1, b2⟩ := alpha2_range hv hC h0 h1 h2
    refine ⟨?_, ?_, fun i hi => ?_⟩
    · show 0 ≤ (r 0 : Int) + prime 0 * alpha1 v C r + prime 0 * prime 1 * alpha2 v C r
      positivity
    · show (r 0 : Int) + prime 0 * alpha1 v C r + prime 0 * prime 1 * alpha2 v C r < _
      simp only [modProd, prod_range_succ, prod_range_zero, one_mul]
      simp only [prime] at *
      norm_num at *
      omega
    · have : i = 0 ∨ i = 1 ∨ i = 2 := by omega
      rcases this with rfl | rfl | rfl
      · show ((r 0 : Int) + prime 0 * alpha1 v C r + prime 0 * prime 1 * alpha2 v C r) % _ = _
        rw [mul_assoc, Int.add_mul_emod_self_left, Int.add_mul_emod_self_left, z0]
      · show ((r 0 : Int) + prime 0 * alpha1 v C r + prime 0 * prime 1 * alpha2 v C r) % _ = _
        rw [mul_comm (prime 0 : Int) (prime 1), mul_assoc (prime 1 : Int), Int.add_mul_emod_self_left]
        exact alpha1_residue hv hC h0 h1
      · exact alpha2_residue hv hC h0 h1 h2
  · have h1 := hr 1 (by omega)
    have h2 := hr 2 (by omega)
    have h3 := hr 3 (by omega)
    obtain ⟨a1, a2⟩ := alpha1_range hv hC h0 h1
    obtain ⟨b1, b2⟩ := alpha2_range hv hC h0 h1 h2
    obtain ⟨c1, c2⟩ := alpha3_range hv hC h0 h1 h2 h3
    refine ⟨?_, ?_, fun i hi => ?_⟩
    · show 0 ≤ (r 0 : Int) + prime 0 * alpha1 v C r + prime 0 * prime 1 * alpha2 v C r +
        prime 0 * prime 1 * prime 2 * alpha3 v C r
      positivity
    · show (r 0 : Int) + prime 0 * alpha1 v C r + prime 0 * prime 1 * alpha2 v C r +
        prime 0 * prime 1 * prime 2 * alpha3 v C r < _
      simp only [modProd, prod_range_succ, prod_range_zero, one_mul]
      simp only [prime] at *
      norm_num at *
      omega
    · have : i = 0 ∨ i = 1 ∨ i = 2 ∨ i = 3 := by omega
      rcases this with rfl | rfl | rfl | rfl
      · show ((r 0 : Int) + prime 0 * alpha1 v C r + prime 0 * prime 1 * alpha2 v C r +
          prime 0 * prime 1 * prime 2 * alpha3 v C r) % _ = _
        have e : (r 0 : Int) + prime 0 * alpha1 v C r + prime 0 * prime 1 * alpha2 v C r +
          prime 0 * prime 1 * prime 2 * alpha3 v C r = r 0 + prime 0 * (alpha1 v C r + prime 1 * alpha2 v C r +
          prime 1 * prime 2 * alpha3 v C r) := by ring
        rw [e, Int.add_mul_emod_self_left, z0]
      · show ((r 0 : Int) + prime 0 * alpha1 v C r + prime 0 * prime 1 * alpha2 v C r +
          prime 0 * prime 1 * prime 2 * alpha3 v C r) % _ = _
        have e : (r 0 : Int) + prime 0 * alpha1 v C r + prime 0 * prime 1 * alpha2 v C r +
          prime 0 * prime 1 * prime 2 * alpha3 v C r = r 0 + prime 0 * alpha1 v C r + prime 1 *
          (prime 0 * alpha2 v C r + prime 0 * prime 2 * alpha3 v C r) := by ring
        rw [e, Int.add_mul_emod_self_left]
        exact alpha1_residue hv hC h0 h1
      · show ((r 0 : Int) + prime 0 * alpha1 v C r + prime 0 * prime 1 * alpha2 v C r +
          prime 0 * prime 1 * prime 2 * alpha3 v C r) % _ = _
        have e : (r 0 : Int) + prime 0 * alpha1 v C r + prime 0 * prime 1 * alpha2 v C r +
          prime 0 * prime 1 * prime 2 * alpha3 v C r = r 0 + prime 0 * alpha1 v C r +
          prime 0 * prime 1 * alpha2 v C r + prime 2 * (prime 0 * prime 1 * alpha3 v C r) := by ring
        rw [e, Int.add_mul_emod_self_left]
        exact alpha2_residue hv hC h0 h1 h2
      · exact alpha3_residue hv hC h0 h1 h2 h3

end small

end PML.WordCrt
