import Verif.Ntl.OrderModel
import Verif.Ntl.GeomProps
import Mathlib.Data.ZMod.Units
import Mathlib.GroupTheory.OrderOfElement
import Mathlib.Algebra.BigOperators.Group.Finset.Basic
import Mathlib.FieldTheory.Finite.Basic

/-!
# C63, C64: multiplicative orders, simultaneous inversion
-/

set_option linter.unusedSectionVars false

namespace PML.Ntl.Order

variable {m : Nat}

theorem orderLoop_spec (a : ZMod m) (N : Nat) (hN : ∀ o, 1 ≤ o → o < N → a ^ o ≠ 1) (hNm : N ≤ m)
    (hstop : a ^ N = 1 ∨ N = m) (hN1 : 1 ≤ N) :
    ∀ (fuel o : Nat), 1 ≤ o → o ≤ N → N + 1 ≤ fuel + o →
      orderLoop a fuel o (a ^ o) = some (if a ^ N = 1 then (N : Int) else -1) := by
  intro fuel
  induction fuel with
  | zero => intro o h1 h2 h3; omega
  | succ fuel ih =>
    intro o h1 h2 h3
    unfold orderLoop
    by_cases ho : o = N
    · subst ho
      by_cases hp : a ^ o = 1
      · rw [if_neg (by simpa using hp), if_pos hp]
      · rw [if_pos hp, if_neg hp, if_pos (hstop.resolve_left hp)]
    · rw [if_pos (hN o h1 (by omega)), if_neg (by omega)]
      have := ih (o + 1) (by omega) (by omega) (by omega)
      rw [pow_succ] at this
      exact this

/-- **C63 (a)**. For any modulus `m ≥ 2`, `order(a)` ends and returns the multiplicative order of `a`
    if `a` is a unit, `-1` otherwise. -/
theorem C63_order [hm : Fact (1 < m)] (a : ZMod m) :
    order a = some (if IsUnit a then (orderOf a : Int) else -1) := by
  have hm1 := hm.out
  haveI : NeZero m := ⟨by omega⟩
  unfold order
  by_cases h0 : a = 0
  · rw [if_pos h0, if_neg (by rw [h0]; exact not_isUnit_zero)]
  · rw [if_neg h0]
    by_cases hu : IsUnit a
    · rw [if_pos hu]
      obtain ⟨u, rfl⟩ := hu
      have hpos : 0 < orderOf (u : ZMod m) := by
        rw [orderOf_units]; exact orderOf_pos u
      have hle : orderOf (u : ZMod m) ≤ m := by
        rw [orderOf_units]
        refine le_trans orderOf_le_card_univ ?_
        rw [ZMod.card_units_eq_totient]
        exact Nat.totient_le m
      have := orderLoop_spec (u : ZMod m) (orderOf (u : ZMod m))
        (fun o h1 h2 e => by have := orderOf_le_of_pow_eq_one (by omega) e; omega) hle
        (Or.inl (pow_orderOf_eq_one _)) hpos (m + 1) 1 le_rfl hpos (by omega)
      rw [pow_one, if_pos (pow_orderOf_eq_one _)] at this
      exact this
    · rw [if_neg hu]
      have hne : ∀ o, 1 ≤ o → a ^ o ≠ 1 := fun o h1 e => hu (IsUnit.of_pow_eq_one e (by omega))
      have := orderLoop_spec a m (fun o h1 _ => hne o h1) le_rfl (Or.inr rfl) (by omega) (m + 1) 1 le_rfl (by omega)
        (by omega)
      rw [pow_one, if_neg (hne m (by omega))] at this
      exact this

theorem tryLoop_spec (a : ZMod m) (c : Nat) :
    ((tryLoop a c).1 = true ↔ ∀ i, 1 ≤ i → i ≤ c → a ^ i ≠ 1) ∧
    ((tryLoop a c).1 = true → (tryLoop a c).2.1 = a * ∏ i ∈ Finset.range c, (1 - a ^ (i + 1)) ∧
      (tryLoop a c).2.2 = a ^ (c + 1)) := by
  induction c with
  | zero =>
    refine ⟨⟨fun _ i h1 h2 => by omega, fun _ => rfl⟩, fun _ => ?_⟩
    simp [tryLoop]
  | succ c ih =>
    obtain ⟨h1, h2⟩ := ih
    unfold tryLoop
    dsimp only
    by_cases hf : (tryLoop a c).1 = false
    · rw [if_pos hf]
      refine ⟨?_, fun e => by rw [hf] at e; cases e⟩
      constructor
      · intro e; rw [hf] at e; cases e
      · intro hall
        exact h1.2 fun i hi1 hi2 => hall i hi1 (by omega)
    · have ht : (tryLoop a c).1 = true := by simpa using hf
      obtain ⟨hp, ha⟩ := h2 ht
      rw [if_neg hf, ha]
      by_cases h : a ^ (c + 1) = 1
      · rw [if_pos h]
        refine ⟨⟨fun e => absurd e (by simp), fun hall => absurd h (hall (c + 1) (by omega) le_rfl)⟩, fun e => absurd e (by simp)⟩
      · rw [if_neg h]
        refine ⟨⟨fun _ i hi1 hi2 => ?_, fun _ => rfl⟩, fun _ => ⟨?_, ?_⟩⟩
        · by_cases hi : i = c + 1
          · rw [hi]; exact h
          · exact h1.1 ht i hi1 (by omega)
        · show (tryLoop a c).2.1 * (1 - a ^ (c + 1)) = _
          rw [hp, Finset.prod_range_succ, mul_assoc]
        · exact (pow_succ a (c + 1)).symm

/-- What the strong test accepts: `a` is a unit, and so are the `a^i - 1` for `1 ≤ i < ord`. -/
def Strong (ord : Nat) (a : ZMod m) : Prop := IsUnit a ∧ ∀ i, 1 ≤ i → i < ord → IsUnit (a ^ i - 1)

/-- What the weak test accepts. -/
def Weak (ord : Nat) (a : ZMod m) : Prop := ∀ i, 1 ≤ i → i < ord → a ^ i ≠ 1

theorem gcd_val_iff [NeZero m] (x : ZMod m) : Nat.gcd x.val m = 1 ↔ IsUnit x := by
  have := ZMod.isUnit_iff_coprime x.val m
  rw [ZMod.natCast_zmod_val] at this
  exact this.symm

theorem isUnit_prod (s : Finset Nat) (f : Nat → ZMod m) : IsUnit (∏ i ∈ s, f i) ↔ ∀ i ∈ s, IsUnit (f i) := by
  induction s using Finset.cons_induction with
  | empty => simp
  | cons a s ha ih =>
    rw [Finset.prod_cons, IsUnit.mul_iff, ih]
    simp

theorem accept_strong [hm : Fact (1 < m)] (a : ZMod m) (ord : Nat) :
    ((tryLoop a (ord - 1)).1 = true ∧ Nat.gcd (tryLoop a (ord - 1)).2.1.val m = 1) ↔ Strong ord a := by
  haveI : NeZero m := ⟨by have := hm.out; omega⟩
  obtain ⟨h1, h2⟩ := tryLoop_spec a (ord - 1)
  have key : ∀ i, IsUnit (1 - a ^ (i + 1)) ↔ IsUnit (a ^ (i + 1) - 1) := by
    intro i
    rw [← IsUnit.neg_iff, neg_sub]
  constructor
  · rintro ⟨ht, hg⟩
    obtain ⟨hp, -⟩ := h2 ht
    rw [gcd_val_iff, hp, IsUnit.mul_iff, isUnit_prod] at hg
    refine ⟨hg.1, fun i hi1 hi2 => ?_⟩
    have := (key (i - 1)).1 (hg.2 (i - 1) (Finset.mem_range.2 (by omega)))
    rw [show i - 1 + 1 = i by omega] at this
    exact this
  · rintro ⟨hu, hs⟩
    have ht := h1.2 fun i hi1 hi2 e => by
      have := hs i hi1 (by omega)
      rw [e, sub_self] at this
      exact not_isUnit_zero this
    obtain ⟨hp, -⟩ := h2 ht
    refine ⟨ht, ?_⟩
    rw [gcd_val_iff, hp, IsUnit.mul_iff, isUnit_prod]
    refine ⟨hu, fun i hi => (key i).2 (hs (i + 1) (by omega) ?_)⟩
    have := Finset.mem_range.1 hi
    omega

theorem trials_spec [hm : Fact (1 < m)] (rnd : Nat → ZMod m) (ord : Nat) (strong : Bool) : ∀ c nb,
    ((∃ k, k < c ∧ (if strong then Strong ord (rnd (nb + k)) else Weak ord (rnd (nb + k))) ∧
        (∀ l, l < k → ¬ (if strong then Strong ord (rnd (nb + l)) else Weak ord (rnd (nb + l)))) ∧
        trials rnd ord strong c nb = rnd (nb + k)) ∨
     ((∀ k, k < c → ¬ (if strong then Strong ord (rnd (nb + k)) else Weak ord (rnd (nb + k)))) ∧
        trials rnd ord strong c nb = 0)) := by
  intro c
  induction c with
  | zero => intro nb; exact Or.inr ⟨fun k hk => absurd hk (by omega), rfl⟩
  | succ c ih =>
    intro nb
    have hweak : (tryLoop (rnd nb) (ord - 1)).1 = true ↔ Weak ord (rnd nb) := by
      rw [(tryLoop_spec (rnd nb) (ord - 1)).1]
      exact ⟨fun h i h1 h2 => h i h1 (by omega), fun h i h1 h2 => h i h1 (by omega)⟩
    have hstrong := accept_strong (rnd nb) ord
    have hstep : (if strong then Strong ord (rnd nb) else Weak ord (rnd nb)) ∧ trials rnd ord strong (c + 1) nb = rnd nb ∨
        ¬ (if strong then Strong ord (rnd nb) else Weak ord (rnd nb)) ∧
          trials rnd ord strong (c + 1) nb = trials rnd ord strong c (nb + 1) := by
      show _ ∧ (if (tryLoop (rnd nb) (ord - 1)).1 = true then if strong = false then rnd nb
          else if Nat.gcd (tryLoop (rnd nb) (ord - 1)).2.1.val m = 1 then rnd nb else trials rnd ord strong c (nb + 1)
        else trials rnd ord strong c (nb + 1)) = _ ∨ _ ∧ (if (tryLoop (rnd nb) (ord - 1)).1 = true then if strong = false then rnd nb
          else if Nat.gcd (tryLoop (rnd nb) (ord - 1)).2.1.val m = 1 then rnd nb else trials rnd ord strong c (nb + 1)
        else trials rnd ord strong c (nb + 1)) = _
      cases strong with
      | false =>
        simp only [Bool.false_eq_true, if_false, if_true]
        by_cases hw : (tryLoop (rnd nb) (ord - 1)).1 = true
        · exact Or.inl ⟨hweak.1 hw, if_pos hw⟩
        · exact Or.inr ⟨fun h => hw (hweak.2 h), if_neg hw⟩
      | true =>
        simp only [if_true, Bool.true_eq_false, if_false]
        by_cases hw : (tryLoop (rnd nb) (ord - 1)).1 = true
        · rw [if_pos hw]
          by_cases hg : Nat.gcd (tryLoop (rnd nb) (ord - 1)).2.1.val m = 1
          · exact Or.inl ⟨hstrong.1 ⟨hw, hg⟩, if_pos hg⟩
          · exact Or.inr ⟨fun h => hg (hstrong.2 h).2, if_neg hg⟩
        · rw [if_neg hw]
          exact Or.inr ⟨fun h => hw (hstrong.2 h).1, rfl⟩
    rcases hstep with ⟨h1, h2⟩ | ⟨h1, h2⟩
    · exact Or.inl ⟨0, by omega, h1, fun l hl => absurd hl (by omega), h2⟩
    · rw [h2]
      rcases ih (nb + 1) with ⟨k, hk, ha, hb, hc⟩ | ⟨ha, hb⟩
      · left
        rw [show nb + 1 + k = nb + (k + 1) by omega] at ha hc
        refine ⟨k + 1, by omega, ha, fun l hl => ?_, hc⟩
        cases l with
        | zero => exact h1
        | succ l =>
          have := hb l (by omega)
          rw [show nb + 1 + l = nb + (l + 1) by omega] at this
          exact this
      · right
        refine ⟨fun k hk => ?_, hb⟩
        cases k with
        | zero => exact h1
        | succ k =>
          have := ha k (by omega)
          rw [show nb + 1 + k = nb + (k + 1) by omega] at this
          exact this

/-- **C63 (b)**. Whatever the random elements, `element_of_order(a, ord, nb_trials, true)` sets `a` to
    the first of the `nb_trials` random elements such that `a` and all `a^i - 1`, `1 ≤ i < ord`, are
    units, and to zero if there is none. It raises an error if and only if `m - 1 < ord`. -/
theorem C63_element_of_order_strong [hm : Fact (1 < m)] (rnd : Nat → ZMod m) (ord nb : Nat) :
    (m - 1 < ord → elementOfOrder rnd ord nb true = none) ∧
    (ord ≤ m - 1 → ∃ a, elementOfOrder rnd ord nb true = some a ∧
      ((∃ k, k < nb ∧ a = rnd k ∧ Strong ord a ∧ ∀ l, l < k → ¬ Strong ord (rnd l)) ∨
       (a = 0 ∧ ∀ k, k < nb → ¬ Strong ord (rnd k)))) := by
  unfold elementOfOrder
  refine ⟨fun h => if_pos h, fun h => ⟨_, if_neg (by omega), ?_⟩⟩
  rcases trials_spec rnd ord true nb 0 with ⟨k, hk, ha, hb, hc⟩ | ⟨ha, hb⟩
  · simp only [if_true, Nat.zero_add] at ha hb hc
    exact Or.inl ⟨k, hk, hc, hc ▸ ha, hb⟩
  · simp only [if_true, Nat.zero_add] at ha
    exact Or.inr ⟨hb, ha⟩

/-- A nonzero result of `element_of_order` with the strong test has order at least `ord`. -/
theorem C63_order_at_least [hm : Fact (1 < m)] (rnd : Nat → ZMod m) (ord nb : Nat) (a : ZMod m) (ha : a ≠ 0)
    (h : elementOfOrder rnd ord nb true = some a) : IsUnit a ∧ ord ≤ orderOf a := by
  haveI : NeZero m := ⟨by have := hm.out; omega⟩
  by_cases hc : m - 1 < ord
  · rw [(C63_element_of_order_strong rnd ord nb).1 hc] at h
    cases h
  · obtain ⟨b, e, hb⟩ := (C63_element_of_order_strong rnd ord nb).2 (by omega)
    rw [h] at e
    obtain rfl := Option.some.inj e
    rcases hb with ⟨k, -, -, hs, -⟩ | ⟨h0, -⟩
    · refine ⟨hs.1, ?_⟩
      obtain ⟨u, rfl⟩ := hs.1
      have hpos : 0 < orderOf (u : ZMod m) := by rw [orderOf_units]; exact orderOf_pos u
      by_contra hlt
      have := hs.2 (orderOf (u : ZMod m)) hpos (by omega)
      rw [pow_orderOf_eq_one, sub_self] at this
      exact not_isUnit_zero this
    · exact absurd h0 ha

/-- **C63 (c)**. Without the strong test the first random element with `a^i ≠ 1` for `1 ≤ i < ord` is
    returned. This is an order condition only if `a` is a unit: with `strong = false`, zero and other
    non-units are accepted at once. -/
theorem C63_element_of_order_weak [hm : Fact (1 < m)] (rnd : Nat → ZMod m) (ord nb : Nat) (h : ord ≤ m - 1) :
    ∃ a, elementOfOrder rnd ord nb false = some a ∧
      ((∃ k, k < nb ∧ a = rnd k ∧ Weak ord a ∧ ∀ l, l < k → ¬ Weak ord (rnd l)) ∨
       (a = 0 ∧ ∀ k, k < nb → ¬ Weak ord (rnd k))) ∧
      (1 ≤ nb → ¬ IsUnit (rnd 0) → a = rnd 0) := by
  unfold elementOfOrder
  refine ⟨_, if_neg (by omega), ?_, ?_⟩
  · rcases trials_spec rnd ord false nb 0 with ⟨k, hk, ha, hb, hc⟩ | ⟨ha, hb⟩
    · simp only [Bool.false_eq_true, if_false, Nat.zero_add] at ha hb hc
      exact Or.inl ⟨k, hk, hc, hc ▸ ha, hb⟩
    · simp only [Bool.false_eq_true, if_false, Nat.zero_add] at ha
      exact Or.inr ⟨hb, ha⟩
  · intro hnb hu
    have hw : Weak ord (rnd 0) := fun i h1 _ e => hu (IsUnit.of_pow_eq_one e (by omega))
    rcases trials_spec rnd ord false nb 0 with ⟨k, hk, ha, hb, hc⟩ | ⟨ha, hb⟩
    · simp only [Bool.false_eq_true, if_false, Nat.zero_add] at ha hb hc
      have : k = 0 := by
        by_contra h0
        exact hb 0 (by omega) hw
      rw [hc, this]
    · simp only [Bool.false_eq_true, if_false, Nat.zero_add] at ha
      exact absurd hw (ha 0 (by omega))

/-- **C63 (d)**. `get_geometric_points(n)` (lzz_pX_Multipoint_Geometric.cpp:818-823): over a prime
    field, if `element_of_order(r, 2n)` finds an element, the object of C62 is well defined. -/
theorem C63_get_geometric_points {p : Nat} [Fact p.Prime] (rnd : Nat → ZMod p) (n nb : Nat) (hn : 1 ≤ n) (r : ZMod p)
    (hr : r ≠ 0) (h : elementOfOrder rnd (2 * n) nb true = some r) {mp} (hmp : Geom.MidOK mp n) (feasible flags : Bool)
    (cs : List Geom.Call) (hcs : ∀ d, Geom.Call.prepare d ∈ cs → d < n) :
    ∃ o₀ o, Geom.construct feasible flags r 1 n = some o₀ ∧ Geom.calls o₀ cs = some o ∧
      Geom.MultipointSpec mp o n fun i => 1 * r ^ (2 * i) := by
  haveI : Fact (1 < p) := ⟨(Fact.out : p.Prime).one_lt⟩
  obtain ⟨-, ho⟩ := C63_order_at_least rnd (2 * n) nb r hr h
  refine Geom.C62_geometric n hmp feasible flags r 1 hn hr one_ne_zero (fun i h1 h2 e => ?_) cs hcs
  have := orderOf_le_of_pow_eq_one (by omega) e
  omega

/-- The strong test can succeed: 3 modulo 7 has order 6. -/
example : Strong (m := 7) 6 3 := by
  refine ⟨isUnit_iff_exists_inv.2 ⟨5, by decide⟩, fun i h1 h2 => isUnit_iff_exists_inv.2 ?_⟩
  have : i = 1 ∨ i = 2 ∨ i = 3 ∨ i = 4 ∨ i = 5 := by omega
  rcases this with rfl | rfl | rfl | rfl | rfl <;> decide

example : order (3 : ZMod 7) = some 6 ∧ order (2 : ZMod 6) = some (-1) := by decide

/-! ### Simultaneous inversion -/

variable {K : Type} [Field K] [DecidableEq K]

theorem prefixProd_ne (A : Nat → K) (c : Nat) : prefixProd A c ≠ 0 ↔ ∀ i, i ≤ c → A i ≠ 0 := by
  induction c with
  | zero =>
    unfold prefixProd
    exact ⟨fun h i hi => (by obtain rfl : i = 0 := by omega
                             exact h), fun h => h 0 le_rfl⟩
  | succ c ih =>
    unfold prefixProd
    rw [mul_ne_zero_iff, ih]
    constructor
    · rintro ⟨h1, h2⟩ i hi
      by_cases hc : i = c + 1
      · rw [hc]; exact h2
      · exact h1 i (by omega)
    · intro h
      exact ⟨fun i hi => h i (by omega), h (c + 1) le_rfl⟩

theorem invLoop_spec (A : Nat → K) : ∀ (c : Nat) (r : Nat → K), (∀ i, i ≤ c → A i ≠ 0) →
    ∀ i, invLoop A (prefixProd A) c (prefixProd A c)⁻¹ r i = if i ≤ c then (A i)⁻¹ else r i := by
  intro c
  induction c with
  | zero =>
    intro r h i
    unfold invLoop prefixProd
    by_cases hi : i = 0
    · rw [hi, Function.update_self, if_pos le_rfl]
    · rw [Function.update_of_ne hi, if_neg (by omega)]
  | succ c ih =>
    intro r h i
    have h1 := (prefixProd_ne A c).2 fun i hi => h i (by omega)
    have h2 := h (c + 1) le_rfl
    have e : (prefixProd A (c + 1))⁻¹ * A (c + 1) = (prefixProd A c)⁻¹ := by
      show (prefixProd A c * A (c + 1))⁻¹ * _ = _
      field_simp
    have e2 : (prefixProd A (c + 1))⁻¹ * prefixProd A c = (A (c + 1))⁻¹ := by
      show (prefixProd A c * A (c + 1))⁻¹ * _ = _
      field_simp
    unfold invLoop
    rw [e, ih _ (fun i hi => h i (by omega)), e2]
    by_cases hi : i ≤ c
    · rw [if_pos hi, if_pos (by omega)]
    · rw [if_neg hi]
      by_cases hc : i = c + 1
      · rw [hc, Function.update_self, if_pos le_rfl]
      · rw [Function.update_of_ne hc, if_neg (by omega)]

/-- **C64**. `inv(invA, A)` (three multiplications per entry and one inversion) and `inv_naive` invert
    the entries `0, …, n-1` and change nothing else if no entry is zero; otherwise both raise an error. -/
theorem C64_inv (n : Nat) (A r : Nat → K) :
    ((∀ i, i < n → A i ≠ 0) →
      invVec n A r = some (fun i => if i < n then (A i)⁻¹ else r i) ∧
      invNaive A r n = some (fun i => if i < n then (A i)⁻¹ else r i)) ∧
    ((∃ i, i < n ∧ A i = 0) → invVec n A r = none ∧ invNaive A r n = none) := by
  have hnaive : ((∀ i, i < n → A i ≠ 0) → invNaive A r n = some (fun i => if i < n then (A i)⁻¹ else r i)) ∧
      ((∃ i, i < n ∧ A i = 0) → invNaive A r n = none) := by
    induction n with
    | zero => exact ⟨fun _ => by simp [invNaive], fun ⟨i, hi, _⟩ => absurd hi (by omega)⟩
    | succ n ih =>
      constructor
      · intro h
        have := ih.1 fun i hi => h i (by omega)
        unfold invNaive
        rw [this]
        show (if A n = 0 then none else some (Function.update (fun i => if i < n then (A i)⁻¹ else r i) n (A n)⁻¹)) = _
        rw [if_neg (h n (by omega))]
        congr 1
        funext i
        by_cases hi : i = n
        · rw [hi, Function.update_self, if_pos (by omega)]
        · rw [Function.update_of_ne hi]
          by_cases h1 : i < n
          · rw [if_pos h1, if_pos (by omega)]
          · rw [if_neg h1, if_neg (by omega)]
      · rintro ⟨i, hi, h0⟩
        unfold invNaive
        by_cases hex : ∃ i, i < n ∧ A i = 0
        · rw [ih.2 hex]
        · have hall : ∀ j, j < n → A j ≠ 0 := fun j hj e => hex ⟨j, hj, e⟩
          rw [ih.1 hall]
          have : i = n := by
            by_contra hne
            exact hall i (by omega) h0
          show (if A n = 0 then none else _) = none
          rw [if_pos (by rw [← this]; exact h0)]
  refine ⟨fun h => ⟨?_, hnaive.1 h⟩, fun h => ⟨?_, hnaive.2 h⟩⟩
  · unfold invVec
    by_cases hn : n = 0
    · rw [if_pos hn]
      congr 1
      funext i
      rw [if_neg (by omega)]
    · have hne := (prefixProd_ne A (n - 1)).2 fun i hi => h i (by omega)
      rw [if_neg hn, if_neg hne]
      congr 1
      funext i
      rw [invLoop_spec A (n - 1) r fun i hi => h i (by omega)]
      by_cases hi : i < n
      · rw [if_pos hi, if_pos (by omega)]
      · rw [if_neg hi, if_neg (by omega)]
  · obtain ⟨i, hi, h0⟩ := h
    unfold invVec
    rw [if_neg (by omega), if_pos]
    by_contra hne
    exact (prefixProd_ne A (n - 1)).1 hne i (by omega) h0

example : invVec 3 (fun i : Nat => (i + 1 : ℚ)) (fun _ => 0) =
    some (fun i : Nat => if i < 3 then ((i + 1 : ℚ))⁻¹ else 0) :=
  ((C64_inv 3 (fun i : Nat => (i + 1 : ℚ)) (fun _ => 0)).1 fun i _ => by positivity).1

end PML.Ntl.Order
