import Verif.Ntl.CrtLemmas
import Verif.Common.Prime
import Mathlib.FieldTheory.Perfect
import Mathlib.RingTheory.Coprime.Lemmas
import Mathlib.Tactic.LinearCombination

/-!
# C57 and C58: Chinese remaindering and multipoint evaluation over subproduct trees
-/

namespace PML.Ntl.Crt

open Polynomial

set_option linter.unusedSectionVars false

variable {K : Type} [Field K]

/-! ### C57 -/

theorem isCoprime_mod {a f : K[X]} (h : IsCoprime a f) : IsCoprime (a % f) f := by
  have e : a = a % f + f * (a / f) := (EuclideanDomain.mod_add_div a f).symm
  rw [e] at h
  exact (IsCoprime.add_mul_left_left_iff).1 h

theorem cofactorLoop_spec {inv : InvMod K} (hinv : InvModOK inv) (q : Nat → K[X]) (v : Nat → K[X]) (n : Nat)
    (hpos : ∀ i, i < n → 0 < (q i).natDegree)
    (hlt : ∀ i, i < n → (v i).degree < (q i).degree)
    (hv : ∀ i, i < n → IsCoprime (v i) (q i)) :
    ∃ cof, cofactorLoop inv q n v = some cof ∧ (∀ i, n ≤ i → cof i = v i) ∧
      ∀ i, i < n → ∃ w, q i ∣ v i * w - 1 ∧ cof i = (w * derivative (q i)) % q i := by
  induction n with
  | zero => exact ⟨v, rfl, fun i _ => rfl, fun i hi => absurd hi (by omega)⟩
  | succ n ih =>
    obtain ⟨cof, hc, h1, h2⟩ := ih (fun i hi => hpos i (by omega)) (fun i hi => hlt i (by omega))
      fun i hi => hv i (by omega)
    obtain ⟨w, hw, hd⟩ := hinv.unit (v n) (q n) (hpos n (by omega)) (hlt n (by omega)) (hv n (by omega))
    refine ⟨Function.update cof n ((w * derivative (q n)) % q n), ?_, ?_, ?_⟩
    · show (match cofactorLoop inv q n v with
        | none => none
        | some v' => match inv (v' n) (q n) with
          | none => none
          | some w => some (Function.update v' n ((w * derivative (q n)) % q n))) = _
      rw [hc]
      show (match inv (cof n) (q n) with
          | none => none
          | some w => some (Function.update cof n ((w * derivative (q n)) % q n))) = _
      rw [h1 n le_rfl, hw]
    · intro i hi
      rw [Function.update_of_ne (by omega)]
      exact h1 i (by omega)
    · intro i hi
      by_cases h : i = n
      · subst h
        exact ⟨w, hd, Function.update_self ..⟩
      · rw [Function.update_of_ne h]
        exact h2 i (by omega)

theorem dvd_sub_mod (a f : K[X]) : f ∣ a - a % f :=
  ⟨a / f, by linear_combination -(EuclideanDomain.mod_add_div a f)⟩

theorem dvd_sub_iff_mod {a b f : K[X]} : f ∣ a - b ↔ a % f = b % f := by
  constructor
  · intro h
    have e : a = b + (a - b) := by ring
    rw [e, add_mod, EuclideanDomain.mod_eq_zero.2 h, add_zero]
  · intro h
    have := dvd_sub (dvd_sub_mod a f) (dvd_sub_mod b f)
    rw [h] at this
    have e : a - b % f - (b - b % f) = a - b := by ring
    rwa [e] at this

/-- Derivative of a product modulo one of its factors. -/
theorem derivative_prod_mod (q : Nat → K[X]) (n i : Nat) (hi : i < n) :
    q i ∣ derivative (∏ k ∈ Finset.range n, q k) - derivative (q i) * ∏ k ∈ (Finset.range n).erase i, q k := by
  rw [← Finset.mul_prod_erase _ _ (Finset.mem_range.2 hi), derivative_mul]
  exact ⟨derivative (∏ k ∈ (Finset.range n).erase i, q k), by ring⟩

/-- C57, tree part: for any nonempty vector of nonzero polynomials the remainder tree computes all
    remainders, and its root is the product. -/
theorem C57_multimod (q : Nat → K[X]) (n : Nat) (hn : 1 ≤ n) (_hq : ∀ i, i < n → q i ≠ 0) (fuel : Nat) (hf : n ≤ fuel) :
    ∃ L, buildTree fuel n q = some L ∧ root L = ∏ i ∈ Finset.range n, q i ∧
      ∀ f i, i < n → multimod L f i = f % q i := by
  obtain ⟨L, hL⟩ := buildTree_some fuel n q hn hf
  exact ⟨L, hL, root_spec _ _ _ _ hL, fun f i hi => multimod_spec f _ _ _ _ hL i hi⟩

/-- The construction of the tree of an empty vector never ends. -/
theorem C57_empty_never_ends (q : Nat → K[X]) (fuel : Nat) : buildTree fuel 0 q = none := by
  cases h : buildTree fuel 0 q with
  | none => rfl
  | some L =>
    exact absurd (buildTree_induction (P := fun len _ _ => 1 ≤ len) (fun _ => le_rfl) (fun len _ _ _ h _ => by omega)
      fuel 0 q L h) (by omega)

/-- C57: for pairwise coprime squarefree moduli of positive degree over a perfect field (such as
    `Z/pZ`) the object is built, `multimod` computes all remainders, and `combine` returns the
    polynomial of degree less than the sum of the degrees with the prescribed remainders. -/
theorem C57_crt [PerfectField K] {inv : InvMod K} (hinv : InvModOK inv) (q : Nat → K[X]) (n : Nat) (hn : 1 ≤ n)
    (fuel : Nat) (hf : n ≤ fuel)
    (hpos : ∀ i, i < n → 0 < (q i).natDegree)
    (hsq : ∀ i, i < n → Squarefree (q i))
    (hco : ∀ i j, i < n → j < n → i ≠ j → IsCoprime (q i) (q j)) :
    ∃ C, mkCRT inv fuel n q = some C ∧
      (∀ f i, i < n → multimod C.tree f i = f % q i) ∧
      ∀ val : Nat → K[X],
        (combine C q val).degree < ((∑ i ∈ Finset.range n, (q i).natDegree : Nat) : WithBot Nat) ∧
        ∀ i, i < n → combine C q val % q i = val i % q i := by
  have hne : ∀ i, i < n → q i ≠ 0 := fun i hi e => by
    have := hpos i hi
    rw [e, natDegree_zero] at this
    omega
  obtain ⟨L, hL, hroot, hmm⟩ := C57_multimod q n hn hne fuel hf
  have hcop : ∀ i, i < n → IsCoprime (multimod L (derivative (root L)) i) (q i) := by
    intro i hi
    rw [hmm _ i hi, hroot]
    refine isCoprime_mod ?_
    obtain ⟨S, hS⟩ := derivative_prod_mod q n i hi
    have e : derivative (∏ k ∈ Finset.range n, q k)
        = derivative (q i) * ∏ k ∈ (Finset.range n).erase i, q k + q i * S := by linear_combination hS
    rw [e]
    refine IsCoprime.add_mul_left_left ?_ S
    refine IsCoprime.mul_left ?_ ?_
    · exact ((PerfectField.separable_iff_squarefree).2 (hsq i hi)).symm
    · refine IsCoprime.prod_left fun k hk => ?_
      have hk' := Finset.mem_erase.1 hk
      exact hco k i (Finset.mem_range.1 hk'.2) hi hk'.1
  obtain ⟨cof, hc, -, hcof⟩ := cofactorLoop_spec hinv q (multimod L (derivative (root L))) n hpos
    (fun i hi => by rw [hmm _ i hi]; exact EuclideanDomain.mod_lt _ (hne i hi)) hcop
  refine ⟨{ n := n, tree := L, cofactors := cof }, ?_, hmm, ?_⟩
  · unfold mkCRT
    rw [hL]
    dsimp only
    rw [hc]
  · intro val
    have hcomb : combine { n := n, tree := L, cofactors := cof } q val
        = (∏ k ∈ Finset.range n, dual q (fun i => ((val i % q i) * cof i) % q i) k).snd :=
      combineUp_spec _ _ _ _ hL _
    refine ⟨?_, ?_⟩
    · rw [hcomb]
      refine lt_of_lt_of_le (snd_prod_degree q _ n fun k hk => EuclideanDomain.mod_lt _ (hne k hk)) ?_
      refine le_trans degree_le_natDegree ?_
      rw [natDegree_prod _ _ fun k hk => hne k (Finset.mem_range.1 hk)]
    · intro i hi
      rw [hcomb]
      obtain ⟨S, hS⟩ := snd_prod_split q (fun i => ((val i % q i) * cof i) % q i) (Finset.range n) i (Finset.mem_range.2 hi)
      rw [hS, ← dvd_sub_iff_mod]
      obtain ⟨w, ⟨u, hu⟩, hw⟩ := hcof i hi
      rw [hmm _ i hi, hroot] at hu
      obtain ⟨d1, hd1⟩ := derivative_prod_mod q n i hi
      obtain ⟨d2, hd2⟩ := dvd_sub_mod (derivative (∏ k ∈ Finset.range n, q k)) (q i)
      obtain ⟨d3, hd3⟩ := dvd_sub_mod (w * derivative (q i)) (q i)
      obtain ⟨d4, hd4⟩ := dvd_sub_mod ((val i % q i) * cof i) (q i)
      obtain ⟨d5, hd5⟩ := dvd_sub_mod (val i) (q i)
      rw [← hw] at hd3
      generalize derivative (∏ k ∈ Finset.range n, q k) % q i = Pm at *
      generalize derivative (∏ k ∈ Finset.range n, q k) = P' at *
      generalize (∏ k ∈ (Finset.range n).erase i, q k) = R at *
      generalize val i % q i * cof i % q i = y at *
      generalize val i % q i = x at *
      refine ⟨S - d4 * R - x * d3 * R + x * u + x * w * d2 - x * w * d1 - d5, ?_⟩
      linear_combination (-R) * hd4 - x * R * hd3 + x * hu + x * w * hd2 - x * w * hd1 - hd5

/-- The contract of `InvMod` is satisfiable. -/
theorem exists_invMod : ∃ inv : InvMod K, InvModOK inv := by
  classical
  refine ⟨fun a f => if h : IsCoprime a f then some h.choose else none, ?_, ?_⟩
  · intro a f _ _ h
    refine ⟨h.choose, dif_pos h, ?_⟩
    obtain ⟨b, hb⟩ := h.choose_spec
    exact ⟨-b, by linear_combination hb⟩
  · intro a f h
    exact dif_neg h

/-- Three coprime squarefree moduli over `Z/5Z`: `X`, `X^2 + 2` and `X + 1`. -/
example : ∃ (inv : InvMod (ZMod 5)) (q : Nat → (ZMod 5)[X]), InvModOK inv ∧ (1 ≤ 3) ∧
    (∀ i, i < 3 → 0 < (q i).natDegree) ∧ (∀ i, i < 3 → Squarefree (q i)) ∧
    (∀ i j, i < 3 → j < 3 → i ≠ j → IsCoprime (q i) (q j)) := by
  obtain ⟨inv, hinv⟩ := exists_invMod (K := ZMod 5)
  have e5 : (5 : (ZMod 5)[X]) = 0 := by
    have : ((5 : Nat) : (ZMod 5)[X]) = 0 := CharP.cast_eq_zero _ 5
    exact_mod_cast this
  have c01 : IsCoprime (X : (ZMod 5)[X]) (X ^ 2 + 2) := ⟨2 * X, 3, by linear_combination (X ^ 2 + 1) * e5⟩
  have c02 : IsCoprime (X : (ZMod 5)[X]) (X + 1) := ⟨-1, 1, by ring⟩
  have c12 : IsCoprime (X ^ 2 + 2 : (ZMod 5)[X]) (X + 1) := ⟨2, -2 * X + 2, by linear_combination e5⟩
  refine ⟨inv, fun i => if i = 0 then X else if i = 1 then X ^ 2 + 2 else X + 1, hinv, by decide, ?_, ?_, ?_⟩
  · intro i hi
    interval_cases i
    · simp
    · show 0 < (X ^ 2 + 2 : (ZMod 5)[X]).natDegree
      have : (X ^ 2 + 2 : (ZMod 5)[X]) = X ^ 2 + C 2 := rfl
      rw [this, natDegree_X_pow_add_C]
      decide
    · show 0 < (X + 1 : (ZMod 5)[X]).natDegree
      have : (X + 1 : (ZMod 5)[X]) = X + C 1 := rfl
      rw [this, natDegree_X_add_C]
      decide
  · intro i hi
    refine Separable.squarefree ?_
    interval_cases i
    · exact separable_X
    · show (X ^ 2 + 2 : (ZMod 5)[X]).Separable
      unfold Separable
      have : derivative (X ^ 2 + 2 : (ZMod 5)[X]) = 2 * X := by
        have : (X ^ 2 + 2 : (ZMod 5)[X]) = X ^ 2 + C 2 := rfl
        rw [this]
        rw [derivative_add, derivative_X_pow, derivative_C, add_zero, Nat.cast_ofNat, pow_one]
        rfl
      rw [this]
      exact ⟨3, X, by linear_combination (X ^ 2 + 1) * e5⟩
    · have : (X + 1 : (ZMod 5)[X]) = X + C 1 := rfl
      show (X + 1 : (ZMod 5)[X]).Separable
      rw [this]
      exact separable_X_add_C 1
  · intro i j hi hj hne
    interval_cases i <;> interval_cases j <;> first | exact absurd rfl hne | skip
    · exact c01
    · exact c02
    · exact c01.symm
    · exact c12
    · exact c02.symm
    · exact c12.symm

/-! ### C58 -/

theorem leaf_eq (a : K) : (C (-a) + C 1 * X ^ 1 : K[X]) = X - C a := by
  rw [C_neg, C_1]; ring

theorem invLoop_spec [DecidableEq K] (v : Nat → K) (n : Nat) (hv : ∀ i, i < n → v i ≠ 0) :
    ∃ w, invLoop n v = some w ∧ (∀ i, n ≤ i → w i = v i) ∧ ∀ i, i < n → w i = 1 / v i := by
  induction n with
  | zero => exact ⟨v, rfl, fun i _ => rfl, fun i hi => absurd hi (by omega)⟩
  | succ n ih =>
    obtain ⟨w, hw, h1, h2⟩ := ih fun i hi => hv i (by omega)
    refine ⟨Function.update w n (1 / w n), ?_, ?_, ?_⟩
    · show (match invLoop n v with
        | none => none
        | some v' => if v' n = 0 then none else some (Function.update v' n (1 / v' n))) = _
      rw [hw]
      exact if_neg (by rw [h1 n le_rfl]; exact hv n (by omega))
    · intro i hi
      rw [Function.update_of_ne (by omega)]
      exact h1 i (by omega)
    · intro i hi
      by_cases h : i = n
      · subst h
        rw [Function.update_self, h1 i le_rfl]
      · rw [Function.update_of_ne h]
        exact h2 i (by omega)

theorem eval_erase (a : Nat → K) (n i : Nat) :
    (∏ k ∈ (Finset.range n).erase i, (X - C (a k))).eval (a i) = ∏ k ∈ (Finset.range n).erase i, (a i - a k) := by
  rw [eval_prod]
  refine Finset.prod_congr rfl fun k _ => ?_
  rw [eval_sub, eval_X, eval_C]

theorem coeff_revTo (a : K[X]) (hi j : Nat) : (revTo a hi).coeff j = if j ≤ hi then a.coeff (hi - j) else 0 := by
  unfold revTo
  rw [finsetSum_coeff]
  by_cases h : j ≤ hi
  · rw [if_pos h, Finset.sum_eq_single j]
    · rw [coeff_C_mul_X_pow, if_pos rfl]
    · intro b _ hb
      rw [coeff_C_mul_X_pow, if_neg (Ne.symm hb)]
    · intro hj
      exact absurd (Finset.mem_range.2 (by omega)) hj
  · rw [if_neg h]
    refine Finset.sum_eq_zero fun b hb => ?_
    have := Finset.mem_range.1 hb
    rw [coeff_C_mul_X_pow, if_neg (by omega)]

theorem revTo_eq_reflect (a : K[X]) (hi : Nat) (h : a.natDegree ≤ hi) : revTo a hi = reflect hi a := by
  ext j
  rw [coeff_revTo, coeff_reflect]
  by_cases hj : j ≤ hi
  · rw [if_pos hj, revAt_le hj]
  · rw [if_neg hj, revAt_eq_self_of_lt (by omega), coeff_eq_zero_of_natDegree_lt (by omega)]

theorem revTo_sum (s : Finset Nat) (g : Nat → K[X]) (hi : Nat) :
    revTo (∑ i ∈ s, g i) hi = ∑ i ∈ s, revTo (g i) hi := by
  ext j
  rw [coeff_revTo, finsetSum_coeff, finsetSum_coeff]
  by_cases h : j ≤ hi
  · rw [if_pos h]
    refine Finset.sum_congr rfl fun i _ => ?_
    rw [coeff_revTo, if_pos h]
  · rw [if_neg h]
    symm
    refine Finset.sum_eq_zero fun i _ => ?_
    rw [coeff_revTo, if_neg h]

theorem revTo_C_mul (c : K) (g : K[X]) (hi : Nat) : revTo (C c * g) hi = C c * revTo g hi := by
  ext j
  rw [coeff_revTo, coeff_C_mul, coeff_C_mul, coeff_revTo]
  split_ifs <;> simp

theorem natDegree_prod_le (a : Nat → K) (s : Finset Nat) : (∏ k ∈ s, (X - C (a k))).natDegree ≤ s.card := by
  rw [natDegree_prod _ _ fun k _ => X_sub_C_ne_zero (a k)]
  simp

theorem reflect_prod (a : Nat → K) (s : Finset Nat) :
    reflect s.card (∏ k ∈ s, (X - C (a k))) = ∏ k ∈ s, (1 - C (a k) * X) := by
  classical
  induction s using Finset.induction_on with
  | empty =>
    rw [Finset.prod_empty, Finset.prod_empty, Finset.card_empty]
    simp
  | insert b s hb ih =>
    rw [Finset.prod_insert hb, Finset.prod_insert hb, Finset.card_insert_of_notMem hb, add_comm s.card 1,
      reflect_mul _ _ (le_of_eq (natDegree_X_sub_C (a b))) (natDegree_prod_le a s), ih]
    congr 1
    rw [reflect_sub, reflect_C, pow_one]
    congr 1
    ext j
    rw [coeff_reflect]
    rcases Nat.lt_trichotomy j 1 with h | h | h
    · have : j = 0 := by omega
      subst this
      rw [revAt_le (by omega)]
      simp
    · subst h
      rw [revAt_le le_rfl]
      simp [coeff_one]
    · rw [revAt_eq_self_of_lt h, coeff_X_of_ne_one (by omega), coeff_one, if_neg (by omega)]

/-- The power sums `s_j = Σ_i val_i a_i^j`, `j < n`, as a polynomial. -/
noncomputable def powerSums (a val : Nat → K) (n : Nat) : K[X] :=
  ∑ j ∈ Finset.range n, C (∑ i ∈ Finset.range n, val i * a i ^ j) * X ^ j

theorem coeff_powerSums (a val : Nat → K) (n j : Nat) :
    (powerSums a val n).coeff j = if j < n then ∑ i ∈ Finset.range n, val i * a i ^ j else 0 := by
  unfold powerSums
  rw [finsetSum_coeff]
  by_cases h : j < n
  · rw [if_pos h, Finset.sum_eq_single j]
    · rw [coeff_C_mul_X_pow, if_pos rfl]
    · intro b _ hb
      rw [coeff_C_mul_X_pow, if_neg (Ne.symm hb)]
    · intro hj
      exact absurd (Finset.mem_range.2 h) hj
  · rw [if_neg h]
    refine Finset.sum_eq_zero fun b hb => ?_
    have := Finset.mem_range.1 hb
    rw [coeff_C_mul_X_pow, if_neg (by omega)]

theorem powerSums_mul (a val : Nat → K) (n : Nat) :
    X ^ n ∣ (∑ i ∈ Finset.range n, C (val i) * ∏ k ∈ (Finset.range n).erase i, (1 - C (a k) * X))
      - powerSums a val n * ∏ k ∈ Finset.range n, (1 - C (a k) * X) := by
  have e1 : powerSums a val n = ∑ i ∈ Finset.range n, C (val i) * ∑ j ∈ Finset.range n, (C (a i) * X) ^ j := by
    unfold powerSums
    simp only [Finset.mul_sum, map_sum, Finset.sum_mul]
    rw [Finset.sum_comm]
    refine Finset.sum_congr rfl fun i _ => Finset.sum_congr rfl fun j _ => ?_
    rw [C_mul, C_pow, mul_pow, mul_assoc]
  rw [e1, Finset.sum_mul, ← Finset.sum_sub_distrib]
  refine Finset.dvd_sum fun i hi => ?_
  rw [← Finset.mul_prod_erase _ _ hi]
  have hg := geom_sum_mul_neg (C (a i) * X : K[X]) n
  generalize (∏ k ∈ (Finset.range n).erase i, (1 - C (a k) * X)) = R
  refine ⟨C (val i) * C (a i) ^ n * R, ?_⟩
  generalize (∑ j ∈ Finset.range n, (C (a i) * X) ^ j) = G at *
  rw [mul_pow] at hg
  linear_combination (-(C (val i)) * R) * hg

/-- The remainder modulo `X^n` has the same first `n` coefficients. -/
theorem coeff_eq_of_dvd {f g : K[X]} {n j : Nat} (h : X ^ n ∣ f - g) (hj : j < n) : f.coeff j = g.coeff j := by
  have := (X_pow_dvd_iff.1 h) j hj
  rwa [coeff_sub, sub_eq_zero] at this

theorem modByMonic_dvd (f : K[X]) (n : Nat) : X ^ n ∣ f - f %ₘ X ^ n := by
  have := modByMonic_add_div f (X ^ n : K[X])
  exact ⟨f /ₘ X ^ n, by linear_combination -this⟩

theorem coeff_modByMonic_high (f : K[X]) (n j : Nat) (h : n ≤ j) : (f %ₘ X ^ n).coeff j = 0 := by
  refine coeff_eq_zero_of_degree_lt (lt_of_lt_of_le (degree_modByMonic_lt f (monic_X_pow n)) ?_)
  rw [degree_X_pow]
  exact_mod_cast h

theorem fold_mul (a : Nat → K) (n : Nat) (val : Nat → K) :
    revTo (∑ i ∈ Finset.range n, C (val i) * ∏ k ∈ (Finset.range n).erase i, (X - C (a k))) (n - 1)
      = ∑ i ∈ Finset.range n, C (val i) * ∏ k ∈ (Finset.range n).erase i, (1 - C (a k) * X) := by
  rw [revTo_sum]
  refine Finset.sum_congr rfl fun i hi => ?_
  have hc : ((Finset.range n).erase i).card = n - 1 := by rw [Finset.card_erase_of_mem hi, Finset.card_range]
  rw [revTo_C_mul, revTo_eq_reflect _ _ (by rw [← hc]; exact natDegree_prod_le a _)]
  rw [← hc, reflect_prod]

/-- C58: general multipoint evaluation.  For `n ≥ 1` distinct points the object is built and
    * `evaluate` returns the values of any polynomial at the points;
    * `interpolate` returns the polynomial of degree less than `n` with the given values;
    * `t_evaluate` returns the transposed (weighted power sums) map;
    * `t_interpolate` returns the weights whose power sums are the first `n` coefficients. -/
theorem C58_multipoint [DecidableEq K] {it : K[X] → Nat → K[X]} (hit : InvTruncOK it) (a : Nat → K) (n : Nat)
    (hn : 1 ≤ n) (fuel : Nat) (hf : n ≤ fuel) (ha : ∀ i j, i < n → j < n → a i = a j → i = j) :
    ∃ M, mkMultipoint it fuel n a = some M ∧
      (∀ (f : K[X]) i, i < n → evaluate M.tree f i = f.eval (a i)) ∧
      (∀ val : Nat → K, (interpolate M val).degree < (n : WithBot Nat) ∧
        ∀ i, i < n → (interpolate M val).eval (a i) = val i) ∧
      (∀ (val : Nat → K) j, (tEvaluate M val).coeff j
        = if j < n then ∑ i ∈ Finset.range n, val i * a i ^ j else 0) ∧
      (∀ (f : K[X]) j, j < n → ∑ i ∈ Finset.range n, tInterpolate M f i * a i ^ j = f.coeff j) := by
  have hfun : (fun i => C (-a i) + C 1 * X ^ 1 : Nat → K[X]) = fun i => X - C (a i) := by
    funext i; exact leaf_eq _
  obtain ⟨L, hL, hroot, hmm⟩ := C57_multimod (fun i => (X - C (a i) : K[X])) n hn
    (fun i _ => X_sub_C_ne_zero (a i)) fuel hf
  have hev : ∀ (f : K[X]) i, i < n → evaluate L f i = f.eval (a i) := by
    intro f i hi
    unfold evaluate
    rw [hmm f i hi, mod_X_sub_C_eq_C_eval, coeff_C_zero]
  have hpr : ∀ i, i < n → ∏ k ∈ (Finset.range n).erase i, (a i - a k) ≠ 0 := by
    intro i hi
    refine Finset.prod_ne_zero_iff.2 fun k hk => ?_
    have hk' := Finset.mem_erase.1 hk
    intro e
    exact hk'.1 (ha k i (Finset.mem_range.1 hk'.2) hi (sub_eq_zero.1 e).symm)
  have hder : ∀ i, i < n → evaluate L (derivative (root L)) i = ∏ k ∈ (Finset.range n).erase i, (a i - a k) := by
    intro i hi
    rw [hev _ i hi, hroot, ← Finset.mul_prod_erase _ _ (Finset.mem_range.2 hi), derivative_mul, eval_add, eval_mul,
      eval_mul, derivative_X_sub_C, eval_one, one_mul, eval_sub, eval_X, eval_C, sub_self, zero_mul, add_zero,
      eval_erase]
  obtain ⟨cof, hc, -, hcof⟩ := invLoop_spec (evaluate L (derivative (root L))) n fun i hi => by
    rw [hder i hi]; exact hpr i hi
  have hcof' : ∀ i, i < n → cof i * ∏ k ∈ (Finset.range n).erase i, (a i - a k) = 1 := by
    intro i hi
    rw [hcof i hi, hder i hi, one_div, inv_mul_cancel₀ (hpr i hi)]
  have hcard : (Finset.range n).card = n := Finset.card_range n
  have hrr : revTo (root L) n = ∏ k ∈ Finset.range n, (1 - C (a k) * X) := by
    rw [hroot, revTo_eq_reflect _ _ (by conv_rhs => rw [← hcard]
                                        exact natDegree_prod_le a _)]
    conv_lhs => rw [← hcard]
    rw [hcard]
    have := reflect_prod a (Finset.range n)
    rwa [hcard] at this
  have hrr0 : (revTo (root L) n).coeff 0 ≠ 0 := by
    rw [hrr, coeff_zero_eq_eval_zero, eval_prod]
    refine Finset.prod_ne_zero_iff.2 fun k _ => ?_
    simp
  have hinv := hit (revTo (root L) n) n hrr0
  have hup : ∀ c : Nat → K, combineUp L (fun i => C (c i))
      = ∑ i ∈ Finset.range n, C (c i) * ∏ k ∈ (Finset.range n).erase i, (X - C (a k)) := by
    intro c
    rw [combineUp_spec _ _ _ _ hL, snd_prod_sum]
  have hupdeg : ∀ c : Nat → K, (combineUp L (fun i => C (c i))).degree < (n : WithBot Nat) := by
    intro c
    rw [combineUp_spec _ _ _ _ hL]
    refine lt_of_lt_of_le (snd_prod_degree _ _ n fun k _ => ?_) ?_
    · show (C (c k)).degree < (X - C (a k)).degree
      rw [degree_X_sub_C]
      exact lt_of_le_of_lt degree_C_le (by decide)
    · refine le_trans degree_le_natDegree ?_
      have := natDegree_prod_le a (Finset.range n)
      rw [hcard] at this
      exact_mod_cast this
  have hupev : ∀ (c : Nat → K) i, i < n → (combineUp L (fun i => C (c i))).eval (a i)
      = c i * ∏ k ∈ (Finset.range n).erase i, (a i - a k) := by
    intro c i hi
    rw [combineUp_spec _ _ _ _ hL]
    obtain ⟨S, hS⟩ := snd_prod_split (fun i => (X - C (a i) : K[X])) (fun i => C (c i)) (Finset.range n) i
      (Finset.mem_range.2 hi)
    rw [hS, eval_add, eval_mul, eval_mul, eval_C, eval_sub, eval_X, eval_C, sub_self, zero_mul, zero_add, eval_erase]
  refine ⟨{ n := n, pts := a, tree := L, cofactors := cof, reverse_root := revTo (root L) n,
            inverse_root := it (revTo (root L) n) n }, ?_, hev, ?_, ?_, ?_⟩
  · unfold mkMultipoint
    rw [hfun, hL]
    dsimp only
    rw [hc]
  · intro val
    refine ⟨hupdeg _, fun i hi => ?_⟩
    show (combineUp L fun i => C (val i * cof i)).eval (a i) = val i
    rw [hupev _ i hi, mul_assoc, hcof' i hi, mul_one]
  · intro val j
    show ((revTo (combineUp L fun i => C (val i)) (n - 1) * it (revTo (root L) n) n) %ₘ X ^ n).coeff j = _
    by_cases hj : j < n
    · have h1 := powerSums_mul a val n
      rw [← fold_mul a n val, ← hup, ← hrr] at h1
      generalize revTo (combineUp L fun i => C (val i)) (n - 1) = num at *
      generalize it (revTo (root L) n) n = inv at *
      generalize revTo (root L) n = rr at *
      rw [← coeff_powerSums a val n j]
      refine (coeff_eq_of_dvd (f := powerSums a val n) (n := n) ?_ hj).symm
      have h2 := modByMonic_dvd (num * inv) n
      obtain ⟨u, hu⟩ := h1
      obtain ⟨v, hv⟩ := hinv
      obtain ⟨w, hw⟩ := h2
      exact ⟨w - u * inv - powerSums a val n * v, by
        linear_combination hw - inv * hu - powerSums a val n * hv⟩
    · rw [if_neg hj]
      exact coeff_modByMonic_high _ _ _ (by omega)
  · intro f j hj
    obtain ⟨val, hval⟩ : ∃ val : Nat → K, val = fun i =>
      evaluate L (revTo ((f * revTo (root L) n) %ₘ X ^ n) (n - 1)) i * cof i := ⟨_, rfl⟩
    show ∑ i ∈ Finset.range n,
      (evaluate L (revTo ((f * revTo (root L) n) %ₘ X ^ n) (n - 1)) i * cof i) * a i ^ j = f.coeff j
    have hs : ∑ i ∈ Finset.range n,
      (evaluate L (revTo ((f * revTo (root L) n) %ₘ X ^ n) (n - 1)) i * cof i) * a i ^ j
        = ∑ i ∈ Finset.range n, val i * a i ^ j := by rw [hval]
    rw [hs]
    -- the reversed numerator is the combination with weights `val`
    have hN : revTo ((f * revTo (root L) n) %ₘ X ^ n) (n - 1) = combineUp L fun i => C (val i) := by
      refine eq_of_degrees_lt_of_eval_index_eq (s := Finset.range n) (v := a) ?_ ?_ ?_ ?_
      · intro i hi k hk e
        exact ha i k (Finset.mem_range.1 hi) (Finset.mem_range.1 hk) e
      · rw [hcard, degree_lt_iff_coeff_zero]
        intro m hm
        rw [coeff_revTo, if_neg (by omega)]
      · rw [hcard]; exact hupdeg _
      · intro i hi
        have hi := Finset.mem_range.1 hi
        rw [hupev _ i hi, hval]
        show _ = _ * cof i * _
        rw [mul_assoc, hcof' i hi, mul_one, hev _ i hi]
    have hnum : revTo (combineUp L fun i => C (val i)) (n - 1) = (f * revTo (root L) n) %ₘ X ^ n := by
      rw [← hN]
      ext k
      rw [coeff_revTo, coeff_revTo]
      by_cases hk : k ≤ n - 1
      · rw [if_pos hk, if_pos (by omega), show n - 1 - (n - 1 - k) = k by omega]
      · rw [if_neg hk, coeff_modByMonic_high _ _ _ (by omega)]
    have h1 := powerSums_mul a val n
    rw [← fold_mul a n val, ← hup, ← hrr, hnum] at h1
    have h2 := modByMonic_dvd (f * revTo (root L) n) n
    have h3 := coeff_powerSums a val n j
    rw [if_pos hj] at h3
    rw [← h3]
    refine coeff_eq_of_dvd (n := n) ?_ hj
    generalize it (revTo (root L) n) n = inv at *
    generalize (f * revTo (root L) n) %ₘ X ^ n = num at *
    generalize revTo (root L) n = rr at *
    obtain ⟨u, hu⟩ := h1
    obtain ⟨v, hv⟩ := hinv
    obtain ⟨w, hw⟩ := h2
    exact ⟨-(w * inv) - u * inv + (f - powerSums a val n) * v, by
      linear_combination -(inv * hw) - inv * hu + (f - powerSums a val n) * hv⟩

/-- The contract of `InvTrunc` is satisfiable. -/
theorem exists_invTrunc : ∃ it : K[X] → Nat → K[X], InvTruncOK it := by
  classical
  refine ⟨fun a n => if h : IsCoprime a (X ^ n) then h.choose else 0, ?_⟩
  intro a n h0
  have h : IsCoprime a (X ^ n) := by
    refine IsCoprime.pow_right (IsCoprime.symm ((irreducible_X.coprime_iff_not_dvd).2 ?_))
    rwa [X_dvd_iff]
  have e : (fun a n => if h : IsCoprime a (X ^ n) then h.choose else 0 : K[X] → Nat → K[X]) a n = h.choose := dif_pos h
  rw [e]
  obtain ⟨b, hb⟩ := h.choose_spec
  exact ⟨-b, by linear_combination hb⟩

/-- Three distinct points modulo 5. -/
example : ∃ (it : (ZMod 5)[X] → Nat → (ZMod 5)[X]) (a : Nat → ZMod 5), InvTruncOK it ∧
    ∀ i j, i < 3 → j < 3 → a i = a j → i = j := by
  obtain ⟨it, h⟩ := exists_invTrunc (K := ZMod 5)
  refine ⟨it, fun i => (i + 1 : Nat), h, ?_⟩
  intro i j hi hj
  interval_cases i <;> interval_cases j <;> decide

end PML.Ntl.Crt
