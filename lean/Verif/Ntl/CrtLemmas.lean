import Verif.Ntl.CrtModel
import Mathlib.Algebra.DualNumber
import Mathlib.LinearAlgebra.Lagrange

namespace PML.Ntl.Crt

open Polynomial

set_option linter.unusedSectionVars false

/-! ### Products of pairs -/

section Monoid
variable {M : Type} [CommMonoid M]

/-- Products of consecutive pairs. -/
def nextG (len : Nat) (u : Nat → M) : Nat → M := fun j =>
  if j < len / 2 then u (2 * j) * u (2 * j + 1) else u (len - 1)

theorem prod_pairs (u : Nat → M) (m : Nat) :
    ∏ j ∈ Finset.range m, (u (2 * j) * u (2 * j + 1)) = ∏ k ∈ Finset.range (2 * m), u k := by
  induction m with
  | zero => rfl
  | succ m ih =>
    rw [Finset.prod_range_succ, ih, show 2 * (m + 1) = 2 * m + 1 + 1 by omega, Finset.prod_range_succ,
      Finset.prod_range_succ, mul_assoc]

theorem prod_nextG (u : Nat → M) (len : Nat) :
    ∏ j ∈ Finset.range ((len + 1) / 2), nextG len u j = ∏ k ∈ Finset.range len, u k := by
  rcases Nat.even_or_odd' len with ⟨m, rfl | rfl⟩
  · rw [show (2 * m + 1) / 2 = m by omega, ← prod_pairs]
    refine Finset.prod_congr rfl fun j hj => ?_
    have := Finset.mem_range.1 hj
    exact if_pos (by omega)
  · rw [show (2 * m + 1 + 1) / 2 = m + 1 by omega, Finset.prod_range_succ, Finset.prod_range_succ, ← prod_pairs]
    congr 1
    · refine Finset.prod_congr rfl fun j hj => ?_
      have := Finset.mem_range.1 hj
      exact if_pos (by omega)
    · exact if_neg (by omega)

end Monoid

variable {K : Type} [Field K]

/-! ### The loops -/

theorem downLoop_spec (t : Nat → K[X]) (n : Nat) (v : Nat → K[X]) (k : Nat) :
    downLoop t n v k = if k < 2 * n then v (k / 2) % t k else v k := by
  induction n generalizing v with
  | zero => rw [if_neg (by omega)]; rfl
  | succ j ih =>
    show downLoop t j (Function.update (Function.update v (2 * j + 1) (v j % t (2 * j + 1))) (2 * j)
      ((Function.update v (2 * j + 1) (v j % t (2 * j + 1))) j % t (2 * j))) k = _
    rw [ih]
    by_cases h1 : k < 2 * j
    · rw [if_pos h1, if_pos (by omega), Function.update_of_ne (by omega), Function.update_of_ne (by omega)]
    · rw [if_neg h1]
      by_cases h2 : k = 2 * j
      · subst h2
        rw [Function.update_self, Function.update_of_ne (by omega), if_pos (by omega), show 2 * j / 2 = j by omega]
      · rw [Function.update_of_ne h2]
        by_cases h3 : k = 2 * j + 1
        · subst h3
          rw [Function.update_self, if_pos (by omega), show (2 * j + 1) / 2 = j by omega]
        · rw [Function.update_of_ne h3, if_neg (by omega)]

theorem stepDown_spec (len : Nat) (t v : Nat → K[X]) (hlen : 2 ≤ len) (k : Nat) (hk : k < len) :
    stepDown len t v k = if k < 2 * (len / 2) then v (k / 2) % t k else v ((len - 1) / 2) := by
  unfold stepDown
  rw [downLoop_spec]
  by_cases h : k < 2 * (len / 2)
  · rw [if_pos h, if_pos h]
    split_ifs with ho
    · rw [Function.update_of_ne (by omega)]
    · rfl
  · rw [if_neg h, if_neg h, if_pos (by omega), show k = len - 1 by omega, Function.update_self]

theorem upLoop_spec (t : Nat → K[X]) (n : Nat) (v : Nat → K[X]) (k : Nat) :
    upLoop t n v k = if k < n then v (2 * k) * t (2 * k + 1) + v (2 * k + 1) * t (2 * k) else v k := by
  induction n generalizing k with
  | zero => rw [if_neg (by omega)]; rfl
  | succ j ih =>
    show Function.update (upLoop t j v) j (upLoop t j v (2 * j) * t (2 * j + 1) + upLoop t j v (2 * j + 1) * t (2 * j)) k = _
    by_cases h : k = j
    · subst h
      rw [Function.update_self, ih, ih, if_neg (by omega), if_neg (by omega), if_pos (by omega)]
    · rw [Function.update_of_ne h, ih]
      by_cases h2 : k < j
      · rw [if_pos h2, if_pos (by omega)]
      · rw [if_neg h2, if_neg (by omega)]

theorem stepUp_spec (len : Nat) (t v : Nat → K[X]) (hlen : 2 ≤ len) (k : Nat) (hk : k < (len + 1) / 2) :
    stepUp len t v k = if k < len / 2 then v (2 * k) * t (2 * k + 1) + v (2 * k + 1) * t (2 * k) else v (len - 1) := by
  unfold stepUp
  by_cases ho : len % 2 = 1
  · rw [if_pos ho]
    by_cases hk2 : k = (len - 1) / 2
    · subst hk2
      rw [Function.update_self, upLoop_spec, if_neg (by omega), if_neg (by omega)]
    · rw [Function.update_of_ne hk2, upLoop_spec, if_pos (by omega), if_pos (by omega)]
  · rw [if_neg ho, upLoop_spec, if_pos (by omega), if_pos (by omega)]

/-! ### The tree -/

theorem buildTree_ne_nil {fuel len : Nat} {t : Nat → K[X]} {L : List (Nat × (Nat → K[X]))}
    (h : buildTree fuel len t = some L) : ∃ l L', L = l :: L' := by
  cases fuel with
  | zero => exact absurd h (by simp [buildTree])
  | succ fuel =>
    unfold buildTree at h
    split_ifs at h with h1
    · exact ⟨_, _, (Option.some.inj h).symm⟩
    · cases hb : buildTree fuel ((len + 1) / 2) (nextLevel len t) with
      | none => rw [hb] at h; exact absurd h (by simp)
      | some L' => rw [hb] at h; exact ⟨_, _, (Option.some.inj h).symm⟩

/-- Induction along the construction of the tree. -/
theorem buildTree_induction {P : Nat → (Nat → K[X]) → List (Nat × (Nat → K[X])) → Prop}
    (h1 : ∀ t, P 1 t [(1, t)])
    (h2 : ∀ len t l L, 2 ≤ len → P ((len + 1) / 2) (nextLevel len t) (l :: L) → P len t ((len, t) :: l :: L)) :
    ∀ fuel len t L, buildTree fuel len t = some L → P len t L := by
  intro fuel
  induction fuel with
  | zero => intro len t L h; exact absurd h (by simp [buildTree])
  | succ fuel ih =>
    intro len t L h
    have h' := h
    unfold buildTree at h
    split_ifs at h with hl
    · rw [← Option.some.inj h, hl]; exact h1 t
    · cases hb : buildTree fuel ((len + 1) / 2) (nextLevel len t) with
      | none => rw [hb] at h; exact absurd h (by simp)
      | some L' =>
        rw [hb] at h
        obtain ⟨l, L'', rfl⟩ := buildTree_ne_nil hb
        rw [← Option.some.inj h]
        refine h2 len t l L'' ?_ (ih _ _ _ hb)
        rcases Nat.eq_zero_or_pos len with h0 | h0
        · exfalso
          subst h0
          have : ∀ f (u : Nat → K[X]), buildTree f 0 u = none := by
            intro f
            induction f with
            | zero => intro u; rfl
            | succ f ihf =>
              intro u
              show (if (0 : Nat) = 1 then _ else match buildTree f ((0 + 1) / 2) (nextLevel 0 u) with
                | none => none
                | some L => some ((0, u) :: L)) = none
              rw [if_neg (by omega), show (0 + 1) / 2 = 0 by rfl, ihf]
          rw [this] at h'
          exact absurd h' (by simp)
        · omega

/-- The construction ends for a nonempty vector. -/
theorem buildTree_some : ∀ fuel len (t : Nat → K[X]), 1 ≤ len → len ≤ fuel → ∃ L, buildTree fuel len t = some L := by
  intro fuel
  induction fuel with
  | zero => intro len t h1 h2; omega
  | succ fuel ih =>
    intro len t h1 h2
    unfold buildTree
    by_cases h : len = 1
    · rw [if_pos h]; exact ⟨_, rfl⟩
    · rw [if_neg h]
      obtain ⟨L, hL⟩ := ih ((len + 1) / 2) (nextLevel len t) (by omega) (by omega)
      rw [hL]
      exact ⟨_, rfl⟩

theorem mod_mod_of_dvd {a b : K[X]} (f : K[X]) (h : a ∣ b) : f % b % a = f % a := by
  obtain ⟨c, rfl⟩ := h
  conv_rhs => rw [← EuclideanDomain.mod_add_div f (a * c)]
  rw [add_mod, mul_assoc, EuclideanDomain.mod_eq_zero.2 (Dvd.intro _ rfl), add_zero]

theorem multimod_spec (f : K[X]) : ∀ fuel len (t : Nat → K[X]) L, buildTree fuel len t = some L →
    ∀ k, k < len → multimod L f k = f % t k := by
  refine buildTree_induction (P := fun len t L => ∀ k, k < len → multimod L f k = f % t k) ?_ ?_
  · intro t k hk
    have : k = 0 := by omega
    subst this
    show Function.update (0 : Nat → K[X]) 0 (f % t 0) 0 = _
    rw [Function.update_self]
  · intro len t l L hlen ih k hk
    show stepDown len t (multimod (l :: L) f) k = _
    rw [stepDown_spec len t _ hlen k hk]
    by_cases h : k < 2 * (len / 2)
    · rw [if_pos h, ih (k / 2) (by omega)]
      have hd : t k ∣ nextLevel len t (k / 2) := by
        unfold nextLevel
        rw [if_pos (by omega)]
        rcases Nat.even_or_odd' k with ⟨m, rfl | rfl⟩
        · rw [show 2 * m / 2 = m by omega]; exact Dvd.intro _ rfl
        · rw [show (2 * m + 1) / 2 = m by omega]; exact Dvd.intro_left _ rfl
      exact mod_mod_of_dvd f hd
    · rw [if_neg h, ih ((len - 1) / 2) (by omega)]
      unfold nextLevel
      rw [if_neg (by omega), show k = len - 1 by omega]

theorem root_spec : ∀ fuel len (t : Nat → K[X]) L, buildTree fuel len t = some L →
    root L = ∏ k ∈ Finset.range len, t k := by
  refine buildTree_induction (P := fun len t L => root L = ∏ k ∈ Finset.range len, t k) ?_ ?_
  · intro t
    rw [Finset.prod_range_one]; rfl
  · intro len t l L hlen ih
    have : root ((len, t) :: l :: L) = root (l :: L) := by simp [root]
    rw [this, ih, ← prod_nextG t len]
    rfl

/-- `t_k + ε v_k`. -/
noncomputable def dual (t v : Nat → K[X]) (k : Nat) : DualNumber K[X] :=
  TrivSqZeroExt.inl (t k) + TrivSqZeroExt.inr (v k)

theorem fst_dual (t v : Nat → K[X]) (k : Nat) : (dual t v k).fst = t k := by simp [dual]

theorem snd_dual (t v : Nat → K[X]) (k : Nat) : (dual t v k).snd = v k := by simp [dual]

theorem combineUp_spec : ∀ fuel len (t : Nat → K[X]) L, buildTree fuel len t = some L → ∀ v : Nat → K[X],
    combineUp L v = (∏ k ∈ Finset.range len, dual t v k).snd := by
  refine buildTree_induction
    (P := fun len t L => ∀ v : Nat → K[X], combineUp L v = (∏ k ∈ Finset.range len, dual t v k).snd) ?_ ?_
  · intro t v
    rw [Finset.prod_range_one, snd_dual]; rfl
  · intro len t l L hlen ih v
    show combineUp (l :: L) (stepUp len t v) = _
    rw [ih, ← prod_nextG (dual t v) len]
    congr 1
    refine Finset.prod_congr rfl fun j hj => ?_
    have hj := Finset.mem_range.1 hj
    refine TrivSqZeroExt.ext ?_ ?_
    · rw [fst_dual]
      unfold nextG nextLevel
      by_cases h : j < len / 2
      · rw [if_pos h, if_pos h, TrivSqZeroExt.fst_mul, fst_dual, fst_dual]
      · rw [if_neg h, if_neg h, fst_dual]
    · rw [snd_dual, stepUp_spec len t v hlen j hj]
      unfold nextG
      by_cases h : j < len / 2
      · rw [if_pos h, if_pos h, DualNumber.snd_mul, fst_dual, fst_dual, snd_dual, snd_dual]
        ring
      · rw [if_neg h, if_neg h, snd_dual]

/-! ### Dual numbers -/

theorem fst_prod (t v : Nat → K[X]) (s : Finset Nat) : (∏ k ∈ s, dual t v k).fst = ∏ k ∈ s, t k := by
  classical
  induction s using Finset.induction_on with
  | empty => rfl
  | insert a s ha ih =>
    rw [Finset.prod_insert ha, Finset.prod_insert ha, TrivSqZeroExt.fst_mul, ih, fst_dual]

theorem snd_prod_split (t v : Nat → K[X]) (s : Finset Nat) (i : Nat) (hi : i ∈ s) :
    ∃ S, (∏ k ∈ s, dual t v k).snd = t i * S + v i * ∏ k ∈ s.erase i, t k := by
  classical
  refine ⟨(∏ k ∈ s.erase i, dual t v k).snd, ?_⟩
  rw [← Finset.mul_prod_erase s _ hi, DualNumber.snd_mul, fst_prod, fst_dual, snd_dual]

theorem snd_prod_sum (t v : Nat → K[X]) (s : Finset Nat) :
    (∏ k ∈ s, dual t v k).snd = ∑ i ∈ s, v i * ∏ k ∈ s.erase i, t k := by
  classical
  induction s using Finset.induction_on with
  | empty => rfl
  | insert a s ha ih =>
    rw [Finset.prod_insert ha, Finset.sum_insert ha, DualNumber.snd_mul, fst_prod, ih, Finset.erase_insert ha, fst_dual, snd_dual, add_comm, Finset.mul_sum]
    congr 1
    refine Finset.sum_congr rfl fun i hi => ?_
    have hne : a ≠ i := fun e => ha (e ▸ hi)
    rw [Finset.erase_insert_of_ne hne, Finset.prod_insert (fun h => ha (Finset.mem_of_mem_erase h))]
    ring

theorem snd_prod_degree (t v : Nat → K[X]) (n : Nat) (h : ∀ k, k < n → (v k).degree < (t k).degree) :
    ((∏ k ∈ Finset.range n, dual t v k).snd).degree < (∏ k ∈ Finset.range n, t k).degree := by
  induction n with
  | zero =>
    show (0 : K[X]).degree < (1 : K[X]).degree
    rw [degree_zero, degree_one]
    exact WithBot.bot_lt_coe _
  | succ n ih =>
    have hn := h n (by omega)
    have ih := ih fun k hk => h k (by omega)
    rw [Finset.prod_range_succ, Finset.prod_range_succ, DualNumber.snd_mul, fst_prod, fst_dual, snd_dual, degree_mul]
    have ht : t n ≠ 0 := fun e => by rw [e, degree_zero] at hn; exact not_lt_bot hn
    have hp : (∏ k ∈ Finset.range n, t k) ≠ 0 := fun e => by rw [e, degree_zero] at ih; exact not_lt_bot ih
    refine lt_of_le_of_lt (degree_add_le _ _) (max_lt ?_ ?_)
    · rw [degree_mul]
      rw [degree_eq_natDegree hp]
      exact WithBot.add_lt_add_left WithBot.coe_ne_bot hn
    · rw [degree_mul]
      rw [degree_eq_natDegree ht]
      exact WithBot.add_lt_add_right WithBot.coe_ne_bot ih

end PML.Ntl.Crt
