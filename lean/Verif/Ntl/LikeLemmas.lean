import Verif.Ntl.LikeSpec
import Verif.Ntl.StructProps

/-!
# Matrices with displacement structure: lemmas
-/

namespace PML.Ntl.Struct

open Polynomial PML.Ntl.Utils PML.Ntl.Inv PML.Ntl.Solve PML.Ntl.Middle

variable {p : Nat} [NeZero p]

/-! ### Products by `Z_c` -/

theorem z_left (m : Nat) (c : ZMod p) (f : Nat → ZMod p) (i : Nat) (hi : i < m) :
    ∑ l ∈ Finset.range m, zEntry m c i l * f l = if i = 0 then c * f (m - 1) else f (i - 1) := by
  by_cases h : i = 0
  · rw [if_pos h, Finset.sum_eq_single_of_mem (m - 1) (Finset.mem_range.2 (by omega))]
    · unfold zEntry
      rw [if_neg (by omega), if_pos (by omega)]
    · intro l hl hne
      have := Finset.mem_range.1 hl
      unfold zEntry
      rw [if_neg (by omega), if_neg (by omega), zero_mul]
  · rw [if_neg h, Finset.sum_eq_single_of_mem (i - 1) (Finset.mem_range.2 (by omega))]
    · unfold zEntry
      rw [if_pos (by omega), one_mul]
    · intro l hl hne
      unfold zEntry
      rw [if_neg (by omega), if_neg (by omega), zero_mul]

theorem z_right (n : Nat) (c : ZMod p) (f : Nat → ZMod p) (j : Nat) (hj : j < n) :
    ∑ l ∈ Finset.range n, f l * zEntry n c l j = if j + 1 = n then c * f 0 else f (j + 1) := by
  by_cases h : j + 1 = n
  · rw [if_pos h, Finset.sum_eq_single_of_mem 0 (Finset.mem_range.2 (by omega))]
    · unfold zEntry
      rw [if_neg (by omega), if_pos (by omega), mul_comm]
    · intro l hl hne
      have := Finset.mem_range.1 hl
      unfold zEntry
      rw [if_neg (by omega), if_neg (by omega), mul_zero]
  · rw [if_neg h, Finset.sum_eq_single_of_mem (j + 1) (Finset.mem_range.2 (by omega))]
    · unfold zEntry
      rw [if_pos rfl, mul_one]
    · intro l hl hne
      unfold zEntry
      rw [if_neg (by omega), if_neg (by omega), mul_zero]

theorem dispTP_eq (m n : Nat) (M : Nat → Nat → ZMod p) (i j : Nat) (hi : i < m) (hj : j < n) :
    dispTP m n M i j = M (if i = 0 then m - 1 else i - 1) j - if j + 1 = n then 0 else M i (j + 1) := by
  unfold dispTP
  rw [z_left m 1 (fun l => M l j) i hi, z_right n 0 (M i) j hj]
  split_ifs <;> simp

theorem dispTM_eq (m n : Nat) (M : Nat → Nat → ZMod p) (i j : Nat) (hi : i < m) (hj : j < n) :
    dispTM m n M i j = (if i = 0 then 0 else M (i - 1) j) - M i (if j + 1 = n then 0 else j + 1) := by
  unfold dispTM
  rw [z_left m 0 (fun l => M l j) i hi, z_right n 1 (M i) j hj]
  split_ifs <;> simp

theorem dispHP_eq (m n : Nat) (M : Nat → Nat → ZMod p) (i j : Nat) (hi : i < m) (hj : j < n) :
    dispHP m n M i j = M (if i = 0 then m - 1 else i - 1) j - if j = 0 then 0 else M i (j - 1) := by
  unfold dispHP
  rw [z_left m 1 (fun l => M l j) i hi]
  rw [Finset.sum_congr rfl fun l _ => mul_comm (M i l) (zEntry n 0 j l), z_left n 0 (M i) j hj]
  split_ifs <;> simp

theorem dispHM_eq (m n : Nat) (M : Nat → Nat → ZMod p) (i j : Nat) (hi : i < m) (hj : j < n) :
    dispHM m n M i j = (if i + 1 = m then 0 else M (i + 1) j) - M i (if j + 1 = n then 0 else j + 1) := by
  unfold dispHM
  rw [z_right n 1 (M i) j hj]
  rw [Finset.sum_congr rfl fun l _ => mul_comm (zEntry m 0 l i) (M l j), z_right m 0 (fun l => M l j) i hi]
  split_ifs <;> simp

/-! ### The loops of the constructors -/

theorem succ_mod_ite (a m : Nat) (hm : 0 < m) : (a + 1) % m = if a % m + 1 = m then 0 else a % m + 1 := by
  have h1 := Nat.div_add_mod a m
  have h2 := Nat.mod_lt a hm
  conv_lhs => rw [← h1, Nat.add_assoc, Nat.mul_add_mod]
  by_cases h : a % m + 1 = m
  · rw [if_pos h, h, Nat.mod_self]
  · rw [if_neg h, Nat.mod_eq_of_lt (by omega)]

theorem turnUp_spec (m n : Nat) (hm : 0 < m) (g : Nat → ZMod p) (j : Nat) (hj : j < m) : turnUp m n g j = g ((n + j) % m) := by
  have h : ∀ x, x < m → turnUp m n g x = g ((n + x) % m) := by
    have := forN_inv (n := m) (P := fun (k : Nat) (s : Nat × (Nat → ZMod p)) => s.1 = (n + k) % m ∧ ∀ x, x < k → s.2 x = g ((n + x) % m))
      (s := (n % m, fun _ => 0)) (f := fun j (s : Nat × (Nat → ZMod p)) =>
        let v := write j (g s.1) s.2
        let idx := s.1 + 1
        (if idx = m then 0 else idx, v)) ⟨by simp, by omega⟩ ?_
    · exact this.2
    · intro k s hk hs
      refine ⟨?_, fun x hx => ?_⟩
      · dsimp only
        rw [hs.1, ← Nat.add_assoc, succ_mod_ite _ _ hm]
      · dsimp only
        unfold write
        by_cases e : x = k
        · rw [e, Function.update_self, hs.1]
        · rw [Function.update_of_ne e, hs.2 x (by omega)]
  exact h j hj

theorem turnDown_spec (n : Nat) (hn : 0 < n) (h : Nat → ZMod p) (j : Nat) (hj : j < n) : turnDown n h j = h (cmod n (n - 1) (j + 1)) := by
  have hstep : ∀ k, cmod n (n - 1) (k + 1) = if cmod n (n - 1) k = 0 then n - 1 else cmod n (n - 1) k - 1 := by
    intro k
    rw [← pred_mod n (n - 1) k hn]
    unfold cmod
    congr 2; push_cast; ring
  have h0 : cmod n (n - 1) 0 = n - 1 := by
    rw [cmod_le (by omega) (by omega)]; omega
  have key : ∀ x, x < n → turnDown n h x = h (cmod n (n - 1) (x + 1)) := by
    have := forN_inv (n := n) (P := fun (k : Nat) (s : Nat × (Nat → ZMod p)) =>
        s.1 = cmod n (n - 1) (k + 1) ∧ ∀ x, x < k → s.2 x = h (cmod n (n - 1) (x + 1)))
      (s := (if n < 2 then n + n - 2 else n - 2, fun _ => 0)) (f := fun j (s : Nat × (Nat → ZMod p)) =>
        let v := write j (h s.1) s.2
        (if s.1 = 0 then n - 1 else s.1 - 1, v)) ⟨?_, by omega⟩ ?_
    · exact this.2
    · dsimp only
      rw [hstep, h0]
      split_ifs <;> omega
    · intro k s hk hs
      refine ⟨?_, fun x hx => ?_⟩
      · dsimp only
        rw [hs.1, ← hstep]
      · dsimp only
        unfold write
        by_cases e : x = k
        · rw [e, Function.update_self, hs.1]
        · rw [Function.update_of_ne e, hs.2 x (by omega)]
  exact key j hj

/-- The entries of the circulant factor of the classes `plus`. -/
theorem up_entry (m n : Nat) (hm : 0 < m) (g : Nat → ZMod p) (i k : Nat) (hk : k < n) :
    circColumnEntry (turnUp m n g) m i k = g ((i + 1 + (n - 1 - k)) % m) := by
  obtain ⟨h1, q, h2⟩ := cmod_exists m i k hm
  show turnUp m n g (cmod m i k) = _
  rw [turnUp_spec m n hm g _ h1]
  congr 1
  have : ((i + 1 + (n - 1 - k) : Nat) : Int) = ((n + cmod m i k : Nat) : Int) + m * q := by
    have h3 : ((n - 1 - k : Nat) : Int) = n - 1 - k := by omega
    push_cast [h3]
    linear_combination h2
  have h4 : ((i + 1 + (n - 1 - k) : Nat) : Int) % m = ((n + cmod m i k : Nat) : Int) % m := by
    rw [this, Int.add_mul_emod_self_left]
  exact_mod_cast h4.symm

/-- The entries of the circulant factor of the classes `minus`. -/
theorem down_entry (n : Nat) (hn : 0 < n) (h : Nat → ZMod p) (k j : Nat) :
    circRowEntry (turnDown n h) n k j = h (cmod n j (k + 1)) := by
  unfold circRowEntry
  have h1 := Int.emod_nonneg ((k : Int) - j - 1) (show (n : Int) ≠ 0 by omega)
  have h2 := Int.emod_lt_of_pos ((k : Int) - j - 1) (show (0 : Int) < n by omega)
  have h3 := Int.mul_ediv_add_emod ((k : Int) - j - 1) n
  generalize ((k : Int) - j - 1) / n = q at h3
  obtain ⟨c, hc⟩ : ∃ c : Nat, (((k : Int) - j - 1) % n) = c := ⟨(((k : Int) - j - 1) % n).toNat, by omega⟩
  rw [hc] at h1 h2 h3 ⊢
  rw [Int.toNat_natCast, turnDown_spec n hn h c (by omega)]
  congr 1
  obtain ⟨h4, r, h5⟩ := cmod_exists n j (k + 1) hn
  refine emod_unique (1 + q + r) h4 ?_
  have h6 : ((n - 1 : Nat) : Int) = n - 1 := by omega
  rw [h6]
  push_cast at h5 ⊢
  linear_combination h5 - h3

/-- Dropping zero terms at the end of a sum. -/
theorem sum_trunc {N M : Nat} (hM : N ≤ M) (f : Nat → ZMod p) (h : ∀ k, N ≤ k → k < M → f k = 0) :
    ∑ k ∈ Finset.range M, f k = ∑ k ∈ Finset.range N, f k := by
  symm
  refine Finset.sum_subset (fun x hx => Finset.mem_range.2 (by have := Finset.mem_range.1 hx; omega)) fun x hx hn => ?_
  exact h x (by by_contra hc; exact hn (Finset.mem_range.2 (by omega))) (Finset.mem_range.1 hx)

/-! ### One generator -/

/-- The term of one generator, Toeplitz, `plus`. -/
def termTP (m n : Nat) (g h : Nat → ZMod p) (i j : Nat) : ZMod p := ∑ s ∈ Finset.range (n - j), g ((i + 1 + s) % m) * h (j + s)

/-- Hankel, `plus`. -/
def termHP (m : Nat) (g h : Nat → ZMod p) (i j : Nat) : ZMod p := ∑ s ∈ Finset.range (j + 1), g ((i + 1 + s) % m) * h (j - s)

/-- Toeplitz, `minus`. -/
def termTM (n : Nat) (g h : Nat → ZMod p) (i j : Nat) : ZMod p := -∑ k ∈ Finset.range (i + 1), g (i - k) * h (cmod n j (k + 1))

/-- Hankel, `minus`. -/
def termHM (m n : Nat) (g h : Nat → ZMod p) (i j : Nat) : ZMod p := -∑ k ∈ Finset.range (m - i), g (i + k) * h (cmod n j (k + 1))

theorem prod_TP (m n : Nat) (hm : 0 < m) (g h : Nat → ZMod p) (i j : Nat) (hj : j < n) :
    ∑ k ∈ Finset.range n, circColumnEntry (turnUp m n g) m i k * triEntry (fun x => h (n - 1 - x)) k j = termTP m n g h i j := by
  unfold termTP
  rw [← Finset.sum_range_reflect, sum_trunc (N := n - j) (by omega)]
  · refine Finset.sum_congr rfl fun s hs => ?_
    have := Finset.mem_range.1 hs
    rw [up_entry m n hm g i _ (by omega)]
    unfold triEntry
    rw [if_pos (by omega)]
    dsimp only
    rw [show n - 1 - (n - 1 - s) = s by omega, show n - 1 - (n - 1 - s - j) = j + s by omega]
  · intro k h1 h2
    unfold triEntry
    rw [if_neg (by omega), mul_zero]

theorem prod_HP (m n : Nat) (hm : 0 < m) (g h : Nat → ZMod p) (i j : Nat) (hj : j < n) :
    ∑ k ∈ Finset.range n, circColumnEntry (turnUp m n g) m i k * triEntry h k (n - 1 - j) = termHP m g h i j := by
  unfold termHP
  rw [← Finset.sum_range_reflect, sum_trunc (N := j + 1) (by omega)]
  · refine Finset.sum_congr rfl fun s hs => ?_
    have := Finset.mem_range.1 hs
    rw [up_entry m n hm g i _ (by omega)]
    unfold triEntry
    rw [if_pos (by omega)]
    rw [show n - 1 - (n - 1 - s) = s by omega, show n - 1 - s - (n - 1 - j) = j - s by omega]
  · intro k h1 h2
    unfold triEntry
    rw [if_neg (by omega), mul_zero]

theorem prod_TM (m n : Nat) (hn : 0 < n) (g h : Nat → ZMod p) (i j : Nat) (hi : i < m) :
    ∑ k ∈ Finset.range m, triEntry (fun x => -g x) i k * circRowEntry (turnDown n h) n k j = termTM n g h i j := by
  unfold termTM
  rw [sum_trunc (N := i + 1) (by omega), ← Finset.sum_neg_distrib]
  · refine Finset.sum_congr rfl fun k hk => ?_
    have := Finset.mem_range.1 hk
    rw [down_entry n hn h k j]
    unfold triEntry
    rw [if_pos (by omega), neg_mul]
  · intro k h1 h2
    unfold triEntry
    rw [if_neg (by omega), zero_mul]

theorem prod_HM (m n : Nat) (hn : 0 < n) (g h : Nat → ZMod p) (i j : Nat) (hi : i < m) :
    ∑ k ∈ Finset.range m, triEntry (fun x => -g (m - 1 - x)) (m - 1 - i) k * circRowEntry (turnDown n h) n k j = termHM m n g h i j := by
  unfold termHM
  rw [sum_trunc (N := m - i) (by omega), ← Finset.sum_neg_distrib]
  · refine Finset.sum_congr rfl fun k hk => ?_
    have := Finset.mem_range.1 hk
    rw [down_entry n hn h k j]
    unfold triEntry
    rw [if_pos (by omega), neg_mul]
    congr 3; omega
  · intro k h1 h2
    unfold triEntry
    rw [if_neg (by omega), zero_mul]

theorem prev_mod {m i : Nat} (hi : i < m) (s : Nat) : ((if i = 0 then m - 1 else i - 1) + 1 + s) % m = (i + s) % m := by
  by_cases h : i = 0
  · rw [if_pos h, h, show m - 1 + 1 + s = m + s by omega, Nat.add_mod_left, Nat.zero_add]
  · rw [if_neg h, show i - 1 + 1 + s = i + s by omega]

theorem next_cmod {n j : Nat} (hj : j < n) (k : Nat) : cmod n (if j + 1 = n then 0 else j + 1) (k + 1) = cmod n j k := by
  by_cases h : j + 1 = n
  · rw [if_pos h, ← cmod_left n 0 (k + 1) 1]
    unfold cmod
    congr 2; push_cast; omega
  · rw [if_neg h]
    unfold cmod
    congr 2; push_cast; ring

theorem term_dispTP (m n : Nat) (g h : Nat → ZMod p) (i j : Nat) (hi : i < m) (hj : j < n) :
    termTP m n g h (if i = 0 then m - 1 else i - 1) j - (if j + 1 = n then 0 else termTP m n g h i (j + 1)) = g i * h j := by
  have h1 : (if j + 1 = n then 0 else termTP m n g h i (j + 1)) = ∑ s ∈ Finset.range (n - j - 1), g ((i + (s + 1)) % m) * h (j + (s + 1)) := by
    by_cases e : j + 1 = n
    · rw [if_pos e, show n - j - 1 = 0 by omega, Finset.sum_range_zero]
    · rw [if_neg e]
      unfold termTP
      rw [show n - (j + 1) = n - j - 1 by omega]
      refine Finset.sum_congr rfl fun s _ => ?_
      rw [show i + 1 + s = i + (s + 1) by omega, show j + 1 + s = j + (s + 1) by omega]
  rw [h1]
  unfold termTP
  rw [show n - j = (n - j - 1) + 1 by omega, Nat.add_sub_cancel, Finset.sum_range_succ', prev_mod hi, Nat.add_zero i, Nat.mod_eq_of_lt hi, Nat.add_zero]
  simp only [prev_mod hi]
  exact add_sub_cancel_left _ _

theorem term_dispHP (m : Nat) (g h : Nat → ZMod p) (i j : Nat) (hi : i < m) :
    termHP m g h (if i = 0 then m - 1 else i - 1) j - (if j = 0 then 0 else termHP m g h i (j - 1)) = g i * h j := by
  have h1 : (if j = 0 then 0 else termHP m g h i (j - 1)) = ∑ s ∈ Finset.range j, g ((i + (s + 1)) % m) * h (j - (s + 1)) := by
    by_cases e : j = 0
    · rw [if_pos e, e, Finset.sum_range_zero]
    · rw [if_neg e]
      unfold termHP
      rw [show j - 1 + 1 = j by omega]
      refine Finset.sum_congr rfl fun s _ => ?_
      rw [show i + 1 + s = i + (s + 1) by omega, show j - 1 - s = j - (s + 1) by omega]
  rw [h1]
  unfold termHP
  rw [Finset.sum_range_succ', prev_mod hi, Nat.add_zero i, Nat.mod_eq_of_lt hi, Nat.sub_zero]
  simp only [prev_mod hi]
  exact add_sub_cancel_left _ _

theorem term_dispTM (n : Nat) (g h : Nat → ZMod p) (i j : Nat) (hj : j < n) :
    (if i = 0 then 0 else termTM n g h (i - 1) j) - termTM n g h i (if j + 1 = n then 0 else j + 1) = g i * h j := by
  have h1 : (if i = 0 then 0 else termTM n g h (i - 1) j) = -∑ k ∈ Finset.range i, g (i - (k + 1)) * h (cmod n j (k + 1)) := by
    by_cases e : i = 0
    · rw [if_pos e, e, Finset.sum_range_zero, neg_zero]
    · rw [if_neg e]
      unfold termTM
      rw [show i - 1 + 1 = i by omega]
      congr 1
      refine Finset.sum_congr rfl fun s _ => ?_
      congr 2; omega
  rw [h1]
  unfold termTM
  simp only [next_cmod hj]
  rw [Finset.sum_range_succ', cmod_le hj (Nat.zero_le _), Nat.sub_zero, Nat.sub_zero]
  ring

theorem term_dispHM (m n : Nat) (g h : Nat → ZMod p) (i j : Nat) (hi : i < m) (hj : j < n) :
    (if i + 1 = m then 0 else termHM m n g h (i + 1) j) - termHM m n g h i (if j + 1 = n then 0 else j + 1) = g i * h j := by
  have h1 : (if i + 1 = m then 0 else termHM m n g h (i + 1) j) =
      -∑ k ∈ Finset.range (m - i - 1), g (i + (k + 1)) * h (cmod n j (k + 1)) := by
    by_cases e : i + 1 = m
    · rw [if_pos e, show m - i - 1 = 0 by omega, Finset.sum_range_zero, neg_zero]
    · rw [if_neg e]
      unfold termHM
      rw [show m - (i + 1) = m - i - 1 by omega]
      congr 1
      refine Finset.sum_congr rfl fun s _ => ?_
      congr 2; omega
  rw [h1]
  unfold termHM
  simp only [next_cmod hj]
  rw [show m - i = (m - i - 1) + 1 by omega, Nat.add_sub_cancel, Finset.sum_range_succ', cmod_le hj (Nat.zero_le _), Nat.sub_zero, Nat.add_zero]
  ring

/-! ### Loops -/

theorem loopOut_of_ok {σ : Type} (P : Nat → σ → Prop) {f : Nat → σ → Out σ} {s u : σ} {k : Nat} (h : loopOut k f s = .ok u) (h0 : P 0 s)
    (hs : ∀ i t u, i < k → f i t = .ok u → P i t → P (i + 1) u) : P k u := by
  induction k generalizing u with
  | zero => cases h; exact h0
  | succ k ih =>
    have h' : andThen (loopOut k f s) (f k) = .ok u := h
    cases e : loopOut k f s with
    | ok t =>
      rw [e] at h'
      exact hs k t u (by omega) h' (ih e fun i t u hi => hs i t u (by omega))
    | error => rw [e] at h'; cases h'
    | ub => rw [e] at h'; cases h'
    | loops => rw [e] at h'; cases h'

theorem loopOut_ub {σ : Type} {f : Nat → σ → Out σ} {s : σ} {k j : Nat} (hj : j < k) (hf : ∀ i t, i < k → (∃ u, f i t = .ok u) ∨ f i t = .ub)
    (hu : ∀ t, f j t = .ub) : loopOut k f s = .ub := by
  have hall : ∀ k', k' ≤ k → (∃ u, loopOut k' f s = .ok u) ∨ loopOut k' f s = .ub := by
    intro k' hk
    induction k' with
    | zero => exact .inl ⟨s, rfl⟩
    | succ k' ih =>
      show (∃ u, andThen (loopOut k' f s) (f k') = .ok u) ∨ andThen (loopOut k' f s) (f k') = .ub
      rcases ih (by omega) with ⟨u, e⟩ | e
      · rw [e]; exact hf k' u (by omega)
      · rw [e]; exact .inr rfl
  have hrest : ∀ k', j < k' → k' ≤ k → loopOut k' f s = .ub := by
    intro k' h1 h2
    induction k' with
    | zero => omega
    | succ k' ih =>
      show andThen (loopOut k' f s) (f k') = .ub
      by_cases e : j = k'
      · subst e
        rcases hall j (by omega) with ⟨u, e⟩ | e
        · rw [e]; exact hu u
        · rw [e]; rfl
      · rw [ih (by omega) (by omega)]; rfl
  exact hrest k hj (Nat.le_refl _)

/-- The first step decides. -/
theorem loopOut_first {σ : Type} {f : Nat → σ → Out σ} {s : σ} {k : Nat} (hk : 0 < k) :
    (f 0 s = .ub → loopOut k f s = .ub) ∧ (f 0 s = .error → loopOut k f s = .error) := by
  constructor
  all_goals
    intro h0
    induction k with
    | zero => omega
    | succ k ih =>
      show andThen (loopOut k f s) (f k) = _
      by_cases e : k = 0
      · subst e; exact h0
      · rw [ih (by omega)]; rfl

theorem mul_mat {a b : PMat (ZMod p)} {r k c : Nat} {M N : Nat → Nat → ZMod p} (ha : IsMat (.ok a) r k M) (hb : IsMat (.ok b) k c N) :
    IsMat (denseMul a b) r c fun i j => ∑ l ∈ Finset.range k, M i l * N l j := by
  obtain ⟨w, e, h1, h2, h3⟩ := ha
  cases e
  obtain ⟨w, e, g1, g2, g3⟩ := hb
  cases e
  unfold denseMul
  rw [if_neg (by omega)]
  refine ⟨_, rfl, h1, g2, fun i j hi hj => ?_⟩
  dsimp only
  rw [h2]
  refine Finset.sum_congr rfl fun l hl => ?_
  rw [h3 i l hi (Finset.mem_range.1 hl), g3 l j (Finset.mem_range.1 hl) hj]

theorem sum_loop {k m n : Nat} {c : Nat → Out (PMat (ZMod p))} {F : Nat → Nat → Nat → ZMod p} {y : PMat (ZMod p)} (hr : y.rows = m)
    (hc : y.cols = n) (h : ∀ i, i < k → IsMat (c i) m n (F i)) :
    ∃ w, loopOut k (fun i y => andThen (c i) fun z => denseAdd y z) y = .ok w ∧ w.rows = m ∧ w.cols = n ∧
      ∀ a b, a < m → b < n → w.e (a, b) = y.e (a, b) + ∑ i ∈ Finset.range k, F i a b := by
  refine loopOut_inv (fun i (w : PMat (ZMod p)) => w.rows = m ∧ w.cols = n ∧
    ∀ a b, a < m → b < n → w.e (a, b) = y.e (a, b) + ∑ i ∈ Finset.range i, F i a b) ⟨hr, hc, fun a b _ _ => ?_⟩ ?_
  · rw [Finset.sum_range_zero, add_zero]
  · rintro i w hi ⟨h1, h2, h3⟩
    obtain ⟨z, e, g1, g2, g3⟩ := h i hi
    rw [e]
    show ∃ u, denseAdd w z = .ok u ∧ _
    unfold denseAdd
    rw [if_neg (by omega)]
    refine ⟨_, rfl, h1, h2, fun a b ha hb => ?_⟩
    dsimp only
    rw [h3 a b ha hb, g3 a b ha hb, Finset.sum_range_succ, add_assoc]

theorem acc_loop {k m : Nat} {g : Nat → Nat} {W : Nat → Nat → ZMod p} {f : Nat → (Nat → ZMod p) → Out (Nat → ZMod p)}
    (h : ∀ i, i < k → ∃ tmp, (∀ out, f i out = .ok (addTo m g tmp out)) ∧ ∀ a, a < m → tmp (g a) = W i a) :
    ∃ w, andThen (loopOut k f fun _ => 0) (fun out => .ok (⟨m, out⟩ : NVec (ZMod p))) = .ok w ∧ w.len = m ∧
      ∀ a, a < m → w.e a = ∑ i ∈ Finset.range k, W i a := by
  obtain ⟨u, e, hu⟩ := loopOut_inv (fun i (out : Nat → ZMod p) => ∀ a, a < m → out a = ∑ i ∈ Finset.range i, W i a) (f := f)
    (s := fun _ => 0) (k := k) (fun a _ => by rw [Finset.sum_range_zero]) (by
      intro i out hi ho
      obtain ⟨tmp, h1, h2⟩ := h i hi
      refine ⟨_, h1 out, fun a ha => ?_⟩
      unfold addTo
      rw [if_pos ha, h2 a ha, ho a ha, Finset.sum_range_succ])
  exact ⟨⟨m, u⟩, by rw [e]; rfl, rfl, hu⟩

/-! ### The constructors -/

theorem makePlus_ok {vh : Nat → Nat → ZMod p} {U V : PMat (ZMod p)} {t : Like p} (h : Like.makePlus vh U V = .ok t) :
    t.m = U.rows ∧ t.n = V.rows ∧ t.gens = U.cols ∧ ∀ i, i < U.cols → 0 < U.rows ∧
      Circ.makeColumn ⟨U.rows, turnUp U.rows V.rows fun k => U.e (k, i)⟩ V.rows = .ok (t.circ i) ∧ t.tri i = Tri.make ⟨V.rows, vh i⟩ := by
  unfold Like.makePlus at h
  dsimp only at h
  generalize hf : (fun i (s : (Nat → Circ p) × (Nat → Tri p)) => if U.rows = 0 then Out.ub
    else andThen (Circ.makeColumn ⟨U.rows, turnUp U.rows V.rows fun k => U.e (k, i)⟩ V.rows) fun c =>
      if 0 < V.rows ∧ V.cols ≤ i then .ub
      else .ok (write i c s.1, write i (Tri.make ⟨V.rows, vh i⟩) s.2)) = f at h
  cases e : loopOut U.cols f (fun _ => Circ.empty, fun _ => Tri.empty) with
  | error => rw [e] at h; cases h
  | ub => rw [e] at h; cases h
  | loops => rw [e] at h; cases h
  | ok s =>
    rw [e] at h
    cases h
    refine ⟨rfl, rfl, rfl, ?_⟩
    refine loopOut_of_ok (fun k (s : (Nat → Circ p) × (Nat → Tri p)) => ∀ i, i < k → 0 < U.rows ∧
      Circ.makeColumn ⟨U.rows, turnUp U.rows V.rows fun k => U.e (k, i)⟩ V.rows = .ok (s.1 i) ∧ s.2 i = Tri.make ⟨V.rows, vh i⟩) e
      (fun i hi => by omega) ?_
    intro i s u hi hfu hs x hx
    rw [← hf] at hfu
    dsimp only at hfu
    by_cases h0 : U.rows = 0
    · rw [if_pos h0] at hfu; cases hfu
    rw [if_neg h0] at hfu
    obtain ⟨c, hc, -⟩ := ((C83_circulant_constructor ⟨U.rows, turnUp U.rows V.rows fun k => U.e (k, i)⟩ V.rows).2 (Nat.pos_of_ne_zero h0)).1
    rw [hc] at hfu
    have hfu' : (if 0 < V.rows ∧ V.cols ≤ i then Out.ub else .ok (write i c s.1, write i (Tri.make ⟨V.rows, vh i⟩) s.2)) = .ok u := hfu
    by_cases h1 : 0 < V.rows ∧ V.cols ≤ i
    · rw [if_pos h1] at hfu'; cases hfu'
    rw [if_neg h1] at hfu'
    cases hfu'
    unfold write
    dsimp only
    by_cases hxi : x = i
    · subst hxi
      rw [Function.update_self, Function.update_self]
      exact ⟨Nat.pos_of_ne_zero h0, hc, rfl⟩
    · rw [Function.update_of_ne hxi, Function.update_of_ne hxi]
      exact hs x (by omega)

theorem makeMinus_ok {vg : Nat → Nat → ZMod p} {U V : PMat (ZMod p)} {t : Like p} (h : Like.makeMinus vg U V = .ok t) (hm : 0 < U.rows)
    (hn : 0 < V.rows) : t.m = U.rows ∧ t.n = V.rows ∧ t.gens = U.cols ∧ ∀ i, i < U.cols →
      Circ.makeRow ⟨V.rows, turnDown V.rows fun k => V.e (k, i)⟩ U.rows = .ok (t.circ i) ∧ t.tri i = Tri.make ⟨U.rows, vg i⟩ := by
  unfold Like.makeMinus at h
  dsimp only at h
  rw [if_neg (by omega)] at h
  generalize hf : (fun i (s : (Nat → Circ p) × (Nat → Tri p)) => if V.cols ≤ i then Out.ub
      else andThen (Circ.makeRow ⟨V.rows, turnDown V.rows fun k => V.e (k, i)⟩ U.rows) fun c =>
        .ok (write i c s.1, write i (Tri.make ⟨U.rows, vg i⟩) s.2)) = f at h
  cases e : loopOut U.cols f (fun _ => Circ.empty, fun _ => Tri.empty) with
  | error => rw [e] at h; cases h
  | ub => rw [e] at h; cases h
  | loops => rw [e] at h; cases h
  | ok s =>
    rw [e] at h
    cases h
    refine ⟨rfl, rfl, rfl, ?_⟩
    refine loopOut_of_ok (fun k (s : (Nat → Circ p) × (Nat → Tri p)) => ∀ i, i < k →
      Circ.makeRow ⟨V.rows, turnDown V.rows fun k => V.e (k, i)⟩ U.rows = .ok (s.1 i) ∧ s.2 i = Tri.make ⟨U.rows, vg i⟩) e
      (fun i hi => by omega) ?_
    intro i s u hi hfu hs x hx
    rw [← hf] at hfu
    dsimp only at hfu
    by_cases h0 : V.cols ≤ i
    · rw [if_pos h0] at hfu; cases hfu
    rw [if_neg h0] at hfu
    obtain ⟨c, hc, -⟩ := ((C83_circulant_constructor ⟨V.rows, turnDown V.rows fun k => V.e (k, i)⟩ U.rows).2 hn).2
    rw [hc] at hfu
    have hfu' : Out.ok (write i c s.1, write i (Tri.make ⟨U.rows, vg i⟩) s.2) = .ok u := hfu
    cases hfu'
    unfold write
    dsimp only
    by_cases hxi : x = i
    · subst hxi
      rw [Function.update_self, Function.update_self]
      exact ⟨hc, rfl⟩
    · rw [Function.update_of_ne hxi, Function.update_of_ne hxi]
      exact hs x (by omega)

/-! ### Products -/

theorem new_tri (input : NVec (ZMod p)) : IsMat (.ok ((Tri.make input).dense newMat)) input.len input.len (triEntry input.e) :=
  C83_triangular_dense_partial input newMat (.inr fun _ _ _ => rfl)

/-- Composition of two products by a vector. -/
theorem comp_sum (k c : Nat) (M N : Nat → Nat → ZMod p) (v : Nat → ZMod p) (i : Nat) :
    ∑ l ∈ Finset.range k, M i l * ∑ j ∈ Finset.range c, N l j * v j =
      ∑ j ∈ Finset.range c, (∑ l ∈ Finset.range k, M i l * N l j) * v j := by
  simp only [Finset.mul_sum, Finset.sum_mul]
  rw [Finset.sum_comm]
  refine Finset.sum_congr rfl fun j _ => Finset.sum_congr rfl fun l _ => ?_
  ring

theorem setDims_zero {x : PMat (ZMod p)} {r c : Nat} (hx : x.cols ≠ c ∨ ∀ i j, i < r → j < c → x.e (i, j) = 0) (i j : Nat) (hi : i < r) (hj : j < c) :
    (x.setDims r c).e (i, j) = 0 := by
  unfold PMat.setDims
  by_cases h : x.cols = c
  · simp only [h, if_true]
    exact (hx.resolve_left (by simpa using h)) i j hi hj
  · simp only [h, if_false]

theorem setDims_keep {x : PMat (ZMod p)} {r c : Nat} (hx : x.cols = c) : (x.setDims r c).e = x.e := if_pos hx

theorem isMat_congr {r : Out (PMat (ZMod p))} {m n : Nat} {M N : Nat → Nat → ZMod p} (h : IsMat r m n M)
    (hN : ∀ i j, i < m → j < n → M i j = N i j) : IsMat r m n N := by
  obtain ⟨w, e, h1, h2, h3⟩ := h
  exact ⟨w, e, h1, h2, fun i j hi hj => by rw [h3 i j hi hj, hN i j hi hj]⟩

theorem jMat_e (n i j : Nat) (hi : i < n) (hj : j < n) : (jMat n : PMat (ZMod p)).e (i, j) = if j = n - 1 - i then 1 else 0 := by
  have := forN_inv (n := n) (P := fun (k : Nat) (e : Nat × Nat → ZMod p) => ∀ i j, e (i, j) = if i < k ∧ j = n - 1 - i then 1 else 0)
    (s := fun _ => 0) (f := fun i => write (i, n - 1 - i) (1 : ZMod p)) (fun i j => by rw [if_neg (by omega)]) (by
      intro k e hk he i j
      unfold write
      by_cases h : (i, j) = (k, n - 1 - k)
      · rw [h, Function.update_self]
        cases h
        rw [if_pos (by omega)]
      · rw [Function.update_of_ne h, he]
        have : ¬ (i = k ∧ j = n - 1 - k) := fun hc => h (by rw [hc.1, hc.2])
        by_cases h2 : i < k ∧ j = n - 1 - i
        · rw [if_pos h2, if_pos (by omega)]
        · rw [if_neg h2, if_neg]
          rintro ⟨h3, h4⟩
          by_cases h5 : i = k
          · subst h5; exact this ⟨rfl, h4⟩
          · exact h2 ⟨by omega, h4⟩)
  show forN n (fun i => write (i, n - 1 - i) (1 : ZMod p)) (fun _ => 0) (i, j) = _
  rw [this]
  by_cases h : j = n - 1 - i
  · rw [if_pos ⟨hi, h⟩, if_pos h]
  · rw [if_neg (by omega), if_neg h]

theorem mul_j {y : PMat (ZMod p)} {m n : Nat} {M : Nat → Nat → ZMod p} (h : IsMat (.ok y) m n M) :
    IsMat (denseMul y (jMat n)) m n fun i j => M i (n - 1 - j) := by
  obtain ⟨w, e, h1, h2, h3⟩ := mul_mat h (N := fun i j => if j = n - 1 - i then 1 else 0) (c := n) ⟨_, rfl, rfl, rfl, fun i j hi hj => jMat_e n i j hi hj⟩
  refine ⟨w, e, h1, h2, fun i j hi hj => ?_⟩
  rw [h3 i j hi hj]
  dsimp only
  rw [Finset.sum_eq_single_of_mem (n - 1 - j) (Finset.mem_range.2 (by omega))]
  · rw [if_pos (by omega), mul_one]
  · intro l hl hne
    have := Finset.mem_range.1 hl
    rw [if_neg (by omega), mul_zero]

theorem j_mul {y : PMat (ZMod p)} {m n : Nat} {M : Nat → Nat → ZMod p} (h : IsMat (.ok y) m n M) :
    IsMat (denseMul (jMat m) y) m n fun i j => M (m - 1 - i) j := by
  obtain ⟨w, e, h1, h2, h3⟩ := mul_mat (M := fun i j => if j = m - 1 - i then 1 else 0) (r := m) ⟨_, rfl, rfl, rfl, fun i j hi hj => jMat_e m i j hi hj⟩ h
  refine ⟨w, e, h1, h2, fun i j hi hj => ?_⟩
  rw [h3 i j hi hj]
  show ∑ l ∈ Finset.range m, (if l = m - 1 - i then 1 else 0) * M l j = M (m - 1 - i) j
  rw [Finset.sum_eq_single_of_mem (m - 1 - i) (Finset.mem_range.2 (by omega))]
  · rw [if_pos (by omega), one_mul]
  · intro l hl hne
    have := Finset.mem_range.1 hl
    rw [if_neg (by omega), zero_mul]

theorem zMat_spec (n : Nat) (hn : 0 < n) (c : ZMod p) : IsMat (zMat n c) n n (zEntry n c) := by
  unfold zMat
  rw [if_neg (by omega)]
  refine ⟨_, rfl, rfl, rfl, fun i j hi hj => ?_⟩
  have := forN_inv (n := n - 1) (P := fun (k : Nat) (e : Nat × Nat → ZMod p) => ∀ i j, e (i, j) = if i = j + 1 ∧ j < k then 1 else 0)
    (s := fun _ => 0) (f := fun i => write (i + 1, i + 1 - 1) (1 : ZMod p)) (fun i j => by rw [if_neg (by omega)]) (by
      intro k e hk he i j
      unfold write
      rw [Nat.add_sub_cancel]
      by_cases h : (i, j) = (k + 1, k)
      · rw [h, Function.update_self]
        cases h
        rw [if_pos (by omega)]
      · rw [Function.update_of_ne h, he]
        have : ¬ (i = k + 1 ∧ j = k) := fun hc => h (by rw [hc.1, hc.2])
        by_cases h2 : i = j + 1 ∧ j < k
        · rw [if_pos h2, if_pos (by omega)]
        · rw [if_neg h2, if_neg (by omega)])
  dsimp only
  unfold zEntry
  have e : write (0, n - 1) c (forN (n - 1) (fun i => write (i + 1, i + 1 - 1) (1 : ZMod p)) fun _ => 0) (i, j) =
      if (i, j) = (0, n - 1) then c else forN (n - 1) (fun i => write (i + 1, i + 1 - 1) (1 : ZMod p)) (fun _ => 0) (i, j) := by
    unfold write
    by_cases h : (i, j) = (0, n - 1)
    · rw [if_pos h, h, Function.update_self]
    · rw [if_neg h, Function.update_of_ne h]
  rw [e, this]
  by_cases h : i = 0 ∧ j + 1 = n
  · rw [if_pos (by rw [h.1, show j = n - 1 by omega]), if_neg (by omega), if_pos h]
  · have : (i, j) ≠ (0, n - 1) := fun hc => by cases hc; exact h ⟨rfl, by omega⟩
    rw [if_neg this]
    by_cases h2 : i = j + 1
    · rw [if_pos ⟨h2, by omega⟩, if_pos h2]
    · rw [if_neg (by omega), if_neg h2, if_neg h]

theorem zT_spec (n : Nat) (hn : 0 < n) (c : ZMod p) : IsMat (andThen (zMat n c) fun z => .ok (denseT z)) n n fun i j => zEntry n c j i := by
  obtain ⟨w, e, h1, h2, h3⟩ := zMat_spec n hn c
  rw [e]
  exact ⟨denseT w, rfl, h2, h1, fun i j hi hj => h3 j i hj hi⟩

theorem phi_spec {z w : Out (PMat (ZMod p))} {a : PMat (ZMod p)} {Z W : Nat → Nat → ZMod p} (hz : IsMat z a.rows a.rows Z)
    (hw : IsMat w a.cols a.cols W) : IsMat (phiWith z w a) a.rows a.cols fun i j =>
      ∑ l ∈ Finset.range a.rows, Z i l * a.e (l, j) - ∑ l ∈ Finset.range a.cols, a.e (i, l) * W l j := by
  obtain ⟨z', rfl, z1, z2, z3⟩ := hz
  obtain ⟨w', rfl, w1, w2, w3⟩ := hw
  have ha : IsMat (.ok a) a.rows a.cols fun i j => a.e (i, j) := ⟨a, rfl, rfl, rfl, fun _ _ _ _ => rfl⟩
  obtain ⟨x, ex, x1, x2, x3⟩ := mul_mat ⟨z', rfl, z1, z2, z3⟩ ha
  obtain ⟨y, ey, y1, y2, y3⟩ := mul_mat ha ⟨w', rfl, w1, w2, w3⟩
  show IsMat (andThen (denseMul z' a) fun x => andThen (denseMul a w') fun y => denseSub x y) _ _ _
  rw [ex, ey]
  show IsMat (denseSub x y) _ _ _
  unfold denseSub
  rw [if_neg (by omega)]
  refine ⟨_, rfl, x1, x2, fun i j hi hj => ?_⟩
  dsimp only
  rw [x3 i j hi hj, y3 i j hi hj]

end PML.Ntl.Struct
