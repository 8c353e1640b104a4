import Verif.MatOps.Model
import Verif.MatOps.Spec

namespace PML.MatOps

open Spec

theorem shiftDownLoop_apply {α : Type} (i : Nat) : ∀ (n : Nat) (f : Nat → α) (k : Nat),
    shiftDownLoop i n f k = if i < k ∧ k ≤ i + n then f (k - 1) else f k := by
  intro n
  induction n with
  | zero => intro f k; simp only [shiftDownLoop]; rw [if_neg (by omega)]
  | succ n ih =>
    intro f k
    simp only [shiftDownLoop, ih, Function.update_apply]
    by_cases h1 : k = i + n + 1
    · subst h1
      rw [if_neg (by omega), if_pos rfl, if_pos (by omega)]; simp
    · by_cases h2 : i < k ∧ k ≤ i + n
      · rw [if_pos h2, if_neg (by omega), if_pos (by omega)]
      · rw [if_neg h2, if_neg h1, if_neg (by omega)]

theorem shiftUpLoop_apply {α : Type} : ∀ (n i : Nat) (f : Nat → α) (k : Nat),
    shiftUpLoop i n f k = if i ≤ k ∧ k < i + n then f (k + 1) else f k := by
  intro n
  induction n with
  | zero => intro i f k; simp only [shiftUpLoop]; rw [if_neg (by omega)]
  | succ n ih =>
    intro i f k
    simp only [shiftUpLoop, ih, Function.update_apply]
    by_cases h1 : k = i
    · subst h1
      rw [if_neg (by omega), if_pos rfl, if_pos (by omega)]
    · by_cases h2 : i + 1 ≤ k ∧ k < i + 1 + n
      · rw [if_pos h2, if_neg (by omega), if_pos (by omega)]
      · rw [if_neg h2, if_neg h1, if_neg (by omega)]

theorem rotDown_apply {α : Type} {i j : Nat} (hij : i ≤ j) (f : Nat → α) (k : Nat) :
    rotDown i j f k = if k = i then f j else if i < k ∧ k ≤ j then f (k - 1) else f k := by
  unfold rotDown
  by_cases h : i = j
  · subst h
    simp only [ne_eq, not_true_eq_false, if_false]
    by_cases hk : k = i
    · simp [hk]
    · rw [if_neg hk, if_neg (by omega)]
  · simp only [ne_eq, h, not_false_eq_true, if_true, Function.update_apply, shiftDownLoop_apply]
    have : i + (j - i) = j := by omega
    rw [this]

theorem rotUp_apply {α : Type} {i j : Nat} (hij : i ≤ j) (f : Nat → α) (k : Nat) :
    rotUp i j f k = if k = j then f i else if i ≤ k ∧ k < j then f (k + 1) else f k := by
  unfold rotUp
  by_cases h : i = j
  · subst h
    simp only [ne_eq, not_true_eq_false, if_false]
    by_cases hk : k = i
    · simp [hk]
    · rw [if_neg hk, if_neg (by omega)]
  · simp only [ne_eq, h, not_false_eq_true, if_true, Function.update_apply, shiftUpLoop_apply]
    have : i + (j - i) = j := by omega
    rw [this]

theorem rotDown_spec {α : Type} {i j : Nat} (hij : i ≤ j) (f : Nat → α) :
    RotatedDown i j f (rotDown i j f) := by
  refine ⟨?_, ?_, ?_⟩
  · rw [rotDown_apply hij, if_pos rfl]
  · intro k h1 h2
    rw [rotDown_apply hij, if_neg (by omega), if_pos (by omega)]; simp
  · intro k hk
    rw [rotDown_apply hij]
    by_cases h : k = i
    · omega
    · rw [if_neg h, if_neg (by omega)]

theorem rotUp_spec {α : Type} {i j : Nat} (hij : i ≤ j) (f : Nat → α) :
    RotatedUp i j f (rotUp i j f) := by
  refine ⟨?_, ?_, ?_⟩
  · rw [rotUp_apply hij, if_pos rfl]
  · intro k h1 h2
    rw [rotUp_apply hij, if_neg (by omega), if_pos (by omega)]
  · intro k hk
    rw [rotUp_apply hij]
    by_cases h : k = j
    · omega
    · rw [if_neg h, if_neg (by omega)]

theorem rotUp_rotDown {α : Type} {i j : Nat} (hij : i ≤ j) (f : Nat → α) :
    rotUp i j (rotDown i j f) = f := by
  funext k
  rw [rotUp_apply hij]
  by_cases h1 : k = j
  · rw [if_pos h1, rotDown_apply hij, if_pos rfl, h1]
  · rw [if_neg h1]
    by_cases h2 : i ≤ k ∧ k < j
    · rw [if_pos h2, rotDown_apply hij, if_neg (by omega), if_pos (by omega)]; simp
    · rw [if_neg h2, rotDown_apply hij, if_neg (by omega), if_neg (by omega)]

theorem rotDown_rotUp {α : Type} {i j : Nat} (hij : i ≤ j) (f : Nat → α) :
    rotDown i j (rotUp i j f) = f := by
  funext k
  rw [rotDown_apply hij]
  by_cases h1 : k = i
  · rw [if_pos h1, rotUp_apply hij, if_pos rfl, h1]
  · rw [if_neg h1]
    by_cases h2 : i < k ∧ k ≤ j
    · rw [if_pos h2, rotUp_apply hij, if_neg (by omega), if_pos (by omega)]
      congr 1; omega
    · rw [if_neg h2, rotUp_apply hij, if_neg (by omega), if_neg (by omega)]

theorem swapAt_apply {α : Type} (a b : Nat) (f : Nat → α) (k : Nat) :
    swapAt a b f k = if k = a then f b else if k = b then f a else f k := by
  unfold swapAt
  by_cases h : a = b
  · subst h
    by_cases hk : k = a
    · simp [hk]
    · simp [hk]
  · simp [h, Function.update_apply]

theorem invertLoop_apply {α : Type} (m : Nat) (f : Nat → α) : ∀ (k : Nat), k ≤ m / 2 →
    ∀ x, invertLoop m k f x = if (x < k ∨ (m - k ≤ x ∧ x < m)) then f (m - 1 - x) else f x := by
  intro k
  induction k with
  | zero => intro _ x; simp only [invertLoop]; rw [if_neg (by omega)]
  | succ k ih =>
    intro hk x
    simp only [invertLoop, swapAt_apply]
    rw [ih (by omega), ih (by omega), ih (by omega)]
    by_cases h1 : x = k
    · subst h1
      rw [if_pos rfl, if_neg (by omega), if_pos (by omega)]
      congr 1; omega
    · rw [if_neg h1]
      by_cases h2 : x = m - k - 1
      · rw [if_pos h2, if_neg (by omega), if_pos (by omega)]
        congr 1; omega
      · rw [if_neg h2]
        by_cases h3 : x < k ∨ (m - k ≤ x ∧ x < m)
        · rw [if_pos h3, if_pos (by omega)]
        · rw [if_neg h3, if_neg (by omega)]

end PML.MatOps
