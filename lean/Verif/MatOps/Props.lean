import Verif.MatOps.Lemmas
import Mathlib.Tactic.SplitIfs

/-!
# C10, C11, C14: rotations, permutations, compact LU expansion
-/

namespace PML.MatOps

open Spec

/-! ## C10 -/

/-- Rows: the rotated matrix has rows `i..j` rotated, every other row unchanged,
    and the companion vector (if any) is rotated in the same way. -/
theorem C10_rotate_rows {α : Type} (A : Mat α) (vec : Nat → Nat) {i j : Nat} (hij : i ≤ j) :
    RotatedDown i j A (rotateRowsDownward A (some vec) i j).1 ∧
    (∃ v, (rotateRowsDownward A (some vec) i j).2 = some v ∧ RotatedDown i j vec v) ∧
    RotatedUp i j A (rotateRowsUpward A (some vec) i j).1 ∧
    (∃ v, (rotateRowsUpward A (some vec) i j).2 = some v ∧ RotatedUp i j vec v) ∧
    -- with a NULL vector the matrix part is the same
    (rotateRowsDownward A none i j).1 = (rotateRowsDownward A (some vec) i j).1 ∧
    (rotateRowsUpward A none i j).1 = (rotateRowsUpward A (some vec) i j).1 :=
  ⟨rotDown_spec hij A, ⟨_, rfl, rotDown_spec hij vec⟩, rotUp_spec hij A,
   ⟨_, rfl, rotUp_spec hij vec⟩, rfl, rfl⟩

/-- The two row rotations undo each other, on the matrix and on the vector. -/
theorem C10_rotate_rows_inverse {α : Type} (A : Mat α) (vec : Option (Nat → Nat))
    {i j : Nat} (hij : i ≤ j) :
    (let s := rotateRowsDownward A vec i j; rotateRowsUpward s.1 s.2 i j) = (A, vec) ∧
    (let s := rotateRowsUpward A vec i j; rotateRowsDownward s.1 s.2 i j) = (A, vec) := by
  constructor
  · cases vec <;> simp [rotateRowsDownward, rotateRowsUpward, rotUp_rotDown hij]
  · cases vec <;> simp [rotateRowsDownward, rotateRowsUpward, rotDown_rotUp hij]

/-- Columns, rightward: every row of the matrix is rotated, rows outside the
    matrix are not touched, and the companion vector is rotated. -/
theorem C10_rotate_columns_rightward {α : Type} (r : Nat) (A : Mat α) (vec : Nat → Nat)
    {i j : Nat} (hij : i ≤ j) :
    (∀ ii, ii < r →
      RotatedDown i j (A ii) ((rotateColumnsRightward r A (some vec) i j).1 ii)) ∧
    (∀ ii, r ≤ ii → (rotateColumnsRightward r A (some vec) i j).1 ii = A ii) ∧
    (∃ v, (rotateColumnsRightward r A (some vec) i j).2 = some v ∧ RotatedDown i j vec v) ∧
    (rotateColumnsRightward r A none i j).1 = (rotateColumnsRightward r A (some vec) i j).1 := by
  refine ⟨?_, ?_, ⟨_, rfl, rotDown_spec hij vec⟩, rfl⟩
  · intro ii hii
    simp only [rotateColumnsRightward, hii, if_true]
    exact rotDown_spec hij (A ii)
  · intro ii hii
    simp only [rotateColumnsRightward]
    rw [if_neg (by omega)]

/-- The leftward column rotation as written does not rotate columns: on the
    1 x 2 matrix (5, 7) with `i = 0`, `j = 1` it yields (5, 7) instead of (7, 5),
    while the companion vector (0, 1) does become (1, 0). -/
theorem C10_rotate_columns_leftward_wrong :
    ∃ (A : Mat Nat) (vec : Nat → Nat) (i j : Nat), i < j ∧
      ¬ RotatedUp i j (A 0) ((rotateColumnsLeftward 1 A (some vec) i j).1 0) ∧
      (∃ v, (rotateColumnsLeftward 1 A (some vec) i j).2 = some v ∧ v 0 = 1 ∧ v 1 = 0) ∧
      (rotateColumnsLeftward 1 A (some vec) i j).1 0 0 = 5 ∧
      (rotateColumnsLeftward 1 A (some vec) i j).1 0 1 = 7 := by
  refine ⟨fun _ k => if k = 0 then 5 else 7, fun k => k, 0, 1, by decide, ?_,
    ⟨_, rfl, by decide, by decide⟩, by decide, by decide⟩
  intro h
  exact absurd h.last (by decide)

/-- What the leftward column rotation does on every input: the vector is rotated
    correctly; in each row, column `i` is left in place, columns `i+1..j-1` are
    moved by one, and column `j` keeps its value. So it is a rotation only if
    `i = j`. (Missing from the claim: the correct rotation of the columns.) -/
theorem C10_rotate_columns_leftward_partial {α : Type} (r : Nat) (A : Mat α) (vec : Nat → Nat)
    {i j : Nat} (hij : i ≤ j) :
    (∃ v, (rotateColumnsLeftward r A (some vec) i j).2 = some v ∧ RotatedUp i j vec v) ∧
    (∀ ii, r ≤ ii → (rotateColumnsLeftward r A (some vec) i j).1 ii = A ii) ∧
    (∀ ii, ii < r → ∀ k, (rotateColumnsLeftward r A (some vec) i j).1 ii k =
      if i < k ∧ k < j then A ii (k + 1) else A ii k) := by
  refine ⟨⟨_, rfl, rotUp_spec hij vec⟩, ?_, ?_⟩
  · intro ii hii
    simp only [rotateColumnsLeftward]
    rw [if_neg (by omega)]
  · intro ii hii k
    simp only [rotateColumnsLeftward, hii, if_true, leftwardRow]
    by_cases h : i = j
    · subst h; simp; omega
    · simp only [ne_eq, h, not_false_eq_true, if_true, Function.update_apply, shiftUpLoop_apply]
      have : i + (j - i) = j := by omega
      rw [this]
      by_cases h1 : k = i
      · rw [if_pos h1, if_neg (by omega), h1]
      · rw [if_neg h1]
        by_cases h2 : i < k ∧ k < j
        · rw [if_pos h2, if_pos (by omega)]
        · rw [if_neg h2, if_neg (by omega)]

/-- Non-vacuity: rotating rows 1..3 of a 5-row matrix. -/
example : (List.range 5).map (rotDown 1 3 (fun k => 10 * k)) = [0, 30, 10, 20, 40] := by decide
example : (List.range 5).map (rotUp 1 3 (fun k => 10 * k)) = [0, 20, 30, 10, 40] := by decide
example : (List.range 5).map (leftwardRow 1 3 (fun k => 10 * k)) = [0, 10, 30, 30, 40] := by decide

/-! ## C11 -/

/-- Rows: old row `act i` is placed at position `i`, other memory is untouched,
    and if the stored permutation described the position of the original rows
    before the call, it still does after it. -/
theorem C11_permute_rows {α : Type} (r : Nat) (A A₀ : Mat α) (act store : Nat → Nat)
    (hact : IsPerm r act) (hinv : ∀ i, i < r → A i = A₀ (store i)) :
    (∀ i, i < r → (permuteRows r A act (some store)).1 i = A (act i)) ∧
    (∀ i, r ≤ i → (permuteRows r A act (some store)).1 i = A i) ∧
    (∃ s, (permuteRows r A act (some store)).2 = some s ∧
      (∀ i, i < r → s i = store (act i)) ∧ (∀ i, r ≤ i → s i = store i) ∧
      (∀ i, i < r → (permuteRows r A act (some store)).1 i = A₀ (s i)) ∧
      (IsPerm r store → IsPerm r s)) := by
  refine ⟨?_, ?_, _, rfl, ?_, ?_, ?_, ?_⟩
  · intro i hi; simp [permuteRows, hi]
  · intro i hi; simp only [permuteRows]; rw [if_neg (by omega)]
  · intro i hi; simp [permCompose, hi]
  · intro i hi; simp only [permCompose]; rw [if_neg (by omega)]
  · intro i hi; simp only [permuteRows, permCompose, hi, if_true]
    exact hinv _ (hact.1 i hi)
  · intro hs
    refine ⟨fun i hi => ?_, fun i j hi hj h => ?_⟩
    · simp only [permCompose, hi, if_true]; exact hs.1 _ (hact.1 i hi)
    · simp only [permCompose, hi, hj, if_true] at h
      exact hact.2 i j hi hj (hs.2 _ _ (hact.1 i hi) (hact.1 j hj) h)

/-- Columns (`nmod_poly_mat_permute_columns`). -/
theorem C11_permute_columns {α : Type} (r c : Nat) (A A₀ : Mat α) (act store : Nat → Nat)
    (hact : IsPerm c act) (hinv : ∀ i j, i < r → j < c → A i j = A₀ i (store j)) :
    (∀ i j, i < r → j < c → (permuteColumns r c A act (some store)).1 i j = A i (act j)) ∧
    (∀ i j, r ≤ i ∨ c ≤ j → (permuteColumns r c A act (some store)).1 i j = A i j) ∧
    (∃ s, (permuteColumns r c A act (some store)).2 = some s ∧
      (∀ j, j < c → s j = store (act j)) ∧ (∀ j, c ≤ j → s j = store j) ∧
      (∀ i j, i < r → j < c → (permuteColumns r c A act (some store)).1 i j = A₀ i (s j)) ∧
      (IsPerm c store → IsPerm c s)) := by
  refine ⟨?_, ?_, _, rfl, ?_, ?_, ?_, ?_⟩
  · intro i j hi hj; simp [permuteColumns, hi, hj]
  · intro i j h; simp only [permuteColumns]; rw [if_neg (by omega)]
  · intro i hi; simp [permCompose, hi]
  · intro i hi; simp only [permCompose]; rw [if_neg (by omega)]
  · intro i j hi hj; simp only [permuteColumns, permCompose, hi, hj, and_self, if_true]
    exact hinv _ _ hi (hact.1 j hj)
  · intro hs
    refine ⟨fun i hi => ?_, fun i j hi hj h => ?_⟩
    · simp only [permCompose, hi, if_true]; exact hs.1 _ (hact.1 i hi)
    · simp only [permCompose, hi, hj, if_true] at h
      exact hact.2 i j hi hj (hs.2 _ _ (hact.1 i hi) (hact.1 j hj) h)

/-- Permuting by a permutation and then by its inverse gives back the matrix and
    the stored permutation (rows and columns). -/
theorem C11_permute_inverse {α : Type} (r c : Nat) (A : Mat α) (store : Option (Nat → Nat))
    (p q : Nat → Nat) :
    (IsPerm r q → (∀ i, i < r → p (q i) = i) →
      (let s := permuteRows r A p store; permuteRows r s.1 q s.2) = (A, store)) ∧
    (IsPerm c q → (∀ i, i < c → p (q i) = i) →
      (let s := permuteColumns r c A p store; permuteColumns r c s.1 q s.2) = (A, store)) := by
  have key : ∀ n (s : Nat → Nat), IsPerm n q → (∀ i, i < n → p (q i) = i) →
      permCompose n (permCompose n s p) q = s := by
    intro n s hq h
    funext i
    simp only [permCompose]
    by_cases hi : i < n
    · simp [hi, hq.1 i hi, h i hi]
    · simp [hi]
  constructor
  · intro hq h
    have h1 : (permuteRows r (permuteRows r A p store).1 q (permuteRows r A p store).2).1 = A := by
      funext i
      simp only [permuteRows]
      by_cases hi : i < r
      · simp [hi, hq.1 i hi, h i hi]
      · simp [hi]
    have h2 : (permuteRows r (permuteRows r A p store).1 q (permuteRows r A p store).2).2 = store := by
      cases store with
      | none => rfl
      | some s => simp [permuteRows, key r s hq h]
    exact Prod.ext h1 h2
  · intro hq h
    have h1 : (permuteColumns r c (permuteColumns r c A p store).1 q
        (permuteColumns r c A p store).2).1 = A := by
      funext i j
      simp only [permuteColumns]
      by_cases hi : i < r ∧ j < c
      · simp [hi.1, hi.2, hq.1 j hi.2, h j hi.2]
      · simp [hi]
    have h2 : (permuteColumns r c (permuteColumns r c A p store).1 q
        (permuteColumns r c A p store).2).2 = store := by
      cases store with
      | none => rfl
      | some s => simp [permuteColumns, key c s hq h]
    exact Prod.ext h1 h2

/-- `nmod_mat_permute_columns` on a 1 x 2 matrix: the columns are exchanged but
    the stored permutation still says that nothing moved. -/
theorem C11_nmod_mat_permute_columns_wrong :
    ∃ (A A₀ : Mat Nat) (act store : Nat → Nat), IsPerm 2 act ∧ IsPerm 2 store ∧
      (∀ i j, i < 1 → j < 2 → A i j = A₀ i (store j)) ∧
      ∃ s, (nmodMatPermuteColumns 1 2 A act (some store)).2 = some s ∧
        ¬ (∀ i j, i < 1 → j < 2 →
            (nmodMatPermuteColumns 1 2 A act (some store)).1 i j = A₀ i (s j)) ∧
        ¬ IsPerm 2 s := by
  refine ⟨fun _ k => k, fun _ k => k, fun k => 1 - k, fun k => k, ⟨?_, ?_⟩, ⟨?_, ?_⟩, ?_,
    _, rfl, ?_, ?_⟩
  · intro i hi; simp only; omega
  · intro i j hi hj h; simp only at h; omega
  · intro i hi; exact hi
  · intro i j _ _ h; exact h
  · intro i j _ _; rfl
  · intro h; exact absurd (h 0 1 (by decide) (by decide)) (by decide)
  · intro h; exact absurd (h.2 0 1 (by decide) (by decide) (by decide)) (by decide)

/-- What `nmod_mat_permute_columns` does in general: the matrix is permuted
    correctly; the stored permutation is right when the matrix is square
    (missing: non-square matrices with a stored permutation). -/
theorem C11_nmod_mat_permute_columns_partial {α : Type} (r c : Nat) (A A₀ : Mat α)
    (act store : Nat → Nat) (hact : IsPerm c act)
    (hinv : ∀ i j, i < r → j < c → A i j = A₀ i (store j)) :
    (∀ i j, i < r → j < c →
      (nmodMatPermuteColumns r c A act (some store)).1 i j = A i (act j)) ∧
    (∀ i j, r ≤ i ∨ c ≤ j → (nmodMatPermuteColumns r c A act (some store)).1 i j = A i j) ∧
    (r = c → ∃ s, (nmodMatPermuteColumns r c A act (some store)).2 = some s ∧
      (∀ j, j < c → s j = store (act j)) ∧
      (∀ i j, i < r → j < c →
        (nmodMatPermuteColumns r c A act (some store)).1 i j = A₀ i (s j))) := by
  have h := C11_permute_columns r c A A₀ act store hact hinv
  refine ⟨h.1, h.2.1, ?_⟩
  intro hrc
  subst hrc
  obtain ⟨s, h1, h2, _, h4, _⟩ := h.2.2
  exact ⟨s, h1, h2, h4⟩

/-- Swapping rows or columns exchanges exactly two of them, and inverting them
    reverses the order; the companion permutation follows. -/
theorem C11_swap_and_invert {α : Type} (r c : Nat) (A : Mat α) (perm : Nat → Nat) :
    (∀ a b, (swapRows A (some perm) a b).1 a = A b ∧ (swapRows A (some perm) a b).1 b = A a ∧
      (∀ k, k ≠ a → k ≠ b → (swapRows A (some perm) a b).1 k = A k) ∧
      ∃ p, (swapRows A (some perm) a b).2 = some p ∧ p a = perm b ∧ p b = perm a ∧
        ∀ k, k ≠ a → k ≠ b → p k = perm k) ∧
    (∀ a b i, i < r → (swapColumns r A (some perm) a b).1 i a = A i b ∧
      (swapColumns r A (some perm) a b).1 i b = A i a ∧
      (∀ k, k ≠ a → k ≠ b → (swapColumns r A (some perm) a b).1 i k = A i k) ∧
      ∃ p, (swapColumns r A (some perm) a b).2 = some p ∧ p a = perm b ∧ p b = perm a ∧
        ∀ k, k ≠ a → k ≠ b → p k = perm k) ∧
    ((∀ i, i < r → (invertRows r A (some perm)).1 i = A (r - 1 - i)) ∧
      ∃ p, (invertRows r A (some perm)).2 = some p ∧ ∀ i, i < r → p i = perm (r - 1 - i)) ∧
    ((∀ i j, i < r → j < c → (invertColumns r c A (some perm)).1 i j = A i (c - 1 - j)) ∧
      ∃ p, (invertColumns r c A (some perm)).2 = some p ∧
        ∀ j, j < c → p j = perm (c - 1 - j)) := by
  have sw : ∀ {β : Type} (a b : Nat) (f : Nat → β), swapAt a b f a = f b ∧ swapAt a b f b = f a ∧
      ∀ k, k ≠ a → k ≠ b → swapAt a b f k = f k := by
    intro β a b f
    refine ⟨by rw [swapAt_apply, if_pos rfl], ?_, fun k h1 h2 => by
      rw [swapAt_apply, if_neg h1, if_neg h2]⟩
    rw [swapAt_apply]
    by_cases h : b = a
    · rw [if_pos h, h]
    · rw [if_neg h, if_pos rfl]
  have inv : ∀ {β : Type} (m : Nat) (f : Nat → β) i, i < m →
      invertLoop m (m / 2) f i = f (m - 1 - i) := by
    intro β m f i hi
    rw [invertLoop_apply m f _ (Nat.le_refl _)]
    by_cases h : i < m / 2 ∨ (m - m / 2 ≤ i ∧ i < m)
    · rw [if_pos h]
    · rw [if_neg h]; congr 1; omega
  refine ⟨fun a b => ⟨(sw a b A).1, (sw a b A).2.1, (sw a b A).2.2, _, rfl, sw a b perm⟩,
    fun a b i hi => ?_, ⟨inv r A, _, rfl, inv r perm⟩, ⟨?_, _, rfl, inv c perm⟩⟩
  · simp only [swapColumns, hi, if_true]
    exact ⟨(sw a b (A i)).1, (sw a b (A i)).2.1, (sw a b (A i)).2.2, _, rfl, sw a b perm⟩
  · intro i j hi hj
    simp only [invertColumns, hi, if_true]
    exact inv c (A i) j hj

/-- Non-vacuity: a 3-cycle acting on a 3 x 2 matrix with a nontrivial store. -/
example : IsPerm 3 (fun k => (k + 1) % 3) :=
  ⟨fun i _ => Nat.mod_lt _ (by decide), fun i j hi hj h => by simp only at h; omega⟩
example : (List.range 3).map
    (fun i => (permuteRows 3 (fun i j => 10 * i + j) (fun k => (k + 1) % 3) none).1 i 1)
      = [11, 21, 1] := by decide

/-! ## C14 -/

section
variable {K : Type} [Zero K] [One K]

theorem fillL_apply (r rk : Nat) (hrk : rk ≤ r) (hr : 0 < r) (L LU : Mat K)
    (hz : ∀ i j, i < r → j < r → i < j ∨ (rk ≤ j ∧ j ≠ i) → L i j = 0)
    (i j : Nat) (hi : i < r) (hj : j < r) :
    fillL r rk L LU i j = lower rk LU i j := by
  simp only [fillL, lower]
  rcases Nat.eq_zero_or_pos i with h0 | h0
  · subst h0
    simp only [ite_apply, copyRange, Function.update_apply]
    split_ifs <;> first
      | rfl
      | (exfalso; omega)
      | exact hz _ _ hi hj (by omega)
  · have hi0 : i ≠ 0 := by omega
    simp only [ite_apply, copyRange, Function.update_apply, hi0, if_false]
    split_ifs <;> first
      | rfl
      | (exfalso; omega)
      | exact hz _ _ hi hj (by omega)

theorem zeroLowerU_apply (r c rk : Nat) (hrk : rk ≤ r) (LU : Mat K)
    (hz : ∀ i j, rk ≤ i → i < r → rk ≤ j → j < c → LU i j = 0)
    (i j : Nat) (hi : i < r) (hj : j < c) :
    zeroLowerU r rk LU i j = upper rk LU i j := by
  simp only [zeroLowerU, upper, ite_apply, zeroRange]
  split_ifs <;> first
    | rfl
    | (exfalso; omega)
    | exact hz i j (by omega) hi (by omega) hj

/-- Variant with zeroed `L`, `U` aliasing `LU` (all FLINT versions): `L` and `U`
    become the two triangular factors. The input is a compact LU of rank `rk`,
    i.e. its bottom right block is zero (as left by `nmod_mat_pluq`). -/
theorem C14_zeroin_aliased (r c rk : Nat) (hr : 0 < r) (hrk : rk ≤ r)
    (L LU : Mat K) (hL : ∀ i j, i < r → j < r → L i j = 0)
    (hLU : ∀ i j, rk ≤ i → i < r → rk ≤ j → j < c → LU i j = 0) :
    (∀ i j, i < r → j < r → (luZeroinAliased r rk L LU).1 i j = lower rk LU i j) ∧
    (∀ i j, i < r → j < c → (luZeroinAliased r rk L LU).2 i j = upper rk LU i j) := by
  have h : ¬ r = 0 := by omega
  simp only [luZeroinAliased, h, if_false]
  exact ⟨fun i j hi hj => fillL_apply r rk hrk hr L LU (fun i j hi hj _ => hL i j hi hj) i j hi hj,
    fun i j hi hj => zeroLowerU_apply r c rk hrk LU hLU i j hi hj⟩

/-- Variant with zeroed `L` and `U`, FLINT before 3.3. -/
theorem C14_zeroin_old (r c rk : Nat) (hr : 0 < r) (hrk : rk ≤ r)
    (L U LU : Mat K) (hL : ∀ i j, i < r → j < r → L i j = 0)
    (hU : ∀ i j, i < r → j < c → U i j = 0) :
    (∀ i j, i < r → j < r → (luZeroinOld r c rk L U LU).1 i j = lower rk LU i j) ∧
    (∀ i j, i < r → j < c → (luZeroinOld r c rk L U LU).2 i j = upper rk LU i j) := by
  have h : ¬ r = 0 := by omega
  simp only [luZeroinOld, h, if_false]
  refine ⟨fun i j hi hj => fillL_apply r rk hrk hr L LU (fun i j hi hj _ => hL i j hi hj) i j hi hj,
    fun i j hi hj => ?_⟩
  simp only [upper, ite_apply, copyRange]
  split_ifs <;> first
    | rfl
    | (exfalso; omega)
    | exact hU i j hi hj

end

/-- With FLINT 3.3 or later and `U` not aliasing `LU`, the zeroed-input variant
    is wrong: on the 1 x 1 compact LU (5) of rank 1, `U` stays 0 and `L` becomes
    (5), so that neither factor is right and `L*U = 0 ≠ 5`. -/
theorem C14_zeroin_new_wrong :
    ∃ (LU L U : Mat Int), (∀ i j, i < 1 → j < 1 → L i j = 0) ∧
      (∀ i j, i < 1 → j < 1 → U i j = 0) ∧
      (luZeroinNew 1 1 1 L U LU).1 0 0 ≠ lower 1 LU 0 0 ∧
      (luZeroinNew 1 1 1 L U LU).2 0 0 ≠ upper 1 LU 0 0 :=
  ⟨fun _ _ => 5, fun _ _ => 0, fun _ _ => 0, fun _ _ _ _ => rfl, fun _ _ _ _ => rfl,
    by decide, by decide⟩

/-- `nmod_mat_l_u_from_compactlu` does not clear row 0 of `L`: whatever the FLINT
    version, with a stale entry `L[0][1] = 9` and `LU` of rank 1, the result is
    not unit lower triangular. -/
theorem C14_stale_L_wrong :
    ∃ (LU L : Mat Int), (luFromCompactAliased 2 1 L LU).1 0 1 ≠ lower 1 LU 0 1 ∧
      ∀ U, (luFromCompactOld 2 2 1 L U LU).1 0 1 ≠ lower 1 LU 0 1 :=
  ⟨fun _ _ => 0, fun _ _ => 9, by decide, fun U => by
    simp [luFromCompactOld, luZeroinOld, fillL, preZeroL, lower, Function.update_apply]⟩

section
variable {K : Type} [Zero K] [One K]

theorem preZeroL_apply (r rk : Nat) (L : Mat K)
    (h0 : 0 < rk → ∀ j, 0 < j → j < r → L 0 j = 0)
    (i j : Nat) (hi : i < r) (hj : j < r) (h : i < j ∨ (rk ≤ j ∧ j ≠ i)) :
    preZeroL r rk L i j = 0 := by
  simp only [preZeroL, ite_apply, zeroRange]
  rcases Nat.eq_zero_or_pos i with h' | h'
  · subst h'
    split_ifs <;> first
      | rfl
      | (exfalso; omega)
      | exact h0 (by omega) j (by omega) hj
  · split_ifs <;> first
      | rfl
      | (exfalso; omega)

/-- What holds of `nmod_mat_l_u_from_compactlu` for arbitrary previous contents
    of `U` and of the rows `≥ 1` of `L`, when `U` aliases `LU` (any FLINT) or
    with FLINT before 3.3: both factors are right provided row 0 of `L` is
    already zero to the right of the diagonal (or the rank is 0). Missing:
    arbitrary contents of row 0 of `L`, and FLINT 3.3+ without aliasing, where
    the claim is false (`C14_stale_L_wrong`, `C14_zeroin_new_wrong`). -/
theorem C14_from_compactlu_partial (r c rk : Nat) (hr : 0 < r) (hrk : rk ≤ r)
    (L U LU : Mat K) (h0 : 0 < rk → ∀ j, 0 < j → j < r → L 0 j = 0) :
    (∀ i j, i < r → j < r → (luFromCompactOld r c rk L U LU).1 i j = lower rk LU i j) ∧
    (∀ i j, i < r → j < c → (luFromCompactOld r c rk L U LU).2 i j = upper rk LU i j) ∧
    ((∀ i j, rk ≤ i → i < r → rk ≤ j → j < c → LU i j = 0) →
      (∀ i j, i < r → j < r → (luFromCompactAliased r rk L LU).1 i j = lower rk LU i j) ∧
      (∀ i j, i < r → j < c → (luFromCompactAliased r rk L LU).2 i j = upper rk LU i j)) := by
  have h : ¬ r = 0 := by omega
  have hl : ∀ i j, i < r → j < r → fillL r rk (preZeroL r rk L) LU i j = lower rk LU i j :=
    fun i j hi hj => fillL_apply r rk hrk hr _ LU
      (fun i j hi hj hh => preZeroL_apply r rk L h0 i j hi hj hh) i j hi hj
  refine ⟨?_, ?_, ?_⟩
  · simpa only [luFromCompactOld, luZeroinOld, h, if_false] using hl
  · simp only [luFromCompactOld, luZeroinOld, h, if_false]
    intro i j hi hj
    simp only [upper, preZeroU, ite_apply, copyRange, zeroRange]
    split_ifs <;> first
      | rfl
      | (exfalso; omega)

  · intro hLU
    simp only [luFromCompactAliased, luZeroinAliased, h, if_false]
    exact ⟨hl, fun i j hi hj => zeroLowerU_apply r c rk hrk LU hLU i j hi hj⟩

end

section
variable {K : Type} [Zero K] [One K]

/-- What is computed with FLINT 3.3 or later when `U` does not alias `LU` and `c ≤ r`, exactly: the rows of the
    upper factor go to `L`, on top of the lower factor, and `U` keeps its previous contents, except that
    `nmod_mat_l_u_from_compactlu` clears what is below the diagonal and below row `rk`. -/
theorem C14_new_values (r c rk : Nat) (hr : 0 < r) (hrk : rk ≤ r) (hc : c ≤ r) (L U LU : Mat K) :
    ((∀ i j, i < r → j < r → L i j = 0) → ∀ i j, i < r → j < r →
      (luZeroinNew r c rk L U LU).1 i j = if i < rk ∧ i ≤ j ∧ j < c then LU i j else lower rk LU i j) ∧
    (∀ i j, i < r → j < c → (luZeroinNew r c rk L U LU).2 i j = U i j) ∧
    ((0 < rk → ∀ j, 0 < j → j < r → L 0 j = 0) → ∀ i j, i < r → j < r →
      (luFromCompactNew r c rk L U LU).1 i j = if i < rk ∧ i ≤ j ∧ j < c then LU i j else lower rk LU i j) ∧
    (∀ i j, i < r → j < c → (luFromCompactNew r c rk L U LU).2 i j = if rk ≤ i ∨ j < i then 0 else U i j) := by
  have h : ¬ r = 0 := by omega
  have key : ∀ L' U' : Mat K, (∀ i j, i < r → j < r → fillL r rk L' LU i j = lower rk LU i j) → ∀ i j, i < r → j < r →
      (luZeroinNew r c rk L' U' LU).1 i j = if i < rk ∧ i ≤ j ∧ j < c then LU i j else lower rk LU i j := by
    intro L' U' hl i j hi hj
    simp only [luZeroinNew, h, if_false, ite_apply, copyRange, hl i j hi hj]
    split_ifs <;> first | rfl | (exfalso; omega)
  refine ⟨fun hL => key L U fun i j hi hj => fillL_apply r rk hrk hr L LU (fun i j hi hj _ => hL i j hi hj) i j hi hj,
    fun i j _ _ => by simp only [luZeroinNew, h, if_false],
    fun h0 => key _ _ fun i j hi hj => fillL_apply r rk hrk hr _ LU
      (fun i j hi hj hh => preZeroL_apply r rk L h0 i j hi hj hh) i j hi hj, fun i j hi hj => ?_⟩
  simp only [luFromCompactNew, luZeroinNew, h, if_false, preZeroU, ite_apply, zeroRange]
  split_ifs <;> first | rfl | (exfalso; omega)

end

/-- Non-vacuity: a 2 x 3 compact LU of rank 1. -/
example : let LU : Mat Int := fun i j => if i = 0 then (j : Int) + 1 else if j = 0 then 7 else 0
    (∀ i j, 1 ≤ i → i < 2 → 1 ≤ j → j < 3 → LU i j = 0) ∧
    (luZeroinAliased 2 1 (fun _ _ => 0) LU).1 1 0 = 7 ∧
    (luZeroinAliased 2 1 (fun _ _ => 0) LU).2 0 2 = 3 := by
  refine ⟨?_, by decide, by decide⟩
  intro i j h1 _ h3 _
  simp only; rw [if_neg (by omega), if_neg (by omega)]

end PML.MatOps
