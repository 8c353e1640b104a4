import Verif.MatMul.Model
import Verif.MatMul.Spec
import Verif.Word.Props
import Mathlib.Algebra.BigOperators.Fin

/-!
# Properties: matrix products by dot products (C46)
-/

namespace PML.MatMul

open PML.Word PML.MatOps PML.MatMul.Spec

/-- Contract of FLINT's `_nmod_vec_dot2_split`, on the range used here. -/
def Dot2Contract (dot2 : Dot2Fn) : Prop :=
  ∀ v1 v2 len n, 0 < n → n ≤ maxModulus → len ≤ 47000000 → Reduced v1 len n → Reduced v2 len n →
    dot2 v1 v2 len n (2 ^ 56 % n) = dot v1 v2 len % n

/-- Contract of FLINT's `_nmod_vec_dot`: with the parameters for length `L`, the
    dot product of reduced vectors of length at most `L`, for every modulus. -/
def DotContract (dotp : DotFn) : Prop :=
  ∀ L v1 v2 len n, 0 < n → n < 2 ^ 64 → len ≤ L → Reduced v1 len n → Reduced v2 len n →
    dotp L v1 v2 len n = dot v1 v2 len % n

/-- Contract of FLINT's `nmod_mat_mul`. -/
def MulContract (mul : Nat → Nat → Nat → Nat → Mat Nat → Mat Nat → Mat Nat) : Prop :=
  ∀ m n p q A B, 0 < q → q < 2 ^ 64 → ReducedMat q m n A → ReducedMat q n p B →
    IsProduct q m n p A B (mul m n p q A B)

/-! ### The loops -/

theorem write_other (h : Heap) (c i j v o : Nat) (ho : o ≠ c) : write h c i j v o = h o :=
  Function.update_of_ne ho _ _

theorem write_self (h : Heap) (c i j v i' j' : Nat) :
    write h c i j v c i' j' = if i' = i ∧ j' = j then v else h c i' j' := by
  rw [write, Function.update_self]

theorem pairCols_spec {c a : Nat} (hca : a ≠ c) (BT : Mat Nat) (n modn pow2 i : Nat) (h : Heap) :
    ∀ k, (∀ o, o ≠ c → pairCols c a BT n modn pow2 i k h o = h o) ∧
      ∀ i' j', pairCols c a BT n modn pow2 i k h c i' j' =
        if j' < k ∧ i' = i then dot2SplitOne (h a i) (BT j') n modn pow2
        else if j' < k ∧ i' = i + 1 then dot2SplitOne (h a (i + 1)) (BT j') n modn pow2
        else h c i' j' := by
  intro k
  induction k with
  | zero => exact ⟨fun o _ => rfl, fun i' j' => by simp [pairCols]⟩
  | succ k ih =>
    obtain ⟨h1, h2⟩ := ih
    refine ⟨fun o ho => ?_, fun i' j' => ?_⟩
    · rw [pairCols]
      rw [write_other _ _ _ _ _ _ ho, write_other _ _ _ _ _ _ ho, h1 o ho]
    · rw [pairCols]
      rw [write_self, write_self, h2, h1 a hca]
      simp only [twoDotSplit]
      by_cases e1 : j' = k
      · subst e1
        by_cases e2 : i' = i
        · subst e2; simp
        · by_cases e3 : i' = i + 1
          · subst e3; simp
          · simp [e2, e3]
      · have : (j' < k + 1) = (j' < k) := by apply propext; omega
        simp [e1, this]

theorem pairRows_spec {c a : Nat} (hca : a ≠ c) (BT : Mat Nat) (n p modn pow2 : Nat) (h : Heap) :
    ∀ k, (∀ o, o ≠ c → pairRows c a BT n p modn pow2 k h o = h o) ∧
      ∀ i' j', pairRows c a BT n p modn pow2 k h c i' j' =
        if i' < 2 * k ∧ j' < p then dot2SplitOne (h a i') (BT j') n modn pow2 else h c i' j' := by
  intro k
  induction k with
  | zero => exact ⟨fun o _ => rfl, fun i' j' => by simp [pairRows]⟩
  | succ k ih =>
    obtain ⟨h1, h2⟩ := ih
    obtain ⟨g1, g2⟩ := pairCols_spec hca BT n modn pow2 (2 * k) (pairRows c a BT n p modn pow2 k h) p
    refine ⟨fun o ho => ?_, fun i' j' => ?_⟩
    · rw [pairRows, g1 o ho, h1 o ho]
    · rw [pairRows, g2, h1 a hca, h2]
      by_cases hj : j' < p
      · by_cases e1 : i' = 2 * k
        · subst e1; simp [hj]
        · by_cases e2 : i' = 2 * k + 1
          · subst e2
            rw [if_neg (by omega), if_pos (by omega), if_pos (by omega)]
          · rw [if_neg (by omega), if_neg (by omega)]
            by_cases e3 : i' < 2 * k
            · rw [if_pos (by omega), if_pos (by omega)]
            · rw [if_neg (by omega), if_neg (by omega)]
      · simp [hj]

theorem oneCols_spec {c a : Nat} (hca : a ≠ c) (dot : (Nat → Nat) → (Nat → Nat) → Nat)
    (BT : Mat Nat) (i : Nat) (h : Heap) :
    ∀ k, (∀ o, o ≠ c → oneCols dot c a BT i k h o = h o) ∧
      ∀ i' j', oneCols dot c a BT i k h c i' j' =
        if j' < k ∧ i' = i then dot (h a i) (BT j') else h c i' j' := by
  intro k
  induction k with
  | zero => exact ⟨fun o _ => rfl, fun i' j' => by simp [oneCols]⟩
  | succ k ih =>
    obtain ⟨h1, h2⟩ := ih
    refine ⟨fun o ho => ?_, fun i' j' => ?_⟩
    · rw [oneCols]
      rw [write_other _ _ _ _ _ _ ho, h1 o ho]
    · rw [oneCols]
      rw [write_self, h2, h1 a hca]
      by_cases e1 : j' = k
      · subst e1
        by_cases e2 : i' = i
        · subst e2; simp
        · simp [e2]
      · have : (j' < k + 1) = (j' < k) := by apply propext; omega
        simp [e1, this]

theorem oneRows_spec {c a : Nat} (hca : a ≠ c) (dot : (Nat → Nat) → (Nat → Nat) → Nat)
    (BT : Mat Nat) (p i0 : Nat) (h : Heap) :
    ∀ k, (∀ o, o ≠ c → oneRows dot c a BT p i0 k h o = h o) ∧
      ∀ i' j', oneRows dot c a BT p i0 k h c i' j' =
        if (i0 ≤ i' ∧ i' < i0 + k) ∧ j' < p then dot (h a i') (BT j') else h c i' j' := by
  intro k
  induction k with
  | zero =>
    refine ⟨fun o _ => rfl, fun i' j' => ?_⟩
    rw [if_neg (by omega)]; rfl
  | succ k ih =>
    obtain ⟨h1, h2⟩ := ih
    obtain ⟨g1, g2⟩ := oneCols_spec hca dot BT (i0 + k) (oneRows dot c a BT p i0 k h) p
    refine ⟨fun o ho => ?_, fun i' j' => ?_⟩
    · rw [oneRows, g1 o ho, h1 o ho]
    · rw [oneRows, g2, h1 a hca, h2]
      by_cases hj : j' < p
      · by_cases e1 : i' = i0 + k
        · subst e1; simp [hj]
        · rw [if_neg (by omega)]
          by_cases e3 : i0 ≤ i' ∧ i' < i0 + k
          · rw [if_pos (by omega), if_pos (by omega)]
          · rw [if_neg (by omega), if_neg (by omega)]
      · simp [hj]

theorem vecPairs_spec (A : Mat Nat) (u : Nat → Nat) (len modn pow2 : Nat) (v : Nat → Nat) :
    ∀ k i, vecPairs A u len modn pow2 k v i =
      if i < 2 * k then dot2SplitOne (A i) u len modn pow2 else v i := by
  intro k
  induction k with
  | zero => intro i; rfl
  | succ k ih =>
    intro i
    rw [vecPairs]; simp only [twoDotSplit, Function.update_apply]
    rw [ih]
    by_cases e1 : i = 2 * k + 1
    · subst e1; rw [if_pos rfl, if_pos (by omega)]
    · rw [if_neg e1]
      by_cases e2 : i = 2 * k
      · subst e2; rw [if_pos rfl, if_pos (by omega)]
      · rw [if_neg e2]
        by_cases e3 : i < 2 * k
        · rw [if_pos e3, if_pos (by omega)]
        · rw [if_neg e3, if_neg (by omega)]

theorem vecOnes_spec (dot : (Nat → Nat) → (Nat → Nat) → Nat) (A : Mat Nat) (u : Nat → Nat) (i0 : Nat)
    (v : Nat → Nat) :
    ∀ k i, vecOnes dot A u i0 k v i = if i0 ≤ i ∧ i < i0 + k then dot (A i) u else v i := by
  intro k
  induction k with
  | zero => intro i; rw [if_neg (by omega)]; rfl
  | succ k ih =>
    intro i
    rw [vecOnes, Function.update_apply, ih]
    by_cases e1 : i = i0 + k
    · subst e1; rw [if_pos rfl, if_pos (by omega)]
    · rw [if_neg e1]
      by_cases e3 : i0 ≤ i ∧ i < i0 + k
      · rw [if_pos e3, if_pos (by omega)]
      · rw [if_neg e3, if_neg (by omega)]

/-! ### Products -/

theorem isProduct_of_dot {q m n p : Nat} (hq : 0 < q) {A B P : Nat → Nat → Nat}
    (h : ∀ i, i < m → ∀ j, j < p → P i j = dot (A i) (fun k => B k j) n % q) :
    IsProduct q m n p A B P := by
  refine ⟨fun i hi j hj => by rw [h i hi j hj]; exact Nat.mod_lt _ hq, ?_⟩
  ext i j
  rw [Matrix.mul_apply]
  simp only [residues, Matrix.of_apply]
  rw [h i i.2 j j.2, ZMod.natCast_mod, dot, Nat.cast_sum]
  rw [Finset.sum_range]
  exact Finset.sum_congr rfl fun k _ => by push_cast; rfl

theorem dot2SplitOne_eq (v1 v2 : Nat → Nat) (len n : Nat) (hn0 : 0 < n) (hn : n ≤ maxModulus)
    (hlen : len ≤ 47000000) (hr1 : Reduced v1 len n) (hr2 : Reduced v2 len n) :
    dot2SplitOne v1 v2 len n (2 ^ 56 % n) = dot v1 v2 len % n :=
  congrArg Prod.fst (C05_two_dot_split_partial v1 v1 v2 len n hn0 hn hlen hr1 hr1 hr2)

/-- What a call that writes the product in object `c` may change. -/
structure Computes (q m n p c a b t : Nat) (h h' : Heap) : Prop where
  product : IsProduct q m n p (h a) (h b) (h' c)
  outside : ∀ i j, ¬(i < m ∧ j < p) → h' c i j = h c i j
  others : ∀ o, o ≠ c → o ≠ t → h' o = h o

theorem mul2dotDistinct_spec {dot2 : Dot2Fn} (hd : Dot2Contract dot2) {m n p q c a b : Nat}
    (hca : a ≠ c) (h : Heap) (hq : 0 < q) (hqm : q ≤ maxModulus) (hn : n ≤ 47000000)
    (hA : ReducedMat q m n (h a)) (hB : ReducedMat q n p (h b)) (t : Nat) :
    Computes q m n p c a b t h (mul2dotDistinct dot2 m n p q c a b h) := by
  unfold mul2dotDistinct
  simp only [nmod_red]
  obtain ⟨h1, h2⟩ := pairRows_spec hca (transpose (h b)) n p q (2 ^ SB % q) h (m / 2)
  obtain ⟨g1, g2⟩ := oneRows_spec hca (fun v1 v2 => dot2 v1 v2 n q (2 ^ SB % q)) (transpose (h b)) p
    (2 * (m / 2)) (pairRows c a (transpose (h b)) n p q (2 ^ SB % q) (m / 2) h) (m % 2)
  refine ⟨isProduct_of_dot hq fun i hi j hj => ?_, fun i j hij => ?_, fun o ho _ => ?_⟩
  · have hr1 : Reduced (h a i) n q := fun k hk => hA i hi k hk
    have hr2 : Reduced (transpose (h b) j) n q := fun k hk => hB k hk j hj
    rw [g2, h1 a hca, h2]
    by_cases e : 2 * (m / 2) ≤ i
    · rw [if_pos (by omega)]
      exact hd _ _ _ _ hq hqm hn hr1 hr2
    · rw [if_neg (by omega), if_pos (by omega)]
      exact dot2SplitOne_eq _ _ _ _ hq hqm hn hr1 hr2
  · rw [g2, h2, if_neg (by omega), if_neg (by omega)]
  · rw [g1 o ho, h1 o ho]

/-- C46: for every modulus up to `DOT2_ACC8_MAX_MODULUS` (more than `2^30`), all
    dimensions (inner dimension up to 47 000 000), all reduced matrices and every
    way in which the three arguments may be the same object, `nmod_mat_mul_2dot`
    puts the product of the matrices initially in `A` and `B` in `C`, with reduced
    entries, and changes no other matrix. -/
theorem C46_mul_2dot_partial {dot2 : Dot2Fn} (hd : Dot2Contract dot2) (m n p q c a b t : Nat)
    (hta : t ≠ a) (htb : t ≠ b) (htc : t ≠ c) (h : Heap) (hq : 0 < q) (hqm : q ≤ maxModulus)
    (hn : n ≤ 47000000) (hA : ReducedMat q m n (h a)) (hB : ReducedMat q n p (h b)) :
    Computes q m n p c a b t h (mul2dot dot2 m n p q c a b t h) := by
  unfold mul2dot
  by_cases hal : c = a ∨ c = b
  · rw [if_pos hal]
    have ea : (Function.update h t fun _ _ => 0) a = h a := Function.update_of_ne (Ne.symm hta) _ _
    have eb : (Function.update h t fun _ _ => 0) b = h b := Function.update_of_ne (Ne.symm htb) _ _
    have ec : (Function.update h t fun _ _ => 0) c = h c := Function.update_of_ne (Ne.symm htc) _ _
    obtain ⟨h1, h2, h3⟩ := mul2dotDistinct_spec hd (c := t) (a := a) (b := b) (Ne.symm hta)
      (Function.update h t fun _ _ => 0) hq hqm hn (by rw [ea]; exact hA) (by rw [eb]; exact hB) t
    rw [ea, eb] at h1
    refine ⟨⟨fun i hi j hj => ?_, ?_⟩, fun i j hij => ?_, fun o ho hot => ?_⟩
    · simp only [swapEntrywise]; rw [if_pos ⟨hi, hj⟩, if_pos trivial]; exact h1.reduced i hi j hj
    · rw [← h1.eq]; ext i j
      simp only [swapEntrywise, residues, Matrix.of_apply]; rw [if_pos ⟨i.2, j.2⟩, if_pos trivial]
    · simp only [swapEntrywise]; rw [if_neg hij, h3 c (Ne.symm htc) (Ne.symm htc), ec]
    · funext i j
      simp only [swapEntrywise]
      rw [if_neg ho, if_neg hot, ite_self, h3 o hot hot, Function.update_of_ne hot]
  · rw [if_neg hal]
    exact mul2dotDistinct_spec hd (fun e => hal (Or.inl e.symm)) h hq hqm hn hA hB t

theorem mulNewdotDistinct_spec {dotp : DotFn} (hd : DotContract dotp) {m n p q c a b : Nat}
    (hca : a ≠ c) (h : Heap) (hq : 0 < q) (hqm : q < 2 ^ 64)
    (hA : ReducedMat q m n (h a)) (hB : ReducedMat q n p (h b)) (t : Nat) :
    Computes q m n p c a b t h (mulNewdotDistinct dotp m n p q c a b h) := by
  unfold mulNewdotDistinct
  obtain ⟨g1, g2⟩ := oneRows_spec hca (fun v1 v2 => dotp n v1 v2 n q) (transpose (h b)) p 0 h m
  refine ⟨isProduct_of_dot hq fun i hi j hj => ?_, fun i j hij => ?_, fun o ho _ => ?_⟩
  · have hr1 : Reduced (h a i) n q := fun k hk => hA i hi k hk
    have hr2 : Reduced (transpose (h b) j) n q := fun k hk => hB k hk j hj
    rw [g2, if_pos (by omega)]
    exact hd _ _ _ _ _ hq hqm (Nat.le_refl n) hr1 hr2
  · rw [g2, if_neg (by omega)]
  · rw [g1 o ho]

/-- C46 for `nmod_mat_mul_newdot`, for every modulus and all dimensions. -/
theorem C46_mul_newdot {dotp : DotFn} (hd : DotContract dotp) (m n p q c a b t : Nat)
    (hta : t ≠ a) (htb : t ≠ b) (htc : t ≠ c) (h : Heap) (hq : 0 < q) (hqm : q < 2 ^ 64)
    (hA : ReducedMat q m n (h a)) (hB : ReducedMat q n p (h b)) :
    Computes q m n p c a b t h (mulNewdot dotp m n p q c a b t h) := by
  unfold mulNewdot
  by_cases hal : c = a ∨ c = b
  · rw [if_pos hal]
    have ea : (Function.update h t fun _ _ => 0) a = h a := Function.update_of_ne (Ne.symm hta) _ _
    have eb : (Function.update h t fun _ _ => 0) b = h b := Function.update_of_ne (Ne.symm htb) _ _
    have ec : (Function.update h t fun _ _ => 0) c = h c := Function.update_of_ne (Ne.symm htc) _ _
    obtain ⟨h1, h2, h3⟩ := mulNewdotDistinct_spec hd (c := t) (a := a) (b := b) (Ne.symm hta)
      (Function.update h t fun _ _ => 0) hq hqm (by rw [ea]; exact hA) (by rw [eb]; exact hB) t
    rw [ea, eb] at h1
    refine ⟨⟨fun i hi j hj => ?_, ?_⟩, fun i j hij => ?_, fun o ho hot => ?_⟩
    · simp only [swapEntrywise]; rw [if_pos ⟨hi, hj⟩, if_pos trivial]; exact h1.reduced i hi j hj
    · rw [← h1.eq]; ext i j
      simp only [swapEntrywise, residues, Matrix.of_apply]; rw [if_pos ⟨i.2, j.2⟩, if_pos trivial]
    · simp only [swapEntrywise]; rw [if_neg hij, h3 c (Ne.symm htc) (Ne.symm htc), ec]
    · funext i j
      simp only [swapEntrywise]
      rw [if_neg ho, if_neg hot, ite_self, h3 o hot hot, Function.update_of_ne hot]
  · rw [if_neg hal]
    exact mulNewdotDistinct_spec hd (fun e => hal (Or.inl e.symm)) h hq hqm hA hB t

/-- C46 for `nmod_mat_mul_pml`, for every modulus and all dimensions. -/
theorem C46_mul_pml {dot2 : Dot2Fn} {mul : Nat → Nat → Nat → Nat → Mat Nat → Mat Nat → Mat Nat}
    (hm : MulContract mul) (m n p q c a b t : Nat) (h : Heap) (hq : 0 < q) (hqm : q < 2 ^ 64)
    (hA : ReducedMat q m n (h a)) (hB : ReducedMat q n p (h b)) :
    Computes q m n p c a b t h (mulPml dot2 mul m n p q c a b t h) := by
  have hP := hm m n p q (h a) (h b) hq hqm hA hB
  rw [mulPml, if_neg (by simp; omega)]
  refine ⟨⟨fun i hi j hj => ?_, ?_⟩, fun i j hij => ?_, fun o ho _ => ?_⟩
  · rw [Function.update_self, if_pos ⟨hi, hj⟩]; exact hP.reduced i hi j hj
  · rw [← hP.eq]; ext i j
    simp only [residues, Matrix.of_apply, Function.update_self]; rw [if_pos ⟨i.2, j.2⟩]
  · rw [Function.update_self, if_neg hij]
  · exact Function.update_of_ne ho _ _

/-- C46 for `nmod_mat_mul_nmod_vec_2dot`: `v[0..m)` is the product of the first
    `len` columns of `A` by `u`; nothing else is written. -/
theorem C46_mul_nmod_vec_2dot_partial {dot2 : Dot2Fn} (hd : Dot2Contract dot2) (m q : Nat)
    (v u : Nat → Nat) (A : Mat Nat) (len : Nat) (hq : 0 < q) (hqm : q ≤ maxModulus)
    (hn : len ≤ 47000000) (hA : ReducedMat q m len A) (hu : Reduced u len q) (i : Nat) :
    mulVec2dot dot2 m q v A u len i =
      if i < m then (∑ k ∈ Finset.range len, A i k * u k) % q else v i := by
  unfold mulVec2dot
  simp only [nmod_red]
  rw [vecOnes_spec, vecPairs_spec]
  by_cases hi : i < m
  · rw [if_pos hi]
    by_cases e : 2 * (m / 2) ≤ i
    · rw [if_pos (by omega)]; exact hd _ _ _ _ hq hqm hn (fun k hk => hA i hi k hk) hu
    · rw [if_neg (by omega), if_pos (by omega)]
      exact dot2SplitOne_eq _ _ _ _ hq hqm hn (fun k hk => hA i hi k hk) hu
  · rw [if_neg hi, if_neg (by omega), if_neg (by omega)]

/-- C46 for `nmod_mat_mul_nmod_vec_newdot`, `len` being at most the number of
    columns of `A`. -/
theorem C46_mul_nmod_vec_newdot {dotp : DotFn} (hd : DotContract dotp) (m n q : Nat)
    (v u : Nat → Nat) (A : Mat Nat) (len : Nat) (hq : 0 < q) (hqm : q < 2 ^ 64)
    (hn : len ≤ n) (hA : ReducedMat q m len A) (hu : Reduced u len q) (i : Nat) :
    mulVecNewdot dotp m n q v A u len i =
      if i < m then (∑ k ∈ Finset.range len, A i k * u k) % q else v i := by
  unfold mulVecNewdot
  rw [vecOnes_spec]
  by_cases hi : i < m
  · rw [if_pos hi, if_pos (by omega)]
    exact hd _ _ _ _ _ hq hqm hn (fun k hk => hA i hi k hk) hu
  · rw [if_neg hi, if_neg (by omega)]

/-- The bound on the inner dimension is needed: for some modulus and an inner
    dimension allowed by FLINT for `_nmod_vec_dot2_split`, `nmod_mat_mul_2dot`
    returns a wrong product (of a `2 × n` by an `n × 1` matrix). -/
theorem C46_mul_2dot_wrong (dot2 : Dot2Fn) :
    ∃ (q n : Nat) (h : Heap), 0 < q ∧ q ≤ maxModulus ∧ n ≤ maxLen ∧
      ReducedMat q 2 n (h 0) ∧ ReducedMat q n 1 (h 1) ∧
      ¬ IsProduct q 2 n 1 (h 0) (h 1) (mul2dot dot2 2 n 1 q 2 0 1 3 h 2) := by
  obtain ⟨v, q, n, h1, h2, h3, h4⟩ := C05_two_dot_split_wrong
  have hq : 0 < q := by
    rcases Nat.eq_zero_or_pos q with rfl | hq
    · rcases Nat.eq_zero_or_pos n with rfl | hn
      · exact absurd (by simp [dot2SplitOne, splitBlocks, acc1, nmod_red, dot]) h4
      · exact absurd (h3 0 hn) (by omega)
    · exact hq
  refine ⟨q, n, fun o i j => if o = 0 then v j else if o = 1 then v i else 0, hq, h1, h2,
    fun i hi j hj => ?_, fun i hi j hj => ?_, fun hP => h4 ?_⟩
  · simpa using h3 j hj
  · simpa using h3 i hi
  · generalize hh : (fun o i j => if o = 0 then v j else if o = 1 then v i else 0 : Heap) = h at hP
    have e0 : h 0 0 = v := by subst hh; rfl
    have e1 : transpose (h 1) 0 = v := by subst hh; rfl
    have e : mul2dot dot2 2 n 1 q 2 0 1 3 h 2 0 0 = dot2SplitOne v v n q (2 ^ 56 % q) := by
      rw [mul2dot, if_neg (by omega), mul2dotDistinct]
      simp only [nmod_red]
      rw [(oneRows_spec (by omega) _ _ _ _ _ _).2, if_neg (by omega),
        (pairRows_spec (by omega) _ _ _ _ _ _ _).2, if_pos (by omega), e0, e1]
    have hlt := hP.reduced 0 (by omega) 0 (by omega)
    have hz := congrFun (congrFun hP.eq 0) 0
    rw [Matrix.mul_apply] at hz
    simp only [residues, Matrix.of_apply] at hz
    have hd : ((dot v v n : Nat) : ZMod q) = ∑ j : Fin n, ((h 0 0 j : Nat) : ZMod q) * ((h 1 j 0 : Nat) : ZMod q) := by
      rw [dot, Nat.cast_sum, Finset.sum_range]
      refine Finset.sum_congr rfl fun k _ => ?_
      subst hh; push_cast; rfl
    have hz' : ((mul2dot dot2 2 n 1 q 2 0 1 3 h 2 0 0 : Nat) : ZMod q) = ((dot v v n : Nat) : ZMod q) := by
      rw [hd]; exact hz
    rw [ZMod.natCast_eq_natCast_iff'] at hz'
    rw [Nat.mod_eq_of_lt hlt, e] at hz'
    exact hz'

/-! ### The contracts are satisfiable and the hypotheses are met -/

theorem dot2Contract_satisfiable : Dot2Contract fun v1 v2 len n _ => dot v1 v2 len % n :=
  fun _ _ _ _ _ _ _ _ _ => rfl

theorem dotContract_satisfiable : DotContract fun _ v1 v2 len n => dot v1 v2 len % n :=
  fun _ _ _ _ _ _ _ _ _ _ => rfl

theorem mulContract_satisfiable :
    MulContract fun _ n _ q A B i j => dot (A i) (fun k => B k j) n % q :=
  fun _ _ _ _ _ _ hq _ _ _ => isProduct_of_dot hq fun _ _ _ _ => rfl

/-- The square of a 3 × 3 matrix modulo 1000003, computed in place. -/
example : ∃ (dot2 : Dot2Fn) (h : Heap), Dot2Contract dot2 ∧ ReducedMat 1000003 3 3 (h 0) ∧
    h 0 2 1 = 900000 ∧
    IsProduct 1000003 3 3 3 (h 0) (h 0) (mul2dot dot2 3 3 3 1000003 0 0 0 1 h 0) := by
  have hr : ReducedMat 1000003 3 3 fun i j => if i = 2 then 900000 else i + j := by
    intro i hi j hj; simp only; split_ifs <;> omega
  refine ⟨_, fun _ i j => if i = 2 then 900000 else i + j, dot2Contract_satisfiable, hr, rfl, ?_⟩
  exact (C46_mul_2dot_partial dot2Contract_satisfiable 3 3 3 1000003 0 0 0 1 (by omega) (by omega)
    (by omega) (fun _ i j => if i = 2 then 900000 else i + j) (by omega) (by norm_num [maxModulus])
    (by omega) hr hr).product

/-- A modulus of 64 bits with `nmod_mat_mul_newdot`, into the second argument. -/
example : ∃ (dotp : DotFn) (h : Heap), DotContract dotp ∧
    IsProduct (2 ^ 64 - 59) 2 2 2 (h 0) (h 1) (mulNewdot dotp 2 2 2 (2 ^ 64 - 59) 1 0 1 2 h 1) :=
  ⟨_, fun o i _ => 2 ^ 63 + o + i, dotContract_satisfiable,
    (C46_mul_newdot dotContract_satisfiable 2 2 2 (2 ^ 64 - 59) 1 0 1 2 (by omega) (by omega) (by omega)
      (fun o i _ => 2 ^ 63 + o + i)
      (by omega) (by omega) (fun i hi j _ => by show 2 ^ 63 + 0 + i < 2 ^ 64 - 59; omega)
      (fun i hi j _ => by show 2 ^ 63 + 1 + i < 2 ^ 64 - 59; omega)).product⟩

example (v : Nat → Nat) : mulVec2dot (fun v1 v2 len n _ => dot v1 v2 len % n) 3 1000003 v
    (fun i j => 1000 * i + j) (fun k => 500000 + k) 2 2 = 496001 := by
  rw [C46_mul_nmod_vec_2dot_partial dot2Contract_satisfiable 3 1000003 v _ _ 2 (by omega)
    (by norm_num [maxModulus]) (by omega) (fun i hi j hj => by omega)
    (fun k hk => by omega), if_pos (by omega)]
  decide

end PML.MatMul
