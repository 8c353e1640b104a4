import Verif.WeakPopov.Model
import Verif.RowOps.Lemmas
import Verif.Forms.Reduced

/-! # The weak Popov loop: invariant and termination -/

namespace PML.WeakPopov

open PML.MatOps PML.MatOps.Spec PML.MatPoly PML.Forms PML.Forms.Spec PML.RowOps PML.RowOps.Spec Polynomial

set_option linter.unusedSectionVars false

variable {K : Type} [Field K] [DecidableEq K]

theorem polyLength_of_ne {p : K[X]} (h : p ≠ 0) : polyLength p = p.natDegree + 1 := by
  simp [polyLength, h]

theorem Pivot.degree_eq {right : Bool} {n : Nat} {s : Nat → Int} {p : Nat → K[X]} {π δ : Nat}
    (h : Pivot right n s p π δ) : (p π).natDegree = δ := h.core.2.2.1

/-- Solving a collision makes the pivot of the modified row smaller. -/
theorem collision_decrease (right : Bool) (c : Nat) (sh : Nat → Int) (p q : Nat → K[X]) (π δ δ' : Nat)
    (hp : Pivot right c sh p π δ) (hq : Pivot right c sh q π δ') (hle : δ' ≤ δ) (π1 δ1 : Nat)
    (h1 : Pivot right c sh (fun j => p j +
      (C (-((p π).leadingCoeff * (q π).leadingCoeff⁻¹)) * X ^ (δ - δ')) * q j) π1 δ1) :
    (δ1 : Int) + sh π1 < δ + sh π ∨
    ((δ1 : Int) + sh π1 = δ + sh π ∧ if right then π1 < π else π < π1) := by
  have hpc := hp.core
  have hqc := hq.core
  have h1c := h1.core
  generalize ha : -((p π).leadingCoeff * (q π).leadingCoeff⁻¹) = a at *
  have hnd : (p π1 + C a * X ^ (δ - δ') * q π1).natDegree ≤
      max (p π1).natDegree ((δ - δ') + (q π1).natDegree) := by
    refine (natDegree_add_le _ _).trans (max_le_max le_rfl ?_)
    refine natDegree_mul_le.trans ?_
    have := natDegree_C_mul_X_pow_le a (δ - δ')
    omega
  have hne := h1c.2.1
  have hd1 := h1c.2.2.1
  beta_reduce at hne hd1
  rw [hd1] at hnd
  -- a bound for the entry at π1
  by_cases hπ : π1 = π
  · subst hπ
    left
    have hlt : δ1 < δ := by
      have hle1 : δ1 ≤ δ := by rw [hpc.2.2.1, hqc.2.2.1] at hnd; omega
      rcases Nat.lt_or_ge δ1 δ with h | h
      · exact h
      · exfalso
        have e : δ1 = δ := by omega
        have hlc : (p π1 + C a * X ^ (δ - δ') * q π1).coeff δ = 0 := by
          rw [coeff_add, mul_assoc, coeff_C_mul, coeff_X_pow_mul', if_pos (by omega),
            show δ - (δ - δ') = δ' by omega]
          have e1 : (p π1).coeff δ = (p π1).leadingCoeff := by rw [leadingCoeff, hpc.2.2.1]
          have e2 : (q π1).coeff δ' = (q π1).leadingCoeff := by rw [leadingCoeff, hqc.2.2.1]
          have e3 : (q π1).leadingCoeff ≠ 0 := fun h0 => hqc.2.1 (leadingCoeff_eq_zero.1 h0)
          rw [e1, e2, ← ha]
          field_simp
          ring
        refine hne (leadingCoeff_eq_zero.1 ?_)
        rw [leadingCoeff, hd1, e]
        exact hlc
    omega
  · -- weak bound
    have hb : (δ1 : Int) + sh π1 ≤ δ + sh π ∧
        ((if right then π < π1 else π1 < π) → (δ1 : Int) + sh π1 < δ + sh π) := by
      have hor : (p π1 ≠ 0 ∧ δ1 ≤ (p π1).natDegree) ∨ (q π1 ≠ 0 ∧ δ1 ≤ δ - δ' + (q π1).natDegree) := by
        by_cases hp0 : p π1 = 0
        · right
          have hq0 : q π1 ≠ 0 := fun h0 => hne (by rw [hp0, h0]; simp)
          refine ⟨hq0, ?_⟩
          rw [hp0, natDegree_zero] at hnd
          omega
        · by_cases hq0 : q π1 = 0
          · left
            refine ⟨hp0, ?_⟩
            rw [hq0, mul_zero, add_zero] at hd1
            omega
          · rcases le_max_iff.1 hnd with h | h
            · exact Or.inl ⟨hp0, h⟩
            · exact Or.inr ⟨hq0, h⟩
      rcases hor with ⟨h0, hl⟩ | ⟨h0, hl⟩
      · refine ⟨by have := hpc.2.2.2 π1 h1c.1 h0; omega, fun hr => ?_⟩
        cases right
        · have := PivotUpper.before hp π1 h1c.1 (by simpa using hr) h0; omega
        · have := PivotLower.after hp π1 h1c.1 (by simpa using hr) h0; omega
      · refine ⟨by have := hqc.2.2.2 π1 h1c.1 h0; omega, fun hr => ?_⟩
        cases right
        · have := PivotUpper.before hq π1 h1c.1 (by simpa using hr) h0; omega
        · have := PivotLower.after hq π1 h1c.1 (by simpa using hr) h0; omega
    rcases lt_or_eq_of_le hb.1 with h | h
    · exact Or.inl h
    · right
      refine ⟨h, ?_⟩
      by_contra hc
      have := hb.2 (by
        cases right
        · simp only [Bool.false_eq_true, if_false] at hc ⊢; omega
        · simp only [if_true] at hc ⊢; omega)
      omega

/-- Measure of one row. -/
noncomputable def rowMeas (o : Orient) (shift : Option (Nat → Int)) (c : Nat) (p : Nat → K[X]) : Nat :=
  let prof := vecPivotProfile o shift c p
  if prof.2.2 = 0 then 0
  else (prof.2.1 + shiftOf shift prof.1.toNat - minShift (shiftOf shift) c).toNat * c +
    (if o.isRight then prof.1.toNat else c - 1 - prof.1.toNat) + 1

theorem rowMeas_pivot (o : Orient) (shift : Option (Nat → Int)) (c : Nat) (p : Nat → K[X]) (π δ : Nat)
    (h : Pivot o.isRight c (shiftOf shift) p π δ) :
    rowMeas o shift c p = ((δ : Int) + shiftOf shift π - minShift (shiftOf shift) c).toNat * c +
      (if o.isRight then π else c - 1 - π) + 1 := by
  obtain ⟨π', δ', hv, hp⟩ := vecPivot_nonzero o shift c p h.not_zero
  obtain ⟨e1, e2⟩ := h.unique hp
  subst e1; subst e2
  simp [rowMeas, hv]

theorem rowMeas_zero (o : Orient) (shift : Option (Nat → Int)) (c : Nat) (p : Nat → K[X])
    (h : ZeroVec c p) : rowMeas o shift c p = 0 := by
  simp only [rowMeas, vecPivot_zero o shift c p h]
  split_ifs <;> simp_all

theorem rowMeas_collision (o : Orient) (shift : Option (Nat → Int)) (c : Nat) (p q : Nat → K[X])
    (π δ δ' : Nat) (hp : Pivot o.isRight c (shiftOf shift) p π δ)
    (hq : Pivot o.isRight c (shiftOf shift) q π δ') (hle : δ' ≤ δ) :
    rowMeas o shift c (fun j => p j +
      (C (-((p π).leadingCoeff * (q π).leadingCoeff⁻¹)) * X ^ (δ - δ')) * q j) < rowMeas o shift c p := by
  rw [rowMeas_pivot o shift c p π δ hp]
  by_cases hz : ZeroVec c (fun j => p j +
      (C (-((p π).leadingCoeff * (q π).leadingCoeff⁻¹)) * X ^ (δ - δ')) * q j)
  · rw [rowMeas_zero _ _ _ _ hz]; omega
  · obtain ⟨π1, δ1, _, h1⟩ := vecPivot_nonzero o shift c _ hz
    rw [rowMeas_pivot o shift c _ π1 δ1 h1]
    have hd := collision_decrease o.isRight c (shiftOf shift) p q π δ δ' hp hq hle π1 δ1 h1
    have hm : ∀ x, x < c → minShift (shiftOf shift) c ≤ shiftOf shift x := by
      intro x hx
      rcases minShift_spec (shiftOf shift) c with ⟨h, _⟩ | ⟨h, _⟩
      · omega
      · exact h x hx
    have hπ := hp.core.1
    have hπ1 := h1.core.1
    have m0 := hm π hπ
    have m1 := hm π1 hπ1
    generalize minShift (shiftOf shift) c = mn at *
    rcases hd with hd | ⟨hd, hpos⟩
    · have hlt : ((δ1 : Int) + shiftOf shift π1 - mn).toNat + 1 ≤ ((δ : Int) + shiftOf shift π - mn).toNat := by
        omega
      have hmul := Nat.mul_le_mul_right c hlt
      rw [Nat.add_mul, Nat.one_mul] at hmul
      have p1 : (if o.isRight = true then π1 else c - 1 - π1) < c := by split_ifs <;> omega
      omega
    · rw [hd]
      cases hr : o.isRight
      · simp only [hr, Bool.false_eq_true, if_false] at hpos ⊢; omega
      · simp only [hr, if_true] at hpos ⊢; omega

theorem sum_swapAt {α : Type} (m a b : Nat) (ha : a < m) (hb : b < m) (g : α → Nat) (f : Nat → α) :
    ∑ i ∈ Finset.range m, g (swapAt a b f i) = ∑ i ∈ Finset.range m, g (f i) := by
  have hmem : ∀ i, i ∈ Finset.range m → Equiv.swap a b i ∈ Finset.range m := by
    intro i hi
    rw [Finset.mem_range] at hi ⊢
    rw [Equiv.swap_apply_def]
    split_ifs <;> omega
  exact Finset.sum_nbij' (Equiv.swap a b) (Equiv.swap a b) hmem hmem (fun i _ => by simp) (fun i _ => by simp)
    (fun i _ => by rw [RowOps.swapAt_apply])

theorem sum_rotUp {α : Type} (m i j : Nat) (hij : i ≤ j) (hj : j < m) (g : α → Nat) (f : Nat → α) :
    ∑ k ∈ Finset.range m, g (rotUp i j f k) = ∑ k ∈ Finset.range m, g (f k) := by
  obtain ⟨n, rfl⟩ : ∃ n, j = i + n := ⟨j - i, by omega⟩
  clear hij
  induction n generalizing i f with
  | zero => simp [rotUp]
  | succ n ih =>
    rw [rotUp_eq_swap i (i + (n + 1)) (by omega), show i + (n + 1) = i + 1 + n by omega,
      ih (i + 1) _ (by omega), sum_swapAt m i (i + 1) (by omega) (by omega)]

/-- Rows in weak Popov form are independent over the polynomials. -/
theorem weakPopov_independent (right : Bool) (r n : Nat) (s : Nat → Int) (M : Nat → Nat → K[X])
    (h : WeakPopov right r n s M) (u : Nat → K[X])
    (hu : ∀ j, j < n → ∑ i ∈ Finset.range r, u i * M i j = 0) : ∀ i, i < r → u i = 0 := by
  obtain ⟨d, hd, hp⟩ := reduced_predictable _ _ _ _ (weakPopov_reduced right r n s M h)
  by_contra hc
  push Not at hc
  obtain ⟨i0, hi0, hne0⟩ := hc
  obtain ⟨i1, hi1, hne1, hmax⟩ := exists_max (fun i => u i ≠ 0)
    (fun i => ((u i).natDegree : Int) + d i) r ⟨i0, hi0, hne0⟩
  obtain ⟨j, hj, hne, _⟩ := (hp u _ ⟨fun i hi hne => hmax i hi hne, i1, hi1, hne1, rfl⟩).attained
  exact hne (hu j hj)

theorem weakPopov_rank (right : Bool) (r n : Nat) (s : Nat → Int) (M : Nat → Nat → K[X])
    (h : WeakPopov right r n s M) : rankOf r n M = r :=
  rankOf_independent fun u hu => weakPopov_independent right r n s M h u hu

theorem rowSpan_zeroLast {n c : Nat} {A : Nat → Nat → K[X]} (h : ZeroVec c (A n)) :
    rowSpan (n + 1) (firstCols c A) = rowSpan n (firstCols c A) := by
  apply le_antisymm
  · refine rowSpan_le fun i hi => ?_
    by_cases e : i = n
    · subst e
      have : firstCols c A i = 0 := by funext j; exact h j j.2
      rw [this]
      exact Submodule.zero_mem _
    · exact row_mem_rowSpan (by omega) _
  · exact rowSpan_le fun i hi => row_mem_rowSpan (by omega) _

/-- The loop invariant. -/
structure WPInv (o : Orient) (shift : Option (Nat → Int)) (m c : Nat) (A : Mat K[X])
    (T : Option (Mat K[X])) (det0 : Int) (piv0 : Nat → Int) (rrp0 : Nat → Nat) (s : WPState K) : Prop where
  noOob : s.oob = false
  sum : s.rk + s.zr ≤ m
  trans : ∃ σ : Int, (σ = 1 ∨ σ = -1) ∧ s.det = σ * det0 ∧
    Transformed m ((σ : Int) : K[X]) (beside A T) (beside s.mat s.tsf)
  shape : s.tsf.isSome = T.isSome
  piv : ∀ i, i < s.rk → ∃ π δ : Nat, s.pivind i = π ∧ Pivot o.isRight c (shiftOf shift) (s.mat i) π δ
  inj : ∀ i i', i < s.rk → i' < s.rk → s.pivind i = s.pivind i' → i = i'
  prow : ∀ j, j < c → (s.prow j = -1 ∧ ∀ i, i < s.rk → s.pivind i ≠ j) ∨
    ∃ i, i < s.rk ∧ s.prow j = (i : Int) ∧ s.pivind i = j
  zero : ∀ i, m - s.zr ≤ i → i < m → ZeroVec c (s.mat i)
  pivout : ∀ i, s.rk < i ∨ m ≤ i → s.pivind i = piv0 i
  span : ∀ t, s.rk + s.zr < t → t ≤ m →
    rowSpan (t - s.zr) (firstCols c s.mat) = rowSpan t (firstCols c A)
  rrp_lt : ∀ l, l < s.rk → s.rrp l < s.rk + s.zr
  rrp_inc : ∀ l l', l < l' → l' < s.rk → s.rrp l < s.rrp l'
  rrp_out : ∀ l, s.rk ≤ l → s.rrp l = rrp0 l
  rank : ∀ t, t ≤ s.rk + s.zr →
    rankOf t c A = ((Finset.range s.rk).filter fun l => s.rrp l < t).card

theorem WPInv.init (o : Orient) (shift : Option (Nat → Int)) (m c : Nat) (A : Mat K[X])
    (T : Option (Mat K[X])) (det0 : Int) (piv0 : Nat → Int) (rrp0 : Nat → Nat) :
    WPInv o shift m c A T det0 piv0 rrp0 (wpInit A T det0 piv0 rrp0) where
  noOob := rfl
  sum := by simp [wpInit]
  trans := ⟨1, Or.inl rfl, by simp [wpInit], by simpa [wpInit] using Transformed.refl m (beside A T)⟩
  shape := rfl
  piv := fun i hi => by simp [wpInit] at hi
  inj := fun i i' hi => by simp [wpInit] at hi
  prow := fun j hj => Or.inl ⟨rfl, fun i hi => by simp [wpInit] at hi⟩
  zero := fun i h1 h2 => by simp [wpInit] at h1; omega
  pivout := fun i _ => rfl
  span := fun t _ _ => rfl
  rrp_lt := fun l hl => by simp [wpInit] at hl
  rrp_inc := fun l l' _ hl => by simp [wpInit] at hl
  rrp_out := fun l _ => rfl
  rank := fun t ht => by
    simp only [wpInit] at ht ⊢
    have : t = 0 := by omega
    subst this
    have := rankOf_independent (R := K[X]) (m := 0) (c := c) (A := A) (fun u _ i hi => by omega)
    rw [this]; simp

/-- The measure. -/
noncomputable def wpMeas (o : Orient) (shift : Option (Nat → Int)) (m c : Nat) (s : WPState K) : Nat :=
  ∑ i ∈ Finset.range m, rowMeas o shift c (s.mat i) + (m - s.rk - s.zr)

theorem beside_rot (A : Mat K[X]) (T : Option (Mat K[X])) (i j : Nat) (hij : i ≤ j) :
    beside (rotUp i j A) (T.map fun T => rotUp i j T) = rotUp i j (beside A T) := by
  have h := rotUp_spec hij A
  have h' := rotUp_spec hij (beside A T)
  have key : ∀ (f : Nat → Nat), (∀ k, rotUp i j A k = A (f k)) →
      (∀ T' : Mat K[X], ∀ k, rotUp i j T' k = T' (f k)) →
      (∀ k, rotUp i j (beside A T) k = beside A T (f k)) →
      beside (rotUp i j A) (T.map fun T => rotUp i j T) = rotUp i j (beside A T) := by
    intro f h1 h2 h3
    funext k l
    rw [h3]
    cases l with
    | inl l => simp only [beside]; rw [h1]
    | inr l =>
      cases T with
      | none => rfl
      | some T => simp only [beside, Option.map_some, Option.getD_some]; rw [h2]
  have gen : ∀ {α : Type} (g : Nat → α) k, rotUp i j g k =
      g (if k < i ∨ j < k then k else if k = j then i else k + 1) := by
    intro α g k
    have hg := rotUp_spec hij g
    by_cases h1 : k < i ∨ j < k
    · rw [if_pos h1, hg.other k h1]
    · rw [if_neg h1]
      by_cases h2 : k = j
      · rw [if_pos h2, h2, hg.last]
      · rw [if_neg h2, hg.block k (by omega) (by omega)]
  exact key _ (gen A) (fun T' => gen T') (gen _)

theorem beside_swap (A : Mat K[X]) (T : Option (Mat K[X])) (a b : Nat) :
    beside (swapAt a b A) (T.map fun T => swapAt a b T) = swapAt a b (beside A T) := by
  funext k l
  rw [RowOps.swapAt_apply]
  cases l with
  | inl l => simp only [beside]; rw [RowOps.swapAt_apply]
  | inr l =>
    cases T with
    | none => rfl
    | some T => simp only [beside, Option.map_some, Option.getD_some]; rw [RowOps.swapAt_apply]

theorem beside_add (A : Mat K[X]) (T : Option (Mat K[X])) (a b m : Nat) (u : K[X]) (ha : a < m)
    (hb : b < m) (hab : a ≠ b) :
    Transformed m 1 (beside A T) (beside (addRowMul A a b u) (T.map fun T => addRowMul T a b u)) := by
  refine Transformed.addRow ha hb hab u (fun l => ?_) (fun i hi => ?_)
  · cases l with
    | inl l => simp [beside, addRowMul]
    | inr l =>
      cases T with
      | none => simp [beside]
      | some T => simp [beside, addRowMul]
  · funext l
    cases l with
    | inl l => simp [beside, addRowMul, Function.update_of_ne hi]
    | inr l =>
      cases T with
      | none => simp [beside]
      | some T => simp [beside, addRowMul, Function.update_of_ne hi]

section steps

variable {o : Orient} {shift : Option (Nat → Int)} {m c : Nat} {A : Mat K[X]}
    {T : Option (Mat K[X])} {det0 : Int} {piv0 : Nat → Int} {rrp0 : Nat → Nat} {s : WPState K}

theorem WPInv.setPiv (h : WPInv o shift m c A T det0 piv0 rrp0 s) (hlt : s.rk + s.zr < m) (v : Int) :
    WPInv o shift m c A T det0 piv0 rrp0 { s with pivind := Function.update s.pivind s.rk v } where
  noOob := h.noOob
  sum := h.sum
  trans := h.trans
  shape := h.shape
  piv := fun i hi => by
    simp only at hi ⊢
    rw [Function.update_of_ne (by omega)]
    exact h.piv i hi
  inj := fun i i' hi hi' => by
    simp only at hi hi' ⊢
    rw [Function.update_of_ne (by omega), Function.update_of_ne (by omega)]
    exact h.inj i i' hi hi'
  prow := fun j hj => by
    rcases h.prow j hj with ⟨h1, h2⟩ | ⟨i, h1, h2, h3⟩
    · refine Or.inl ⟨h1, fun i hi => ?_⟩
      simp only at hi ⊢
      rw [Function.update_of_ne (by omega)]
      exact h2 i hi
    · refine Or.inr ⟨i, h1, h2, ?_⟩
      simp only
      rw [Function.update_of_ne (by omega)]
      exact h3
  zero := h.zero
  pivout := fun i hi => by
    simp only at hi ⊢
    rw [Function.update_of_ne (by omega)]
    exact h.pivout i hi
  span := h.span
  rrp_lt := h.rrp_lt
  rrp_inc := h.rrp_inc
  rrp_out := h.rrp_out
  rank := h.rank

theorem weakPopov_of_piv {right : Bool} {n c : Nat} {sh : Nat → Int} {M : Mat K[X]} {pivind : Nat → Int}
    (hpiv : ∀ i, i < n → ∃ π δ : Nat, pivind i = π ∧ Pivot right c sh (M i) π δ)
    (hinj : ∀ i i', i < n → i' < n → pivind i = pivind i' → i = i') :
    WeakPopov right n c sh M := by
  have hex : ∀ i, ∃ πδ : Nat × Nat, i < n → pivind i = πδ.1 ∧ Pivot right c sh (M i) πδ.1 πδ.2 := by
    intro i
    by_cases hi : i < n
    · obtain ⟨π, δ, h1, h2⟩ := hpiv i hi
      exact ⟨(π, δ), fun _ => ⟨h1, h2⟩⟩
    · exact ⟨(0, 0), fun h => absurd h hi⟩
  choose f hf using hex
  refine ⟨fun i => (f i).1, fun i => (f i).2, fun i hi => (hf i hi).2, fun i j hi hj he => ?_⟩
  refine hinj i j hi hj ?_
  simp only at he
  rw [(hf i hi).1, (hf j hj).1, he]

theorem WPInv.weakPopov (h : WPInv o shift m c A T det0 piv0 rrp0 s) :
    WeakPopov o.isRight s.rk c (shiftOf shift) s.mat := weakPopov_of_piv h.piv h.inj

theorem card_filter_of_all (n : Nat) (p : Nat → Prop) [DecidablePred p] (h : ∀ l, l < n → p l) :
    ((Finset.range n).filter p).card = n := by
  rw [Finset.filter_true_of_mem (fun l hl => h l (Finset.mem_range.1 hl)), Finset.card_range]

theorem neg_one_pow_int (n : Nat) : ((-1 : K[X]) ^ n) = (((if n % 2 = 1 then -1 else 1 : Int)) : K[X]) := by
  rcases Nat.mod_two_eq_zero_or_one n with h | h
  · rw [if_neg (by omega), (Nat.even_iff.2 h).neg_one_pow]; simp
  · rw [if_pos h, (Nat.odd_iff.2 h).neg_one_pow]; simp

theorem WPInv.zeroStep (h : WPInv o shift m c A T det0 piv0 rrp0 s) (hlt : s.rk + s.zr < m)
    (hz : ZeroVec c (s.mat s.rk)) :
    WPInv o shift m c A T det0 piv0 rrp0
      { s with
        mat := rotUp s.rk (m - 1) s.mat
        tsf := s.tsf.map fun T => rotUp s.rk (m - 1) T
        det := if (m - 1 - s.rk) % 2 = 1 then -s.det else s.det
        zr := s.zr + 1 } := by
  have hr := rotUp_spec (by omega : s.rk ≤ m - 1) s.mat
  have hrank1 : rankOf (s.rk + s.zr + 1) c A = s.rk := by
    refine (rankOf_congr ?_).trans (weakPopov_rank _ _ _ _ _ h.weakPopov)
    rw [← h.span (s.rk + s.zr + 1) (by omega) (by omega), show s.rk + s.zr + 1 - s.zr = s.rk + 1 by omega,
      rowSpan_zeroLast hz]
  refine ⟨h.noOob, by simp only; omega, ?_, ?_, fun i hi => ?_, h.inj, h.prow, fun i h1 h2 => ?_, h.pivout,
    fun t h1 h2 => ?_, fun l hl => ?_, h.rrp_inc, h.rrp_out, fun t ht => ?_⟩
  · obtain ⟨σ, h1, h2, h3⟩ := h.trans
    refine ⟨(if (m - 1 - s.rk) % 2 = 1 then -1 else 1) * σ, ?_, ?_, ?_⟩
    · split_ifs <;> rcases h1 with rfl | rfl <;> simp
    · simp only; split_ifs <;> rw [h2] <;> ring
    · simp only
      rw [beside_rot _ _ _ _ (by omega), Int.cast_mul, ← neg_one_pow_int]
      exact h3.trans (Transformed.rotUp (by omega) (by omega) _)
  · simp only [Option.isSome_map]; exact h.shape
  · simp only at hi ⊢
    rw [hr.other i (Or.inl hi)]
    exact h.piv i hi
  · simp only at h1 ⊢
    by_cases e : i = m - 1
    · rw [e, hr.last]; exact hz
    · rw [hr.block i (by omega) (by omega)]
      exact h.zero (i + 1) (by omega) (by omega)
  · simp only at h1 ⊢
    rw [← h.span t (by omega) h2]
    apply le_antisymm
    · refine rowSpan_le fun i hi => ?_
      by_cases e : i < s.rk
      · have : firstCols c (rotUp s.rk (m - 1) s.mat) i = firstCols c s.mat i := by
          funext j; simp only [firstCols]; rw [hr.other i (Or.inl e)]
        rw [this]
        exact row_mem_rowSpan (by omega) _
      · have : firstCols c (rotUp s.rk (m - 1) s.mat) i = firstCols c s.mat (i + 1) := by
          funext j; simp only [firstCols]; rw [hr.block i (by omega) (by omega)]
        rw [this]
        exact row_mem_rowSpan (by omega) _
    · refine rowSpan_le fun i hi => ?_
      by_cases e : i < s.rk
      · have : firstCols c (rotUp s.rk (m - 1) s.mat) i = firstCols c s.mat i := by
          funext j; simp only [firstCols]; rw [hr.other i (Or.inl e)]
        rw [← this]
        exact row_mem_rowSpan (by omega) _
      · by_cases e2 : i = s.rk
        · have : firstCols c s.mat i = 0 := by funext j; rw [e2]; exact hz j j.2
          rw [this]
          exact Submodule.zero_mem _
        · have : firstCols c (rotUp s.rk (m - 1) s.mat) (i - 1) = firstCols c s.mat i := by
            funext j; simp only [firstCols]
            rw [hr.block (i - 1) (by omega) (by omega), show i - 1 + 1 = i by omega]
          rw [← this]
          exact row_mem_rowSpan (by omega) _
  · simp only at hl ⊢
    have := h.rrp_lt l hl; omega
  · simp only at ht ⊢
    rcases Nat.lt_or_ge t (s.rk + s.zr + 1) with h1 | h1
    · exact h.rank t (by omega)
    · rw [show t = s.rk + s.zr + 1 by omega, hrank1, card_filter_of_all]
      intro l hl
      have := h.rrp_lt l hl
      omega

theorem WPInv.newPivot (h : WPInv o shift m c A T det0 piv0 rrp0 s) (hlt : s.rk + s.zr < m)
    (π δ : Nat) (hp : Pivot o.isRight c (shiftOf shift) (s.mat s.rk) π δ) (hpi : s.pivind s.rk = π)
    (hprow : s.prow π = -1) :
    WPInv o shift m c A T det0 piv0 rrp0
      { s with
        prow := Function.update s.prow π (s.rk : Int)
        rrp := Function.update s.rrp s.rk (s.rk + s.zr)
        rk := s.rk + 1 } := by
  have hno : ∀ i, i < s.rk → s.pivind i ≠ π := by
    rcases h.prow π hp.core.1 with ⟨_, h2⟩ | ⟨i, h1, h2, h3⟩
    · exact h2
    · rw [h2] at hprow; omega
  have hpiv' : ∀ i, i < s.rk + 1 →
      ∃ π δ : Nat, s.pivind i = π ∧ Pivot o.isRight c (shiftOf shift) (s.mat i) π δ := by
    intro i hi
    by_cases e : i = s.rk
    · subst e; exact ⟨π, δ, hpi, hp⟩
    · exact h.piv i (by omega)
  have hinj' : ∀ i i', i < s.rk + 1 → i' < s.rk + 1 → s.pivind i = s.pivind i' → i = i' := by
    intro i i' hi hi' he
    by_cases e : i = s.rk
    · by_cases e' : i' = s.rk
      · omega
      · subst e; rw [hpi] at he; exact absurd he.symm (hno i' (by omega))
    · by_cases e' : i' = s.rk
      · subst e'; rw [hpi] at he; exact absurd he (hno i (by omega))
      · exact h.inj i i' (by omega) (by omega) he
  have hrr : ∀ l, l < s.rk → Function.update s.rrp s.rk (s.rk + s.zr) l = s.rrp l := fun l hl =>
    Function.update_of_ne (by omega) _ _
  have hrk : Function.update s.rrp s.rk (s.rk + s.zr) s.rk = s.rk + s.zr := Function.update_self _ _ _
  have hlt' : ∀ l, l < s.rk + 1 → Function.update s.rrp s.rk (s.rk + s.zr) l < s.rk + s.zr + 1 := by
    intro l hl
    by_cases e : l = s.rk
    · rw [e, hrk]; omega
    · rw [hrr l (by omega)]; have := h.rrp_lt l (by omega); omega
  refine ⟨h.noOob, by simp only; omega, h.trans, h.shape, hpiv', hinj', fun j hj => ?_, h.zero, fun i hi => ?_,
    fun t h1 h2 => h.span t (by simp only at h1; omega) h2, fun l hl => ?_, fun l l' h1 h2 => ?_,
    fun l hl => ?_, fun t ht => ?_⟩
  · simp only
    by_cases e : j = π
    · subst e
      exact Or.inr ⟨s.rk, by omega, Function.update_self _ _ _, hpi⟩
    · rw [Function.update_of_ne e]
      rcases h.prow j hj with ⟨h1, h2⟩ | ⟨i, h1, h2, h3⟩
      · refine Or.inl ⟨h1, fun i hi => ?_⟩
        by_cases e' : i = s.rk
        · rw [e', hpi]; omega
        · exact h2 i (by omega)
      · exact Or.inr ⟨i, by omega, h2, h3⟩
  · simp only at hi; exact h.pivout i (by omega)
  · simp only at hl ⊢; have := hlt' l hl; omega
  · simp only at h2 ⊢
    rw [hrr l (by omega)]
    by_cases e : l' = s.rk
    · rw [e, hrk]; exact h.rrp_lt l (by omega)
    · rw [hrr l' (by omega)]; exact h.rrp_inc l l' h1 (by omega)
  · simp only at hl ⊢
    rw [Function.update_of_ne (by omega)]; exact h.rrp_out l (by omega)
  · simp only at ht ⊢
    rcases Nat.lt_or_ge t (s.rk + s.zr + 1) with h1 | h1
    · rw [h.rank t (by omega), Finset.range_add_one, Finset.filter_insert, hrk, if_neg (by omega)]
      congr 1
      refine Finset.filter_congr fun l hl => ?_
      rw [hrr l (Finset.mem_range.1 hl)]
    · have e : t = s.rk + s.zr + 1 := by omega
      rw [e, card_filter_of_all _ _ hlt']
      have hw : WeakPopov o.isRight (s.rk + 1) c (shiftOf shift) s.mat :=
        weakPopov_of_piv hpiv' hinj'
      refine (rankOf_congr ?_).trans (weakPopov_rank _ _ _ _ _ hw)
      rw [← h.span (s.rk + s.zr + 1) (by omega) (by omega),
        show s.rk + s.zr + 1 - s.zr = s.rk + 1 by omega]

/-- Replacing `mat` and `tsf` by an elementary operation on rows at or before `rk`
    which keeps the pivots of the rows before `rk`. -/
theorem WPInv.rowOp (h : WPInv o shift m c A T det0 piv0 rrp0 s) (hlt : s.rk + s.zr < m)
    (B : Mat K[X]) (T' : Option (Mat K[X])) (σ : Int) (hσ : σ = 1 ∨ σ = -1)
    (ht : ∀ n, s.rk < n → Transformed n ((σ : Int) : K[X]) (beside s.mat s.tsf) (beside B T'))
    (hT : T'.isSome = s.tsf.isSome)
    (hpiv : ∀ i, i < s.rk → ∃ π δ : Nat, s.pivind i = π ∧ Pivot o.isRight c (shiftOf shift) (B i) π δ)
    (hout : ∀ i, s.rk < i → B i = s.mat i) (d : Int) (hd : d = σ * s.det) :
    WPInv o shift m c A T det0 piv0 rrp0 { s with mat := B, tsf := T', det := d } := by
  have hunit : IsUnit ((σ : Int) : K[X]) := by rcases hσ with rfl | rfl <;> simp
  refine ⟨h.noOob, h.sum, ?_, by simp only; rw [hT]; exact h.shape, hpiv, h.inj, h.prow,
    fun i h1 h2 => ?_, h.pivout, fun t h1 h2 => ?_, h.rrp_lt, h.rrp_inc, h.rrp_out, h.rank⟩
  · obtain ⟨τ, h1, h2, h3⟩ := h.trans
    refine ⟨σ * τ, ?_, ?_, ?_⟩
    · rcases h1 with rfl | rfl <;> rcases hσ with rfl | rfl <;> simp
    · simp only; rw [hd, h2]; ring
    · rw [Int.cast_mul]
      exact h3.trans (ht m (by omega))
  · simp only at h1 ⊢
    rw [hout i (by omega)]
    exact h.zero i h1 h2
  · simp only at h1 ⊢
    rw [← h.span t h1 h2]
    exact ((ht (t - s.zr) (by omega)).cols (fun j : Fin c => Sum.inl (j : Nat))).rowSpan_eq hunit

theorem WPInv.swapStep (h : WPInv o shift m c A T det0 piv0 rrp0 s) (hlt : s.rk + s.zr < m)
    (i : Nat) (hi : i < s.rk) (π δ : Nat) (hp : Pivot o.isRight c (shiftOf shift) (s.mat s.rk) π δ)
    (hpi : s.pivind i = π) :
    WPInv o shift m c A T det0 piv0 rrp0
      { s with
        mat := swapAt i s.rk s.mat
        tsf := s.tsf.map fun T => swapAt i s.rk T
        det := if i ≠ s.rk then -s.det else s.det } := by
  refine h.rowOp hlt _ _ (-1) (Or.inr rfl) (fun n hn => ?_) (by simp) (fun k hk => ?_) (fun k hk => ?_) _ ?_
  · rw [beside_swap]
    simpa using Transformed.swap (R := K[X]) (m := n) (a := i) (b := s.rk) (by omega) hn (by omega) (beside s.mat s.tsf)
  · rw [RowOps.swapAt_apply]
    by_cases e : k = i
    · subst e; rw [Equiv.swap_apply_left]; exact ⟨π, δ, hpi, hp⟩
    · rw [Equiv.swap_apply_of_ne_of_ne e (by omega)]; exact h.piv k hk
  · rw [RowOps.swapAt_apply, Equiv.swap_apply_of_ne_of_ne (by omega) (by omega)]
  · rw [if_pos (by omega)]; ring

theorem WPInv.addStep (h : WPInv o shift m c A T det0 piv0 rrp0 s) (hlt : s.rk + s.zr < m)
    (i : Nat) (hi : i < s.rk) (u : K[X]) :
    WPInv o shift m c A T det0 piv0 rrp0
      { s with
        mat := addRowMul s.mat s.rk i u
        tsf := s.tsf.map fun T => addRowMul T s.rk i u } := by
  refine h.rowOp hlt _ _ 1 (Or.inl rfl) (fun n hn => ?_) (by simp) (fun k hk => ?_) (fun k hk => ?_) _
    (one_mul _).symm
  · simpa using beside_add s.mat s.tsf s.rk i n u hn (by omega) (by omega)
  · simp only [addRowMul]
    rw [Function.update_of_ne (by omega)]; exact h.piv k hk
  · simp only [addRowMul]
    rw [Function.update_of_ne (by omega)]

theorem rankOf_le (m c : Nat) (A : Mat K[X]) : rankOf m c A ≤ m := by
  unfold rankOf
  refine (Matrix.rank_le_height _).trans (by simp)

theorem rankOf_le_width (m c : Nat) (A : Mat K[X]) : rankOf m c A ≤ c := by
  unfold rankOf
  refine (Matrix.rank_le_width _).trans (by simp)

theorem rankOf_zeroRow {m c k : Nat} {B : Mat K[X]} (hk : k < m) (hz : ZeroVec c (B k)) :
    rankOf m c B < m := by
  have hr := rotUp_spec (by omega : k ≤ m - 1) B
  have h1 : rowSpan m (firstCols c (rotUp k (m - 1) B)) = rowSpan m (firstCols c B) := by
    have := (Transformed.rotUp (R := K[X]) (m := m) (by omega : k ≤ m - 1) (by omega) B).cols
      (fun j : Fin c => (j : Nat))
    exact this.rowSpan_eq (isUnit_one.neg.pow _)
  have h2 : rowSpan (m - 1 + 1) (firstCols c (rotUp k (m - 1) B)) =
      rowSpan (m - 1) (firstCols c (rotUp k (m - 1) B)) :=
    rowSpan_zeroLast (by rw [hr.last]; exact hz)
  rw [show m - 1 + 1 = m by omega] at h2
  have := rankOf_congr (h1.symm.trans h2)
  have h3 := rankOf_le (m - 1) c (rotUp k (m - 1) B)
  omega

theorem WPInv.rank_mat (h : WPInv o shift m c A T det0 piv0 rrp0 s) : rankOf m c s.mat = rankOf m c A := by
  obtain ⟨σ, h1, _, h3⟩ := h.trans
  exact rankOf_congr ((h3.cols (fun j : Fin c => Sum.inl (j : Nat))).rowSpan_eq (by rcases h1 with rfl | rfl <;> simp))

/-- The zero test of the body is right (or not needed): lower pivots, or upper ones
    without a shift or for full row rank. -/
def GoodOrient (o : Orient) (shift : Option (Nat → Int)) (m c : Nat) (A : Mat K[X]) : Prop :=
  o = .rowLower ∨ (o = .rowUpper ∧ (shift = none ∨ rankOf m c A = m))

theorem zpiv_zero (h : WPInv o shift m c A T det0 piv0 rrp0 s) (hlt : s.rk + s.zr < m)
    (hg : GoodOrient o shift m c A) (hz : ZeroVec c (s.mat s.rk)) :
    (vecPivotProfile o shift c (s.mat s.rk)).1 = zpiv o c := by
  rw [vecPivot_zero o shift c _ hz]
  rcases hg with rfl | ⟨rfl, rfl | hr⟩
  · simp [zpiv, Orient.isRight]
  · simp [zpiv, Orient.isRight]
  · have := rankOf_zeroRow (by omega : s.rk < m) hz
    rw [h.rank_mat] at this
    omega

theorem zpiv_ne (π : Nat) (hπ : π < c) : ((π : Int)) ≠ zpiv o c := by
  unfold zpiv; split_ifs <;> omega

theorem sum_update_lt (m k : Nat) (hk : k < m) (f : (Nat → K[X]) → Nat) (M : Mat K[X]) (v : Nat → K[X])
    (h : f v < f (M k)) :
    ∑ i ∈ Finset.range m, f (Function.update M k v i) < ∑ i ∈ Finset.range m, f (M i) := by
  refine Finset.sum_lt_sum (fun i _ => ?_) ⟨k, Finset.mem_range.2 hk, ?_⟩
  · by_cases e : i = k
    · subst e; rw [Function.update_self]; exact h.le
    · rw [Function.update_of_ne e]
  · rw [Function.update_self]; exact h

/-- One pass through the loop body keeps the invariant and decreases the measure
    (row with a pivot: all orientations, all shifts). -/
theorem WPInv.step_nonzero (h : WPInv o shift m c A T det0 piv0 rrp0 s)
    (hlt : s.rk + s.zr < m) (hz : ¬ ZeroVec c (s.mat s.rk)) :
    WPInv o shift m c A T det0 piv0 rrp0 (wpBody o shift m c s) ∧
    wpMeas o shift m c (wpBody o shift m c s) < wpMeas o shift m c s ∧
    (wpBody o shift m c s).zr = s.zr := by
  obtain ⟨π, δ, hv, hp⟩ := vecPivot_nonzero o shift c _ hz
  have hπ := hp.core.1
  have h0 := h.setPiv hlt (π : Int)
  by_cases hpr : s.prow π = -1
  · have e : wpBody o shift m c s =
        { s with
          pivind := Function.update s.pivind s.rk (π : Int)
          prow := Function.update s.prow π (s.rk : Int)
          rrp := Function.update s.rrp s.rk (s.rk + s.zr)
          rk := s.rk + 1 } := by
      unfold wpBody
      simp only [hv]
      rw [if_neg (zpiv_ne π hπ), if_neg (by omega), Int.toNat_natCast, if_pos hpr]
    rw [e]
    refine ⟨h0.newPivot hlt π δ hp (Function.update_self _ _ _) hpr, ?_, rfl⟩
    simp only [wpMeas]
    omega
  · obtain ⟨i, hi, hpi, hpiv⟩ : ∃ i, i < s.rk ∧ s.prow π = (i : Int) ∧ s.pivind i = π := by
      rcases h.prow π hπ with ⟨h1, _⟩ | h1
      · exact absurd h1 hpr
      · exact h1
    obtain ⟨π', δ', e1, hq⟩ := h.piv i hi
    have e2 : π' = π := by rw [hpiv] at e1; omega
    subst e2
    have hdeg : pdeg (s.mat i π') = δ' := by rw [pdeg_of_ne hq.core.2.1, hq.core.2.2.1]
    -- the two cases
    have hcol : ∀ (B : Mat K[X]) (a b : Nat), Pivot o.isRight c (shiftOf shift) (B s.rk) π' a →
        Pivot o.isRight c (shiftOf shift) (B i) π' b → b ≤ a →
        collisionFactor B s.rk i π' =
          some (C (-((B s.rk π').leadingCoeff * (B i π').leadingCoeff⁻¹)) * X ^ (a - b)) := by
      intro B a b ha hb hab
      have l1 := polyLength_of_ne ha.core.2.1
      have l2 := polyLength_of_ne hb.core.2.1
      rw [ha.core.2.2.1] at l1
      rw [hb.core.2.2.1] at l2
      unfold collisionFactor
      rw [if_neg (by omega), l1, l2, show a + 1 - (b + 1) = a - b by omega]
    have hmeas : ∀ (B : Mat K[X]) (a b : Nat), Pivot o.isRight c (shiftOf shift) (B s.rk) π' a →
        Pivot o.isRight c (shiftOf shift) (B i) π' b → b ≤ a →
        ∑ k ∈ Finset.range m, rowMeas o shift c (addRowMul B s.rk i
          (C (-((B s.rk π').leadingCoeff * (B i π').leadingCoeff⁻¹)) * X ^ (a - b)) k) <
        ∑ k ∈ Finset.range m, rowMeas o shift c (B k) := by
      intro B a b ha hb hab
      exact sum_update_lt m s.rk (by omega) (rowMeas o shift c) B _ (rowMeas_collision o shift c _ _ π' a b ha hb hab)
    by_cases hsw : (δ : Int) < pdeg (s.mat i π')
    · have sw1 : swapAt i s.rk s.mat s.rk = s.mat i := by rw [RowOps.swapAt_apply, Equiv.swap_apply_right]
      have sw2 : swapAt i s.rk s.mat i = s.mat s.rk := by rw [RowOps.swapAt_apply, Equiv.swap_apply_left]
      have hB1 : Pivot o.isRight c (shiftOf shift) (swapAt i s.rk s.mat s.rk) π' δ' := by rw [sw1]; exact hq
      have hB2 : Pivot o.isRight c (shiftOf shift) (swapAt i s.rk s.mat i) π' δ := by rw [sw2]; exact hp
      have hu := hcol _ _ _ hB1 hB2 (by omega)
      have hm := hmeas _ _ _ hB1 hB2 (by omega)
      generalize (C (-((swapAt i s.rk s.mat s.rk π').leadingCoeff *
        (swapAt i s.rk s.mat i π').leadingCoeff⁻¹)) * X ^ (δ' - δ)) = u at hu hm
      have e : wpBody o shift m c s =
          { s with
            pivind := Function.update s.pivind s.rk (π' : Int)
            mat := addRowMul (swapAt i s.rk s.mat) s.rk i u
            tsf := (s.tsf.map fun T => swapAt i s.rk T).map fun T => addRowMul T s.rk i u
            det := if i ≠ s.rk then -s.det else s.det } := by
        unfold wpBody
        simp only [hv]
        rw [if_neg (zpiv_ne π' hπ), if_neg (by omega)]
        simp only [Int.toNat_natCast]
        rw [if_neg hpr]
        simp only [hpi, Int.toNat_natCast, if_pos hsw, swapRows, hu]
      rw [e]
      refine ⟨((h0.swapStep hlt i hi π' δ hp ?_).addStep hlt i hi u), ?_, rfl⟩
      · simp only; rw [Function.update_of_ne (by omega)]; exact hpiv
      · simp only [wpMeas]
        rw [sum_swapAt m i s.rk (by omega) (by omega)] at hm
        omega
    · have hu := hcol _ _ _ hp hq (by omega)
      have hm := hmeas _ _ _ hp hq (by omega)
      generalize (C (-((s.mat s.rk π').leadingCoeff *
        (s.mat i π').leadingCoeff⁻¹)) * X ^ (δ - δ')) = u at hu hm
      have e : wpBody o shift m c s =
          { s with
            pivind := Function.update s.pivind s.rk (π' : Int)
            mat := addRowMul s.mat s.rk i u
            tsf := s.tsf.map fun T => addRowMul T s.rk i u } := by
        unfold wpBody
        simp only [hv]
        rw [if_neg (zpiv_ne π' hπ), if_neg (by omega)]
        simp only [Int.toNat_natCast]
        rw [if_neg hpr]
        simp only [hpi, Int.toNat_natCast, if_neg hsw, hu]
      rw [e]
      refine ⟨h0.addStep hlt i hi u, ?_, rfl⟩
      simp only [wpMeas]
      omega

/-- One pass through the loop body keeps the invariant and decreases the measure. -/
theorem WPInv.step (hg : GoodOrient o shift m c A) (h : WPInv o shift m c A T det0 piv0 rrp0 s)
    (hlt : s.rk + s.zr < m) :
    WPInv o shift m c A T det0 piv0 rrp0 (wpBody o shift m c s) ∧
    wpMeas o shift m c (wpBody o shift m c s) < wpMeas o shift m c s := by
  by_cases hz : ZeroVec c (s.mat s.rk)
  · have e : wpBody o shift m c s =
        { s with
          pivind := Function.update s.pivind s.rk (vecPivotProfile o shift c (s.mat s.rk)).1
          mat := rotUp s.rk (m - 1) s.mat
          tsf := s.tsf.map fun T => rotUp s.rk (m - 1) T
          det := if (m - 1 - s.rk) % 2 = 1 then -s.det else s.det
          zr := s.zr + 1 } := by
      unfold wpBody
      simp only
      rw [if_pos (zpiv_zero h hlt hg hz)]
      rfl
    rw [e]
    refine ⟨(h.setPiv hlt _).zeroStep hlt hz, ?_⟩
    simp only [wpMeas]
    rw [sum_rotUp m s.rk (m - 1) (by omega) (by omega)]
    omega
  · have := h.step_nonzero hlt hz
    exact ⟨this.1, this.2.1⟩

theorem wpBody_zr (s : WPState K) : (wpBody o shift m c s).zr ≤ s.zr + 1 := by
  unfold wpBody
  simp only
  split_ifs <;> (try split) <;> simp

/-- The loop ends, with the invariant. -/
theorem weakPopovSubmat_spec (hg : GoodOrient o shift m c A) (ez : Nat) (hm : 0 < m) (hc : 0 < c) :
    ∃ s : WPState K,
      Ends (fun fuel => weakPopovSubmat fuel o shift A T det0 piv0 rrp0 m c ez)
        (s, if s.zr ≥ ez then -(s.rk : Int) else (s.rk : Int)) ∧
      WPInv o shift m c A T det0 piv0 rrp0 s ∧ s.zr ≤ ez ∧ (s.rk + s.zr = m ∨ s.zr = ez) := by
  obtain ⟨s, h1, ⟨h2, h2'⟩, h3⟩ := whileLoop_ends (c := wpCond m ez) (b := wpBody o shift m c)
    (fun s : WPState K => WPInv o shift m c A T det0 piv0 rrp0 s ∧ s.zr ≤ ez) (wpMeas o shift m c)
    (fun s hs hcond => by
      have hlt : s.rk + s.zr < m ∧ s.zr < ez := by
        simp only [wpCond, Bool.and_eq_true, decide_eq_true_eq] at hcond; exact hcond.2
      have := hs.1.step hg hlt.1
      refine ⟨⟨this.1, ?_⟩, this.2⟩
      have := wpBody_zr (o := o) (shift := shift) (m := m) (c := c) s
      omega)
    (wpInit A T det0 piv0 rrp0) ⟨WPInv.init .., Nat.zero_le _⟩
  refine ⟨s, ?_, h2, h2', ?_⟩
  · refine (h1.map fun s => (s, if s.zr ≥ ez then -(s.rk : Int) else (s.rk : Int))).congr fun fuel h => ?_
    unfold weakPopovSubmat
    simp only
    rw [if_neg (by omega)]
    exact h
  · simp only [wpCond, h2.noOob, Bool.not_false, Bool.true_and, decide_eq_false_iff_not] at h3
    have := h2.sum
    omega

/-- With upper pivots, a shift, and rank deficiency, the loop ends out of bounds. -/
theorem weakPopovSubmat_upper_oob (sh : Nat → Int) (ez : Nat) (hez : 0 < ez) (hm : 0 < m) (hc : 0 < c)
    (hr : rankOf m c A < m) :
    ∃ (s : WPState K) (ret : Int),
      Ends (fun fuel => weakPopovSubmat fuel .rowUpper (some sh) A T det0 piv0 rrp0 m c ez) (s, ret) ∧
      s.oob = true := by
  obtain ⟨s, h1, h2, h3⟩ := whileLoop_ends (c := wpCond m ez) (b := wpBody .rowUpper (some sh) m c)
    (fun s : WPState K => (WPInv .rowUpper (some sh) m c A T det0 piv0 rrp0 s ∧ s.zr = 0) ∨ s.oob = true)
    (fun s => if s.oob then 0 else wpMeas .rowUpper (some sh) m c s)
    (fun s hs hcond => by
      simp only [wpCond, Bool.and_eq_true, decide_eq_true_eq, Bool.not_eq_true'] at hcond
      obtain ⟨ho, hlt, _⟩ := hcond
      rcases hs with ⟨hs, hz0⟩ | hs
      · by_cases hz : ZeroVec c (s.mat s.rk)
        · have e : (wpBody .rowUpper (some sh) m c s).oob = true := by
            have hv := vecPivot_zero .rowUpper (some sh) c _ hz
            unfold wpBody
            simp only [hv]
            rw [if_neg (by simp [zpiv, Orient.isRight]), if_pos (by simp [Orient.isRight])]
          refine ⟨Or.inr e, ?_⟩
          simp only [e, ho, if_true, Bool.false_eq_true, if_false, wpMeas]
          omega
        · obtain ⟨a1, a2, a3⟩ := hs.step_nonzero hlt hz
          refine ⟨Or.inl ⟨a1, by rw [a3]; exact hz0⟩, ?_⟩
          simp only [a1.noOob, ho, Bool.false_eq_true, if_false]
          exact a2
      · rw [ho] at hs; cases hs)
    (wpInit A T det0 piv0 rrp0) (Or.inl ⟨WPInv.init .., rfl⟩)
  refine ⟨s, if s.zr ≥ ez then -(s.rk : Int) else (s.rk : Int), ?_, ?_⟩
  · refine (h1.map fun s => (s, if s.zr ≥ ez then -(s.rk : Int) else (s.rk : Int))).congr fun fuel h => ?_
    unfold weakPopovSubmat
    simp only
    rw [if_neg (by omega)]
    exact h
  · rcases h2 with ⟨h2, hz0⟩ | h2
    · exfalso
      simp only [wpCond, h2.noOob, Bool.not_false, Bool.true_and, decide_eq_false_iff_not] at h3
      have hs := h2.sum
      have hrk : s.rk = m := by omega
      have := weakPopov_rank _ _ _ _ _ h2.weakPopov
      rw [hrk, h2.rank_mat] at this
      omega
    · exact h2

end steps

end PML.WeakPopov
