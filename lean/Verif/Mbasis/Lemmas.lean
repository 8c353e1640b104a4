import Verif.Mbasis.Model
import Verif.Approx.Theory
import Verif.MatPoly.Props
import Verif.Nullspace.Props
import Verif.Sort.Props

/-! # Lemmas: from the model of mbasis to abstract steps -/

namespace PML.Mbasis

open PML.MatOps PML.MatOps.Spec PML.MatPoly PML.MatPoly.Spec PML.Sort PML.Sort.Spec PML.Nullspace
open PML.Nullspace.Spec PML.Pluq PML.Pluq.Spec PML.Approx Polynomial

variable {K : Type} [Field K] [DecidableEq K]

set_option linter.unusedSectionVars false

/-! ### Permutations -/

theorem permInv_spec {n : Nat} {p : Nat → Nat} (hp : IsPerm n p) (q : Nat → Nat) :
    ∀ k, k ≤ n → ∀ i, i < k → permInv p k q (p i) = i := by
  intro k
  induction k with
  | zero => intro _ i hi; omega
  | succ k ih =>
    intro hk i hi
    rw [permInv]
    by_cases h : i = k
    · subst h; rw [Function.update_self]
    · rw [Function.update_of_ne]
      · exact ih (by omega) i (by omega)
      · intro e; exact h (hp.2 i k (by omega) (by omega) e)

theorem permInv_right {n : Nat} {p : Nat → Nat} (hp : IsPerm n p) (q : Nat → Nat) :
    ∀ x, x < n → permInv p n q x < n ∧ p (permInv p n q x) = x := by
  intro x hx
  obtain ⟨i, hi, rfl⟩ := IsPerm.surj hp x hx
  rw [permInv_spec hp q n (Nat.le_refl n) i hi]
  exact ⟨hi, rfl⟩

theorem permInv_isPerm {n : Nat} {p : Nat → Nat} (hp : IsPerm n p) (q : Nat → Nat) :
    IsPerm n (permInv p n q) := by
  refine ⟨fun x hx => (permInv_right hp q x hx).1, fun x y hx hy e => ?_⟩
  rw [← (permInv_right hp q x hx).2, ← (permInv_right hp q y hy).2, e]

theorem isPerm_comp {n : Nat} {p q : Nat → Nat} (hp : IsPerm n p) (hq : IsPerm n q) :
    IsPerm n (fun i => if i < n then p (q i) else q i) := by
  refine ⟨fun i hi => ?_, fun i j hi hj e => ?_⟩
  · simp only [if_pos hi]; exact hp.1 _ (hq.1 i hi)
  · simp only [if_pos hi, if_pos hj] at e
    exact hq.2 i j hi hj (hp.2 _ _ (hq.1 i hi) (hq.1 j hj) e)

theorem bumpShift_apply {n : Nat} {p : Nat → Nat} (hp : IsPerm n p) (s : Nat → Int) :
    ∀ k, k ≤ n → ∀ i, i < n →
      bumpShift p k s (p i) = if i < k then s (p i) + 1 else s (p i) := by
  intro k
  induction k with
  | zero => intro _ i _; simp [bumpShift]
  | succ k ih =>
    intro hk i hi
    rw [bumpShift]
    by_cases h : i = k
    · subst h
      simp only [Function.update_self]
      rw [ih (by omega) i hi, if_neg (by omega), if_pos (by omega)]
    · rw [Function.update_of_ne, ih (by omega) i hi]
      · split_ifs <;> first | rfl | omega
      · intro e; exact h (hp.2 i k hi (by omega) e)

/-! ### Values of the operations on coefficients -/

theorem value_permuteRowsPoly (r : Nat) (P : MatPoly K) (act : Nat → Nat) (i j : Nat) (hi : i < r) :
    value (permuteRowsPoly r P act) i j = value P (act i) j := by
  ext k
  rw [permuteRowsPoly, coeff_value_mk, coeff_value]
  by_cases h : k < P.len
  · rw [if_pos h, if_pos h, if_pos h]
    show (if i < r then P.co k (act i) else P.co k i) j = _
    rw [if_pos hi]
  · rw [if_neg h, if_neg h]

theorem value_constantUpdate (m rank : Nat) (ns : Mat K) (P : MatPoly K) (i j : Nat) (hi : i < m) :
    value (constantUpdate m rank ns P) i j =
      if i < rank then value P i j
      else value P i j + ∑ k ∈ Finset.range rank, C (ns (i - rank) k) * value P k j := by
  ext k
  rw [constantUpdate, coeff_value_mk]
  by_cases h : k < P.len
  · rw [if_pos h, if_pos h]
    unfold addRows
    by_cases hr : i < rank
    · rw [if_pos hr, if_neg (by omega), coeff_value, if_pos h]
    · rw [if_neg hr, if_pos (by omega), coeff_add, finsetSum_coeff, coeff_value, if_pos h]
      simp only [coeff_C_mul, coeff_value, if_pos h]
      rfl
  · rw [if_neg h]
    by_cases hr : i < rank
    · rw [if_pos hr, coeff_value, if_neg h]
    · rw [if_neg hr, coeff_add, finsetSum_coeff, coeff_value, if_neg h]
      simp only [coeff_C_mul, coeff_value, if_neg h, mul_zero, Finset.sum_const_zero, add_zero]

theorem value_setLength_succ (P : MatPoly K) (i j : Nat) :
    value (setLength P (P.len + 1)) i j = value P i j := by
  ext k
  rw [setLength, coeff_value_mk, coeff_value]
  by_cases h : k < P.len
  · rw [if_pos h, if_pos (by omega), if_neg (by omega)]
  · rw [if_neg h]
    by_cases h2 : k < P.len + 1
    · rw [if_pos h2, if_pos (by omega)]; rfl
    · rw [if_neg h2]

theorem value_grow (m rank : Nat) (P : MatPoly K) (i j : Nat) :
    value (grow m rank P) i j = value P i j := by
  unfold grow
  split_ifs
  · rfl
  · exact value_setLength_succ P i j

/-- After `grow`, the first `rank` rows of the last coefficient are zero. -/
theorem grow_last (m rank : Nat) (P : MatPoly K) (i j : Nat) (hi : i < rank) (hj : j < m) :
    (grow m rank P).co ((grow m rank P).len - 1) i j = 0 := by
  unfold grow
  by_cases h : matIsZero rank m (P.co (P.len - 1)) = true
  · rw [if_pos h]; exact (matIsZero_iff _ _ _).1 h i hi j hj
  · rw [if_neg h]
    simp only [setLength, Nat.add_sub_cancel]
    rw [if_pos (by omega)]; rfl

theorem value_shiftRows (m rank : Nat) (P : MatPoly K) (i j : Nat)
    (hlast : i < rank → P.co (P.len - 1) i j = 0) :
    value (shiftRows rank P) i j = if i < rank then X * value P i j else value P i j := by
  by_cases hr : i < rank
  · rw [if_pos hr]
    ext k
    rw [shiftRows, coeff_value_mk]
    by_cases hk : k = 0
    · subst hk
      simp only [if_pos hr, Function.update_self, mul_coeff_zero, coeff_X_zero, zero_mul, ite_self]
    · obtain ⟨k, rfl⟩ := Nat.exists_eq_succ_of_ne_zero hk
      rw [Nat.succ_eq_add_one, coeff_X_mul, coeff_value]
      rw [if_pos hr, Function.update_of_ne (by omega), shiftDownLoop_apply]
      by_cases h1 : k + 1 < P.len
      · rw [if_pos h1, if_pos (by omega), if_pos (by omega)]; rfl
      · rw [if_neg h1]
        by_cases h2 : k < P.len
        · rw [if_pos h2]
          have : k = P.len - 1 := by omega
          rw [this]; exact (hlast hr).symm
        · rw [if_neg h2]
  · rw [if_neg hr]
    ext k
    rw [shiftRows, coeff_value_mk, coeff_value]
    simp only [if_neg hr]

/-! ### Independence of the rows of the rank profile -/

theorem compact_indep {m n nu : Nat} {A X : Mat K} {perm : Nat → Nat}
    (h : CompactLeftNullspace m n A X perm nu) (ν : Nat → K)
    (hν : ∀ j, j < n → ∑ k ∈ Finset.range (m - nu), ν k * A (perm k) j = 0) :
    ∀ k, k < m - nu → ν k = 0 := by
  suffices hs : ∀ t, ∀ k, k < m - nu → m - nu - t ≤ k → ν k = 0 by
    intro k hk; exact hs (m - nu) k hk (by omega)
  intro t
  induction t with
  | zero => intro k h1 h2; omega
  | succ t ih =>
    intro k hk hkt
    by_cases hkt' : m - nu - t ≤ k
    · exact ih k hk hkt'
    by_contra hne
    have hz : ∀ k', k < k' → k' < m - nu → ν k' = 0 := fun k' h1 h2 => ih k' h2 (by omega)
    have hprof := ((h.profile (perm k)).2 ⟨k, hk, rfl⟩).2
    apply hprof
    refine ⟨fun l => ∑ k' ∈ Finset.range k, if perm k' = l then -(ν k)⁻¹ * ν k' else 0, ?_⟩
    intro j hj
    have h1 := hν j hj
    have h2 : ∑ k' ∈ Finset.range (m - nu), ν k' * A (perm k') j =
        ∑ k' ∈ Finset.range (k + 1), ν k' * A (perm k') j := by
      symm
      apply Finset.sum_subset
      · intro x; simp only [Finset.mem_range]; omega
      · intro x hx hx'
        simp only [Finset.mem_range] at hx hx'
        rw [hz x (by omega) hx, zero_mul]
    rw [h2, Finset.sum_range_succ] at h1
    have h3 : A (perm k) j = ∑ k' ∈ Finset.range k, (-(ν k)⁻¹ * ν k') * A (perm k') j := by
      have h4 : ν k * A (perm k) j = - ∑ k' ∈ Finset.range k, ν k' * A (perm k') j := by
        linear_combination h1
      have h5 : A (perm k) j = (ν k)⁻¹ * (ν k * A (perm k) j) := by
        rw [← mul_assoc, inv_mul_cancel₀ hne, one_mul]
      rw [h5, h4, mul_neg, Finset.mul_sum, ← Finset.sum_neg_distrib]
      exact Finset.sum_congr rfl fun k' _ => by ring
    rw [h3]
    simp only [Finset.sum_mul]
    rw [Finset.sum_comm]
    refine Finset.sum_congr rfl fun k' hk' => ?_
    rw [Finset.mem_range] at hk'
    rw [Finset.sum_eq_single (perm k')]
    · rw [if_pos rfl]
    · intro b _ hb; rw [if_neg (fun e => hb e.symm), zero_mul]
    · intro hb; exact absurd (Finset.mem_range.2 (h.mono₁ k' k hk' hk)) hb

/-! ### One iteration -/

/-- Sum over the first `rank` permuted rows, as a sum over the set of these rows. -/
theorem sum_range_perm {M : Type} [AddCommMonoid M] {m rank : Nat} (hrk : rank ≤ m)
    {p q : Nat → Nat} (hpq : ∀ i, i < m → q (p i) = i) (hp : ∀ i, i < m → p i < m)
    (hqp : ∀ x, x < m → q x < m ∧ p (q x) = x) (f : Nat → Nat → M) :
    ∑ k ∈ Finset.range rank, f k (p k) =
      ∑ t ∈ Finset.univ.filter (fun t : Fin m => q t < rank), f (q t) t := by
  symm
  refine Finset.sum_bij' (fun t _ => q t)
    (fun k hk => (⟨p k, hp k (lt_of_lt_of_le (Finset.mem_range.1 hk) hrk)⟩ : Fin m)) ?_ ?_ ?_ ?_ ?_
  · intro t ht; exact Finset.mem_range.2 (Finset.mem_filter.1 ht).2
  · intro k hk
    rw [Finset.mem_range] at hk
    simp only [Finset.mem_filter, Finset.mem_univ, true_and]
    rw [hpq k (by omega)]; exact hk
  · intro t _; exact Fin.ext (hqp t t.2).2
  · intro k hk; rw [Finset.mem_range] at hk; exact hpq k (by omega)
  · intro t _; rw [(hqp t t.2).2]

/-- The index data of one iteration. -/
structure Iter (m n : Nat) (R : Mat K) (s : Nat → Int) (σ q : Nat → Nat) (rank : Nat) (ns : Mat K) :
    Prop where
  rank_le : rank ≤ m
  isPerm : IsPerm m σ
  left : ∀ i, i < m → q (σ i) = i
  right : ∀ x, x < m → q x < m ∧ σ (q x) = x
  indep : ∀ ν : Nat → K, (∀ j, j < n → ∑ k ∈ Finset.range rank, ν k * R (σ k) j = 0) →
    ∀ k, k < rank → ν k = 0
  rel : ∀ i, rank ≤ i → i < m → ∀ j, j < n →
    R (σ i) j + ∑ k ∈ Finset.range rank, ns (i - rank) k * R (σ k) j = 0
  lex : ∀ i k, rank ≤ i → i < m → k < rank → ns (i - rank) k ≠ 0 →
    s (σ k) < s (σ i) ∨ (s (σ k) = s (σ i) ∧ σ k < σ i)

theorem iter_of_compact {m n nu : Nat} {R ns : Mat K} {s : Nat → Int} {perm piv : Nat → Nat}
    (hs : StableSort m s perm)
    (hk : CompactLeftNullspace m n (permuteRows m R perm none).1 ns piv nu) :
    let σ : Nat → Nat := fun i => if i < m then perm (piv i) else piv i
    Iter m n R s σ (permInv σ m σ) (m - nu) ns := by
  intro σ
  have hnu : nu ≤ m := by have := hk.dim; omega
  have hσ : IsPerm m σ := isPerm_comp hs.isPerm hk.isPerm
  have hRσ : ∀ i, i < m → (permuteRows m R perm none).1 (piv i) = R (σ i) := by
    intro i hi
    show (if piv i < m then R (perm (piv i)) else R (piv i)) = R (if i < m then perm (piv i) else piv i)
    rw [if_pos (hk.isPerm.1 i hi), if_pos hi]
  refine ⟨by omega, hσ, fun i hi => permInv_spec hσ σ m (Nat.le_refl m) i hi,
    permInv_right hσ σ, ?_, ?_, ?_⟩
  · intro ν hν
    apply compact_indep hk ν
    intro j hj
    rw [← hν j hj]
    refine Finset.sum_congr rfl fun k hk' => ?_
    rw [Finset.mem_range] at hk'
    rw [hRσ k (by omega)]
  · intro i hi him j hj
    have h := hk.relation (i - (m - nu)) j (by omega) hj
    have e : m - nu + (i - (m - nu)) = i := by omega
    rw [e, hRσ i him] at h
    rw [← h]
    congr 1
    refine Finset.sum_congr rfl fun k hk' => ?_
    rw [Finset.mem_range] at hk'
    rw [hRσ k (by omega)]
  · intro i k hi him hkr hne
    have h := hk.lower (i - (m - nu)) k (by omega) hkr hne
    have e : m - nu + (i - (m - nu)) = i := by omega
    rw [e] at h
    have hsi : σ i = perm (piv i) := if_pos him
    have hsk : σ k = perm (piv k) := if_pos (by omega)
    rw [hsi, hsk]
    have h1 := hs.sorted _ _ h (hk.isPerm.1 i him)
    have h2 := hs.stable _ _ h (hk.isPerm.1 i him)
    by_cases h3 : s (perm (piv k)) = s (perm (piv i))
    · exact Or.inr ⟨h3, h2 h3⟩
    · left; omega

/-- An iteration whose result rows are as described is an abstract step. -/
theorem Iter.step {m n rank : Nat} {R ns : Mat K} {s s' : Nat → Int} {σ q : Nat → Nat}
    (h : Iter m n R s σ q rank ns) {V V' : Nat → Nat → K[X]}
    (htop : ∀ k, k < rank → ∀ l, l < m → V' (σ k) l = X * V (σ k) l)
    (hbot : ∀ i, rank ≤ i → i < m → ∀ l, l < m → V' (σ i) l =
      V (σ i) l + ∑ k ∈ Finset.range rank, C (ns (i - rank) k) * V (σ k) l)
    (hstop : ∀ k, k < rank → s' (σ k) = s (σ k) + 1)
    (hsbot : ∀ i, rank ≤ i → i < m → s' (σ i) = s (σ i)) :
    Step (m := m) (n := n) (Matrix.of fun i j => R i j) (fun i => s i) (fun i => s' i)
      (Matrix.of fun i j => V i j) (Matrix.of fun i j => V' i j)
      (Finset.univ.filter fun t : Fin m => q t < rank) (fun i t => ns (q i - rank) (q t)) := by
  have hrk := h.rank_le
  have hmem : ∀ t : Fin m, t ∈ Finset.univ.filter (fun t : Fin m => q t < rank) ↔ q t < rank := by
    intro t; simp
  have hsum := fun {M : Type} [AddCommMonoid M] (f : Nat → Nat → M) =>
    sum_range_perm hrk h.left h.isPerm.1 h.right f
  refine ⟨?_, ?_, ?_, ?_, ?_, ?_, ?_⟩
  · intro ν hν t ht
    rw [hmem] at ht
    have := h.indep (fun k => if hk : σ k < m then ν ⟨σ k, hk⟩ else 0) ?_ (q t) ht
    · simp only [(h.right t t.2).2, t.2, dite_true] at this
      exact this
    · intro j hj
      rw [hsum (fun k x => (if hk : σ k < m then ν ⟨σ k, hk⟩ else 0) * R x j), ← hν ⟨j, hj⟩]
      refine Finset.sum_congr rfl fun t _ => ?_
      simp only [(h.right t t.2).2, t.2, dite_true, Matrix.of_apply]
  · intro i hi j
    rw [hmem] at hi
    have hr := h.rel (q i) (by omega) (h.right i i.2).1 j j.2
    rw [(h.right i i.2).2, hsum (fun k x => ns (q i - rank) k * R x j)] at hr
    exact hr
  · intro i hi t ht hc
    rw [hmem] at hi ht
    have := h.lex (q i) (q t) (by omega) (h.right i i.2).1 ht hc
    rw [(h.right i i.2).2, (h.right t t.2).2] at this
    exact this
  · intro t ht l
    rw [hmem] at ht
    have := htop (q t) ht l l.2
    rw [(h.right t t.2).2] at this
    exact this
  · intro i hi l
    rw [hmem] at hi
    have := hbot (q i) (by omega) (h.right i i.2).1 l l.2
    rw [(h.right i i.2).2, hsum (fun k x => C (ns (q i - rank) k) * V x l)] at this
    exact this
  · intro t ht
    rw [hmem] at ht
    have := hstop (q t) ht
    rw [(h.right t t.2).2] at this
    exact this
  · intro i hi
    rw [hmem] at hi
    have := hsbot (q i) (by omega) (h.right i i.2).1
    rw [(h.right i i.2).2] at this
    exact this

/-- The usual case computes the rows and shifts of `Iter.step`. -/
theorem usualCase_rows {m rank : Nat} {ns : Mat K} {perm piv : Nat → Nat} (s : State K)
    (hrk : rank ≤ m)
    (hσ : IsPerm m (fun i => if i < m then perm (piv i) else piv i)) :
    let σ : Nat → Nat := fun i => if i < m then perm (piv i) else piv i
    let s' := usualCase m rank ns perm piv s
    (∀ k, k < rank → ∀ l, l < m → value s'.app (σ k) l = X * value s.app (σ k) l) ∧
    (∀ i, rank ≤ i → i < m → ∀ l, l < m → value s'.app (σ i) l =
      value s.app (σ i) l + ∑ k ∈ Finset.range rank, C (ns (i - rank) k) * value s.app (σ k) l) ∧
    (∀ k, k < rank → s'.shift (σ k) = s.shift (σ k) + 1) ∧
    (∀ i, rank ≤ i → i < m → s'.shift (σ i) = s.shift (σ i)) := by
  intro σ s'
  have hval : ∀ i, i < m → ∀ l, l < m → value s'.app (σ i) l =
      if i < rank then X * value s.app (σ i) l else
        value s.app (σ i) l + ∑ k ∈ Finset.range rank, C (ns (i - rank) k) * value s.app (σ k) l := by
    intro i hi l hl
    show value (permuteRowsPoly m (shiftRows rank (grow m rank (constantUpdate m rank ns
      (permuteRowsPoly m s.app σ)))) (permInv σ m σ)) (σ i) l = _
    rw [value_permuteRowsPoly _ _ _ _ _ (hσ.1 i hi), permInv_spec hσ σ m (Nat.le_refl m) i hi,
      value_shiftRows m rank _ i l (fun h => grow_last m rank _ i l h hl), value_grow,
      value_constantUpdate _ _ _ _ _ _ hi]
    by_cases h : i < rank
    · rw [if_pos h, if_pos h, if_pos h, value_permuteRowsPoly _ _ _ _ _ hi]
    · rw [if_neg h, if_neg h, if_neg h, value_permuteRowsPoly _ _ _ _ _ hi]
      congr 1
      refine Finset.sum_congr rfl fun k hk => ?_
      rw [Finset.mem_range] at hk
      rw [value_permuteRowsPoly _ _ _ _ _ (by omega)]
  refine ⟨fun k hk l hl => ?_, fun i hi him l hl => ?_, fun k hk => ?_, fun i hi him => ?_⟩
  · rw [hval k (by omega) l hl, if_pos hk]
  · rw [hval i him l hl, if_neg (by omega)]
  · show bumpShift σ rank s.shift (σ k) = _
    rw [bumpShift_apply hσ s.shift rank hrk k (by omega), if_pos hk]
  · show bumpShift σ rank s.shift (σ i) = _
    rw [bumpShift_apply hσ s.shift rank hrk i him, if_neg (by omega)]

end PML.Mbasis
