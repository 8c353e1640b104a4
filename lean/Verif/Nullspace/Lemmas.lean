import Verif.Nullspace.Model
import Verif.Nullspace.Spec
import Verif.Pluq.Props

namespace PML.Nullspace

open PML.MatOps PML.MatOps.Spec PML.Pluq PML.Pluq.Spec Spec

variable {K : Type} [Field K]

/-- Left kernel vectors are combinations of an echelon basis of the right
    dimension. -/
theorem span_of_echelon {m n nu : Nat} {A X : Nat → Nat → K}
    (dim : nu + (toMatrix m n A).rank = m)
    (ker : ∀ i j, i < nu → j < n → ∑ k ∈ Finset.range m, X i k * A k j = 0)
    {piv : Nat → Nat} (hp : ∀ t, t < nu → piv t < m)
    (hd : ∀ s t, s < nu → t < nu → X t (piv s) = if s = t then 1 else 0)
    (v : Nat → K) (hv : ∀ j, j < n → ∑ k ∈ Finset.range m, v k * A k j = 0) :
    ∀ k, k < m → v k = ∑ i ∈ Finset.range nu, v (piv i) * X i k := by
  set B : Matrix (Fin n) (Fin m) K := (toMatrix m n A).transpose with hB
  have hkerdim : Module.finrank K (LinearMap.ker B.mulVecLin) = nu := by
    have h1 := LinearMap.finrank_range_add_finrank_ker B.mulVecLin
    have h2 : Module.finrank K (LinearMap.range B.mulVecLin) = (toMatrix m n A).rank := by
      rw [← Matrix.rank_transpose]; rfl
    rw [h2] at h1
    simp at h1
    omega
  have memker : ∀ w : Nat → K, (fun k : Fin m => w k) ∈ LinearMap.ker B.mulVecLin ↔
      ∀ j, j < n → ∑ k ∈ Finset.range m, w k * A k j = 0 := by
    intro w
    rw [LinearMap.mem_ker]
    constructor
    · intro h j hj
      have := congrFun h ⟨j, hj⟩
      simp only [Matrix.mulVecLin_apply, Matrix.mulVec, dotProduct, hB, Matrix.transpose_apply,
        toMatrix, Matrix.of_apply, Pi.zero_apply] at this
      rw [Finset.sum_range, ← this]
      exact Finset.sum_congr rfl fun k _ => mul_comm _ _
    · intro h
      funext j
      simp only [Matrix.mulVecLin_apply, Matrix.mulVec, dotProduct, hB, Matrix.transpose_apply,
        toMatrix, Matrix.of_apply, Pi.zero_apply]
      rw [← h j j.2, Finset.sum_range]
      exact Finset.sum_congr rfl fun k _ => mul_comm _ _
  set x : Fin nu → (Fin m → K) := fun t k => X t k with hx
  have hli : LinearIndependent K x := by
    rw [Fintype.linearIndependent_iff]
    intro g hg t
    have := congrFun hg ⟨piv t, hp t t.2⟩
    simp only [Finset.sum_apply, Pi.smul_apply, smul_eq_mul, hx, Pi.zero_apply] at this
    rw [Finset.sum_eq_single t] at this
    · rw [hd t t t.2 t.2, if_pos rfl, mul_one] at this; exact this
    · intro b _ hb
      rw [hd t b t.2 b.2, if_neg (fun h => hb (Fin.ext h.symm)), mul_zero]
    · intro h; exact absurd (Finset.mem_univ _) h
  have hspan : Submodule.span K (Set.range x) = LinearMap.ker B.mulVecLin := by
    apply Submodule.eq_of_le_of_finrank_eq
    · rw [Submodule.span_le]
      rintro _ ⟨t, rfl⟩
      exact (memker (fun k => X t k)).2 fun j hj => ker t j t.2 hj
    · rw [finrank_span_eq_card hli, hkerdim]; simp
  have hv' : (fun k : Fin m => v k) ∈ Submodule.span K (Set.range x) := by
    rw [hspan]; exact (memker v).2 hv
  rw [Submodule.mem_span_range_iff_exists_fun] at hv'
  obtain ⟨a, ha⟩ := hv'
  have hval : ∀ t : Fin nu, v (piv t) = a t := by
    intro t
    have := congrFun ha ⟨piv t, hp t t.2⟩
    simp only [Finset.sum_apply, Pi.smul_apply, smul_eq_mul, hx] at this
    rw [← this, Finset.sum_eq_single t]
    · rw [hd t t t.2 t.2, if_pos rfl, mul_one]
    · intro b _ hb
      rw [hd t b t.2 b.2, if_neg (fun h => hb (Fin.ext h.symm)), mul_zero]
    · intro h; exact absurd (Finset.mem_univ _) h
  intro k hk
  have := congrFun ha ⟨k, hk⟩
  simp only [Finset.sum_apply, Pi.smul_apply, smul_eq_mul, hx] at this
  rw [← this, Finset.sum_range]
  exact Finset.sum_congr rfl fun t _ => by rw [hval t]

/-- The non-pivots of an echelon basis of the left kernel are the row rank profile. -/
theorem profile_of_echelon {m n nu : Nat} {A X : Nat → Nat → K}
    (dim : nu + (toMatrix m n A).rank = m)
    (ker : ∀ i j, i < nu → j < n → ∑ k ∈ Finset.range m, X i k * A k j = 0)
    {piv : Nat → Nat} (hp : ∀ t, t < nu → piv t < m)
    (hmono : ∀ s t, s < t → t < nu → piv s < piv t)
    (hd : ∀ s t, s < nu → t < nu → X t (piv s) = if s = t then 1 else 0)
    (hz : ∀ k t, t < nu → piv t < k → k < m → X t k = 0) (i : Nat) :
    InRowRankProfile m n A i ↔ i < m ∧ ∀ t, t < nu → piv t ≠ i := by
  constructor
  · rintro ⟨hi, hdep⟩
    refine ⟨hi, ?_⟩
    rintro t ht rfl
    apply hdep
    refine ⟨fun k => - X t k, fun j hj => ?_⟩
    have h := ker t j ht hj
    have hsplit : ∑ k ∈ Finset.range m, X t k * A k j =
        ∑ k ∈ Finset.range (piv t + 1), X t k * A k j := by
      symm
      refine Finset.sum_subset (fun k hk => Finset.mem_range.2 (by
        rw [Finset.mem_range] at hk; omega)) ?_
      intro k hk hk'
      rw [Finset.mem_range] at hk hk'
      rw [hz k t ht (by omega) hk, zero_mul]
    rw [hsplit, Finset.sum_range_succ, hd t t ht ht, if_pos rfl, one_mul] at h
    have e : ∑ k ∈ Finset.range (piv t), -X t k * A k j =
        - ∑ k ∈ Finset.range (piv t), X t k * A k j := by
      rw [← Finset.sum_neg_distrib]
      exact Finset.sum_congr rfl fun k _ => by ring
    rw [e]
    exact eq_neg_of_add_eq_zero_right h
  · rintro ⟨hi, hne⟩
    refine ⟨hi, ?_⟩
    rintro ⟨a, ha⟩
    -- kernel vector with last nonzero entry at i
    set v : Nat → K := fun k => if k < i then - a k else if k = i then 1 else 0 with hv
    have hker : ∀ j, j < n → ∑ k ∈ Finset.range m, v k * A k j = 0 := by
      intro j hj
      have hsplit : ∑ k ∈ Finset.range m, v k * A k j =
          ∑ k ∈ Finset.range (i + 1), v k * A k j := by
        symm
        refine Finset.sum_subset (fun k hk => Finset.mem_range.2 (by
          rw [Finset.mem_range] at hk; omega)) ?_
        intro k hk hk'
        rw [Finset.mem_range] at hk hk'
        have : v k = 0 := by simp only [hv]; rw [if_neg (by omega), if_neg (by omega)]
        rw [this, zero_mul]
      rw [hsplit, Finset.sum_range_succ]
      have h1 : v i = 1 := by simp [hv]
      have h2 : ∑ k ∈ Finset.range i, v k * A k j = - ∑ k ∈ Finset.range i, a k * A k j := by
        rw [← Finset.sum_neg_distrib]
        refine Finset.sum_congr rfl fun k hk => ?_
        rw [Finset.mem_range] at hk
        simp only [hv, hk, if_true]; ring
      rw [h1, h2, ha j hj]; ring
    have hsp := span_of_echelon dim ker hp hd v hker
    -- coefficients at pivots beyond i vanish
    have hi1 := hsp i hi
    have h1 : v i = 1 := by simp [hv]
    rw [h1] at hi1
    have : ∑ t ∈ Finset.range nu, v (piv t) * X t i = 0 := by
      refine Finset.sum_eq_zero fun t ht => ?_
      rw [Finset.mem_range] at ht
      rcases Nat.lt_trichotomy (piv t) i with h | h | h
      · rw [hz i t ht h hi, mul_zero]
      · exact absurd h (hne t ht)
      · have : v (piv t) = 0 := by simp only [hv]; rw [if_neg (by omega), if_neg (by omega)]
        rw [this, zero_mul]
    rw [this] at hi1
    exact one_ne_zero hi1

/-- For every matrix there is a right nullspace in the assumed form: the
    assumption on FLINT can be met. -/
theorem exists_rightNullspace [DecidableEq K] (rows cols : Nat) (B : Nat → Nat → K) :
    ∃ X nu, RightNullspace rows cols B X nu := by
  set A : Nat → Nat → K := fun i j => B j i with hA
  obtain ⟨s, _, h⟩ := C12_pluq cols rows A cols (le_refl _)
  set P := s.P; set rk := s.rank
  have hrk : rk ≤ cols := by
    have := Matrix.rank_le_card_height (toMatrix cols rows A)
    rw [h.rank_eq] at this; simpa using this
  set v : Nat → Fin rows → K := fun i j => A i j with hv
  have hid : IsPerm rows id := ⟨fun i hi => hi, fun i j _ _ h => h⟩
  -- every row is a combination of profile rows not below it
  have hcomb : ∀ i, i < cols →
      v i ∈ Submodule.span K (v '' {k | k ≤ i ∧ InRowRankProfile cols rows A k}) := by
    intro i
    induction i using Nat.strong_induction_on with
    | _ i ih =>
      intro hi
      by_cases hin : InRowRankProfile cols rows A i
      · exact Submodule.subset_span ⟨i, ⟨Nat.le_refl i, hin⟩, rfl⟩
      · have hdep : DependsOnPrevious rows A i := by
          by_contra hc; exact hin ⟨hi, hc⟩
        have := (dependsOnPrevious_iff hid i).1 hdep
        refine Submodule.span_le.2 ?_ this
        rintro _ ⟨k, hk, rfl⟩
        have hk : k < i := hk
        refine Submodule.span_mono ?_ (ih k hk (by omega))
        rintro _ ⟨l, ⟨hl, hl'⟩, rfl⟩
        exact ⟨l, ⟨by omega, hl'⟩, rfl⟩
  -- coefficients for non-profile rows
  have hco : ∀ t, t < cols - rk → ∃ a : Nat → K, (∀ k, a k ≠ 0 → k < P (rk + t) ∧
      InRowRankProfile cols rows A k) ∧
      ∀ j, j < rows → A (P (rk + t)) j = ∑ k ∈ Finset.range cols, a k * A k j := by
    intro t ht
    have hlt : P (rk + t) < cols := h.permP.1 _ (by omega)
    have hnp : ¬ InRowRankProfile cols rows A (P (rk + t)) := by
      rw [h.profile]; rintro ⟨k, hk, e⟩
      have := h.permP.2 k (rk + t) (by omega) (by omega) e; omega
    have hm := hcomb _ hlt
    set S : Set Nat := {k | k ≤ P (rk + t) ∧ InRowRankProfile cols rows A k} with hS
    obtain ⟨l, hl, he⟩ := (Finsupp.mem_span_image_iff_linearCombination K).1 hm
    rw [Finsupp.mem_supported] at hl
    refine ⟨fun k => l k, ?_, ?_⟩
    · intro k hk
      have : k ∈ S := hl (by simpa using hk)
      refine ⟨lt_of_le_of_ne this.1 ?_, this.2⟩
      intro e; exact hnp (e ▸ this.2)
    · intro j hj
      have := congrFun he ⟨j, hj⟩
      simp only [Finsupp.linearCombination_apply, Finsupp.sum, Finset.sum_apply, Pi.smul_apply,
        smul_eq_mul, hv] at this
      rw [← this]
      refine Finset.sum_subset ?_ ?_
      · intro k hk
        have : k ∈ S := hl hk
        rw [Finset.mem_range]
        exact this.2.1
      · intro k _ hk
        rw [Finsupp.notMem_support_iff] at hk
        rw [hk, zero_mul]
  choose! a ha1 ha2 using hco
  have hnz : ∀ s t, s < cols - rk → t < cols - rk → a t (P (rk + s)) = 0 := by
    intro s t hs ht
    by_contra hc
    have := (ha1 t ht _ hc).2
    rw [h.profile] at this
    obtain ⟨k, hk, e⟩ := this
    have := h.permP.2 k (rk + s) (by omega) (by omega) e
    omega
  refine ⟨fun k t => (if k = P (rk + t) then 1 else 0) - a t k, cols - rk, ?_, ?_, ?_⟩
  · have e : (toMatrix rows cols B).rank = rk := by
      rw [← Matrix.rank_transpose, ← h.rank_eq]; rfl
    rw [e]; omega
  · intro i t hi ht
    have : ∀ k, B i k * ((if k = P (rk + t) then 1 else 0) - a t k) =
        (if k = P (rk + t) then B i k else 0) - a t k * A k i := by
      intro k; simp only [hA]; split_ifs <;> ring
    simp only [this]
    rw [Finset.sum_sub_distrib, ← ha2 t ht i hi, Finset.sum_ite_eq', if_pos]
    · simp [hA]
    · rw [Finset.mem_range]; exact h.permP.1 _ (by omega)
  · refine ⟨fun t => P (rk + t), fun t ht => h.permP.1 _ (by omega),
      fun s t hst ht => h.mono₂ _ _ (by omega) (by omega) (by omega), ?_, ?_⟩
    · intro s t hs ht
      rw [hnz s t hs ht, sub_zero]
      by_cases e : s = t
      · rw [if_pos (by rw [e]), if_pos e]
      · rw [if_neg, if_neg e]
        intro e'
        have := h.permP.2 _ _ (by omega) (by omega) e'
        omega
    · intro k t ht hk hk'
      have hk : P (rk + t) < k := hk
      rw [if_neg (by omega)]
      have : a t k = 0 := by
        by_contra hc
        have := (ha1 t ht k hc).1; omega
      rw [this, sub_zero]

theorem searchDown_spec [DecidableEq K] (col : Nat → K) (p : Nat) (hp : col p ≠ 0) :
    ∀ n, p < n → (∀ k, p < k → k < n → col k = 0) → searchDown col n = p := by
  intro n
  induction n with
  | zero => intro h; omega
  | succ n ih =>
    intro hpn hz
    simp only [searchDown]
    by_cases e : n = p
    · subst e; rw [if_neg hp]
    · rw [if_pos (hz n (by omega) (by omega))]
      exact ih (by omega) (fun k h1 h2 => hz k h1 (by omega))

/-- Invariant of the filling loops: `s.1` lists in increasing order, in
    positions `< s.2`, the indices `< b` that are not pivots, and still holds
    the pivots in positions `rank..m-1`. -/
structure FillInv (m rank : Nat) (piv : Nat → Nat) (b : Nat) (s : (Nat → Nat) × Nat) : Prop where
  lt : ∀ k, k < s.2 → s.1 k < b
  np : ∀ k t, k < s.2 → t < m - rank → s.1 k ≠ piv t
  mono : ∀ k l, k < l → l < s.2 → s.1 k < s.1 l
  surj : ∀ x, x < b → (∀ t, t < m - rank → x ≠ piv t) → ∃ k, k < s.2 ∧ s.1 k = x
  keep : ∀ j, rank ≤ j → j < m → s.1 j = piv (j - rank)

theorem fillLoop_inv {m rank : Nat} {piv : Nat → Nat} : ∀ (n b : Nat) (s : (Nat → Nat) × Nat),
    FillInv m rank piv b s → s.2 + n ≤ rank →
    (∀ x t, b ≤ x → x < b + n → t < m - rank → x ≠ piv t) →
    FillInv m rank piv (b + n) (fillLoop n b s) ∧ (fillLoop n b s).2 = s.2 + n := by
  intro n
  induction n with
  | zero => intro b s h _ _; exact ⟨h, rfl⟩
  | succ n ih =>
    intro b s h hs hx
    simp only [fillLoop]
    have h1 : FillInv m rank piv (b + 1) (Function.update s.1 s.2 b, s.2 + 1) := by
      constructor
      · intro k hk
        simp only [Function.update_apply] at hk ⊢
        split_ifs
        · omega
        · have := h.lt k (by omega); omega
      · intro k t hk ht
        simp only [Function.update_apply] at hk ⊢
        split_ifs
        · exact hx b t (le_refl _) (by omega) ht
        · exact h.np k t (by omega) ht
      · intro k l hkl hl
        simp only [Function.update_apply] at hl ⊢
        rw [if_neg (by omega)]
        split_ifs
        · exact h.lt k (by omega)
        · exact h.mono k l hkl (by omega)
      · intro x hxb hnp
        by_cases e : x = b
        · exact ⟨s.2, by simp, by simp [e]⟩
        · obtain ⟨k, hk, hk'⟩ := h.surj x (by omega) hnp
          refine ⟨k, by show k < s.2 + 1; omega, ?_⟩
          simp only [Function.update_apply]
          rw [if_neg (by omega)]; exact hk'
      · intro j hj hj'
        simp only [Function.update_apply]
        rw [if_neg (by omega)]; exact h.keep j hj hj'
    obtain ⟨h2, h3⟩ := ih (b + 1) _ h1 (by show s.2 + 1 + n ≤ rank; omega)
      (fun x t hb hb' ht => hx x t (by omega) (by omega) ht)
    refine ⟨?_, by rw [h3]; show s.2 + 1 + n = _; omega⟩
    have : b + (n + 1) = b + 1 + n := by omega
    rw [this]; exact h2

/-- Pivots can be skipped in the invariant. -/
theorem FillInv.skip {m rank : Nat} {piv : Nat → Nat} {b : Nat} {s : (Nat → Nat) × Nat}
    (h : FillInv m rank piv b s) {t : Nat} (ht : t < m - rank) (hb : piv t = b) :
    FillInv m rank piv (b + 1) s := by
  refine ⟨fun k hk => by have := h.lt k hk; omega, h.np, h.mono, ?_, h.keep⟩
  intro x hx hnp
  have : x ≠ b := hb ▸ hnp t ht
  exact h.surj x (by omega) hnp

/-- gaps between consecutive elements of an increasing sequence -/
theorem piv_sub_mono {nu m : Nat} {piv : Nat → Nat} (hp : ∀ t, t < nu → piv t < m)
    (hmono : ∀ s t, s < t → t < nu → piv s < piv t) :
    ∀ t, t < nu → t ≤ piv t ∧ piv t + (nu - t) ≤ m := by
  have h1 : ∀ t, t < nu → t ≤ piv t := by
    intro t
    induction t with
    | zero => intro _; omega
    | succ t ih => intro h; have := ih (by omega); have := hmono t (t + 1) (by omega) h; omega
  have h2 : ∀ d t, t < nu → t + d + 1 = nu → piv t + (nu - t) ≤ m := by
    intro d
    induction d with
    | zero => intro t ht e; have := hp t ht; omega
    | succ d ih =>
      intro t ht e
      have := ih (t + 1) (by omega) (by omega)
      have := hmono t (t + 1) (by omega) (by omega)
      omega
  exact fun t ht => ⟨h1 t ht, h2 (nu - t - 1) t ht (by omega)⟩

theorem gapsLoop_inv {m rank : Nat} (hm : rank ≤ m) {piv : Nat → Nat}
    (hp : ∀ t, t < m - rank → piv t < m)
    (hmono : ∀ s t, s < t → t < m - rank → piv s < piv t) :
    ∀ (n j : Nat) (s : (Nat → Nat) × Nat), rank ≤ j → j + n < m →
    FillInv m rank piv (piv (j - rank) + 1) s → s.2 = piv (j - rank) - (j - rank) →
    FillInv m rank piv (piv (j + n - rank) + 1) (gapsLoop n j s) ∧
      (gapsLoop n j s).2 = piv (j + n - rank) - (j + n - rank) := by
  intro n
  induction n with
  | zero => intro j s _ _ h h2; exact ⟨h, h2⟩
  | succ n ih =>
    intro j s hj hjn h h2
    simp only [gapsLoop]
    have k1 : s.1 j = piv (j - rank) := h.keep j hj (by omega)
    have k2 : s.1 (j + 1) = piv (j - rank + 1) := by
      rw [h.keep (j + 1) (by omega) (by omega)]; congr 1; omega
    have hlt : piv (j - rank) < piv (j - rank + 1) := hmono _ _ (by omega) (by omega)
    have b1 := piv_sub_mono hp hmono (j - rank) (by omega)
    have b2 := piv_sub_mono hp hmono (j - rank + 1) (by omega)
    have nomid : ∀ x t, piv (j - rank) + 1 ≤ x → x < piv (j - rank + 1) → t < m - rank →
        x ≠ piv t := by
      intro x t hx hx' ht e
      rcases Nat.lt_or_ge t (j - rank + 1) with h | h
      · have : piv t ≤ piv (j - rank) := by
          rcases Nat.lt_or_ge t (j - rank) with h' | h'
          · exact le_of_lt (hmono _ _ h' (by omega))
          · have : t = j - rank := by omega
            rw [this]
        omega
      · have : piv (j - rank + 1) ≤ piv t := by
          rcases Nat.lt_or_ge (j - rank + 1) t with h' | h'
          · exact le_of_lt (hmono _ _ h' ht)
          · have : t = j - rank + 1 := by omega
            rw [this]
        omega
    rw [k1, k2]
    obtain ⟨f1, f2⟩ := fillLoop_inv (piv (j - rank + 1) - (piv (j - rank) + 1))
      (piv (j - rank) + 1) s h (by omega) (fun x t hx hx' ht => nomid x t hx (by omega) ht)
    have e : piv (j - rank) + 1 + (piv (j - rank + 1) - (piv (j - rank) + 1)) =
        piv (j - rank + 1) := by omega
    rw [e] at f1
    have f1' := f1.skip (t := j - rank + 1) (by omega) rfl
    have e2 : j + 1 - rank = j - rank + 1 := by omega
    have e3 : j + (n + 1) - rank = j + 1 + n - rank := by omega
    have := ih (j + 1) _ (by omega) (by omega) (by rw [e2]; exact f1') (by rw [e2, f2]; omega)
    rw [e3]
    exact this

/-- The permutation built by the code: increasing non-pivots, then pivots. -/
theorem buildPerm_spec [DecidableEq K] {m nu : Nat} (hnu : 0 < nu) (hm : nu ≤ m) (Xt : Mat K)
    (perm0 : Nat → Nat) {piv : Nat → Nat} (hp : ∀ t, t < nu → piv t < m)
    (hmono : ∀ s t, s < t → t < nu → piv s < piv t)
    (hd : ∀ s t, s < nu → t < nu → Xt (piv s) t = if s = t then 1 else 0)
    (hz : ∀ k t, t < nu → piv t < k → k < m → Xt k t = 0) :
    let p := buildPerm m (m - nu) Xt perm0
    (∀ t, t < nu → p (m - nu + t) = piv t) ∧
    (∀ k, k < m - nu → p k < m ∧ ∀ t, t < nu → p k ≠ piv t) ∧
    (∀ k l, k < l → l < m - nu → p k < p l) ∧
    (∀ x, x < m → (∀ t, t < nu → x ≠ piv t) → ∃ k, k < m - nu ∧ p k = x) := by
  have hnu' : m - (m - nu) = nu := by omega
  have hp' : ∀ t, t < m - (m - nu) → piv t < m := by rw [hnu']; exact hp
  have hmono' : ∀ s t, s < t → t < m - (m - nu) → piv s < piv t := by rw [hnu']; exact hmono
  intro p
  set p0 : Nat → Nat := fun j =>
    if m - nu ≤ j ∧ j < m then searchDown (fun k => Xt k (j - (m - nu))) m else perm0 j with hp0
  have hp0v : ∀ j, m - nu ≤ j → j < m → p0 j = piv (j - (m - nu)) := by
    intro j hj hj'
    simp only [hp0]
    rw [if_pos ⟨hj, hj'⟩]
    have ht : j - (m - nu) < nu := by omega
    apply searchDown_spec
    · show Xt (piv _) _ ≠ 0
      rw [hd _ _ ht ht, if_pos rfl]; exact one_ne_zero
    · exact hp _ ht
    · intro k hk hk'; exact hz k _ ht hk hk'
  have b0 := piv_sub_mono hp hmono 0 hnu
  have hI0 : FillInv m (m - nu) piv 0 (p0, 0) :=
    ⟨fun k hk => absurd hk (by simp), fun k t hk => absurd hk (by simp),
     fun k l _ hl => absurd hl (by simp), fun x hx => absurd hx (by simp),
     fun j hj hj' => hp0v j hj hj'⟩
  have e0 : p0 (m - nu) = piv 0 := by rw [hp0v _ (le_refl _) (by omega)]; congr 1; omega
  obtain ⟨f1, f2⟩ := fillLoop_inv (piv 0) 0 (p0, 0) hI0 (by show 0 + piv 0 ≤ _; omega) (by
    intro x t _ hx ht e
    rw [hnu'] at ht
    rcases Nat.eq_zero_or_pos t with h | h
    · subst h; omega
    · have := hmono 0 t h ht; omega)
  rw [zero_add] at f1
  have f1' := f1.skip (t := 0) (by omega) rfl
  have hsub : m - nu - (m - nu) = 0 := by omega
  obtain ⟨g1, g2⟩ := gapsLoop_inv (Nat.sub_le m nu) hp' hmono' (m - 1 - (m - nu)) (m - nu)
    (fillLoop (piv 0) 0 (p0, 0)) (le_refl _) (by omega) (by rw [hsub]; exact f1')
    (by rw [hsub, f2]; show 0 + piv 0 = _; omega)
  have e1 : m - nu + (m - 1 - (m - nu)) - (m - nu) = nu - 1 := by omega
  rw [e1] at g1 g2
  set s2 := gapsLoop (m - 1 - (m - nu)) (m - nu) (fillLoop (piv 0) 0 (p0, 0)) with hs2
  have k2 : s2.1 (m - 1) = piv (nu - 1) := by
    rw [g1.keep (m - 1) (by omega) (by omega)]; congr 1; omega
  have b1 := piv_sub_mono hp hmono (nu - 1) (by omega)
  obtain ⟨h1, h2⟩ := fillLoop_inv (m - (piv (nu - 1) + 1)) (piv (nu - 1) + 1) s2 g1
    (by rw [g2]; omega) (by
    intro x t hx _ ht e
    rw [hnu'] at ht
    rcases Nat.lt_or_ge t (nu - 1) with h | h
    · have := hmono t (nu - 1) h (by omega); omega
    · have : t = nu - 1 := by omega
      subst this; omega)
  have hpe : p = (fillLoop (m - (piv (nu - 1) + 1)) (piv (nu - 1) + 1) s2).1 := by
    show buildPerm m (m - nu) Xt perm0 = _
    have : buildPerm m (m - nu) Xt perm0 =
        (fillLoop (m - ((gapsLoop (m - 1 - (m - nu)) (m - nu)
          (fillLoop (p0 (m - nu)) 0 (p0, 0))).1 (m - 1) + 1))
          ((gapsLoop (m - 1 - (m - nu)) (m - nu)
          (fillLoop (p0 (m - nu)) 0 (p0, 0))).1 (m - 1) + 1)
          (gapsLoop (m - 1 - (m - nu)) (m - nu) (fillLoop (p0 (m - nu)) 0 (p0, 0)))).1 := rfl
    rw [this, e0, ← hs2, k2]
  rw [hpe]
  have hr : (fillLoop (m - (piv (nu - 1) + 1)) (piv (nu - 1) + 1) s2).2 = m - nu := by
    rw [h2, g2]; omega
  have hb : piv (nu - 1) + 1 + (m - (piv (nu - 1) + 1)) = m := by omega
  rw [hb] at h1
  refine ⟨?_, ?_, ?_, ?_⟩
  · intro t ht
    rw [h1.keep _ (by omega) (by omega)]; congr 1; omega
  · intro k hk
    exact ⟨h1.lt k (by omega), fun t ht => h1.np k t (by omega) (by omega)⟩
  · intro k l hkl hl
    exact h1.mono k l hkl (by omega)
  · intro x hx hnp
    rw [← hnu'] at hnp
    obtain ⟨k, hk, e⟩ := h1.surj x hx hnp
    exact ⟨k, by omega, e⟩

theorem onesLoop_apply [DecidableEq K] (rank : Nat) (perm : Nat → Nat) : ∀ (n : Nat) (X : Mat K) (i j : Nat),
    onesLoop rank perm n X i j = if i < n ∧ j = perm (rank + i) then 1 else X i j := by
  intro n
  induction n with
  | zero => intro X i j; simp [onesLoop]
  | succ n ih =>
    intro X i j
    simp only [onesLoop, Function.update_apply]
    by_cases h : i = n
    · subst h
      rw [if_pos rfl]
      by_cases hj : j = perm (rank + i)
      · simp [hj]
      · rw [Function.update_of_ne hj, ih, if_neg (by omega), if_neg (by tauto)]
    · rw [if_neg h, ih]
      by_cases hc : i < n ∧ j = perm (rank + i)
      · rw [if_pos hc, if_pos ⟨by omega, hc.2⟩]
      · rw [if_neg hc, if_neg]; rintro ⟨h1, h2⟩; exact hc ⟨by omega, h2⟩

theorem scatterRow_other (perm : Nat → Nat) (y row : Nat → K) : ∀ (n x : Nat),
    (∀ j, j < n → perm j ≠ x) → scatterRow perm y n row x = row x := by
  intro n
  induction n with
  | zero => intro x _; rfl
  | succ n ih =>
    intro x h
    simp only [scatterRow]
    rw [Function.update_of_ne (fun e => h n (by omega) e.symm)]
    exact ih x (fun j hj => h j (by omega))

theorem scatterRow_perm (perm : Nat → Nat) (y row : Nat → K) : ∀ (n j : Nat),
    (∀ a b, a < b → b < n → perm a ≠ perm b) → j < n →
    scatterRow perm y n row (perm j) = y j := by
  intro n
  induction n with
  | zero => intro j _ h; omega
  | succ n ih =>
    intro j hinj hj
    simp only [scatterRow]
    by_cases e : j = n
    · subst e; simp
    · rw [Function.update_of_ne (hinj j n (by omega) (by omega))]
      exact ih j (fun a b hab hb => hinj a b hab (by omega)) (by omega)

end PML.Nullspace
