import Verif.Pluq.Spec
import Mathlib.LinearAlgebra.Matrix.Block
import Mathlib.LinearAlgebra.Finsupp.LinearCombination
import Mathlib.LinearAlgebra.Matrix.NonsingularInverse
import Mathlib.Tactic.Ring

/-! Consequences of a triangular factorization: rank and row rank profile. -/

namespace PML.Pluq

open PML.MatOps.Spec Spec

variable {K : Type} [Field K]

theorem IsPerm.surj {n : Nat} {p : Nat → Nat} (h : IsPerm n p) : ∀ i, i < n → ∃ k, k < n ∧ p k = i := by
  intro i hi
  have hf : Function.Injective (fun k : Fin n => (⟨p k, h.1 k k.2⟩ : Fin n)) := by
    intro a b hab
    exact Fin.ext (h.2 a b a.2 b.2 (Fin.mk.inj hab))
  obtain ⟨k, hk⟩ := (Finite.injective_iff_surjective.1 hf) ⟨i, hi⟩
  exact ⟨k, k.2, Fin.mk.inj hk⟩

/-- `p` as a permutation of `Fin n`. -/
noncomputable def permEquiv {n : Nat} {p : Nat → Nat} (h : IsPerm n p) : Fin n ≃ Fin n :=
  Equiv.ofBijective (fun k : Fin n => (⟨p k, h.1 k k.2⟩ : Fin n)) (by
    have hf : Function.Injective (fun k : Fin n => (⟨p k, h.1 k k.2⟩ : Fin n)) := by
      intro a b hab
      exact Fin.ext (h.2 a b a.2 b.2 (Fin.mk.inj hab))
    exact ⟨hf, Finite.injective_iff_surjective.1 hf⟩)

@[simp] theorem permEquiv_val {n : Nat} {p : Nat → Nat} (h : IsPerm n p) (k : Fin n) :
    ((permEquiv h k : Fin n) : Nat) = p k := rfl

/-- Rank of a matrix with a triangular factorization. -/
theorem rank_of_factor {r c rk : Nat} {M LU : Nat → Nat → K} {P Q : Nat → Nat}
    (hP : IsPerm r P) (hQ : IsPerm c Q) (hr : rk ≤ r) (hc : rk ≤ c)
    (fac : ∀ i j, i < r → j < c →
      M (P i) (Q j) = ∑ k ∈ Finset.range rk, lower rk LU i k * upper rk LU k j)
    (diag : ∀ k, k < rk → LU k k ≠ 0) :
    (toMatrix r c M).rank = rk := by
  have h1 : (toMatrix r c M).rank =
      ((toMatrix r c M).submatrix (permEquiv hP) (permEquiv hQ)).rank :=
    (Matrix.rank_submatrix _ _ _).symm
  set L : Matrix (Fin r) (Fin rk) K := Matrix.of fun i k => lower rk LU i k
  set U : Matrix (Fin rk) (Fin c) K := Matrix.of fun k j => upper rk LU k j
  have h2 : (toMatrix r c M).submatrix (permEquiv hP) (permEquiv hQ) = L * U := by
    ext i j
    simp only [Matrix.submatrix_apply, toMatrix, Matrix.of_apply, permEquiv_val, Matrix.mul_apply, L, U]
    rw [fac i j i.2 j.2, Finset.sum_range]
  rw [h1, h2]
  apply le_antisymm
  · exact (Matrix.rank_mul_le_left L U).trans (Matrix.rank_le_width L)
  · set L1 : Matrix (Fin rk) (Fin rk) K := Matrix.of fun i k => lower rk LU i k
    set U1 : Matrix (Fin rk) (Fin rk) K := Matrix.of fun i k => upper rk LU i k
    have h3 : (L * U).submatrix (Fin.castLE hr) (Fin.castLE hc) = L1 * U1 := by
      ext i j
      simp [Matrix.mul_apply, L, U, L1, U1]
    have hL : L1.det = 1 := by
      rw [Matrix.det_of_lowerTriangular]
      · simp [L1, lower]
      · intro i j hij
        have hij : i < j := hij
        simp only [L1, Matrix.of_apply, lower]
        have : (i : Nat) < j := hij
        rw [if_neg (by omega), if_neg (by omega)]
    have hU : U1.det ≠ 0 := by
      rw [Matrix.det_of_upperTriangular]
      · rw [Finset.prod_ne_zero_iff]
        intro i _
        have := diag i i.2
        simpa [U1, upper] using this
      · intro i j hij
        have hij : j < i := hij
        simp only [U1, Matrix.of_apply, upper]
        have : (j : Nat) < i := hij
        rw [if_neg (by omega)]
    have h4 : (L1 * U1).rank = rk := by
      rw [Matrix.rank_of_isUnit]
      · simp
      · rw [Matrix.isUnit_iff_isUnit_det, Matrix.det_mul, hL, one_mul]
        exact isUnit_iff_ne_zero.2 hU
    calc rk = (L1 * U1).rank := h4.symm
      _ = ((L * U).submatrix (Fin.castLE hr) (Fin.castLE hc)).rank := by rw [h3]
      _ ≤ (L * U).rank := Matrix.rank_submatrix_le _ _ _

/-- Independence of the rows of a triangular matrix with nonzero diagonal. -/
theorem triangular_indep {n : Nat} {U : Nat → Nat → K} (hU : ∀ i j, j < i → U i j = 0)
    (hd : ∀ k, k < n → U k k ≠ 0) (b : Nat → K)
    (h : ∀ j, j < n → ∑ k ∈ Finset.range n, b k * U k j = 0) : ∀ k, k < n → b k = 0 := by
  intro k
  induction k using Nat.strong_induction_on with
  | _ k ih =>
    intro hk
    have := h k hk
    rw [Finset.sum_eq_single k] at this
    · rcases mul_eq_zero.1 this with h | h
      · exact h
      · exact absurd h (hd k hk)
    · intro l hl hlk
      rw [Finset.mem_range] at hl
      rcases Nat.lt_or_gt_of_ne hlk with h | h
      · rw [ih l h hl]; ring
      · rw [hU l k h]; ring
    · intro h; exact absurd (Finset.mem_range.2 hk) h

/-- Dependence on previous rows, as membership in a span. -/
theorem dependsOnPrevious_iff {c : Nat} {M : Nat → Nat → K} {Q : Nat → Nat} (hQ : IsPerm c Q)
    (i : Nat) : DependsOnPrevious c M i ↔
      (fun j : Fin c => M i (Q j)) ∈
        Submodule.span K ((fun i (j : Fin c) => M i (Q j)) '' {k | k < i}) := by
  have hset : ((fun i (j : Fin c) => M i (Q j)) '' {k | k < i}) =
      Set.range (fun (k : Fin i) (j : Fin c) => M k (Q j)) := by
    ext v
    constructor
    · rintro ⟨k, hk, rfl⟩; exact ⟨⟨k, hk⟩, rfl⟩
    · rintro ⟨k, rfl⟩; exact ⟨k, k.2, rfl⟩
  rw [hset, Submodule.mem_span_range_iff_exists_fun]
  constructor
  · rintro ⟨a, ha⟩
    refine ⟨fun k => a k, ?_⟩
    funext j
    simp only [Finset.sum_apply, Pi.smul_apply, smul_eq_mul]
    rw [ha _ (hQ.1 j j.2), Finset.sum_range]
  · rintro ⟨a, ha⟩
    refine ⟨fun k => if h : k < i then a ⟨k, h⟩ else 0, ?_⟩
    intro j hj
    obtain ⟨j', hj', rfl⟩ := IsPerm.surj hQ j hj
    have := congrFun ha ⟨j', hj'⟩
    simp only [Finset.sum_apply, Pi.smul_apply, smul_eq_mul] at this
    rw [← this, Finset.sum_range]
    refine Finset.sum_congr rfl fun k _ => ?_
    simp

/-- The first `rk` rows of the permuted matrix form the row rank profile. -/
theorem profile_of_factor {r c rk : Nat} {M LU : Nat → Nat → K} {P Q : Nat → Nat}
    (hP : IsPerm r P) (hQ : IsPerm c Q) (hr : rk ≤ r) (hc : rk ≤ c)
    (fac : ∀ i j, i < r → j < c →
      M (P i) (Q j) = ∑ k ∈ Finset.range rk, lower rk LU i k * upper rk LU k j)
    (diag : ∀ k, k < rk → LU k k ≠ 0)
    (inc : ∀ i j, i < j → j < rk → P i < P j)
    (supp : ∀ i k, rk ≤ i → i < r → k < rk → LU i k ≠ 0 → P k < P i) (i : Nat) :
    InRowRankProfile r c M i ↔ ∃ k, k < rk ∧ P k = i := by
  set v : Nat → Fin c → K := fun i j => M i (Q j) with hv
  set u : Nat → Fin c → K := fun k j => upper rk LU k j with hu
  have hfac : ∀ i, i < r → v (P i) = ∑ k ∈ Finset.range rk, lower rk LU i k • u k := by
    intro i hi
    funext j
    simp only [hv, hu, Finset.sum_apply, Pi.smul_apply, smul_eq_mul]
    exact fac i j hi j.2
  -- rows of U are combinations of the first profile rows
  have hu_mem : ∀ k, k < rk → u k ∈ Submodule.span K (v '' {m | m ≤ P k}) := by
    intro k
    induction k using Nat.strong_induction_on with
    | _ k ih =>
      intro hk
      have h := hfac k (by omega)
      rw [← Finset.sum_erase_add _ _ (Finset.mem_range.2 hk)] at h
      have hl : lower rk LU k k = 1 := by simp [lower]
      rw [hl, one_smul] at h
      have : u k = v (P k) - ∑ x ∈ (Finset.range rk).erase k, lower rk LU k x • u x := by
        rw [h]; simp
      rw [this]
      refine Submodule.sub_mem _ (Submodule.subset_span ⟨P k, Nat.le_refl (P k), rfl⟩) ?_
      refine Submodule.sum_mem _ fun x hx => ?_
      rw [Finset.mem_erase, Finset.mem_range] at hx
      by_cases hxk : x < k
      · refine Submodule.smul_mem _ _ (Submodule.span_mono ?_ (ih x hxk hx.2))
        rintro _ ⟨m, hm, rfl⟩
        exact ⟨m, le_trans hm (le_of_lt (inc x k hxk hk)), rfl⟩
      · have : lower rk LU k x = 0 := by
          unfold lower; rw [if_neg (fun h => hx.1 h.symm), if_neg (by omega)]
        rw [this, zero_smul]; exact Submodule.zero_mem _
  constructor
  · rintro ⟨hi, hdep⟩
    obtain ⟨m, hm, rfl⟩ := IsPerm.surj hP i hi
    by_contra hcon
    have hm' : rk ≤ m := by
      by_contra h; exact hcon ⟨m, by omega, rfl⟩
    apply hdep
    rw [dependsOnPrevious_iff hQ]
    change v (P m) ∈ Submodule.span K (v '' {k | k < P m})
    rw [hfac m hm]
    refine Submodule.sum_mem _ fun k hk => ?_
    rw [Finset.mem_range] at hk
    have hl : lower rk LU m k = LU m k := by
      unfold lower; rw [if_neg (by omega), if_pos (by omega)]
    rw [hl]
    by_cases h0 : LU m k = 0
    · rw [h0, zero_smul]; exact Submodule.zero_mem _
    · refine Submodule.smul_mem _ _ (Submodule.span_mono ?_ (hu_mem k hk))
      rintro _ ⟨x, hx, rfl⟩
      exact ⟨x, lt_of_le_of_lt hx (supp m k hm' hm hk h0), rfl⟩
  · rintro ⟨k, hk, rfl⟩
    refine ⟨hP.1 k (by omega), ?_⟩
    rw [dependsOnPrevious_iff hQ]
    change v (P k) ∉ Submodule.span K (v '' {m | m < P k})
    intro hmem
    -- all earlier rows lie in the span of the first `k` rows of U
    have hsub : Submodule.span K (v '' {m | m < P k}) ≤ Submodule.span K (u '' {x | x < k}) := by
      rw [Submodule.span_le]
      rintro _ ⟨m, hm, rfl⟩
      have hm : m < P k := hm
      obtain ⟨x, hx, rfl⟩ := IsPerm.surj hP m (lt_trans hm (hP.1 k (by omega)))
      show v (P x) ∈ Submodule.span K _
      rw [hfac x hx]
      refine Submodule.sum_mem _ fun y hy => ?_
      rw [Finset.mem_range] at hy
      by_cases h0 : lower rk LU x y = 0
      · rw [h0, zero_smul]; exact Submodule.zero_mem _
      · refine Submodule.smul_mem _ _ (Submodule.subset_span ⟨y, ?_, rfl⟩)
        show y < k
        by_cases hxr : x < rk
        · have hxk : x < k := by
            by_contra h
            rcases Nat.lt_or_eq_of_le (not_lt.1 h) with h | h
            · have := inc k x h hxr; omega
            · subst h; omega
          have : y ≤ x := by
            by_contra h
            apply h0; unfold lower; rw [if_neg (by omega), if_neg (by omega)]
          omega
        · have hl : lower rk LU x y = LU x y := by
            unfold lower; rw [if_neg (by omega), if_pos (by omega)]
          rw [hl] at h0
          have := supp x y (by omega) hx hy h0
          by_contra h
          rcases Nat.lt_or_eq_of_le (not_lt.1 h) with h | h
          · have := inc k y h hy; omega
          · subst h; omega
    -- so is row k of U
    have hmem2 : u k ∈ Submodule.span K (u '' {x | x < k}) := by
      have h := hfac k (by omega)
      rw [← Finset.sum_erase_add _ _ (Finset.mem_range.2 hk)] at h
      have hl : lower rk LU k k = 1 := by simp [lower]
      rw [hl, one_smul] at h
      have : u k = v (P k) - ∑ x ∈ (Finset.range rk).erase k, lower rk LU k x • u x := by
        rw [h]; simp
      rw [this]
      refine Submodule.sub_mem _ (hsub hmem) ?_
      refine Submodule.sum_mem _ fun x hx => ?_
      rw [Finset.mem_erase, Finset.mem_range] at hx
      by_cases hxk : x < k
      · exact Submodule.smul_mem _ _ (Submodule.subset_span ⟨x, hxk, rfl⟩)
      · have : lower rk LU k x = 0 := by
          unfold lower; rw [if_neg (fun h => hx.1 h.symm), if_neg (by omega)]
        rw [this, zero_smul]; exact Submodule.zero_mem _
    have hset : (u '' {x | x < k}) = Set.range (fun (x : Fin k) => u x) := by
      ext w
      constructor
      · rintro ⟨x, hx, rfl⟩; exact ⟨⟨x, hx⟩, rfl⟩
      · rintro ⟨x, rfl⟩; exact ⟨x, x.2, rfl⟩
    rw [hset, Submodule.mem_span_range_iff_exists_fun] at hmem2
    obtain ⟨a, ha⟩ := hmem2
    set b : Nat → K := fun x => if h : x < k then a ⟨x, h⟩ else -1 with hb
    have hind := triangular_indep (n := k + 1) (U := upper rk LU)
      (by intro i j hij; unfold upper; rw [if_neg (by omega)])
      (by intro x hx; unfold upper; rw [if_pos ⟨le_refl _, by omega⟩]; exact diag x (by omega)) b
      (by
        intro j hj
        have := congrFun ha ⟨j, by omega⟩
        simp only [Finset.sum_apply, Pi.smul_apply, smul_eq_mul, hu] at this
        rw [Finset.sum_range_succ, Finset.sum_range]
        have e : ∑ x : Fin k, b x * upper rk LU x j = ∑ x : Fin k, a x * upper rk LU x j :=
          Finset.sum_congr rfl fun x _ => by simp [hb]
        rw [e, this]
        simp [hb]) k (by omega)
    simp [hb] at hind

end PML.Pluq
