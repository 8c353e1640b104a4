import Verif.Hermite.Echelon
import Mathlib.LinearAlgebra.Matrix.Adjugate
import Mathlib.LinearAlgebra.Matrix.Block
import Mathlib.LinearAlgebra.Matrix.Nondegenerate

/-! # Rank bounds from dependencies and from leading entries; degrees -/

namespace PML.Hermite

open PML.MatOps PML.MatOps.Spec PML.MatPoly PML.Forms PML.Forms.Spec PML.RowOps PML.RowOps.Spec
open PML.WeakPopov PML.Hermite.Spec PML.PolyMul.Spec Polynomial

set_option linter.unusedSectionVars false

/-- The vectors with a nonzero multiple in `N`. -/
def sat {R ι : Type} [CommRing R] [IsDomain R] (N : Submodule R (ι → R)) : Submodule R (ι → R) where
  carrier := {x | ∃ a : R, a ≠ 0 ∧ a • x ∈ N}
  add_mem' := by
    rintro x y ⟨a, ha, hx⟩ ⟨b, hb, hy⟩
    refine ⟨a * b, mul_ne_zero ha hb, ?_⟩
    rw [smul_add]
    refine N.add_mem ?_ ?_
    · rw [mul_comm, mul_smul]; exact N.smul_mem _ hx
    · rw [mul_smul]; exact N.smul_mem _ hy
  zero_mem' := ⟨1, one_ne_zero, by rw [smul_zero]; exact N.zero_mem⟩
  smul_mem' := by
    rintro c x ⟨a, ha, hx⟩
    exact ⟨a, ha, by rw [smul_comm]; exact N.smul_mem _ hx⟩

section

variable {R ι : Type} [CommRing R] [IsDomain R]

theorem le_sat (N : Submodule R (ι → R)) : N ≤ sat N := fun x hx => ⟨1, one_ne_zero, by rwa [one_smul]⟩

theorem sat_mono {N M : Submodule R (ι → R)} (h : N ≤ M) : sat N ≤ sat M := by
  rintro x ⟨a, ha, hx⟩; exact ⟨a, ha, h hx⟩

theorem sat_sat {N : Submodule R (ι → R)} {x : ι → R} (h : x ∈ sat (sat N)) : x ∈ sat N := by
  obtain ⟨a, ha, b, hb, hx⟩ := h
  exact ⟨b * a, mul_ne_zero hb ha, by rwa [mul_smul]⟩

theorem sat_of_smul {N : Submodule R (ι → R)} {x : ι → R} {a : R} (ha : a ≠ 0) (h : a • x ∈ sat N) : x ∈ sat N :=
  sat_sat ⟨a, ha, h⟩

/-- Rows which depend on other rows have no larger rank. -/
theorem rankOf_le_of_sat {m m' c : Nat} {A B : Nat → Nat → R}
    (h : ∀ i, i < m → firstCols c A i ∈ sat (rowSpan m' (firstCols c B))) : rankOf m c A ≤ rankOf m' c B := by
  rw [rankOf_eq_finrank, rankOf_eq_finrank]
  refine Submodule.finrank_mono (Submodule.span_le.2 ?_)
  rintro _ ⟨x, hx, rfl⟩
  obtain ⟨a, ha, hx'⟩ := PML.RowOps.rowSpan_le h hx
  have e : fracRow c x = (algebraMap R (FractionRing R) a)⁻¹ • fracRow c (a • x) := by
    have : fracRow c (a • x) = algebraMap R (FractionRing R) a • fracRow c x := by
      funext j; simp [fracRow]
    rw [this, smul_smul, inv_mul_cancel₀, one_smul]
    exact fun h0 => ha ((IsFractionRing.injective R (FractionRing R)) (by rw [h0, map_zero]))
  rw [e]
  exact Submodule.smul_mem _ _ (Submodule.subset_span ⟨_, hx', rfl⟩)

theorem rankOf_succ_le (m c : Nat) (A : Nat → Nat → R) : rankOf m (c + 1) A ≤ rankOf m c A + 1 := by
  unfold rankOf
  rw [Matrix.rank_eq_finrank_span_cols, Matrix.rank_eq_finrank_span_cols]
  have hle : Submodule.span (FractionRing R)
      (Set.range ((asMatrix m (c + 1) A).map (algebraMap R (FractionRing R))).col) ≤
      Submodule.span (FractionRing R) (Set.range ((asMatrix m c A).map (algebraMap R (FractionRing R))).col) ⊔
      Submodule.span (FractionRing R) {fun i : Fin m => algebraMap R (FractionRing R) (A i c)} := by
    refine Submodule.span_le.2 ?_
    rintro _ ⟨j, rfl⟩
    by_cases hj : (j : Nat) < c
    · exact Submodule.mem_sup_left (Submodule.subset_span ⟨⟨j, hj⟩, rfl⟩)
    · refine Submodule.mem_sup_right (Submodule.mem_span_singleton.2 ⟨1, ?_⟩)
      have : (j : Nat) = c := by have := j.2; omega
      funext i
      simp [Matrix.col, asMatrix, this]
  refine (Submodule.finrank_mono hle).trans ((Submodule.finrank_add_le_finrank_add_finrank _ _).trans ?_)
  exact Nat.add_le_add_left ((finrank_span_le_card _).trans (by simp)) _

end

variable {K : Type} [Field K] [DecidableEq K]

/-- The rows of a set `S`, with distinct leading columns. -/
theorem card_le_rankOf {r t : Nat} {A B : Mat K[X]} (S : Finset Nat) (lead : Nat → Nat)
    (hlead : ∀ k, k ∈ S → FirstNonzero t (B k) (lead k))
    (hinj : ∀ k l, k ∈ S → l ∈ S → lead k = lead l → k = l)
    (hS : ∀ k, k ∈ S → firstCols t B k ∈ sat (rowSpan r (firstCols t A))) : S.card ≤ rankOf r t A := by
  let f : Nat → Nat := fun i => if h : i < S.card then (S.equivFin.symm ⟨i, h⟩ : Nat) else 0
  have hf : ∀ i, i < S.card → f i ∈ S := fun i hi => by
    simp only [f, dif_pos hi]; exact (S.equivFin.symm ⟨i, hi⟩).2
  have hfi : ∀ i k, i < S.card → k < S.card → f i = f k → i = k := fun i k hi hk h => by
    simp only [f, dif_pos hi, dif_pos hk] at h
    have := S.equivFin.symm.injective (Subtype.ext h)
    simpa using this
  have h1 : rankOf S.card t (fun i => B (f i)) = S.card :=
    rankOf_independent (independent_of_leading (piv := fun i => lead (f i)) (fun i hi => hlead _ (hf i hi))
      fun i k hi hk h => hfi i k hi hk (hinj _ _ (hf i hi) (hf k hk) h))
  rw [← h1]
  exact rankOf_le_of_sat fun i hi => hS _ (hf i hi)

/-- Solutions of systems whose matrix is upper triangular with dominant diagonal entries
    in each column: no cancellation of leading terms. -/
theorem predictable_degree {k : Nat} {O : Matrix (Fin k) (Fin k) K[X]} {w : Fin k → K[X]} {D : WithBot ℕ}
    (htri : ∀ l m, m < l → O l m = 0) (hdiag : ∀ m, O m m ≠ 0)
    (hdom : ∀ l m, l < m → (O l m).degree < (O m m).degree)
    (h : ∀ l, (O.mulVec w l).degree < D) : ∀ m, (O m m * w m).degree < D := by
  intro m0
  obtain ⟨m, -, hm⟩ := Finset.exists_max_image Finset.univ (fun m => (O m m * w m).degree) ⟨m0, Finset.mem_univ _⟩
  refine lt_of_le_of_lt (hm m0 (Finset.mem_univ _)) ?_
  by_cases hw : w m = 0
  · rw [hw, mul_zero, degree_zero]
    exact lt_of_le_of_lt bot_le (h m)
  · have hne : O m m * w m ≠ 0 := mul_ne_zero (hdiag m) hw
    refine lt_of_le_of_lt (le_of_eq ?_) (h m)
    have e : O.mulVec w m = O m m * w m + ∑ l ∈ Finset.univ.erase m, O m l * w l := by
      rw [Matrix.mulVec, dotProduct, Finset.add_sum_erase _ (fun l => O m l * w l) (Finset.mem_univ m)]
    rw [e, degree_add_eq_left_of_degree_lt]
    refine lt_of_le_of_lt (degree_sum_le _ _) ?_
    rw [Finset.sup_lt_iff (by rw [bot_lt_iff_ne_bot]; exact fun h => hne (degree_eq_bot.1 h))]
    intro l hl
    have hlm : l ≠ m := (Finset.mem_erase.1 hl).1
    rcases lt_or_gt_of_ne hlm with hlt | hgt
    · rw [htri m l hlt, zero_mul, degree_zero, bot_lt_iff_ne_bot]
      exact fun h => hne (degree_eq_bot.1 h)
    · by_cases hwl : w l = 0
      · rw [hwl, mul_zero, degree_zero, bot_lt_iff_ne_bot]
        exact fun h => hne (degree_eq_bot.1 h)
      · refine lt_of_lt_of_le ?_ (hm l (Finset.mem_univ _))
        rw [degree_mul, degree_mul]
        exact WithBot.add_lt_add_right (fun h => hwl (degree_eq_bot.1 h)) (hdom m l hgt)

/-- A column stays reduced. `O`, `N`: two upper triangular systems with dominant diagonal
    entries, `O = P N`; if the column `z = P y` has degree less than `d` then so does `y`. -/
theorem stays_reduced {k : Nat} {O N P : Matrix (Fin k) (Fin k) K[X]} {z y : Fin k → K[X]} {d : WithBot ℕ}
    (hO : O = P * N) (hz : z = P.mulVec y) (htri : ∀ l m, m < l → O l m = 0) (hdiag : ∀ m, O m m ≠ 0)
    (hdom : ∀ l m, l < m → (O l m).degree < (O m m).degree)
    (hN : ∀ l m, (N l m).degree ≤ (O m m).degree) (hzd : ∀ l, (z l).degree < d) :
    ∀ l, (y l).degree < d := by
  have hdet : O.det ≠ 0 := by
    rw [Matrix.det_of_isUpperTriangular (fun l m h => htri l m h)]
    exact Finset.prod_ne_zero_iff.2 fun m _ => hdiag m
  have hPdet : P.det ≠ 0 := by
    rw [hO, Matrix.det_mul] at hdet
    exact left_ne_zero_of_mul hdet
  have hOw : O.mulVec (O.adjugate.mulVec z) = O.det • z := by
    rw [Matrix.mulVec_mulVec, Matrix.mul_adjugate, Matrix.smul_mulVec, Matrix.one_mulVec]
  have hdd : O.det.degree ≠ ⊥ := fun h => hdet (degree_eq_bot.1 h)
  have hpred := predictable_degree (w := O.adjugate.mulVec z) (D := O.det.degree + d) htri hdiag hdom (fun l => by
    rw [hOw, Pi.smul_apply, smul_eq_mul, degree_mul]
    exact WithBot.add_lt_add_left hdd (hzd l))
  have hNw : N.mulVec (O.adjugate.mulVec z) = O.det • y := by
    refine sub_eq_zero.1 (Matrix.eq_zero_of_mulVec_eq_zero hPdet ?_)
    rw [Matrix.mulVec_sub, Matrix.mulVec_mulVec, ← hO, hOw, Matrix.mulVec_smul, ← hz, sub_self]
  intro l
  have h1 : (O.det * y l).degree < O.det.degree + d := by
    have e : O.det * y l = N.mulVec (O.adjugate.mulVec z) l := by rw [hNw]; rfl
    rw [e, Matrix.mulVec, dotProduct]
    refine lt_of_le_of_lt (degree_sum_le _ _) ?_
    have hbot : (⊥ : WithBot ℕ) < O.det.degree + d := lt_of_le_of_lt bot_le (hpred l)
    rw [Finset.sup_lt_iff hbot]
    intro m _
    refine lt_of_le_of_lt ?_ (hpred m)
    rw [degree_mul, degree_mul]
    exact add_le_add_left (hN l m) _
  rw [degree_mul] at h1
  exact (WithBot.add_lt_add_iff_left hdd).1 h1

end PML.Hermite
