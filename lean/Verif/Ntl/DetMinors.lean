import Verif.Ntl.DetModel
import Verif.Ntl.MatUtilsProps
import Mathlib.LinearAlgebra.Matrix.Determinant.Basic
import Mathlib.Tactic.Ring
namespace PML.Ntl.Det

open Polynomial PML.Ntl.Utils PML.Ntl.Inv PML.Ntl.Solve PML.Ntl.MatEval

set_option linter.unusedSectionVars false
section Ring
variable {R : Type} [CommRing R]

theorem minors_small (det : R) (n : Nat) (a : Nat × Nat → R) (h0 : 1 ≤ n) (h4 : n ≤ 4) : minors det n a = detN n a := by
  obtain rfl | rfl | rfl | rfl : n = 1 ∨ n = 2 ∨ n = 3 ∨ n = 4 := by omega
  · unfold minors detN
    rw [if_pos rfl, Matrix.det_fin_one]
    rfl
  · unfold minors detN
    rw [if_neg (by omega), if_pos rfl, Matrix.det_fin_two]
    rfl
  · unfold minors detN
    rw [if_neg (by omega), if_neg (by omega), if_pos rfl, Matrix.det_fin_three]
    simp
    ring
  · unfold minors detN
    rw [if_neg (by omega), if_neg (by omega), if_neg (by omega), if_pos rfl, Matrix.det_succ_row_zero]
    simp only [Fin.sum_univ_four, Matrix.det_fin_three, Matrix.submatrix_apply]
    simp [Fin.succAbove, Fin.lt_def]
    ring

theorem dropRow_spec (m k : Nat) (hk : k ≤ m) (a buf : Nat × Nat → R) (i j : Nat) (hi : i < m) (hj : j < m) :
    dropRow m k a buf (i, j) = a (if i < k then i else i + 1, j + 1) := by
  let v : Nat × Nat → R := fun x => a (if x.1 < k then x.1 else x.1 + 1, x.2 + 1)
  have h1 : Fills {x : Nat × Nat | ∃ i, i < k ∧ ∃ j, j < m ∧ x = (i, j)} v (forN k fun i => forN m fun j => write (i, j) (a (i, j + 1))) :=
    Fills.forN fun i hi => Fills.forN fun j _ => Fills.write (i, j) _ (by
      show a (if i < k then i else i + 1, j + 1) = _
      rw [if_pos hi])
  have h2 : Fills {x : Nat × Nat | ∃ d, d < m - k ∧ ∃ j, j < m ∧ x = (k + 1 + d - 1, j)} v
      (forN (m - k) fun d => forN m fun j => write (k + 1 + d - 1, j) (a (k + 1 + d, j + 1))) :=
    Fills.forN fun d hd => Fills.forN fun j _ => Fills.write (k + 1 + d - 1, j) _ (by
      show a (if k + 1 + d - 1 < k then _ else k + 1 + d - 1 + 1, j + 1) = _
      rw [if_neg (by omega), show k + 1 + d - 1 + 1 = k + 1 + d by omega])
  refine ((h1.comp h2) buf (i, j)).1 ?_
  by_cases h : i < k
  · exact Or.inl ⟨i, h, j, hj, rfl⟩
  · exact Or.inr ⟨i - k, by omega, j, hj, by rw [show k + 1 + (i - k) - 1 = i by omega]⟩

theorem detN_congr (n : Nat) (a b : Nat × Nat → R) (h : ∀ i j, i < n → j < n → a (i, j) = b (i, j)) : detN n a = detN n b := by
  unfold detN
  congr 1
  ext i j
  exact h i j i.2 j.2

theorem detN_expand (m : Nat) (a : Nat × Nat → R) :
    detN (m + 1) a = ∑ k ∈ Finset.range (m + 1), (if k % 2 = 0 then a (k, 0) * detN m (fun x => a (if x.1 < k then x.1 else x.1 + 1, x.2 + 1))
      else -(a (k, 0) * detN m (fun x => a (if x.1 < k then x.1 else x.1 + 1, x.2 + 1)))) := by
  unfold detN
  rw [Matrix.det_succ_column_zero, Finset.sum_range]
  refine Finset.sum_congr rfl fun k _ => ?_
  have e : (Matrix.of fun i j : Fin (m + 1) => a (i, j)).submatrix k.succAbove Fin.succ =
      Matrix.of fun i j : Fin m => a (if (i : Nat) < k then (i : Nat) else i + 1, j + 1) := by
    ext i j
    simp only [Matrix.submatrix_apply, Matrix.of_apply, Fin.val_succ]
    congr 2
    unfold Fin.succAbove
    by_cases h : (i : Nat) < k
    · rw [if_pos h, if_pos (by rw [Fin.lt_def]; exact h)]; rfl
    · rw [if_neg h, if_neg (by rw [Fin.lt_def]; exact h)]; rfl
  rw [e]
  rcases Nat.mod_two_eq_zero_or_one k with h | h
  · rw [if_pos h, (Nat.even_iff.2 h).neg_one_pow, one_mul]; rfl
  · rw [if_neg (by omega), (Nat.odd_iff.2 h).neg_one_pow, neg_one_mul, neg_mul]; rfl

theorem minorsRec_spec : ∀ (n : Nat) (a : Nat × Nat → R), 1 ≤ n → minorsRec n a = .ok (detN n a)
  | 0, a, h => absurd h (by omega)
  | 1, a, _ => by
    unfold minorsRec detN
    rw [Matrix.det_fin_one]
    rfl
  | m + 2, a, _ => by
    unfold minorsRec
    have key := forN_inv (P := fun (t : Nat) (st : Out ((Nat × Nat → R) × R)) => ∃ buf, st = .ok (buf,
        ∑ k ∈ Finset.range t, (if k % 2 = 0 then a (k, 0) * detN (m + 1) (fun x => a (if x.1 < k then x.1 else x.1 + 1, x.2 + 1))
          else -(a (k, 0) * detN (m + 1) (fun x => a (if x.1 < k then x.1 else x.1 + 1, x.2 + 1))))))
      (f := fun k st => andThen st fun st =>
        andThen (minorsRec (m + 1) (dropRow (m + 1) k a st.1)) fun tmp =>
        .ok (dropRow (m + 1) k a st.1, if k % 2 = 0 then st.2 + a (k, 0) * tmp else st.2 - a (k, 0) * tmp))
      (s := .ok ((fun _ => 0 : Nat × Nat → R), (0 : R))) (n := m + 2)
      ⟨_, by rw [Finset.sum_range_zero]⟩ (by
        rintro k st hk ⟨buf, rfl⟩
        refine ⟨dropRow (m + 1) k a buf, ?_⟩
        simp only [andThen]
        rw [minorsRec_spec (m + 1) _ (by omega)]
        dsimp only
        rw [detN_congr (m + 1) (dropRow (m + 1) k a buf) (fun x => a (if x.1 < k then x.1 else x.1 + 1, x.2 + 1))
          fun i j hi hj => dropRow_spec (m + 1) k (by omega) a buf i j hi hj]
        rw [Finset.sum_range_succ]
        split_ifs
        · rfl
        · rw [sub_eq_add_neg])
    obtain ⟨buf, e⟩ := key
    rw [detN_expand]
    dsimp only at e ⊢
    rw [e]
    rfl
end Ring
end PML.Ntl.Det
