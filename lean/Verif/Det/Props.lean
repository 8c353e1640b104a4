import Verif.Det.Model
import Verif.WeakPopov.Props
import Mathlib.LinearAlgebra.Matrix.Determinant.Misc
import Mathlib.Tactic.LinearCombination

/-! # C34: the iterative determinant -/

namespace PML.Det

open PML.MatOps PML.MatOps.Spec PML.MatPoly PML.Forms PML.Forms.Spec PML.RowOps PML.RowOps.Spec
open PML.Sort PML.Sort.Spec PML.WeakPopov PML.PolyMul.Spec Polynomial

set_option linter.unusedSectionVars false

variable {K : Type} [Field K] [DecidableEq K]

/-- Contract of FLINT's `_perm_parity`: true exactly on odd permutations. -/
def ParityContract (parity : (Nat → Nat) → Nat → Bool) : Prop :=
  ∀ n p (h : IsPerm n p), parity p n = true ↔ Equiv.Perm.sign (toPerm h) = -1

/-- Determinant of the leading `n × n` block. -/
noncomputable def ldet (n : Nat) (M : Mat K[X]) : K[X] := (asMatrix n n M).det

theorem ldet_transformed {n : Nat} {σ : K[X]} {A B : Mat K[X]} (h : Transformed n σ A B) :
    ldet n B = σ * ldet n A := by
  obtain ⟨U, h1, h2, _⟩ := h
  have : asMatrix n n B = asMatrix n n U * asMatrix n n A := by
    refine Matrix.ext fun i j => ?_
    rw [Matrix.mul_apply]
    simp only [asMatrix, Matrix.of_apply]
    rw [h2 i i.2 j, Finset.sum_range]
  unfold ldet
  rw [this, Matrix.det_mul, h1]

theorem ldet_congr {n : Nat} {A B : Mat K[X]} (h : ∀ i j, i < n → j < n → A i j = B i j) :
    ldet n A = ldet n B := by
  unfold ldet
  congr 1
  refine Matrix.ext fun i j => ?_
  exact h i j i.2 j.2

/-- Expansion along a last row which is zero except for its last entry. -/
theorem ldet_lastRow {n : Nat} {M : Mat K[X]} (h : ∀ j, j < n → M n j = 0) :
    ldet (n + 1) M = M n n * ldet n M := by
  unfold ldet
  rw [Matrix.det_succ_row _ (Fin.last n), Finset.sum_eq_single (Fin.last n)]
  · have e : (asMatrix (n + 1) (n + 1) M).submatrix (Fin.last n).succAbove (Fin.last n).succAbove =
        asMatrix n n M := by
      refine Matrix.ext fun i j => ?_
      simp [asMatrix]
    rw [e]
    have : (-1 : K[X]) ^ ((Fin.last n : Nat) + (Fin.last n : Nat)) = 1 := by
      rw [← two_mul, pow_mul]; simp
    rw [this]
    simp [asMatrix]
  · intro j _ hj
    have hj' : (j : Nat) < n := by
      have := j.2
      have : (j : Nat) ≠ n := fun e => hj (Fin.ext e)
      omega
    have : asMatrix (n + 1) (n + 1) M (Fin.last n) j = 0 := h j hj'
    rw [this]; simp
  · simp

theorem ldet_zeroRow {n k : Nat} (hk : k < n) {M : Mat K[X]} (h : ∀ j, j < n → M k j = 0) :
    ldet n M = 0 := by
  unfold ldet
  exact Matrix.det_eq_zero_of_row_eq_zero (⟨k, hk⟩ : Fin n) fun j => h j j.2

/-- Product of the diagonal entries `i+1 .. i+n`. -/
noncomputable def diagFrom (i n : Nat) (M : Mat K[X]) : K[X] := ∏ k ∈ Finset.range n, M (i + 1 + k) (i + 1 + k)

theorem diagLoop_eq (M : Mat K[X]) (d : K[X]) (n : Nat) : diagLoop M d n = d * diagFrom 0 n M := by
  induction n with
  | zero => simp [diagLoop, diagFrom]
  | succ n ih =>
    simp only [diagLoop]
    rw [ih]
    unfold diagFrom
    rw [Finset.prod_range_succ, mul_assoc, show 0 + 1 + n = n + 1 by omega]

theorem det_step (qs : QsortFn) (hqs : QsortContract qs) (parity : (Nat → Nat) → Nat → Bool)
    (hpar : ParityContract parity) (r : Nat) (junk : Nat → Mat K[X]) (perm0 rrp0 : Nat → Nat) (i : Nat)
    (hi : 1 ≤ i) (hir : i < r) (s : DetState K) (ho : s.oob = false) (hu : s.udet = 1 ∨ s.udet = -1) :
    (Ends (fun fuel => detStep qs parity fuel r junk perm0 rrp0 i s) (.inl false) ∧ ldet (i + 1) s.mat = 0) ∨
      ∃ s', Ends (fun fuel => detStep qs parity fuel r junk perm0 rrp0 i s) (.inr s') ∧ s'.oob = false ∧
        (s'.udet = 1 ∨ s'.udet = -1) ∧ (∀ k, i < k → s'.mat k = s.mat k) ∧
        ((s.udet : Int) : K[X]) * ldet (i + 1) s.mat =
          ((s'.udet : Int) : K[X]) * (ldet i s'.mat * s'.mat i i) := by
  obtain ⟨w, ⟨N, hN⟩, h2, h3, h4⟩ := weakPopovSubmat_spec (K := K) (o := .rowUpper) (shift := none) (m := i + 1) (c := i)
    (A := s.mat) (T := none) (det0 := s.udet) (piv0 := s.pivind) (rrp0 := rrp0) (Or.inr ⟨rfl, Or.inl rfl⟩) 2
    (by omega) (by omega)
  have hsum := h2.sum
  have hrkc : w.rk ≤ i := by
    have := weakPopov_rank _ _ _ _ _ h2.weakPopov
    have h' := rankOf_le_width w.rk i w.mat
    omega
  obtain ⟨σ, hσ, hdet, htr⟩ := h2.trans
  have htr' : Transformed (i + 1) ((σ : Int) : K[X]) s.mat w.mat := htr.cols Sum.inl
  have hld := ldet_transformed htr'
  have hσσ : ((σ : Int) : K[X]) * ((σ : Int) : K[X]) = 1 := by rcases hσ with rfl | rfl <;> simp
  have hlast : ∀ j, j < i → w.mat i j = 0 := h2.zero i (by omega) (by omega)
  have hexp := ldet_lastRow hlast
  by_cases hz : w.zr = 2
  · left
    refine ⟨?_, ?_⟩
    · refine ⟨N, fun fuel hf => ?_⟩
      simp only
      unfold detStep
      have h1 := hN fuel hf
      simp only at h1
      rw [h1]
      simp only [Option.map_some, ho, h2.noOob, Bool.or_self]
      rw [if_pos (Or.inl (by rw [if_pos (by omega)]; omega))]
    · have hz2 : ldet i w.mat = 0 :=
        ldet_zeroRow (k := i - 1) (by omega) (h2.zero (i - 1) (by omega) (by omega))
      rw [hz2, mul_zero, hld] at hexp
      have := congrArg (((σ : Int) : K[X]) * ·) hexp
      simpa [← mul_assoc, hσσ] using this
  · have hrk : w.rk = i := by omega
    have hzr : w.zr = 1 := by omega
    by_cases hii : w.mat i i = 0
    · left
      refine ⟨?_, ?_⟩
      · refine ⟨N, fun fuel hf => ?_⟩
        simp only
        unfold detStep
        have h1 := hN fuel hf
        simp only at h1
        rw [h1]
        simp only [Option.map_some, ho, h2.noOob, Bool.or_self]
        rw [if_pos (Or.inr hii)]
      · rw [hii, zero_mul, hld] at hexp
        have := congrArg (((σ : Int) : K[X]) * ·) hexp
        simpa [← mul_assoc, hσσ] using this
    · right
      obtain ⟨k1, k2, k3, k4, k5, k6, k7, k8⟩ :=
        C48_permute_rows_by_sorting qs hqs r w.mat i (by omega) w.pivind perm0
      have hperm : Transformed i ((Equiv.Perm.sign (toPerm k1.isPerm) : ℤ) : K[X]) w.mat
          (permuteRowsBySorting qs r w.mat i w.pivind perm0).1 :=
        permuteRows_transformed i _ _ _ k1.isPerm (fun j hj => k7 j (by omega)) (fun j hj => k8 j hj)
      have hlp := ldet_transformed hperm
      have hpc := hpar i _ k1.isPerm
      generalize hσp : (Equiv.Perm.sign (toPerm k1.isPerm) : ℤ) = τ at *
      have hτ : τ = 1 ∨ τ = -1 := by rw [← hσp]; exact sign_cases _
      have hud : (if parity (permuteRowsBySorting qs r w.mat i w.pivind perm0).2.2 i then -w.det else w.det) =
          τ * w.det := by
        by_cases hp : parity (permuteRowsBySorting qs r w.mat i w.pivind perm0).2.2 i = true
        · have := hpc.1 hp
          rw [this] at hσp
          rw [if_pos hp, ← hσp]; simp
        · rw [if_neg hp]
          rcases Int.units_eq_one_or (Equiv.Perm.sign (toPerm k1.isPerm)) with e | e
          · rw [e] at hσp; rw [← hσp]; simp
          · exact absurd (hpc.2 e) hp
      refine ⟨{ mat := window i (permuteRowsBySorting qs r w.mat i w.pivind perm0).1 (junk i)
                udet := τ * w.det
                pivind := (permuteRowsBySorting qs r w.mat i w.pivind perm0).2.1
                oob := false }, ?_, rfl, ?_, fun k hk => ?_, ?_⟩
      · refine ⟨N, fun fuel hf => ?_⟩
        simp only
        unfold detStep
        have h1 := hN fuel hf
        simp only at h1
        rw [h1]
        simp only [Option.map_some, ho, h2.noOob, Bool.or_self]
        rw [if_neg (by rw [if_neg (by omega)]; push Not; exact ⟨by omega, hii⟩)]
        rw [if_neg (by omega), Int.toNat_natCast, hrk, hud]
      · simp only
        rw [hdet]
        rcases hτ with rfl | rfl <;> rcases hσ with rfl | rfl <;> rcases hu with e | e <;> rw [e] <;> simp
      · funext j
        simp only [window]
        rw [if_neg (by omega), k8 k (by omega)]
        obtain ⟨U, _, _, hout⟩ := htr'
        rw [hout k (by omega)]
      · simp only
        have e1 : ldet i (window i (permuteRowsBySorting qs r w.mat i w.pivind perm0).1 (junk i)) =
            ldet i (permuteRowsBySorting qs r w.mat i w.pivind perm0).1 :=
          ldet_congr fun a b ha hb => by simp only [window]; rw [if_neg (by omega)]
        have e2 : window i (permuteRowsBySorting qs r w.mat i w.pivind perm0).1 (junk i) i i = w.mat i i := by
          simp only [window]; rw [if_neg (by omega), k8 i (by omega)]
        rw [e1, e2, hlp, hdet]
        have hττ : ((τ : Int) : K[X]) * ((τ : Int) : K[X]) = 1 := by rcases hτ with rfl | rfl <;> simp
        have : ldet (i + 1) s.mat = ((σ : Int) : K[X]) * ldet (i + 1) w.mat := by
          rw [hld, ← mul_assoc, hσσ, one_mul]
        rw [this, hexp]
        push_cast
        linear_combination (-(((σ : Int) : K[X]) * ((s.udet : Int) : K[X]) * w.mat i i * ldet i w.mat)) * hττ

theorem det_loop (qs : QsortFn) (hqs : QsortContract qs) (parity : (Nat → Nat) → Nat → Bool)
    (hpar : ParityContract parity) (r : Nat) (junk : Nat → Mat K[X]) (perm0 rrp0 : Nat → Nat) (i : Nat) :
    ∀ (s : DetState K), i < r → s.oob = false → (s.udet = 1 ∨ s.udet = -1) →
      (Ends (fun fuel => detLoop qs parity fuel r junk perm0 rrp0 i s) (.inl false) ∧
        ldet (i + 1) s.mat = 0) ∨
      ∃ s', Ends (fun fuel => detLoop qs parity fuel r junk perm0 rrp0 i s) (.inr s') ∧ s'.oob = false ∧
        (s'.udet = 1 ∨ s'.udet = -1) ∧ (∀ k, i < k → s'.mat k = s.mat k) ∧
        ((s.udet : Int) : K[X]) * ldet (i + 1) s.mat =
          ((s'.udet : Int) : K[X]) * (s'.mat 0 0 * diagFrom 0 i s'.mat) := by
  induction i with
  | zero =>
    intro s _ ho hu
    refine Or.inr ⟨s, Ends.pure fun _ => rfl, ho, hu, fun _ _ => rfl, ?_⟩
    simp [ldet, diagFrom, asMatrix]
  | succ i ih =>
    intro s hir ho hu
    have hunit : ∀ {u : Int}, (u = 1 ∨ u = -1) → ∀ {a b : K[X]}, ((u : Int) : K[X]) * a = b → b = 0 → a = 0 := by
      intro u hu' a b h1 h2
      rcases hu' with rfl | rfl
      · simpa [h2] using h1
      · simpa [h2] using h1
    rcases det_step qs hqs parity hpar r junk perm0 rrp0 (i + 1) (by omega) hir s ho hu with
      ⟨⟨N, hN⟩, h0⟩ | ⟨s1, ⟨N, hN⟩, h1, h2, h3, h4⟩
    · refine Or.inl ⟨⟨N, fun fuel hf => ?_⟩, h0⟩
      have h := hN fuel hf
      simp only at h
      simp only [detLoop, h]
    · rcases ih s1 (by omega) h1 h2 with ⟨⟨N', hN'⟩, k0⟩ | ⟨s2, ⟨N', hN'⟩, k1, k2, k3, k4⟩
      · refine Or.inl ⟨⟨max N N', fun fuel hf => ?_⟩, ?_⟩
        · have h := hN fuel (by omega)
          have h' := hN' fuel (by omega)
          simp only at h h'
          simp only [detLoop, h, h']
        · exact hunit hu h4 (by rw [k0]; ring)
      · refine Or.inr ⟨s2, ⟨max N N', fun fuel hf => ?_⟩, k1, k2, fun k hk => ?_, ?_⟩
        · have h := hN fuel (by omega)
          have h' := hN' fuel (by omega)
          simp only at h h'
          simp only [detLoop, h, h']
        · rw [k3 k (by omega), h3 k hk]
        · rw [h4, ← mul_assoc, k4, ← k3 (i + 1) (by omega)]
          unfold diagFrom
          rw [Finset.prod_range_succ, show 0 + 1 + i = i + 1 by omega]
          ring

/-- **C34**. `nmod_poly_mat_det_iter` terminates on every square matrix, accesses
    nothing out of bounds, and gives the determinant, sign included, for singular and
    nonsingular matrices; whatever the uninitialised arrays and the entries left
    outside of the window contain. -/
theorem C34_det_iter (qs : QsortFn) (hqs : QsortContract qs) (parity : (Nat → Nat) → Nat → Bool)
    (hpar : ParityContract parity) (r : Nat) (junk : Nat → Mat K[X]) (perm0 rrp0 : Nat → Nat)
    (piv0 : Nat → Int) (A : Mat K[X]) :
    Ends (fun fuel => detIter qs parity fuel r junk perm0 rrp0 piv0 A) ((asMatrix r r A).det, false) := by
  by_cases hr : r = 0
  · subst hr
    refine Ends.pure fun fuel => ?_
    simp [detIter]
  · have hmain := det_loop qs hqs parity hpar r junk perm0 rrp0 (r - 1)
      { mat := A, udet := 1, pivind := piv0, oob := false } (by omega) rfl (Or.inl rfl)
    rw [show r - 1 + 1 = r by omega] at hmain
    rcases hmain with ⟨⟨N, hN⟩, h0⟩ | ⟨s, ⟨N, hN⟩, h1, h2, _, h4⟩
    · refine ⟨N, fun fuel hf => ?_⟩
      have h := hN fuel hf
      simp only at h
      unfold ldet at h0
      simp only [detIter]
      rw [if_neg hr, h]
      simp only [Option.map_some, h0]
    · refine ⟨N, fun fuel hf => ?_⟩
      have h := hN fuel hf
      simp only at h
      simp only [Int.cast_one, one_mul] at h4
      unfold ldet at h4
      simp only [detIter]
      rw [if_neg hr, h, h4]
      simp only [Option.map_some, h1]
      by_cases hz : s.mat 0 0 = 0
      · rw [if_neg (by simpa using hz), hz]; simp
      · rw [if_pos hz, diagLoop_eq]
        congr 2
        rcases h2 with e | e
        · rw [e, if_neg (by decide)]; simp
        · rw [e, if_pos rfl]; push_cast; ring

/-- The two contracts can be met. -/
theorem C34_contracts_satisfiable : (∃ qs, QsortContract qs) ∧ ∃ parity, ParityContract parity := by
  refine ⟨⟨insQsort, insQsort_contract⟩, ?_⟩
  classical
  refine ⟨fun p n => decide (∃ h : IsPerm n p, Equiv.Perm.sign (toPerm h) = -1), fun n p h => ?_⟩
  rw [decide_eq_true_eq]
  exact ⟨fun ⟨_, e⟩ => e, fun e => ⟨h, e⟩⟩

end PML.Det
