import Verif.Hermite.Gcd
import Verif.Hermite.Props

/-!
# Echelon and Hermite forms in the style of Mulders and Storjohann: properties C35, C36
-/

namespace PML.Hermite

open PML.MatOps PML.MatOps.Spec PML.MatPoly PML.Forms PML.Forms.Spec PML.RowOps PML.RowOps.Spec
open PML.WeakPopov PML.Hermite.Spec PML.PolyMul.Spec Polynomial PML.Sort PML.Sort.Spec PML.Det

set_option linter.unusedSectionVars false

variable {K : Type} [Field K] [DecidableEq K]

/-- The first weak Popov form, on the first `c` columns. -/
theorem firstPopov_spec (r c : Nat) (hr : 0 < r) (rrp0 : Nat → Nat) (A : Mat K[X]) (T : Option (Mat K[X]))
    (piv0 : Nat → Int) (udet0 : Int) :
    ∃ w : WPState K,
      Ends (fun fuel => weakPopovSubmat fuel .rowUpper none A T udet0 piv0 rrp0 r c r) (w, (w.rk : Int)) ∧
      w.oob = false ∧ TrD r (A, T) udet0 (w.mat, w.tsf) w.det ∧ w.rk ≤ r ∧ w.rk ≤ c ∧
      WeakPopov false w.rk c (shiftOf none) w.mat ∧
      (∀ k, w.rk ≤ k → k < r → ∀ j, j < c → w.mat k j = 0) ∧
      (∀ k, w.rk < k → w.pivind k = piv0 k) := by
  by_cases hc : c = 0
  · subst hc
    refine ⟨wpInit A T udet0 piv0 rrp0, Ends.pure fun fuel => ?_, rfl, TrD.refl _ _ _, Nat.zero_le _, le_rfl, ?_,
      fun k _ _ j hj => by omega, fun k _ => rfl⟩
    · unfold weakPopovSubmat; exact if_pos (Or.inr rfl)
    · exact (WPInv.init .rowUpper none r 0 A T udet0 piv0 rrp0).weakPopov
  · obtain ⟨w, h1, h2, h3, h4⟩ := weakPopovSubmat_spec (K := K) (o := .rowUpper) (shift := none) (m := r)
      (c := c) (A := A) (T := T) (det0 := udet0) (piv0 := piv0) (rrp0 := rrp0)
      (Or.inr ⟨rfl, Or.inl rfl⟩) r hr (by omega)
    have hsum := h2.sum
    have hrkc : w.rk ≤ c := by
      have := weakPopov_rank _ _ _ _ _ h2.weakPopov
      have h' := rankOf_le_width w.rk c w.mat
      omega
    obtain ⟨σ, hσ, hdet, htr⟩ := h2.trans
    refine ⟨w, ?_, h2.noOob, ⟨σ, hσ, hdet, h2.shape, htr⟩, by omega, hrkc, h2.weakPopov,
      fun k h1 h2' => h2.zero k (by omega) h2', fun k hk => h2.pivout k (Or.inl hk)⟩
    have : (if w.zr ≥ r then -(w.rk : Int) else (w.rk : Int)) = (w.rk : Int) := by split_ifs <;> omega
    rwa [this] at h1

/-- The function after the first weak Popov form and the search of a missed pivot. -/
theorem urefMatrixgcdIter_start (xg : XgcdFn K) (qs : QsortFn) (parity : (Nat → Nat) → Nat → Bool) (fuel r c : Nat)
    (h0 : ¬ (r = 0 ∨ c = 0)) (perm0 rrp0 : Nat → Nat) (A : Mat K[X]) (T : Option (Mat K[X])) (piv0 : Nat → Int)
    (udet0 : Int) (w : WPState K) (k : Nat) (q : Pair K × Nat)
    (h1 : weakPopovSubmat fuel .rowUpper none A T udet0 piv0 rrp0 r (min r c - 1) r = some (w, (k : Int)))
    (hq : missedPivot xg r k (w.mat, w.tsf) = q) (w1 : w.oob = false) (s1 : GState K)
    (hs1 : s1 = { pair := q.1, udet := w.det, pivind := w.pivind, oob := false }) :
    urefMatrixgcdIter xg qs parity fuel r c perm0 rrp0 A T piv0 udet0 =
      if ∃ i, i < r ∧ ∃ j, j < c ∧ q.2 ≤ i ∧ q.2 ≤ j ∧ q.1.1 i j ≠ 0 then some (s1, -(q.2 : Int) - 1)
      else (gcdLoop qs parity fuel r perm0 rrp0 q.2 s1).map fun res =>
        match res with
        | .inl s => (s, -(q.2 : Int))
        | .inr s => ({ s with pivind := fun j => if j < q.2 then (j : Int) else s.pivind j }, (q.2 : Int)) := by
  unfold urefMatrixgcdIter
  simp only
  rw [if_neg h0, h1]
  simp only [Option.bind_some, Int.toNat_natCast, hq, w1]
  have : decide ((k : Int) < 0) = false := by simp
  simp only [this, Bool.or_self, hs1]
  by_cases hw : ∃ i, i < r ∧ ∃ j, j < c ∧ q.2 ≤ i ∧ q.2 ≤ j ∧ q.1.1 i j ≠ 0
  · rw [if_pos hw, if_pos hw]
  · rw [if_neg hw, if_neg hw]
    rfl

/-- Everything about `nmod_poly_mat_uref_matrixgcd_iter`. -/
theorem urefMatrixgcdIter_spec {xg : XgcdFn K} (hx : XgcdContract xg) (qs : QsortFn) (hqs : QsortContract qs)
    (parity : (Nat → Nat) → Nat → Bool) (hpar : ParityContract parity) (r c : Nat)
    (perm0 rrp0 : Nat → Nat) (A : Mat K[X]) (T : Option (Mat K[X])) (piv0 : Nat → Int) (udet0 : Int) :
    ∃ (s : GState K) (ret : Int),
      Ends (fun fuel => urefMatrixgcdIter xg qs parity fuel r c perm0 rrp0 A T piv0 udet0) (s, ret) ∧
      s.oob = false ∧ TrS r (A, T) s.pair ∧ (r ≤ c → TrD r (A, T) udet0 s.pair s.udet) ∧
      (∀ j, rankOf r c A < j → s.pivind j = piv0 j) ∧
      ((ret = rankOf r c A ∧ EchelonForm r c s.pair.1 (rankOf r c A) id ∧ (∀ j, j < rankOf r c A → s.pivind j = j)) ∨
        (ret < 0 ∧ ¬ GenericProfile r c A)) := by
  by_cases h0 : r = 0 ∨ c = 0
  · have hrank : rankOf r c A = 0 := by
      rcases h0 with rfl | rfl
      · have := rankOf_le 0 c A; omega
      · have := rankOf_le_width r 0 A; omega
    refine ⟨{ pair := (A, T), udet := udet0, pivind := piv0, oob := false }, 0, Ends.pure fun fuel => ?_, rfl,
      TrS.refl _ _, fun _ => TrD.refl _ _ _, fun _ _ => rfl, Or.inl ⟨by rw [hrank]; rfl, ?_, ?_⟩⟩
    · unfold urefMatrixgcdIter; exact if_pos h0
    · rw [hrank]
      exact ⟨by omega, fun i hi => by omega, fun i k _ hk => by omega, fun i _ hi j hj => by omega⟩
    · rw [hrank]; intro j hj; omega
  · have hr : 0 < r := by omega
    have hc : 0 < c := by omega
    obtain ⟨w, ⟨N, hN⟩, w1, w2, w3, w4, w5, w6, w7⟩ := firstPopov_spec r (min r c - 1) hr rrp0 A T piv0 udet0
    have hwrank : ∀ t, rankOf r t w.mat = rankOf r t A := fun t => w2.toS.toU.rank t
    -- the missed pivot
    obtain ⟨q, hq, hqle, hqS, hqD, hqz, hqr, hpr⟩ : ∃ q : Pair K × Nat, missedPivot xg r w.rk (w.mat, w.tsf) = q ∧ q.2 ≤ r ∧
        TrS r (w.mat, w.tsf) q.1 ∧ (r ≤ c → Tr r 1 (w.mat, w.tsf) q.1) ∧
        (∀ k, q.2 ≤ k → k < r → ∀ j, j < q.2 → q.1.1 k j = 0) ∧
        (w.rk ≤ q.2 ∧ q.2 ≤ rankOf r c A) ∧
        ((∃ i, i < r ∧ ∃ j, j < c ∧ q.2 ≤ i ∧ q.2 ≤ j ∧ q.1.1 i j ≠ 0) → ¬ GenericProfile r c A) := by
      rcases missedPivot_spec hx (r := r) (rk := w.rk) (s := (w.mat, w.tsf)) w3
          (fun k h1 h2 j hj => w6 k h1 h2 j (by omega)) with ⟨h1, h2⟩ | ⟨h1, h2, h3, h4, h5, h6, h7, h8⟩
      · rw [h1]
        refine ⟨_, rfl, w3, TrS.refl _ _, fun _ => Tr.refl _ _, fun k hk hkr j hj => w6 k hk hkr j ?_, ⟨le_rfl, ?_⟩, ?_⟩
        · have : j < w.rk := hj
          omega
        · have e1 := weakPopov_rank _ _ _ _ _ w5
          have e2 := rankOf_rows_mono (c := min r c - 1) w3 w.mat
          have e3 := rankOf_cols_mono (m := r) (c := min r c - 1) (c' := c) (by omega) w.mat
          rw [hwrank c] at e3
          simp only
          omega
        · rintro ⟨i, hi, j, hj, hwi, hwj, hne⟩ hgen
          simp only at hwi hwj hne
          have e1 : rankOf r (w.rk + 1) w.mat ≤ w.rk := rankOf_zeroRows fun k hk hkr jj hjj => by
            by_cases hjk : jj = w.rk
            · subst hjk; exact h2 k hk hkr
            · exact w6 k hk hkr jj (by omega)
          -- the rank is larger
          have e2 : w.rk + 1 ≤ rankOf r c A := by
            have hle : w.rk ≤ rankOf r c A := by
              have e1 := weakPopov_rank _ _ _ _ _ w5
              have e2 := rankOf_rows_mono (c := min r c - 1) w3 w.mat
              have e3 := rankOf_cols_mono (m := r) (c := min r c - 1) (c' := c) (by omega) w.mat
              rw [hwrank c] at e3
              omega
            rcases Nat.lt_or_ge w.rk (rankOf r c A) with h | h
            · omega
            · exfalso
              -- rows 0..rk-1 and row i are independent
              have hind : rankOf (w.rk + 1) c (fun k => if k < w.rk then w.mat k else w.mat i) = w.rk + 1 := by
                refine rankOf_independent fun u hu => ?_
                have hu' : ∀ jj, jj < c → (∑ k ∈ Finset.range w.rk, u k * w.mat k jj) + u w.rk * w.mat i jj = 0 := by
                  intro jj hjj
                  have := hu jj hjj
                  rw [Finset.sum_range_succ] at this
                  simp only [lt_irrefl, if_false] at this
                  rw [← this]
                  congr 1
                  refine Finset.sum_congr rfl fun k hk => ?_
                  rw [if_pos (Finset.mem_range.1 hk)]
                have hz : ∀ k, k < w.rk → u k = 0 := by
                  refine weakPopov_independent _ _ _ _ _ w5 u fun jj hjj => ?_
                  have := hu' jj (by omega)
                  rw [w6 i hwi hi jj hjj, mul_zero, add_zero] at this
                  exact this
                intro k hk
                by_cases hkw : k < w.rk
                · exact hz k hkw
                · have : k = w.rk := by omega
                  subst this
                  have := hu' j hj
                  rw [Finset.sum_eq_zero (fun k hk => by rw [hz k (Finset.mem_range.1 hk), zero_mul]), zero_add] at this
                  rcases mul_eq_zero.1 this with h | h
                  · exact h
                  · exact absurd h hne
              have hle2 : rankOf (w.rk + 1) c (fun k => if k < w.rk then w.mat k else w.mat i) ≤ rankOf r c w.mat :=
                rankOf_le_of_sat fun k hk => le_sat _ (by
                  by_cases hkw : k < w.rk
                  · have : firstCols c (fun k => if k < w.rk then w.mat k else w.mat i) k = firstCols c w.mat k := by
                      funext jj; simp [firstCols, hkw]
                    rw [this]; exact row_mem_rowSpan (by omega) _
                  · have : firstCols c (fun k => if k < w.rk then w.mat k else w.mat i) k = firstCols c w.mat i := by
                      funext jj; simp [firstCols, hkw]
                    rw [this]; exact row_mem_rowSpan hi _)
              rw [hwrank c] at hle2
              omega
          have := rankOf_generic hgen (w.rk + 1) e2
          rw [hwrank] at e1
          omega
      · -- then `rk = mdim - 1`
        have hmd : w.rk = min r c - 1 := by
          by_contra hne
          have : w.rk < min r c - 1 := by omega
          have hz8 : TrS r (w.mat, w.tsf) (missedPivot xg r w.rk (w.mat, w.tsf)).1 := h3
          have e1 : rankOf r (w.rk + 1) w.mat ≤ w.rk := rankOf_zeroRows fun k hk hkr j hj => w6 k hk hkr j (by omega)
          have e2 := hz8.toU.rank (w.rk + 1)
          have e3 : rankOf (w.rk + 1) (w.rk + 1) (missedPivot xg r w.rk (w.mat, w.tsf)).1.1 = w.rk + 1 := by
            refine rankOf_independent fun u hu => ?_
            have hz : ∀ k, k < w.rk → u k = 0 := by
              refine weakPopov_independent _ _ _ _ _ w5 u fun jj hjj => ?_
              exfalso
              -- row `rk` of the weak Popov form is zero on the columns before `mdim - 1`
              have := h2
              unfold missedPivot at this
              have hnf : findFrom (fun i => decide (w.mat i w.rk ≠ 0)) (r - w.rk) w.rk = r := by
                obtain ⟨f1, f2, f3, f4⟩ := findFrom_spec (fun i => decide (w.mat i w.rk ≠ 0)) (r - w.rk) w.rk
                by_contra hcon
                have hlt : findFrom (fun i => decide (w.mat i w.rk ≠ 0)) (r - w.rk) w.rk < w.rk + (r - w.rk) := by omega
                have := f4 hlt
                simp only [decide_eq_true_eq] at this
                exact this (w6 _ f1 (by omega) w.rk (by omega))
              simp only [hnf, lt_irrefl, if_false] at this
              omega
            intro k hk
            by_cases hkw : k < w.rk
            · exact hz k hkw
            · have : k = w.rk := by omega
              subst this
              have := hu w.rk (by omega)
              rw [Finset.sum_range_succ, Finset.sum_eq_zero (fun k hk => by rw [hz k (Finset.mem_range.1 hk), zero_mul]),
                zero_add] at this
              rcases mul_eq_zero.1 this with h | h
              · exact h
              · exact absurd h h7
          have e4 := rankOf_rows_mono (c := w.rk + 1) (show w.rk + 1 ≤ r by omega) (missedPivot xg r w.rk (w.mat, w.tsf)).1.1
          simp only at e2
          omega
        refine ⟨_, rfl, by omega, h3, fun hrc => h4 (by omega), fun k hk hkr j hj => h8 k (by omega) hkr j (by omega), ⟨by omega, ?_⟩, ?_⟩
        · rw [h2]
          have e3 : rankOf (w.rk + 1) (w.rk + 1) (missedPivot xg r w.rk (w.mat, w.tsf)).1.1 = w.rk + 1 := by
            refine rankOf_independent fun u hu => ?_
            have hz : ∀ k, k < w.rk → u k = 0 := by
              refine weakPopov_independent _ _ _ _ _ w5 u fun jj hjj => ?_
              have := hu jj (by omega)
              rw [Finset.sum_range_succ, h6 jj (by omega), mul_zero, add_zero] at this
              rw [← this]
              refine Finset.sum_congr rfl fun k hk => ?_
              rw [h5 k (Finset.mem_range.1 hk)]
            intro k hk
            by_cases hkw : k < w.rk
            · exact hz k hkw
            · have : k = w.rk := by omega
              subst this
              have := hu w.rk (by omega)
              rw [Finset.sum_range_succ, Finset.sum_eq_zero (fun k hk => by rw [hz k (Finset.mem_range.1 hk), zero_mul]),
                zero_add] at this
              rcases mul_eq_zero.1 this with h | h
              · exact h
              · exact absurd h h7
          have e4 := rankOf_rows_mono (c := w.rk + 1) (show w.rk + 1 ≤ r by omega) (missedPivot xg r w.rk (w.mat, w.tsf)).1.1
          have e5 := rankOf_cols_mono (m := r) (show w.rk + 1 ≤ c by omega) (missedPivot xg r w.rk (w.mat, w.tsf)).1.1
          have e6 := h3.toU.rank c
          simp only at e6
          rw [e6, hwrank] at e5
          omega
        · rintro ⟨i, hi, j, hj, hwi, hwj, hne⟩
          rw [h2] at hwi hwj
          omega
    have hS1 : TrS r (A, T) q.1 := w2.toS.trans hqS
    have hD1 : r ≤ c → TrD r (A, T) udet0 q.1 w.det := fun hrc => by
      refine w2.trans ⟨1, Or.inl rfl, by simp, ?_⟩
      simpa using hqD hrc
    let s1 : GState K := { pair := q.1, udet := w.det, pivind := w.pivind, oob := false }
    have hstart : ∀ fuel, N ≤ fuel → urefMatrixgcdIter xg qs parity fuel r c perm0 rrp0 A T piv0 udet0 =
        if ∃ i, i < r ∧ ∃ j, j < c ∧ q.2 ≤ i ∧ q.2 ≤ j ∧ q.1.1 i j ≠ 0 then some (s1, -(q.2 : Int) - 1)
        else (gcdLoop qs parity fuel r perm0 rrp0 q.2 s1).map fun res =>
          match res with
          | .inl s => (s, -(q.2 : Int))
          | .inr s => ({ s with pivind := fun j => if j < q.2 then (j : Int) else s.pivind j }, (q.2 : Int)) := by
      intro fuel hf
      have h1 := hN fuel hf
      simp only at h1
      exact urefMatrixgcdIter_start xg qs parity fuel r c h0 perm0 rrp0 A T piv0 udet0 w w.rk q h1 hq w1 s1 rfl
    by_cases hwin : ∃ i, i < r ∧ ∃ j, j < c ∧ q.2 ≤ i ∧ q.2 ≤ j ∧ q.1.1 i j ≠ 0
    · refine ⟨s1, -(q.2 : Int) - 1, ⟨N, fun fuel hf => ?_⟩, rfl, hS1, hD1, fun j hj => w7 j (by omega),
        Or.inr ⟨by omega, hpr hwin⟩⟩
      simp only
      rw [hstart fuel hf, if_pos hwin]
    · have hzrows : ∀ k, q.2 ≤ k → k < r → ZeroVec c (q.1.1 k) := by
        intro k hk hkr j hj
        by_cases hjq : j < q.2
        · exact hqz k hk hkr j hjq
        · by_contra hne
          exact hwin ⟨k, hkr, j, hj, hk, by omega, hne⟩
      have hrkeq : rankOf r c A = q.2 := by
        have e1 := rankOf_zeroRows hzrows
        have e2 := hS1.toU.rank c
        simp only at e2
        omega
      rcases gcd_loop qs hqs parity hpar r perm0 rrp0 q.2 s1 hqle rfl hqz with
        ⟨s', ⟨N', hN'⟩, k1, k2, k3, k, hk, hkr⟩ | ⟨s', ⟨N', hN'⟩, k1, k2, k3, k4, k5⟩
      · refine ⟨s', -(q.2 : Int), ⟨max N N', fun fuel hf => ?_⟩, k1, hS1.trans k2.toS, fun hrc => (hD1 hrc).trans k2,
          fun j hj => ?_, Or.inr ⟨by omega, fun hgen => ?_⟩⟩
        · have h' := hN' fuel (by omega)
          simp only at h' ⊢
          rw [hstart fuel (by omega), if_neg hwin, h']
          rfl
        · rw [k3 j (by omega)]; exact w7 j (by omega)
        · have e1 := rankOf_generic hgen k (by omega)
          have e2 := hS1.toU.rank k
          simp only at e2
          have : rankOf r k q.1.1 < k := hkr
          omega
      · refine ⟨{ s' with pivind := fun j => if j < q.2 then (j : Int) else s'.pivind j }, (q.2 : Int),
          ⟨max N N', fun fuel hf => ?_⟩, k1, hS1.trans k2.toS, fun hrc => (hD1 hrc).trans k2, fun j hj => ?_, Or.inl ⟨?_, ?_, fun j hj => ?_⟩⟩
        · have h' := hN' fuel (by omega)
          simp only at h' ⊢
          rw [hstart fuel (by omega), if_neg hwin, h']
          rfl
        · simp only
          rw [if_neg (by omega), k5 j (by omega)]
          exact w7 j (by omega)
        · rw [hrkeq]
        · rw [hrkeq]
          have hqc : q.2 ≤ c := by have := rankOf_le_width r c A; omega
          refine ⟨hqle, fun i hi => ⟨by simp only [id]; omega, (k4 i hi).1, fun j _ hj => (k4 i hi).2 j hj⟩, fun i k hik _ => hik,
            fun i h1 h2 => ?_⟩
          simp only
          rw [k3 i h1]
          exact hzrows i h1 h2
        · simp only
          rw [if_pos (by omega)]

/-- The condition on the column rank profile, from the result. -/
theorem Spec.EchelonForm.generic {r c : Nat} {A B : Mat K[X]} {rk : Nat} (h : EchelonForm r c B rk id)
    (hr : ∀ t, rankOf r t B = rankOf r t A) : GenericProfile r c A := by
  unfold GenericProfile
  have h1 := h.rank_full
  have hle : rk ≤ c := by have := rankOf_le_width r c B; omega
  rw [← hr, ← hr, h1, h.rank rk hle]
  exact card_filter_of_all rk (fun l => id l < rk) fun l hl => hl

/-- **C35**, `nmod_poly_mat_uref_matrixgcd_iter`. The function terminates, accesses nothing
    out of bounds and applies to `mat` and `tsf` the same left transformation, of
    determinant 1 or -1. If the column rank profile is `0, ..., rank-1`, it returns the
    rank, `mat` is an upper echelon form with these pivots, and `pivind` holds them;
    otherwise a strictly negative number is returned. Entries of `pivind` beyond the one
    of index `rank` are unchanged. For `r ≤ c`, `udet` is multiplied by the determinant of
    the transformation. -/
theorem C35_uref_matrixgcd_iter_partial {xg : XgcdFn K} (hx : XgcdContract xg) (qs : QsortFn) (hqs : QsortContract qs)
    (parity : (Nat → Nat) → Nat → Bool) (hpar : ParityContract parity) (r c : Nat)
    (perm0 rrp0 : Nat → Nat) (A : Mat K[X]) (T : Option (Mat K[X])) (piv0 : Nat → Int) (udet0 : Int) :
    ∃ (s : GState K) (ret : Int),
      Ends (fun fuel => urefMatrixgcdIter xg qs parity fuel r c perm0 rrp0 A T piv0 udet0) (s, ret) ∧
      s.oob = false ∧ SignEquivalent r A T s.pair.1 s.pair.2 ∧
      (GenericProfile r c A →
        ret = rankOf r c A ∧ EchelonForm r c s.pair.1 (rankOf r c A) id ∧
        ColRankProfile r c A (rankOf r c A) id ∧ ∀ j, j < rankOf r c A → s.pivind j = j) ∧
      (¬ GenericProfile r c A → ret < 0) ∧
      (∀ j, rankOf r c A < j → s.pivind j = piv0 j) ∧
      (r ≤ c → ∃ σ : Int, (σ = 1 ∨ σ = -1) ∧ s.udet = σ * udet0 ∧
        Transformed r ((σ : Int) : K[X]) (beside A T) (beside s.pair.1 s.pair.2)) := by
  obtain ⟨s, ret, h1, h2, h3, h4, h5, h6⟩ := urefMatrixgcdIter_spec hx qs hqs parity hpar r c perm0 rrp0 A T piv0 udet0
  refine ⟨s, ret, h1, h2, h3.sign, fun hg => ?_, fun hg => ?_, h5, fun hrc => ?_⟩
  · rcases h6 with ⟨a, b, c'⟩ | ⟨_, h⟩
    · exact ⟨a, b, b.profile fun t => h3.toU.rank t, c'⟩
    · exact absurd hg h
  · rcases h6 with ⟨a, b, c'⟩ | ⟨h, _⟩
    · exact absurd (b.generic fun t => h3.toU.rank t) hg
    · exact h
  · obtain ⟨σ, a, b, c'⟩ := h4 hrc
    exact ⟨σ, a, b, c'.2⟩

/-- The exchange of rows which brings the missed pivot in place is not reported in
    `udet`: for the 2 × 1 matrix `(0, 1)`, `udet` is left as it is whereas the
    transformation has determinant -1 (here, modulo 5). -/
theorem C35_matrixgcd_udet_wrong (xg : XgcdFn (ZMod 5)) (qs : QsortFn) (hqs : QsortContract qs)
    (parity : (Nat → Nat) → Nat → Bool) (hpar : ParityContract parity) (perm0 rrp0 : Nat → Nat)
    (piv0 : Nat → Int) :
    ∃ (A : Mat (ZMod 5)[X]) (s : GState (ZMod 5)),
      Ends (fun fuel => urefMatrixgcdIter xg qs parity fuel 2 1 perm0 rrp0 A
        (some fun i j => if i = j then 1 else 0) piv0 1) (s, 1) ∧ s.udet = 1 ∧
      ∃ U : Mat (ZMod 5)[X], s.pair.2 = some U ∧ (asMatrix 2 2 U).det = -1 ∧
        (asMatrix 2 2 U).det ≠ ((s.udet : Int) : (ZMod 5)[X]) := by
  let A : Mat (ZMod 5)[X] := fun i _ => if i = 1 then 1 else 0
  let I : Mat (ZMod 5)[X] := fun i j => if i = j then 1 else 0
  have hm : missedPivot xg 2 0 (A, some I) = (swapPair (A, some I) 0 1, 1) := by
    simp [missedPivot, findFrom, killBelow, A]
  obtain ⟨k1, k2, k3, k4, k5, k6, k7, k8⟩ :=
    C48_permute_rows_by_sorting qs hqs 2 (swapPair (A, some I) 0 1).1 0 (by omega) piv0 perm0
  have hpar0 : parity (permuteRowsBySorting qs 2 (swapPair (A, some I) 0 1).1 0 piv0 perm0).2.2 0 = false := by
    have := hpar 0 _ k1.isPerm
    have hs : Equiv.Perm.sign (toPerm k1.isPerm) = 1 := by
      rw [Subsingleton.elim (toPerm k1.isPerm) 1]; simp
    rw [hs] at this
    by_contra hc
    have := this.1 (by simpa using hc)
    exact absurd this (by decide)
  let U : Mat (ZMod 5)[X] :=
    (permuteRows 2 (swapRows I none 0 1).1
      (permuteRowsBySorting qs 2 (swapPair (A, some I) 0 1).1 0 piv0 perm0).2.2 none).1
  have hU : ∀ i, i < 2 → U i = (swapRows I none 0 1).1 i := fun i hi => by
    simp only [U, permuteRows]
    rw [if_pos hi, k6 i (by omega) hi]
  have hdet : (asMatrix 2 2 U).det = -1 := by
    rw [Matrix.det_fin_two]
    simp only [asMatrix, Matrix.of_apply, Fin.val_zero, Fin.val_one]
    rw [hU 0 (by omega), hU 1 (by omega)]
    simp [swapRows, swapAt, I]
  refine ⟨A, { pair := ((permuteRowsBySorting qs 2 (swapPair (A, some I) 0 1).1 0 piv0 perm0).1, some U)
               udet := 1
               pivind := (fun j => if j < 1 then (j : Int) else
                (permuteRowsBySorting qs 2 (swapPair (A, some I) 0 1).1 0 piv0 perm0).2.1 j)
               oob := false },
    Ends.pure fun fuel => ?_, rfl, U, rfl, hdet, ?_⟩
  · have hw : weakPopovSubmat fuel .rowUpper none A (some I) 1 piv0 rrp0 2 0 2 =
        some (wpInit A (some I) 1 piv0 rrp0, 0) := by
      unfold weakPopovSubmat; exact if_pos (Or.inr rfl)
    have hw' : weakPopovSubmat fuel .rowUpper none (swapPair (A, some I) 0 1).1 (swapPair (A, some I) 0 1).2 1 piv0 rrp0 1 0 2 =
        some (wpInit (swapPair (A, some I) 0 1).1 (swapPair (A, some I) 0 1).2 1 piv0 rrp0, 0) := by
      unfold weakPopovSubmat; exact if_pos (Or.inr rfl)
    have hne : (swapPair (A, some I) 0 1).1 0 0 ≠ 0 := by
      simp [swapPair, swapRows, swapAt, A]
    rw [urefMatrixgcdIter_start xg qs parity fuel 2 1 (by omega) perm0 rrp0 A (some I) piv0 1 _ 0 _ hw hm rfl _ rfl,
      if_neg (by rintro ⟨i, hi, j, hj, h1, h2, _⟩; simp only at h2; omega)]
    have hloop : gcdLoop qs parity fuel 2 perm0 rrp0 1
        { pair := swapPair (A, some I) 0 1, udet := 1, pivind := piv0, oob := false } =
        some (.inr { pair := ((permuteRowsBySorting qs 2 (swapPair (A, some I) 0 1).1 0 piv0 perm0).1, some U), udet := 1,
                     pivind := (permuteRowsBySorting qs 2 (swapPair (A, some I) 0 1).1 0 piv0 perm0).2.1, oob := false }) := by
      simp only [gcdLoop, gcdStep, Nat.zero_add]
      rw [hw']
      simp only [Option.map_some, wpInit]
      rw [if_neg (by push Not; exact ⟨by simp, hne⟩)]
      simp only [hpar0]
      rfl
    simp only [wpInit]
    rw [hloop]
    rfl
  · rw [hdet]
    simp only [Int.cast_one]
    intro h
    have := congrArg (fun p => coeff p 0) h
    simp only [coeff_neg, coeff_one_zero] at this
    exact absurd this (by decide)

/-- The entry of `pivind` whose index is the rank may be overwritten, although space for
    `rank` entries is documented to be enough: for the 2 × 2 zero matrix, `pivind[0]`. -/
theorem C35_matrixgcd_pivind_overwritten (xg : XgcdFn K) (qs : QsortFn)
    (parity : (Nat → Nat) → Nat → Bool) (perm0 rrp0 : Nat → Nat) (piv0 : Nat → Int) (udet0 : Int) :
    rankOf 2 2 (fun _ _ => (0 : K[X])) = 0 ∧
    ∃ s : GState K,
      Ends (fun fuel => urefMatrixgcdIter xg qs parity fuel 2 2 perm0 rrp0 (fun _ _ => 0) none piv0 udet0) (s, 0) ∧
      s.pivind 0 = 1 := by
  refine ⟨by have := rankOf_zeroRows (n := 0) (r := 2) (c := 2) (A := fun _ _ => (0 : K[X])) (fun _ _ _ _ _ => rfl); omega, ?_⟩
  have hrot : (rotateRowsUpward (fun _ _ => (0 : K[X])) none 0 1).1 = fun _ _ => 0 := by
    simp only [rotateRowsUpward]
    funext i
    rw [rotUp_apply (by omega)]
    split_ifs <;> rfl
  have hvec : (vecPivotProfile .rowUpper none 1 (fun _ => (0 : K[X]))).1 = 1 := by
    rw [vecPivot_zero _ _ _ _ (fun _ _ => rfl)]
    simp [Orient.isRight]
  have hbody : ∀ s : WPState K, s.mat = (fun _ _ => 0) → s.tsf = none → s.rk = 0 →
      wpBody .rowUpper none 2 1 s =
        { s with pivind := Function.update s.pivind 0 1, det := -s.det, zr := s.zr + 1 } := by
    intro s h1 h2 h3
    unfold wpBody
    simp only [h1, h2, h3, hvec]
    rw [if_pos (by simp [zpiv]), hrot]
    simp
  have hwp : ∀ fuel, 2 ≤ fuel → weakPopovSubmat fuel .rowUpper none (fun _ _ => (0 : K[X])) none udet0 piv0 rrp0 2 1 2 =
      some ({ wpInit (fun _ _ => (0 : K[X])) none udet0 piv0 rrp0 with
              pivind := Function.update (Function.update piv0 0 1) 0 1, det := - -udet0, zr := 2 }, 0) := by
    intro fuel hf
    obtain ⟨n, rfl⟩ : ∃ n, fuel = n + 2 := ⟨fuel - 2, by omega⟩
    unfold weakPopovSubmat
    simp only
    rw [if_neg (by omega)]
    unfold whileLoop
    rw [if_pos (by simp [wpCond, wpInit]), hbody _ rfl rfl rfl]
    unfold whileLoop
    rw [if_pos (by simp [wpCond, wpInit]), hbody _ rfl rfl rfl]
    cases n <;> simp [whileLoop, wpCond, wpInit]
  refine ⟨{ pair := (fun _ _ => 0, none), udet := - -udet0, oob := false,
            pivind := (fun j => if j < 0 then (j : Int) else Function.update (Function.update piv0 0 1) 0 1 j) },
    ⟨2, fun fuel hf => ?_⟩, ?_⟩
  · simp only
    have hm : missedPivot xg 2 0 ((fun _ _ => (0 : K[X])), none) = (((fun _ _ => 0), none), 0) := by
      simp [missedPivot, findFrom]
    rw [urefMatrixgcdIter_start xg qs parity fuel 2 2 (by omega) perm0 rrp0 _ none piv0 udet0 _ 0 _ (hwp fuel hf) hm rfl _ rfl,
      if_neg (by rintro ⟨i, hi, j, hj, h1, h2, h3⟩; exact h3 rfl)]
    simp only [gcdLoop, Option.map_some]
    rfl
  · simp

/-- The contracts can be met together, and there are matrices with a generic column rank
    profile. -/
theorem C35_matrixgcd_hypotheses_satisfiable :
    (∃ xg : XgcdFn (ZMod 5), XgcdContract xg) ∧ (∃ qs, QsortContract qs) ∧ (∃ parity, ParityContract parity) ∧
      GenericProfile 2 3 (fun i j => if i = 0 ∧ j = 0 then (X : (ZMod 5)[X]) else 0) ∧
      ¬ GenericProfile 2 3 (fun i j => if i = 0 ∧ j = 1 then (X : (ZMod 5)[X]) else 0) := by
  have hx : (X : (ZMod 5)[X]) ≠ 0 := X_ne_zero
  refine ⟨xgcdContract_satisfiable, C34_contracts_satisfiable.1, C34_contracts_satisfiable.2, ?_, ?_⟩
  · refine Spec.EchelonForm.generic (B := fun i j => if i = 0 ∧ j = 0 then (X : (ZMod 5)[X]) else 0) (rk := 1)
      ⟨by omega, fun i hi => ⟨by simp only [id]; omega, ?_, fun j _ hj => ?_⟩, fun i k h1 h2 => by omega,
        fun i h1 _ j _ => if_neg (by omega)⟩ fun _ => rfl
    · rw [show i = 0 by omega]; simpa using hx
    · simp only [id] at hj; omega
  · have hE : EchelonForm 2 3 (fun i j => if i = 0 ∧ j = 1 then (X : (ZMod 5)[X]) else 0) 1 (fun _ => 1) := by
      refine ⟨by omega, fun i hi => ⟨by omega, ?_, fun j _ hj => ?_⟩, fun i k h1 h2 => by omega,
        fun i h1 _ j _ => if_neg (by omega)⟩
      · rw [show i = 0 by omega]; simpa using hx
      · exact if_neg (by omega)
    unfold GenericProfile
    rw [hE.rank_full, hE.rank 1 (by omega)]
    decide

/-- **C36**, `nmod_poly_mat_hnf_ur_matrixgcd_iter`: the Hermite normal form when the column
    rank profile is generic; otherwise a negative number is returned and `mat` is some
    matrix left equivalent to the input. (`udet` is documented as not supported.) -/
theorem C36_hnf_matrixgcd_iter {xg : XgcdFn K} (hx : XgcdContract xg) (qs : QsortFn) (hqs : QsortContract qs)
    (parity : (Nat → Nat) → Nat → Bool) (hpar : ParityContract parity) (r c : Nat)
    (perm0 rrp0 : Nat → Nat) (A : Mat K[X]) (T : Option (Mat K[X])) (piv0 : Nat → Int) (udet0 : Int) :
    ∃ (s : GState K) (ret : Int),
      Ends (fun fuel => hnfMatrixgcdIter xg qs parity fuel r c perm0 rrp0 A T piv0 udet0) (s, ret) ∧
      s.oob = false ∧ LeftEquivalent r A T s.pair.1 s.pair.2 ∧
      (GenericProfile r c A →
        ret = rankOf r c A ∧ HermiteForm r c s.pair.1 (rankOf r c A) id ∧
        ColRankProfile r c A (rankOf r c A) id ∧ ∀ j, j < rankOf r c A → s.pivind j = j) ∧
      (¬ GenericProfile r c A → ret < 0) := by
  obtain ⟨s, ret, h1, h2, h3, h4, h5, h6⟩ := urefMatrixgcdIter_spec hx qs hqs parity hpar r c perm0 rrp0 A T piv0 udet0
  refine ⟨{ s with pair := normalizeUref (fun j => (s.pivind j).toNat) ret.toNat s.pair }, ret, ?_, h2, ?_⟩
  · obtain ⟨N, hN⟩ := h1
    refine ⟨N, fun fuel hf => ?_⟩
    have h := hN fuel hf
    simp only at h ⊢
    unfold hnfMatrixgcdIter
    rw [h]
    rfl
  simp only
  rcases h6 with ⟨a, b, c'⟩ | ⟨hneg, hng⟩
  · have hpiv : EchelonForm r c s.pair.1 (rankOf r c A) (fun j => (s.pivind j).toNat) := by
      refine ⟨b.le, fun i hi => ?_, fun i k hik hk => ?_, b.zero⟩
      · rw [c' i hi, Int.toNat_natCast]; exact b.pivot i hi
      · rw [c' i (by omega), c' k hk, Int.toNat_natCast, Int.toNat_natCast]; exact hik
    obtain ⟨n1, n2⟩ := normalizeUref_hermite hpiv
    rw [a, Int.toNat_natCast]
    refine ⟨(h3.toU.trans n1).left, fun _ => ⟨rfl, ⟨⟨n2.le, fun i hi => ?_, fun i k hik _ => hik, n2.zero⟩,
      fun i hi => ?_, fun i k hik hi => ?_⟩, b.profile fun t => h3.toU.rank t, c'⟩,
      fun hg => absurd (b.generic fun t => h3.toU.rank t) hg⟩
    · have := n2.pivot i hi
      rw [c' i hi, Int.toNat_natCast] at this; exact this
    · have := n2.monic i hi
      rw [c' i hi, Int.toNat_natCast] at this; exact this
    · have := n2.reduced i k hik hi
      rw [c' i hi, Int.toNat_natCast] at this; exact this
  · have : ret.toNat = 0 := by omega
    rw [this]
    exact ⟨h3.toU.left, fun hg => absurd hg hng, fun _ => hneg⟩

end PML.Hermite
