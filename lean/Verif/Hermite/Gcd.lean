import Verif.Hermite.Echelon
import Verif.Hermite.Rank
import Verif.Det.Props

/-! # Lemmas: the echelon form in the style of Mulders and Storjohann -/

namespace PML.Hermite

open PML.MatOps PML.MatOps.Spec PML.MatPoly PML.Forms PML.Forms.Spec PML.RowOps PML.RowOps.Spec
open PML.WeakPopov PML.Hermite.Spec PML.PolyMul.Spec Polynomial PML.Sort PML.Sort.Spec PML.Det

set_option linter.unusedSectionVars false

variable {K : Type} [Field K] [DecidableEq K]

/-! ### Rank -/

theorem rankOf_le_succ (m c : Nat) (A : Mat K[X]) : rankOf m c A ≤ rankOf m (c + 1) A := by
  unfold rankOf
  rw [Matrix.rank_eq_finrank_span_cols, Matrix.rank_eq_finrank_span_cols]
  refine Submodule.finrank_mono (Submodule.span_le.2 ?_)
  rintro _ ⟨j, rfl⟩
  exact Submodule.subset_span ⟨⟨j, by omega⟩, rfl⟩

theorem rankOf_cols_mono {m c c' : Nat} (h : c ≤ c') (A : Mat K[X]) : rankOf m c A ≤ rankOf m c' A := by
  induction c', h using Nat.le_induction with
  | base => exact le_rfl
  | succ n _ ih => exact ih.trans (rankOf_le_succ m n A)

theorem rankOf_rows_mono {m m' c : Nat} (h : m ≤ m') (A : Mat K[X]) : rankOf m c A ≤ rankOf m' c A :=
  rankOf_le_of_sat fun i hi => le_sat _ (row_mem_rowSpan (by omega) _)

theorem rankOf_zeroRows {n r c : Nat} {A : Mat K[X]} (h : ∀ i, n ≤ i → i < r → ZeroVec c (A i)) :
    rankOf r c A ≤ n := by
  refine (rankOf_le_of_sat (m' := n) (B := A) fun i hi => ?_).trans (rankOf_le _ _ _)
  by_cases hin : i < n
  · exact le_sat _ (row_mem_rowSpan hin _)
  · have : firstCols c A i = 0 := by
      funext j
      exact h i (by omega) hi j j.2
    rw [this]
    exact Submodule.zero_mem _

/-- The first columns, up to the rank, are independent: then so are fewer of them. -/
theorem rankOf_generic {r n : Nat} {A : Mat K[X]} (h : rankOf r n A = n) : ∀ t, t ≤ n → rankOf r t A = t := by
  have key : ∀ d t, t + d = n → rankOf r t A = t := by
    intro d
    induction d with
    | zero => intro t ht; rw [show t = n by omega]; exact h
    | succ d ih =>
      intro t ht
      have h1 := ih (t + 1) (by omega)
      have h2 := rankOf_succ_le r t A
      have h3 := rankOf_le_width r t A
      omega
  intro t ht
  exact key (n - t) t (by omega)

/-! ### Transformations of the first rows only -/

theorem Spec.Transformed.succ {ι : Type} {m : Nat} {σ : K[X]} {A B : Nat → ι → K[X]}
    (h : Transformed m σ A B) : Transformed (m + 1) σ A B := by
  obtain ⟨U, h1, h2, h3⟩ := h
  have hV : ∃ V : Nat → Nat → K[X], (∀ i k, i < m → k < m → V i k = U i k) ∧
      (∀ i k, ¬ (i < m ∧ k < m) → V i k = if i = k then 1 else 0) :=
    ⟨fun i k => if i < m ∧ k < m then U i k else if i = k then 1 else 0,
      fun i k hi hk => if_pos ⟨hi, hk⟩, fun i k h => if_neg h⟩
  obtain ⟨V, hV1, hV2⟩ := hV
  refine ⟨V, ?_, fun i hi j => ?_, fun i hi => h3 i (by omega)⟩
  · have := ldet_lastRow (n := m) (M := V) (fun j hj => by rw [hV2 m j (by omega), if_neg (by omega)])
    rw [hV2 m m (by omega), if_pos rfl, one_mul, ldet_congr (B := U) (fun i j hi hj => hV1 i j hi hj)] at this
    unfold ldet at this
    rw [this, h1]
  · rw [Finset.sum_range_succ]
    by_cases him : i < m
    · rw [hV2 i m (by omega), if_neg (by omega), h2 i him j, zero_mul, add_zero]
      refine Finset.sum_congr rfl fun k hk => ?_
      rw [hV1 i k him (Finset.mem_range.1 hk)]
    · have : i = m := by omega
      subst this
      rw [hV2 i i (by omega), if_pos rfl, Finset.sum_eq_zero, one_mul, zero_add, h3 i le_rfl]
      intro k hk
      have := Finset.mem_range.1 hk
      rw [hV2 i k (by omega), if_neg (by omega), zero_mul]

theorem Tr.mono {m r : Nat} (h : m ≤ r) {σ : K[X]} {s s' : Pair K} (ht : Tr m σ s s') : Tr r σ s s' := by
  refine ⟨ht.1, ?_⟩
  induction r, h using Nat.le_induction with
  | base => exact ht.2
  | succ n _ ih => exact Spec.Transformed.succ ih

/-- Transformation by a matrix of determinant a sign, by which `udet` is multiplied. -/
def TrD (r : Nat) (p : Pair K) (d : Int) (p' : Pair K) (d' : Int) : Prop :=
  ∃ σ : Int, (σ = 1 ∨ σ = -1) ∧ d' = σ * d ∧ Tr r ((σ : Int) : K[X]) p p'

theorem TrD.refl (r : Nat) (p : Pair K) (d : Int) : TrD r p d p d :=
  ⟨1, Or.inl rfl, by simp, by simpa using Tr.refl r p⟩

theorem TrD.trans {r : Nat} {p p' p'' : Pair K} {d d' d'' : Int} (h : TrD r p d p' d') (h' : TrD r p' d' p'' d'') :
    TrD r p d p'' d'' := by
  obtain ⟨σ, h1, h2, h3⟩ := h
  obtain ⟨τ, k1, k2, k3⟩ := h'
  refine ⟨τ * σ, ?_, by rw [k2, h2, mul_assoc], ?_⟩
  · rcases h1 with rfl | rfl <;> rcases k1 with rfl | rfl <;> simp
  · have := h3.trans k3
    push_cast
    exact this

theorem TrD.toS {r : Nat} {p p' : Pair K} {d d' : Int} (h : TrD r p d p' d') : TrS r p p' := by
  obtain ⟨σ, h1, h2, h3⟩ := h
  refine ⟨((σ : Int) : K[X]), ?_, h3⟩
  rcases h1 with rfl | rfl <;> simp

/-! ### The loop -/

theorem gcd_step (qs : QsortFn) (hqs : QsortContract qs) (parity : (Nat → Nat) → Nat → Bool)
    (hpar : ParityContract parity) (r : Nat) (perm0 rrp0 : Nat → Nat) (i : Nat)
    (hir : i < r) (s : GState K) (ho : s.oob = false)
    (hz : ∀ k, i < k → k < r → ∀ j, j ≤ i → s.pair.1 k j = 0) :
    (∃ s', Ends (fun fuel => gcdStep qs parity fuel r perm0 rrp0 i s) (.inl s') ∧ s'.oob = false ∧
      TrD r s.pair s.udet s'.pair s'.udet ∧ (∀ k, i < k → s'.pivind k = s.pivind k) ∧
      ∃ k, k ≤ i + 1 ∧ rankOf r k s.pair.1 < k) ∨
    ∃ s', Ends (fun fuel => gcdStep qs parity fuel r perm0 rrp0 i s) (.inr s') ∧ s'.oob = false ∧
      TrD r s.pair s.udet s'.pair s'.udet ∧ (∀ k, i < k → s'.pair.1 k = s.pair.1 k) ∧
      s'.pair.1 i i ≠ 0 ∧ (∀ j, j < i → s'.pair.1 i j = 0) ∧
      (∀ k, i < k → s'.pivind k = s.pivind k) := by
  obtain ⟨w, ⟨N, hN⟩, hoob, htr, hzero, hres, hpiv⟩ : ∃ w : WPState K × Int,
      Ends (fun fuel => weakPopovSubmat fuel .rowUpper none s.pair.1 s.pair.2 s.udet s.pivind rrp0 (i + 1) i 2) w ∧
      w.1.oob = false ∧ TrD (i + 1) s.pair s.udet (w.1.mat, w.1.tsf) w.1.det ∧
      (∀ j, j < i → w.1.mat i j = 0) ∧
      ((w.2 < (i : Int) ∧ 1 ≤ i ∧ ∀ j, j < i → w.1.mat (i - 1) j = 0) ∨ w.2 = (i : Int)) ∧
      (∀ k, i < k → w.1.pivind k = s.pivind k) := by
    by_cases hi : i = 0
    · subst hi
      refine ⟨_, Ends.pure fun fuel => by unfold weakPopovSubmat; exact if_pos (Or.inr rfl), rfl, ?_,
        fun j hj => by omega, Or.inr rfl, fun k _ => rfl⟩
      exact TrD.refl _ _ _
    · obtain ⟨w, h1, h2, h3, h4⟩ := weakPopovSubmat_spec (K := K) (o := .rowUpper) (shift := none) (m := i + 1)
        (c := i) (A := s.pair.1) (T := s.pair.2) (det0 := s.udet) (piv0 := s.pivind) (rrp0 := rrp0)
        (Or.inr ⟨rfl, Or.inl rfl⟩) 2 (by omega) (by omega)
      have hsum := h2.sum
      have hrkc : w.rk ≤ i := by
        have := weakPopov_rank _ _ _ _ _ h2.weakPopov
        have h' := rankOf_le_width w.rk i w.mat
        omega
      obtain ⟨σ, hσ, hdet, htr⟩ := h2.trans
      refine ⟨_, h1, h2.noOob, ⟨σ, hσ, hdet, h2.shape, htr⟩, h2.zero i (by omega) (by omega), ?_,
        fun k hk => h2.pivout k (Or.inr (by omega))⟩
      by_cases hz2 : w.zr = 2
      · left
        refine ⟨?_, by omega, h2.zero (i - 1) (by omega) (by omega)⟩
        simp only
        rw [if_pos (by omega)]
        omega
      · right
        simp only
        rw [if_neg (by omega)]
        omega
  have htr' : TrD r s.pair s.udet (w.1.mat, w.1.tsf) w.1.det := by
    obtain ⟨σ, a, b, c⟩ := htr
    exact ⟨σ, a, b, c.mono (by omega)⟩
  have hrows : ∀ k, i < k → w.1.mat k = s.pair.1 k := by
    intro k hk
    obtain ⟨σ, a, b, c⟩ := htr
    obtain ⟨U, _, _, hout⟩ := c.2
    funext j
    exact congrFun (hout k (by omega)) (Sum.inl j)
  have hrank : ∀ k, rankOf r k w.1.mat = rankOf r k s.pair.1 := fun k => htr'.toS.toU.rank k
  rcases hres with ⟨hlt, hi1, hz1⟩ | heq
  · left
    refine ⟨{ pair := (w.1.mat, w.1.tsf), udet := w.1.det, pivind := w.1.pivind, oob := false },
      ⟨N, fun fuel hf => ?_⟩, rfl, htr', hpiv, i, by omega, ?_⟩
    · have h1 := hN fuel hf
      simp only at h1 ⊢
      unfold gcdStep
      rw [h1]
      simp only [Option.map_some, ho, hoob, Bool.or_self]
      rw [if_pos (Or.inl hlt)]
    · rw [← hrank]
      have : rankOf r i w.1.mat ≤ i - 1 := rankOf_zeroRows fun k hk hkr j hj => by
        rcases Nat.lt_trichotomy k i with h | h | h
        · rw [show k = i - 1 by omega]; exact hz1 j hj
        · subst h; exact hzero j hj
        · rw [hrows k h]; exact hz k h hkr j (by omega)
      omega
  · by_cases hii : w.1.mat i i = 0
    · left
      refine ⟨{ pair := (w.1.mat, w.1.tsf), udet := w.1.det, pivind := w.1.pivind, oob := false },
        ⟨N, fun fuel hf => ?_⟩, rfl, htr', hpiv, i + 1, le_rfl, ?_⟩
      · have h1 := hN fuel hf
        simp only at h1 ⊢
        unfold gcdStep
        rw [h1]
        simp only [Option.map_some, ho, hoob, Bool.or_self]
        rw [if_pos (Or.inr hii)]
      · rw [← hrank]
        have : rankOf r (i + 1) w.1.mat ≤ i := rankOf_zeroRows fun k hk hkr j hj => by
          rcases Nat.lt_or_ge i k with h | h
          · rw [hrows k h]; exact hz k h hkr j (by omega)
          · have : k = i := by omega
            subst this
            by_cases hj' : j = k
            · subst hj'; exact hii
            · exact hzero j (by omega)
        omega
    · right
      obtain ⟨k1, k2, k3, k4, k5, k6, k7, k8⟩ :=
        C48_permute_rows_by_sorting qs hqs r w.1.mat i (by omega) w.1.pivind perm0
      have hperm : Tr i ((Equiv.Perm.sign (toPerm k1.isPerm) : ℤ) : K[X]) (w.1.mat, w.1.tsf)
          ((permuteRowsBySorting qs r w.1.mat i w.1.pivind perm0).1,
            w.1.tsf.map fun T => (permuteRows r T (permuteRowsBySorting qs r w.1.mat i w.1.pivind perm0).2.2 none).1) := by
        refine ⟨by simp, permuteRows_transformed i _ _ _ k1.isPerm (fun j hj => ?_) (fun j hj => ?_)⟩
        · funext l
          cases l with
          | inl l => exact congrFun (k7 j (by omega)) l
          | inr l =>
            have : j < r := by omega
            cases w.1.tsf <;> simp [beside, permuteRows, this]
        · funext l
          cases l with
          | inl l => exact congrFun (k8 j hj) l
          | inr l =>
            by_cases hjr : j < r
            · have e := k6 j hj hjr
              cases w.1.tsf <;> simp [beside, permuteRows, hjr, e]
            · cases w.1.tsf <;> simp [beside, permuteRows, hjr]
      have hpc := hpar i _ k1.isPerm
      generalize hσp : (Equiv.Perm.sign (toPerm k1.isPerm) : ℤ) = τ at *
      have hτ : τ = 1 ∨ τ = -1 := by rw [← hσp]; exact sign_cases _
      have hud : (if parity (permuteRowsBySorting qs r w.1.mat i w.1.pivind perm0).2.2 i then -w.1.det else w.1.det) =
          τ * w.1.det := by
        by_cases hp : parity (permuteRowsBySorting qs r w.1.mat i w.1.pivind perm0).2.2 i = true
        · have := hpc.1 hp
          rw [this] at hσp
          rw [if_pos hp, ← hσp]; simp
        · rw [if_neg hp]
          rcases Int.units_eq_one_or (Equiv.Perm.sign (toPerm k1.isPerm)) with e | e
          · rw [e] at hσp; rw [← hσp]; simp
          · exact absurd (hpc.2 e) hp
      refine ⟨{ pair := ((permuteRowsBySorting qs r w.1.mat i w.1.pivind perm0).1,
                  w.1.tsf.map fun T => (permuteRows r T (permuteRowsBySorting qs r w.1.mat i w.1.pivind perm0).2.2 none).1)
                udet := τ * w.1.det
                pivind := (permuteRowsBySorting qs r w.1.mat i w.1.pivind perm0).2.1
                oob := false }, ⟨N, fun fuel hf => ?_⟩, rfl, ?_, fun k hk => ?_, ?_, ?_, fun k hk => ?_⟩
      · have h1 := hN fuel hf
        simp only at h1 ⊢
        unfold gcdStep
        rw [h1]
        simp only [Option.map_some, ho, hoob, Bool.or_self]
        rw [if_neg (by push Not; exact ⟨by omega, hii⟩), hud]
      · exact htr'.trans ⟨τ, hτ, rfl, hperm.mono (by omega)⟩
      · simp only
        rw [k8 k (by omega), hrows k hk]
      · simp only
        rw [k8 i le_rfl]; exact hii
      · intro j hj
        simp only
        rw [k8 i le_rfl]; exact hzero j hj
      · simp only
        rw [k3 k (by omega)]; exact hpiv k hk

theorem gcd_loop (qs : QsortFn) (hqs : QsortContract qs) (parity : (Nat → Nat) → Nat → Bool)
    (hpar : ParityContract parity) (r : Nat) (perm0 rrp0 : Nat → Nat) (i : Nat) :
    ∀ (s : GState K), i ≤ r → s.oob = false → (∀ k, i ≤ k → k < r → ∀ j, j < i → s.pair.1 k j = 0) →
    (∃ s', Ends (fun fuel => gcdLoop qs parity fuel r perm0 rrp0 i s) (.inl s') ∧ s'.oob = false ∧
      TrD r s.pair s.udet s'.pair s'.udet ∧ (∀ k, i ≤ k → s'.pivind k = s.pivind k) ∧
      ∃ k, k ≤ i ∧ rankOf r k s.pair.1 < k) ∨
    ∃ s', Ends (fun fuel => gcdLoop qs parity fuel r perm0 rrp0 i s) (.inr s') ∧ s'.oob = false ∧
      TrD r s.pair s.udet s'.pair s'.udet ∧ (∀ k, i ≤ k → s'.pair.1 k = s.pair.1 k) ∧
      (∀ k, k < i → s'.pair.1 k k ≠ 0 ∧ ∀ j, j < k → s'.pair.1 k j = 0) ∧
      (∀ k, i ≤ k → s'.pivind k = s.pivind k) := by
  induction i with
  | zero =>
    intro s _ ho _
    exact Or.inr ⟨s, Ends.pure fun _ => rfl, ho, TrD.refl _ _ _, fun _ _ => rfl, fun k hk => by omega, fun _ _ => rfl⟩
  | succ i ih =>
    intro s hir ho hz
    rcases gcd_step qs hqs parity hpar r perm0 rrp0 i (by omega) s ho
        (fun k hk hkr j hj => hz k (by omega) hkr j (by omega)) with
      ⟨s1, ⟨N, hN⟩, h1, h2, h3', h3⟩ | ⟨s1, ⟨N, hN⟩, h1, h2, h3, h4, h5, h6⟩
    · refine Or.inl ⟨s1, ⟨N, fun fuel hf => ?_⟩, h1, h2, fun k hk => h3' k (by omega), h3⟩
      have h := hN fuel hf
      simp only at h
      simp only [gcdLoop, h]
    · have hz1 : ∀ k, i ≤ k → k < r → ∀ j, j < i → s1.pair.1 k j = 0 := by
        intro k hk hkr j hj
        by_cases hki : k = i
        · subst hki; exact h5 j hj
        · rw [h3 k (by omega)]; exact hz k (by omega) hkr j (by omega)
      rcases ih s1 (by omega) h1 hz1 with ⟨s2, ⟨N', hN'⟩, k1, k2, k3, k, hk, hkr⟩ | ⟨s2, ⟨N', hN'⟩, k1, k2, k3, k4, k5⟩
      · refine Or.inl ⟨s2, ⟨max N N', fun fuel hf => ?_⟩, k1, h2.trans k2, fun k hk => (k3 k (by omega)).trans (h6 k (by omega)),
          k, by omega, ?_⟩
        · have h := hN fuel (by omega)
          have h' := hN' fuel (by omega)
          simp only at h h'
          simp only [gcdLoop, h, h']
        · rwa [h2.toS.toU.rank k] at hkr
      · refine Or.inr ⟨s2, ⟨max N N', fun fuel hf => ?_⟩, k1, h2.trans k2, fun k hk => ?_, fun k hk => ?_, fun k hk => ?_⟩
        · have h := hN fuel (by omega)
          have h' := hN' fuel (by omega)
          simp only at h h'
          simp only [gcdLoop, h, h']
        · rw [k3 k (by omega), h3 k (by omega)]
        · by_cases hki : k = i
          · subst hki
            rw [k3 k le_rfl]; exact ⟨h4, h5⟩
          · exact k4 k (by omega)
        · rw [k5 k (by omega), h6 k (by omega)]

/-! ### The missed pivot -/

theorem killBelow_spec {xg : XgcdFn K} (hx : XgcdContract xg) {r pi j : Nat} (hpi : pi < r) :
    ∀ n ii (s : Pair K), pi < ii → ii + n ≤ r → (∀ k, pi ≤ k → k < r → ∀ jj, jj < j → s.1 k jj = 0) →
      s.1 pi j ≠ 0 →
      Tr r 1 s (killBelow xg pi j n ii s) ∧
      (∀ k, k < ii → k ≠ pi → (killBelow xg pi j n ii s).1 k = s.1 k) ∧
      (∀ k jj, jj < j → (killBelow xg pi j n ii s).1 k jj = s.1 k jj) ∧
      (killBelow xg pi j n ii s).1 pi j ≠ 0 ∧
      (∀ k, ii ≤ k → k < ii + n → (killBelow xg pi j n ii s).1 k j = 0) := by
  intro n
  induction n with
  | zero => intro ii s _ _ _ hne; exact ⟨Tr.refl r s, fun _ _ _ => rfl, fun _ _ _ => rfl, hne, fun k _ _ => by omega⟩
  | succ n ih =>
    intro ii s hii hn hz hne
    simp only [killBelow]
    by_cases h0 : s.1 ii j = 0
    · rw [if_neg (by simpa using h0)]
      obtain ⟨a1, a2, a3, a4, a5⟩ := ih (ii + 1) s (by omega) (by omega) hz hne
      refine ⟨a1, fun k hk => a2 k (by omega), a3, a4, fun k h1 h2 => ?_⟩
      by_cases hk : k = ii
      · subst hk; rw [a2 k (by omega) (by omega)]; exact h0
      · exact a5 k (by omega) (by omega)
    · rw [if_pos h0]
      obtain ⟨b1, b2, b3, b4, b5, _, _⟩ := xgcdCollision_spec hx (m := r) (pi := pi) (ii := ii) (j := j) (s := s) hpi
        (by omega) (by omega) (hz pi le_rfl hpi) (hz ii (by omega) (by omega)) hne
      obtain ⟨a1, a2, a3, a4, a5⟩ := ih (ii + 1) (xgcdCollision xg s pi ii j) (by omega) (by omega)
        (fun k h1 h2 jj hjj => by rw [b3 k jj hjj]; exact hz k h1 h2 jj hjj) b5.ne_zero
      refine ⟨b1.trans_one a1, fun k h1 h2 => ?_, fun k jj hjj => ?_, a4, fun k h1 h2 => ?_⟩
      · rw [a2 k (by omega) h2, b2 k h2 (by omega)]
      · rw [a3 k jj hjj, b3 k jj hjj]
      · by_cases hk : k = ii
        · subst hk; rw [a2 k (by omega) (by omega)]; exact b4
        · exact a5 k (by omega) (by omega)

/-- After the search of a missed pivot: the rows from the (updated) rank on are zero
    in the first `rk+1` columns, if they were in the first `rk` columns. -/
theorem missedPivot_spec {xg : XgcdFn K} (hx : XgcdContract xg) {r rk : Nat} (hrk : rk ≤ r) {s : Pair K}
    (hz : ∀ k, rk ≤ k → k < r → ∀ jj, jj < rk → s.1 k jj = 0) :
    ((missedPivot xg r rk s) = (s, rk) ∧ ∀ k, rk ≤ k → k < r → s.1 k rk = 0) ∨
    (rk < r ∧ (missedPivot xg r rk s).2 = rk + 1 ∧ TrS r s (missedPivot xg r rk s).1 ∧
      (rk + 1 = r → Tr r 1 s (missedPivot xg r rk s).1) ∧
      (∀ k, k < rk → (missedPivot xg r rk s).1.1 k = s.1 k) ∧
      (∀ jj, jj < rk → (missedPivot xg r rk s).1.1 rk jj = 0) ∧ (missedPivot xg r rk s).1.1 rk rk ≠ 0 ∧
      ∀ k, rk < k → k < r → ∀ jj, jj ≤ rk → (missedPivot xg r rk s).1.1 k jj = 0) := by
  obtain ⟨f1, f2, f3, f4⟩ := findFrom_spec (fun i => decide (s.1 i rk ≠ 0)) (r - rk) rk
  unfold missedPivot
  simp only at f1 f2 f3 f4 ⊢
  generalize hpi : findFrom (fun i => decide (s.1 i rk ≠ 0)) (r - rk) rk = pi at f1 f2 f3 f4 ⊢
  by_cases hlt : pi < r
  · right
    simp only [if_pos hlt]
    have hne : s.1 pi rk ≠ 0 := by have := f4 (by omega); simpa using this
    obtain ⟨a1, a2, a3, a4, a5⟩ := killBelow_spec hx hlt (r - (pi + 1)) (pi + 1) s (by omega) (by omega)
      (fun k h1 h2 => hz k (by omega) h2) hne
    generalize killBelow xg pi rk (r - (pi + 1)) (pi + 1) s = t at *
    have hsw : ∀ k, (swapPair t rk pi).1 k = if k = rk then t.1 pi else if k = pi then t.1 rk else t.1 k := by
      intro k
      simp only [swapPair, swapRows]
      rw [PML.MatOps.swapAt_apply]
    refine ⟨by omega, trivial, a1.toS.trans (swapPair_tr (by omega) hlt t), fun he => ?_, fun k hk => ?_, fun jj hjj => ?_, ?_,
      fun k hk hkr jj hjj => ?_⟩
    · have : pi = rk := by omega
      subst this
      have e : swapPair t pi pi = t := by
        obtain ⟨A, T⟩ := t
        simp [swapPair, swapRows, swapAt]
      rw [e]; exact a1
    · rw [hsw, if_neg (by omega), if_neg (by omega), a2 k (by omega) (by omega)]
    · rw [hsw, if_pos rfl, a3 _ _ hjj]; exact hz pi f1 hlt jj hjj
    · rw [hsw, if_pos rfl]; exact a4
    · rw [hsw, if_neg (by omega)]
      have hcol : ∀ k', rk ≤ k' → k' < r → k' ≠ pi → ∀ jj, jj ≤ rk → t.1 k' jj = 0 := by
        intro k' h1 h2 h3 jj hjj
        by_cases hj : jj = rk
        · subst hj
          by_cases hk' : k' < pi
          · rw [a2 k' (by omega) h3]
            have := f3 k' h1 hk'
            simpa using this
          · exact a5 k' (by omega) (by omega)
        · rw [a3 k' jj (by omega)]; exact hz k' h1 h2 jj (by omega)
      by_cases hkp : k = pi
      · rw [if_pos hkp]; exact hcol rk le_rfl (by omega) (by omega) jj hjj
      · rw [if_neg hkp]; exact hcol k (by omega) hkr hkp jj hjj
  · left
    rw [if_neg hlt]
    refine ⟨rfl, fun k h1 h2 => ?_⟩
    have := f3 k h1 (by omega)
    simpa using this

end PML.Hermite
