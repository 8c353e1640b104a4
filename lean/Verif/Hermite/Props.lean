import Verif.Hermite.Lex
import Verif.Hermite.Revlex
import Verif.Hermite.Mrp
import Verif.Common.Prime
import Mathlib.Tactic.LinearCombination
import Mathlib.Algebra.EuclideanDomain.Field
import Mathlib.Algebra.Field.ZMod

/-!
# Echelon forms and Hermite normal forms: properties C35, C36, C50
-/

namespace PML.Hermite

open PML.MatOps PML.MatOps.Spec PML.MatPoly PML.Forms PML.Forms.Spec PML.RowOps PML.RowOps.Spec
open PML.WeakPopov PML.Hermite.Spec PML.PolyMul.Spec Polynomial

set_option linter.unusedSectionVars false

variable {K : Type} [Field K] [DecidableEq K]

/-- The contract of the extended gcd is met by the Euclidean algorithm. -/
theorem xgcdContract_satisfiable : ∃ xg : XgcdFn K, XgcdContract xg := by
  refine ⟨fun a b =>
    (C (EuclideanDomain.gcd a b).leadingCoeff⁻¹ * EuclideanDomain.gcd a b,
      C (EuclideanDomain.gcd a b).leadingCoeff⁻¹ * EuclideanDomain.gcdA a b,
      C (EuclideanDomain.gcd a b).leadingCoeff⁻¹ * EuclideanDomain.gcdB a b), fun a b hab => ?_⟩
  have hne : EuclideanDomain.gcd a b ≠ 0 := by
    intro h
    rw [EuclideanDomain.gcd_eq_zero_iff] at h
    rcases hab with h' | h'
    · exact h' h.1
    · exact h' h.2
  have hl : (EuclideanDomain.gcd a b).leadingCoeff ≠ 0 := leadingCoeff_ne_zero.2 hne
  have hu : IsUnit (C (EuclideanDomain.gcd a b).leadingCoeff⁻¹ : K[X]) :=
    isUnit_C.2 (isUnit_iff_ne_zero.2 (inv_ne_zero hl))
  refine ⟨?_, ?_, ?_, ?_⟩
  · show (C (EuclideanDomain.gcd a b).leadingCoeff⁻¹ * EuclideanDomain.gcd a b).Monic
    rw [mul_comm]; exact monic_mul_leadingCoeff_inv hne
  · simp only [hu.mul_left_dvd]; exact EuclideanDomain.gcd_dvd_left a b
  · simp only [hu.mul_left_dvd]; exact EuclideanDomain.gcd_dvd_right a b
  · simp only
    have h := EuclideanDomain.gcd_eq_gcd_ab a b
    generalize EuclideanDomain.gcd a b = g at *
    linear_combination C g.leadingCoeff⁻¹ * h

/-! ### C35: upper row echelon forms -/

theorem Spec.UrefResult.of {r c : Nat} {A : Mat K[X]} {T : Option (Mat K[X])} {piv0 : Nat → Nat}
    {s : Pair K} {rk : Nat} {piv : Nat → Nat} (he : EchelonForm r c s.1 rk piv) (ht : TrS r (A, T) s)
    (hu : ∀ i, rk ≤ i → piv i = piv0 i) : UrefResult r c A T piv0 s.1 s.2 rk piv :=
  ⟨he, ht.sign, by rw [← he.rank_full, ht.toU.rank], he.profile fun t => ht.toU.rank t, hu⟩

/-- `nmod_poly_mat_uref_maxdeg_atomic` terminates, reads no row out of bounds, and
    computes an echelon form with its transformation, rank and column rank profile. -/
theorem C35_uref_maxdeg_atomic (r c : Nat) (A : Mat K[X]) (T : Option (Mat K[X])) (piv0 : Nat → Nat) :
    ∃ s, Ends (fun fuel => urefMaxdegAtomic fuel r c A T piv0) s ∧ s.oob = false ∧
      UrefResult r c A T piv0 s.pair.1 s.pair.2 s.rk s.pivind := by
  obtain ⟨s, h1, h2, h3, h4, h5⟩ := urefMaxdegAtomic_spec r c A T piv0
  exact ⟨s, h1, h4, .of h2 h3 h5⟩

/-- Same for `nmod_poly_mat_uref_revlex_xgcd`. -/
theorem C35_uref_revlex_xgcd {xg : XgcdFn K} (hx : XgcdContract xg) (r c : Nat) (A : Mat K[X])
    (T : Option (Mat K[X])) (piv0 : Nat → Nat) (mrp0 : Nat → Int) :
    ∃ s, Ends (fun fuel => urefRevlexXgcd xg fuel r c A T piv0 mrp0) s ∧
      UrefResult r c A T piv0 s.pair.1 s.pair.2 s.rk s.pivind := by
  obtain ⟨s, h1, h2, h3, h4⟩ := urefRevlexXgcd_spec hx r c A T piv0 mrp0
  exact ⟨s, h1, .of h2 h3 h4⟩

/-- Same for `nmod_poly_mat_uref_lex_xgcd`. -/
theorem C35_uref_lex_xgcd {xg : XgcdFn K} (hx : XgcdContract xg) (r c : Nat) (A : Mat K[X])
    (T : Option (Mat K[X])) (piv0 : Nat → Nat) (mrp0 : Nat → Int) :
    ∃ s, Ends (fun fuel => urefLexXgcd xg fuel r c A T piv0 mrp0) s ∧
      UrefResult r c A T piv0 s.pair.1 s.pair.2 s.rk s.pivind := by
  obtain ⟨s, h1, h2, h3, h4, _⟩ := urefLexXgcd_spec hx r c A T piv0 mrp0
  exact ⟨s, h1, .of h2 h3 h4⟩

/-- The hypotheses are met over `ℤ/5ℤ`, for all matrices and any dimensions. -/
example : ∃ xg : XgcdFn (ZMod 5), XgcdContract xg := xgcdContract_satisfiable

/-! ### C36: Hermite normal forms -/

theorem Spec.HnfResult.of {r c : Nat} {A : Mat K[X]} {T : Option (Mat K[X])} {piv0 : Nat → Nat}
    {s : Pair K} {rk : Nat} {piv : Nat → Nat} (he : HermiteForm r c s.1 rk piv) (ht : TrU r (A, T) s)
    (hu : ∀ i, rk ≤ i → piv i = piv0 i) : HnfResult r c A T piv0 s.1 s.2 rk piv :=
  ⟨he, ht.left, by rw [← he.rank_full, ht.rank], he.profile fun t => ht.rank t, hu⟩

/-- `nmod_poly_mat_hnf_ur_maxdeg_atomic` terminates and computes the Hermite normal form
    with its transformation, rank and column rank profile. -/
theorem C36_hnf_maxdeg_atomic (r c : Nat) (A : Mat K[X]) (T : Option (Mat K[X])) (piv0 : Nat → Nat) :
    ∃ s, Ends (fun fuel => hnfMaxdegAtomic fuel r c A T piv0) s ∧ s.oob = false ∧
      HnfResult r c A T piv0 s.pair.1 s.pair.2 s.rk s.pivind := by
  obtain ⟨s, h1, h2, h3, h4, h5⟩ := urefMaxdegAtomic_spec r c A T piv0
  obtain ⟨k1, k2⟩ := normalizeUref_hermite h2
  exact ⟨_, h1.map _, h4, .of k2 (h3.toU.trans k1) h5⟩

/-- Same for `nmod_poly_mat_hnf_ur_revlex_xgcd`. -/
theorem C36_hnf_revlex_xgcd {xg : XgcdFn K} (hx : XgcdContract xg) (r c : Nat) (A : Mat K[X])
    (T : Option (Mat K[X])) (piv0 : Nat → Nat) (mrp0 : Nat → Int) :
    ∃ s, Ends (fun fuel => hnfRevlexXgcd xg fuel r c A T piv0 mrp0) s ∧
      HnfResult r c A T piv0 s.pair.1 s.pair.2 s.rk s.pivind := by
  obtain ⟨s, h1, h2, h3, h4⟩ := urefRevlexXgcd_spec hx r c A T piv0 mrp0
  obtain ⟨k1, k2⟩ := normalizeUref_hermite h2
  exact ⟨_, h1.map _, .of k2 (h3.toU.trans k1) h4⟩

/-- Same for `nmod_poly_mat_hnf_ur_lex_xgcd`. -/
theorem C36_hnf_lex_xgcd {xg : XgcdFn K} (hx : XgcdContract xg) (r c : Nat) (A : Mat K[X])
    (T : Option (Mat K[X])) (piv0 : Nat → Nat) (mrp0 : Nat → Int) :
    ∃ s, Ends (fun fuel => hnfLexXgcd xg fuel r c A T piv0 mrp0) s ∧
      HnfResult r c A T piv0 s.pair.1 s.pair.2 s.rk s.pivind := by
  obtain ⟨s, h1, h2, h3, h4, _⟩ := urefLexXgcd_spec hx r c A T piv0 mrp0
  obtain ⟨k1, k2⟩ := normalizeUref_hermite h2
  exact ⟨_, h1.map _, .of k2 (h3.toU.trans k1) h4⟩

/-- Facts which hold at the end of Kannan and Bachem's algorithm for every input. -/
theorem KBInv.final {r c : Nat} {A : Mat K[X]} {T : Option (Mat K[X])} {piv0 : Nat → Nat} {s : KState K}
    (h : KBInv r c (A, T) piv0 s) (he : s.i = r ∨ s.j = c) :
    s.i = rankOf r c A ∧ ColRankProfile r c A s.i s.pivind ∧ HermiteForm s.i c s.pair.1 s.i s.pivind ∧
      (s.i = r ∨ (∀ k, s.i ≤ k → k < r → ∀ jj, jj < c → s.pair.1 k jj = 0) ∨
        rankOf r (c - 1) A < rankOf r c A) := by
  have hjle := h.jle
  have hlt : ∀ k, k < s.i → s.pivind k < c := fun k hk => by have := h.lt k hk; omega
  have hH : HermiteForm s.i c s.pair.1 s.i s.pivind :=
    ⟨⟨le_rfl, fun k hk => ⟨hlt k hk, (h.monic k hk).ne_zero, fun jj _ hjj => h.before k hk jj hjj⟩, h.inc,
      fun k hk hk' => by omega⟩, h.monic, fun i k hki hi => h.reduced k i hki hi⟩
  rcases he with he | he
  · have hE : EchelonForm r c s.pair.1 s.i s.pivind := by
      have := hH.toEchelonForm
      rwa [he] at this ⊢
    exact ⟨by rw [← hE.rank_full, h.tr.rank], hE.profile fun t => h.tr.rank t, hH, Or.inl he⟩
  · have hr : ∀ t, t ≤ c → rankOf r t A = ((Finset.range s.i).filter fun k => s.pivind k < t).card := fun t ht => by
      rw [← h.rank t (by omega), h.tr.rank]
    have hprof : ColRankProfile r c A s.i s.pivind := by
      refine ⟨hlt, h.inc, fun j hj => ?_⟩
      rw [hr j (by omega), hr (j + 1) (by omega)]
      have hsub : (Finset.range s.i).filter (fun l => s.pivind l < j) ⊆
          (Finset.range s.i).filter (fun l => s.pivind l < j + 1) := by
        intro l
        simp only [Finset.mem_filter]
        exact fun ⟨a, b⟩ => ⟨a, by omega⟩
      constructor
      · rintro ⟨l, hl, rfl⟩
        refine Finset.card_lt_card (Finset.ssubset_iff_subset_ne.2 ⟨hsub, fun e => ?_⟩)
        have : l ∈ (Finset.range s.i).filter (fun l' => s.pivind l' < s.pivind l + 1) := by simp [hl]
        rw [← e] at this
        simp at this
      · intro hlt
        by_contra hc
        push Not at hc
        refine absurd (congrArg Finset.card ?_) hlt.ne
        refine Finset.filter_congr fun l hl => ?_
        have := hc l (Finset.mem_range.1 hl)
        omega
    refine ⟨?_, hprof, hH, ?_⟩
    · rw [hr c le_rfl, Finset.filter_true_of_mem (fun k hk => hlt k (Finset.mem_range.1 hk)), Finset.card_range]
    · rcases h.last he with h1 | ⟨h1, h2⟩
      · exact Or.inr (Or.inl h1)
      · refine Or.inr (Or.inr ?_)
        have := (hprof.profile (c - 1) (by omega)).1 ⟨s.i - 1, by omega, by omega⟩
        rwa [show c - 1 + 1 = c by omega] at this

/-- Part of C36 for `nmod_poly_mat_hnf_ur_revlex_xgcd_delayed_zero`: it never accesses a
    nonexistent row and computes the Hermite normal form when the rows are independent, or
    when the last column depends on the previous ones. The full statement, without these
    hypotheses, is false (`C36_hnf_delayed_zero_not_hermite`). -/
theorem C36_hnf_delayed_zero_partial {xg : XgcdFn K} (hx : XgcdContract xg) (r c : Nat) (A : Mat K[X])
    (T : Option (Mat K[X])) (piv0 : Nat → Nat) (mrp0 : Nat → Int)
    (hA : rankOf r c A = r ∨ rankOf r (c - 1) A = rankOf r c A) :
    ∃ s, Ends (fun fuel => hnfDelayedZero xg fuel r c A T piv0 mrp0) s ∧ s.oob = false ∧
      HnfResult r c A T piv0 s.pair.1 s.pair.2 s.i s.pivind := by
  obtain ⟨s, h1, h2, h3⟩ := hnfDelayedZero_spec hx r c A T piv0 mrp0
  obtain ⟨k1, k2, k3, k4⟩ := h2.final h3
  have hz : ∀ k, s.i ≤ k → k < r → ZeroVec c (s.pair.1 k) := by
    rcases k4 with k4 | k4 | k4
    · intro k hk hkr; omega
    · intro k hk hkr jj hjj; exact k4 k hk hkr jj hjj
    · intro k hk hkr; omega
  exact ⟨s, h1, h2.oob, ⟨⟨⟨h2.ile, k3.pivot, k3.increasing, hz⟩, k3.monic, k3.reduced⟩, h2.tr.left, k1, k2, h2.tail⟩⟩

/-- What holds without these hypotheses: the transformation, the rank, the column rank
    profile, and the Hermite shape of the first rows. -/
theorem C36_hnf_delayed_zero_general {xg : XgcdFn K} (hx : XgcdContract xg) (r c : Nat) (A : Mat K[X])
    (T : Option (Mat K[X])) (piv0 : Nat → Nat) (mrp0 : Nat → Int) :
    ∃ s, Ends (fun fuel => hnfDelayedZero xg fuel r c A T piv0 mrp0) s ∧ s.oob = false ∧
      LeftEquivalent r A T s.pair.1 s.pair.2 ∧ s.i = rankOf r c A ∧ ColRankProfile r c A s.i s.pivind ∧
      HermiteForm s.i c s.pair.1 s.i s.pivind ∧ ∀ i, s.i ≤ i → s.pivind i = piv0 i := by
  obtain ⟨s, h1, h2, h3⟩ := hnfDelayedZero_spec hx r c A T piv0 mrp0
  obtain ⟨k1, k2, k3, _⟩ := h2.final h3
  exact ⟨s, h1, h2.oob, h2.tr.left, k1, k2, k3, h2.tail⟩

/-- The rows below a pivot found in the last column are never processed: for the 2 × 1
    matrix `(x, 1)` the result is not in Hermite normal form. -/
theorem C36_hnf_delayed_zero_not_hermite (xg : XgcdFn K) :
    ∃ (A : Mat K[X]) (s : KState K),
      Ends (fun fuel => hnfDelayedZero xg fuel 2 1 A none (fun _ => 0) (fun _ => 0)) s ∧ s.i = 1 ∧
      s.pair.1 0 0 = X ∧ s.pair.1 1 0 = 1 ∧ ¬ ∃ rk piv, HermiteForm 2 1 s.pair.1 rk piv := by
  let A : Mat K[X] := fun i _ => if i = 0 then X else 1
  let s1 : KState K :=
    { pair := (A, none), pivind := Function.update (fun _ => 0) 0 0, mrp := Function.update (mrpInit 2 fun _ => 0) 0 0,
      perm := id, prow := Function.update (fun _ => -1) 0 0, i := 1, j := 1, ii := 1, oob := false }
  have hstep : kbBody xg 2
      { pair := (A, none), pivind := fun _ => 0, mrp := mrpInit 2 fun _ => 0, perm := id, prow := fun _ => -1,
        i := 0, j := 0, ii := 0, oob := false } = s1 := by
    have hX : (X : K[X]).Monic := monic_X
    simp [kbBody, findFrom, killRow, A, s1, X_ne_zero, rotPair, rotateRowsDownward, rotDown, normalizePivot, reduceAbove, hX]
  refine ⟨A, s1, ⟨2, fun fuel hf => ?_⟩, rfl, by simp [s1, A], by simp [s1, A], ?_⟩
  · obtain ⟨n, rfl⟩ : ∃ n, fuel = n + 2 := ⟨fuel - 2, by omega⟩
    unfold hnfDelayedZero
    simp only
    rw [if_neg (by omega)]
    unfold whileLoop
    rw [if_pos (by simp), hstep]
    unfold whileLoop
    rw [if_neg (by simp [s1])]
  · rintro ⟨rk, piv, h⟩
    have h1 : s1.pair.1 1 0 = 1 := by simp [s1, A]
    have h2 : s1.pair.1 0 0 = X := by simp [s1, A]
    have hle := h.le
    rcases Nat.lt_or_ge 1 rk with h3 | h3
    · have a := (h.pivot 0 (by omega)).lt
      have b := (h.pivot 1 (by omega)).lt
      have := h.increasing 0 1 (by omega) h3
      omega
    · have := h.zero 1 h3 (by omega) 0 (by omega)
      rw [h1] at this
      exact one_ne_zero this

/-- The hypothesis of the partial theorem is met by matrices of full row rank. -/
example : rankOf 1 2 (fun _ _ => (1 : (ZMod 5)[X])) = 1 :=
  rankOf_independent fun u h i hi => by
    have := h 0 (by omega)
    simp only [Finset.sum_range_one, mul_one] at this
    rw [show i = 0 by omega]; exact this

/-! ### C50: matrix rank profiles -/

/-- `nmod_poly_mat_uref_revlex_xgcd` writes the matrix rank profile in `mrp`. -/
theorem C50_mrp_revlex_xgcd {xg : XgcdFn K} (hx : XgcdContract xg) (r c : Nat) (A : Mat K[X])
    (T : Option (Mat K[X])) (piv0 : Nat → Nat) (mrp0 : Nat → Int) :
    ∃ s, Ends (fun fuel => urefRevlexXgcd xg fuel r c A T piv0 mrp0) s ∧
      MatrixRankProfile r c A s.mrp ∧ ∀ i, r ≤ i → s.mrp i = mrp0 i :=
  urefRevlexXgcd_mrp hx r c A T piv0 mrp0

/-- So does `nmod_poly_mat_hnf_ur_revlex_xgcd_delayed_zero`, for every input. -/
theorem C50_mrp_delayed_zero {xg : XgcdFn K} (hx : XgcdContract xg) (r c : Nat) (A : Mat K[X])
    (T : Option (Mat K[X])) (piv0 : Nat → Nat) (mrp0 : Nat → Int) :
    ∃ s, Ends (fun fuel => hnfDelayedZero xg fuel r c A T piv0 mrp0) s ∧
      MatrixRankProfile r c A s.mrp ∧ ∀ i, r ≤ i → s.mrp i = mrp0 i :=
  hnfDelayedZero_mrp hx r c A T piv0 mrp0

/-- `nmod_poly_mat_uref_lex_xgcd` writes the matrix rank profile of the input in `mrp`,
    and nothing beyond its `r` entries. -/
theorem C50_mrp_lex_xgcd {xg : XgcdFn K} (hx : XgcdContract xg) (r c : Nat) (A : Mat K[X])
    (T : Option (Mat K[X])) (piv0 : Nat → Nat) (mrp0 : Nat → Int) :
    ∃ s, Ends (fun fuel => urefLexXgcd xg fuel r c A T piv0 mrp0) s ∧
      MatrixRankProfile r c A s.mrp ∧ ∀ i, r ≤ i → s.mrp i = mrp0 i := by
  obtain ⟨s, h1, _, _, _, h5, h6⟩ := urefLexXgcd_spec hx r c A T piv0 mrp0
  exact ⟨s, h1, h5, h6⟩

end PML.Hermite
