import Verif.Ntl.LinsolveProps
import Verif.Ntl.DetModel
import Verif.Ntl.MatEvalProps

/-! # Solving linear systems over `K(X)` by power series: the theorems (C95) -/

namespace PML.Ntl.Linsolve

open Polynomial PML.Ntl.Utils PML.Ntl.Inv PML.Ntl.Solve

variable {F : Type} [Field F]

/-- **C95, partial.** For a square matrix `A` with `A(0)` invertible, not constant, any vector `b` and any random choices, `linsolve_via_series` returns `u` and a monic `den`
    which divides the denominators of all the solutions; the entries of `u` have degree at most `(n-1) deg(A) + deg(b)`, and `A u = den b` up to that
    degree.  If there is a solution with this denominator, then `A u = den b`.  What is missing: `A u = den b` may be false, see `C95_series_count` and `C95_series_zero_draws`.
    The other case is the undefined behaviour of `solve_series`, see C72. -/
theorem C95_series_partial [DecidableEq F] {C' : Calls F} (hC : C'.Ok) (ht : 1 ≤ C'.thresh) {N : Ntl F} (hN : N.Ok) (al : Bool) (A : PMat F[X]) (hsq : A.rows = A.cols)
    (hn : 0 < A.rows) (hc : ConstInv A) (hd : deg A ≠ 0) (b : Nat → F[X]) (r : Nat → F) :
    (∃ u den, viaSeries C' N al A b r = .ok (u, den) ∧ den.Monic ∧ (∀ d v, Solves A b v d → den ∣ d) ∧
      (∀ i, i < A.rows → ∀ k : Nat, A.rows * deg A - deg A + degV A.rows b < k → (u i).coeff k = 0) ∧
      (∀ i, i < A.rows → ∀ k : Nat, (k : Int) ≤ A.rows * deg A - deg A + degV A.rows b → (∑ l ∈ Finset.range A.cols, A.e (i, l) * u l).coeff k = (den * b i).coeff k) ∧
      ((∃ v, Solves A b v den) → Solves A b u den)) ∨
    (viaSeries C' N al A b r = .ub ∧ ∃ (a c : PMat F[X]) (dA dB : Nat), deg a < 0 ∧ C'.mid a c dA dB = none) := by
  obtain ⟨L, y, L1, L0, hy, -, hmin, dL, dy⟩ := exists_solution hsq hc b
  rcases series_core hC ht hN.hgcd al hsq hn hc hd b L1 L0 hy hmin dL dy with ⟨s, h⟩ | ⟨h, hw⟩
  · left
    obtain ⟨u, den, h1, h2, ⟨g, t, h3, h4, h5⟩, h6, h7, h8, h9⟩ := h r
    refine ⟨u, den, h1, h2, fun d v hv => ?_, fun i hi k hk => ?_, fun i hi k hk => ?_, ?_⟩
    · obtain ⟨q, hq, -⟩ := hmin d v hv
      exact ⟨g * q, by rw [hq, h3]; ring⟩
    · exact (degree_lt_iff_coeff_zero _ _).1 (h6 i hi) k (by omega)
    · have := X_pow_dvd_iff.1 (h8 i hi) k (by omega)
      rw [coeff_sub] at this
      exact sub_eq_zero.1 this
    · rintro ⟨v, hv⟩
      obtain ⟨q, hq, -⟩ := hmin _ _ hv
      have e : den = L := eq_of_monic_of_associated h2 L1 (associated_of_dvd_dvd ⟨g, by rw [h3]; ring⟩ ⟨q, hq⟩)
      intro i hi
      rw [← hsq, Finset.sum_congr rfl fun l hl => by rw [h9 e l (Finset.mem_range.1 hl)], e]
      have := hy i hi
      rwa [← hsq] at this
  · exact Or.inr ⟨h r, hw⟩

/-- The random choices of a run, from those that the code draws. -/
noncomputable def draws {n : Nat} (r : Fin n → F) (j : Nat) : F := if h : j < n then r ⟨j, h⟩ else 0

open Classical in
/-- **C95.** Over a finite field with `q` elements, at most `n deg(A) q^(n-1)` of the `q^n` random choices lead to a result which is not a solution. -/
theorem C95_series_count [Fintype F] {C' : Calls F} (hC : C'.Ok) (ht : 1 ≤ C'.thresh) {N : Ntl F} (hN : N.Ok) (al : Bool) (A : PMat F[X]) (hsq : A.rows = A.cols)
    (hn : 0 < A.rows) (hc : ConstInv A) (hd : deg A ≠ 0) (b : Nat → F[X]) :
    ((Finset.univ.filter fun r : Fin A.rows → F => ∃ u den, viaSeries C' N al A b (draws r) = .ok (u, den) ∧ ¬ Solves A b u den).card : Int) ≤
      A.rows * deg A * Fintype.card F ^ (A.rows - 1) := by
  obtain ⟨L, y, L1, L0, hy, -, hmin, dL, dy⟩ := exists_solution hsq hc b
  have hd0 : 0 ≤ deg A := by
    by_contra hneg
    have h1 := (deg_spec A).1
    have hz := (deg_neg_iff A).1 (by omega : deg A = -1)
    obtain ⟨W, hW⟩ := hc
    have := hW 0 0 hn hn
    rw [if_pos rfl, Finset.sum_eq_zero] at this
    · exact zero_ne_one this
    · intro k hk
      rw [hz k 0 (Finset.mem_range.1 hk) (by omega), coeff_zero, mul_zero]
  have hLd : (L.natDegree : Int) ≤ A.rows * deg A := by
    rwa [max_eq_right (by positivity)] at dL
  have hbad := bad_card (F := F) (n := A.rows) (L := L) L1.ne_zero (y := fun j => y j) (by
    intro π hπ hL
    by_contra hcon
    push Not at hcon
    obtain ⟨L', hL'⟩ := hL
    have hsol : Solves A b (fun j => if h : j < A.rows then (hcon ⟨j, h⟩).choose else 0) L' := by
      intro i hi
      have h1 := hy i hi
      rw [← hsq] at h1 ⊢
      refine mul_left_cancel₀ hπ.ne_zero ?_
      rw [Finset.mul_sum, ← mul_assoc, ← hL', ← h1]
      refine Finset.sum_congr rfl fun l hl => ?_
      have hl' := Finset.mem_range.1 hl
      dsimp only
      rw [dif_pos hl']
      have h2 := (hcon ⟨l, hl'⟩).choose_spec
      dsimp only at h2
      conv_rhs => rw [h2]
      ring
    obtain ⟨q, hq, -⟩ := hmin _ _ hsol
    have h0 : L' ≠ 0 := fun h => L1.ne_zero (by rw [hL', h, mul_zero])
    have : L' * 1 = L' * (π * q) := by
      rw [mul_one]
      conv_lhs => rw [hq, hL']
      ring
    exact hπ.not_isUnit (IsUnit.of_mul_eq_one q (mul_left_cancel₀ h0 this).symm))
  have hsub : (Finset.univ.filter fun r : Fin A.rows → F => ∃ u den, viaSeries C' N al A b (draws r) = .ok (u, den) ∧ ¬ Solves A b u den).card ≤
      L.natDegree * Fintype.card F ^ (A.rows - 1) := by
    refine le_trans (Finset.card_le_card ?_) hbad
    intro r hr
    rw [Finset.mem_filter] at hr ⊢
    refine ⟨Finset.mem_univ _, fun hcop => ?_⟩
    obtain ⟨-, u, den, h1, h2⟩ := hr
    rcases series_core hC ht hN.hgcd al hsq hn hc hd b L1 L0 hy hmin dL dy with ⟨s, h⟩ | ⟨h, hw⟩
    · obtain ⟨u', den', k1, k2, ⟨g, t, h3, h4, h5⟩, -, -, -, h9⟩ := h (draws r)
      rw [h1] at k1
      obtain ⟨rfl, rfl⟩ := Prod.mk.inj (Out.ok.inj k1)
      have e4 : ∑ j ∈ Finset.range A.rows, C (draws r j) * y j = ∑ j : Fin A.rows, C (r j) * y j := by
        rw [Finset.sum_range]
        refine Finset.sum_congr rfl fun j _ => ?_
        unfold draws
        rw [dif_pos j.2]
      rw [e4] at h4
      have gu : IsUnit g := hcop.isUnit_of_dvd' ⟨den, h3⟩ ⟨t, h4⟩
      have e : den = L := by
        refine eq_of_monic_of_associated k2 L1 (associated_of_dvd_dvd ⟨g, by rw [h3]; ring⟩ ?_)
        rw [h3]
        exact gu.mul_left_dvd.2 dvd_rfl
      refine h2 fun i hi => ?_
      rw [← hsq, Finset.sum_congr rfl fun l hl => by rw [h9 e l (Finset.mem_range.1 hl)], e]
      have := hy i hi
      rwa [← hsq] at this
    · rw [h (draws r)] at h1
      cases h1
  refine le_trans (Int.ofNat_le.2 hsub) ?_
  push_cast
  exact mul_le_mul_of_nonneg_right hLd (by positivity)

/-- **C95.** When all the random choices are zero, which nothing prevents, the denominator is 1: unless the solution is a polynomial, what is returned is not a solution. -/
theorem C95_series_zero_draws [DecidableEq F] {C' : Calls F} (hC : C'.Ok) (ht : 1 ≤ C'.thresh) {N : Ntl F} (hN : N.Ok) (al : Bool) (A : PMat F[X]) (hsq : A.rows = A.cols)
    (hn : 0 < A.rows) (hc : ConstInv A) (hd : deg A ≠ 0) (b : Nat → F[X]) (r : Nat → F) (hr : ∀ j, j < A.rows → r j = 0) (hpol : ¬ ∃ v, Solves A b v 1) (u : Nat → F[X]) (den : F[X])
    (h : viaSeries C' N al A b r = .ok (u, den)) : den = 1 ∧ ¬ Solves A b u den := by
  obtain ⟨L, y, L1, L0, hy, -, hmin, dL, dy⟩ := exists_solution hsq hc b
  have e : den = 1 := by
    rcases series_core hC ht hN.hgcd al hsq hn hc hd b L1 L0 hy hmin dL dy with ⟨s, hs⟩ | ⟨hs, hw⟩
    · obtain ⟨u', den', k1, k2, ⟨g, t, h3, h4, h5⟩, -⟩ := hs r
      rw [h] at k1
      obtain ⟨rfl, rfl⟩ := Prod.mk.inj (Out.ok.inj k1)
      rw [Finset.sum_eq_zero fun j hj => by rw [hr j (Finset.mem_range.1 hj), C_0, zero_mul]] at h4
      have g0 : g ≠ 0 := fun h0 => L1.ne_zero (by rw [h3, h0, zero_mul])
      have t0 : t = 0 := (mul_eq_zero.1 h4.symm).resolve_left g0
      rw [t0] at h5
      exact k2.eq_one_of_isUnit (isCoprime_zero_right.1 h5)
    · rw [hs r] at h
      cases h
  exact ⟨e, fun hs => hpol ⟨u, by rwa [e] at hs⟩⟩

theorem constLoop_false (n : Nat) (iA : Nat × Nat → F) (b : Nat → F[X]) (i : Nat) (hi : i < n) :
    constLoop false n iA b i = ∑ j ∈ Finset.range n, C (iA (i, j)) * b j := by
  unfold constLoop
  simp only [Bool.false_eq_true, if_false]
  rw [write_all (fun i => forN n (fun j s => s + C (iA (i, j)) * b j) 0) _ i hi]
  refine forN_inv (P := fun (m : Nat) (t : F[X]) => t = ∑ j ∈ Finset.range m, C (iA (i, j)) * b j) (by simp) ?_
  intro m t _ h
  rw [h, Finset.sum_range_succ]

theorem const_entry {A : PMat F[X]} (hd : deg A = 0) {i j : Nat} (hi : i < A.rows) (hj : j < A.cols) : A.e (i, j) = C ((A.e (i, j)).coeff 0) := by
  have h := (deg_lt_iff A 1).1 (by omega) i j hi hj
  ext k
  rw [coeff_C]
  split
  · rename_i hk
    rw [hk]
  · exact h k (by omega)

/-- **C95.** For a constant matrix, the result is the polynomial solution, with denominator 1, if `u` is not the vector `b`. -/
theorem C95_const [DecidableEq F] (C' : Calls F) {N : Ntl F} (hN : N.Ok) (A : PMat F[X]) (hsq : A.rows = A.cols) (hc : ConstInv A) (hd : deg A = 0) (b : Nat → F[X]) (r : Nat → F) :
    ∃ u, viaSeries C' N false A b r = .ok (u, 1) ∧ Solves A b u 1 := by
  obtain ⟨W, hW⟩ := hN.inv.complete A.rows (fun ij => (A.e ij).coeff 0) hc
  have hs := hN.inv.sound _ _ _ hW
  refine ⟨constLoop false A.rows W b, ?_, fun i hi => ?_⟩
  · unfold viaSeries
    dsimp only
    rw [if_pos hd, if_neg (by omega), hW]
  have h1 : (Matrix.of fun i k : Fin A.rows => W (i, k)) * (Matrix.of fun i j : Fin A.rows => (A.e (i, j)).coeff 0) = 1 := by
    funext i j
    have := hs i j i.2 j.2
    rw [Finset.sum_range] at this
    rw [Matrix.mul_apply, Matrix.one_apply]
    simp only [Fin.ext_iff]
    exact this
  have h2 := mul_eq_one_comm.1 h1
  have h3 : ∀ j, j < A.rows → ∑ l ∈ Finset.range A.rows, (A.e (i, l)).coeff 0 * W (l, j) = if i = j then 1 else 0 := fun j hj => by
    have := congrFun (congrFun h2 ⟨i, hi⟩) ⟨j, hj⟩
    rw [Matrix.mul_apply, Matrix.one_apply] at this
    simp only [Fin.ext_iff] at this
    rw [Finset.sum_range]
    exact this
  rw [← hsq, one_mul]
  calc ∑ l ∈ Finset.range A.rows, A.e (i, l) * constLoop false A.rows W b l
      = ∑ l ∈ Finset.range A.rows, ∑ j ∈ Finset.range A.rows, C ((A.e (i, l)).coeff 0 * W (l, j)) * b j := by
        refine Finset.sum_congr rfl fun l hl => ?_
        have hl' := Finset.mem_range.1 hl
        rw [constLoop_false _ _ _ l hl', const_entry hd hi (by omega), Finset.mul_sum, coeff_C_zero]
        refine Finset.sum_congr rfl fun j _ => ?_
        rw [C_mul, mul_assoc]
    _ = ∑ j ∈ Finset.range A.rows, C (if i = j then 1 else 0) * b j := by
        rw [Finset.sum_comm]
        refine Finset.sum_congr rfl fun j hj => ?_
        rw [← Finset.sum_mul, ← map_sum, h3 j (Finset.mem_range.1 hj)]
    _ = b i := by
        rw [Finset.sum_eq_single i]
        · rw [if_pos rfl, C_1, one_mul]
        · intro j _ hj
          rw [if_neg (Ne.symm hj), C_0, zero_mul]
        · intro h
          exact absurd (Finset.mem_range.2 hi) h

/-- **C95.** A constant matrix which is not invertible is refused with an error, by `inv` of NTL. -/
theorem C95_const_singular [DecidableEq F] (C' : Calls F) {N : Ntl F} (hN : N.Ok) (al : Bool) (A : PMat F[X]) (hd : deg A = 0) (hc : A.rows ≠ A.cols ∨ ¬ ConstInv A) (b : Nat → F[X]) (r : Nat → F) :
    viaSeries C' N al A b r = .error := by
  unfold viaSeries
  dsimp only
  rw [if_pos hd]
  by_cases hsq : A.rows = A.cols
  · rw [if_neg (by omega)]
    cases h : N.inv A.rows fun ij => (A.e ij).coeff 0 with
    | none => rfl
    | some W => exact absurd ⟨W, hN.inv.sound _ _ _ h⟩ (hc.resolve_left (by omega))
  · rw [if_pos hsq]

/-- **C95.** Without rows, the code divides by zero. -/
theorem C95_empty [DecidableEq F] (C' : Calls F) (N : Ntl F) (al : Bool) (A : PMat F[X]) (h0 : A.rows = 0) (b : Nat → F[X]) (r : Nat → F) : viaSeries C' N al A b r = .ub := by
  have hd : deg A = -1 := (deg_neg_iff A).2 fun i j hi => by omega
  unfold viaSeries
  dsimp only
  rw [if_neg (by omega), if_pos h0]

/-- The matrix that exchanges two entries. -/
noncomputable def swapMat : PMat F[X] := ⟨2, 2, fun ij => if ij.1 + ij.2 = 1 then 1 else 0⟩

/-- The first unit vector. -/
noncomputable def unitVec : Nat → F[X] := fun i => if i = 0 then 1 else 0

theorem deg_of_const {A : PMat F[X]} (h : ∀ i j, i < A.rows → j < A.cols → A.e (i, j) = 0 ∨ A.e (i, j) = 1) {i j : Nat} (hi : i < A.rows) (hj : j < A.cols) (h1 : A.e (i, j) = 1) : deg A = 0 := by
  obtain ⟨-, h3, h4⟩ := deg_spec A
  have h5 := h3 i j hi hj
  rw [h1, pdeg_ne _ one_ne_zero, natDegree_one] at h5
  rcases h4 with h4 | ⟨k, l, hk, hl, h4⟩
  · rw [h4] at h5
    exact absurd h5 (by decide)
  · rw [h4]
    rcases h k l hk hl with h6 | h6
    · rw [h4, h6, pdeg_zero] at h5
      exact absurd h5 (by decide)
    · rw [h6, pdeg_ne _ one_ne_zero, natDegree_one]
      rfl

/-- **C95.** The documentation allows `u` to be the vector `b`.  For a constant matrix the entries of `b` are then overwritten while they are needed: with the matrix that exchanges
    the two entries, the first unit vector is replaced by zero. -/
theorem C95_const_alias [DecidableEq F] (C' : Calls F) {N : Ntl F} (hN : N.Ok) (r : Nat → F) :
    ∃ u, viaSeries C' N true (swapMat (F := F)) unitVec r = .ok (u, 1) ∧ u 0 = 0 ∧ u 1 = 0 ∧ ¬ Solves swapMat unitVec u 1 := by
  have hd : deg (swapMat (F := F)) = 0 := deg_of_const (fun i j _ _ => by
    unfold swapMat
    dsimp only
    split
    · exact Or.inr rfl
    · exact Or.inl rfl) (i := 0) (j := 1) (show 0 < 2 by decide) (show 1 < 2 by decide) (by simp [swapMat])
  obtain ⟨W, hW⟩ := hN.inv.complete 2 (fun ij => ((swapMat (F := F)).e ij).coeff 0) ⟨fun ij => if ij.1 + ij.2 = 1 then 1 else 0, by
    intro i j hi hj
    have h1 : i = 0 ∨ i = 1 := by omega
    have h2 : j = 0 ∨ j = 1 := by omega
    unfold swapMat
    rcases h1 with rfl | rfl <;> rcases h2 with rfl | rfl <;> simp [Finset.sum_range_succ]⟩
  have hs := hN.inv.sound _ _ _ hW
  have w00 := hs 0 1 (by decide) (by decide)
  have w01 := hs 0 0 (by decide) (by decide)
  have w10 := hs 1 1 (by decide) (by decide)
  have w11 := hs 1 0 (by decide) (by decide)
  unfold swapMat at w00 w01 w10 w11
  simp [Finset.sum_range_succ] at w00 w01 w10 w11
  have hu : constLoop true 2 W unitVec 0 = 0 ∧ constLoop true 2 W (unitVec (F := F)) 1 = 0 := by
    unfold constLoop unitVec
    simp [forN, write, w00, w01, w11]
  refine ⟨constLoop true 2 W unitVec, ?_, hu.1, hu.2, fun h => ?_⟩
  · unfold viaSeries
    dsimp only
    rw [if_pos hd]
    rw [if_neg (show ¬ (swapMat (F := F)).rows ≠ swapMat.cols from fun h => h rfl)]
    have : (swapMat (F := F)).rows = 2 := rfl
    rw [this]
    simp only [hW]
  · have := h 0 (show 0 < 2 by decide)
    unfold swapMat unitVec at this
    simp only [Finset.sum_range_succ] at this
    simp at this
    unfold unitVec at hu
    rw [hu.2] at this
    exact zero_ne_one this

/-! ### The determinant -/

theorem detN_eq (A : PMat F[X]) : Det.detN A.rows A.e = (matOf A.rows A).det := rfl

/-- **C95, partial.** `determinant_via_linsolve` returns, for all random choices, a monic divisor of the determinant: it is the determinant, made monic, exactly when its degree is the right
    one.  What is missing: it may be a strict divisor, see `C95_det_wrong`, and the leading coefficient is lost.  The other case is the undefined behaviour of `solve_series`. -/
theorem C95_det_partial [DecidableEq F] {C' : Calls F} (hC : C'.Ok) (ht : 1 ≤ C'.thresh) {N : Ntl F} (hN : N.Ok) (A : PMat F[X]) (hsq : A.rows = A.cols) (hn : 0 < A.rows) (hc : ConstInv A)
    (v : Nat → F[X]) (r : Nat → F) :
    (∃ d, viaLinsolve C' N A v r = .ok d ∧ d.Monic ∧ d ∣ Det.detN A.rows A.e ∧
      (d.natDegree = (Det.detN A.rows A.e).natDegree ↔ Det.detN A.rows A.e = C (Det.detN A.rows A.e).leadingCoeff * d)) ∨
    (viaLinsolve C' N A v r = .ub ∧ ∃ (a c : PMat F[X]) (dA dB : Nat), deg a < 0 ∧ C'.mid a c dA dB = none) := by
  have hdet0 : Det.detN A.rows A.e ≠ 0 := fun h => by
    have := det_const hc
    rw [← detN_eq, h, coeff_zero] at this
    exact this rfl
  have fin : ∀ d : F[X], d.Monic → d ∣ Det.detN A.rows A.e →
      (d.natDegree = (Det.detN A.rows A.e).natDegree ↔ Det.detN A.rows A.e = C (Det.detN A.rows A.e).leadingCoeff * d) := by
    intro d hd ⟨q, hq⟩
    generalize Det.detN A.rows A.e = D at *
    have q0 : q ≠ 0 := fun h => hdet0 (by rw [hq, h, mul_zero])
    constructor
    · intro h
      rw [hq, natDegree_mul hd.ne_zero q0] at h
      have e : q = C (q.coeff 0) := eq_C_of_natDegree_eq_zero (by omega)
      have : D.leadingCoeff = q.coeff 0 := by
        rw [hq, leadingCoeff_mul, hd.leadingCoeff, one_mul]
        conv_lhs => rw [e]
        rw [leadingCoeff_C]
      rw [this, ← e, hq, mul_comm]
    · intro h
      have := natDegree_C_mul (p := d) (leadingCoeff_ne_zero.2 hdet0)
      rw [← h] at this
      exact this.symm
  by_cases hd : deg A = 0
  · left
    obtain ⟨u, hu, -⟩ := C95_const C' hN A hsq hc hd v r
    refine ⟨1, ?_, monic_one, one_dvd _, fin 1 monic_one (one_dvd _)⟩
    unfold viaLinsolve
    rw [hu]
    rfl
  · rcases C95_series_partial hC ht hN false A hsq hn hc hd v r with ⟨u, den, h1, h2, h3, -⟩ | ⟨h1, h2⟩
    · left
      have hdv : den ∣ Det.detN A.rows A.e := by
        refine h3 _ (fun k => if h : k < A.rows then (matOf A.rows A).cramer (fun i => v i) ⟨k, h⟩ else 0) ?_
        rw [solves_iff hsq, detN_eq]
        have := Matrix.mulVec_cramer (matOf A.rows A) fun i => v i
        rw [← this]
        congr 1
        funext j
        rw [dif_pos j.2]
      refine ⟨den, ?_, h2, hdv, fin den h2 hdv⟩
      unfold viaLinsolve
      rw [h1]
      rfl
    · right
      refine ⟨?_, h2⟩
      unfold viaLinsolve
      rw [h1]
      rfl

/-- The matrix with `1 + X` on the diagonal. -/
noncomputable def diagMat : PMat F[X] := ⟨2, 2, fun ij => if ij.1 = ij.2 then 1 + X else 0⟩

theorem natDegree_one_add_X : (1 + X : F[X]).natDegree = 1 := by
  rw [add_comm, ← C_1, natDegree_X_add_C]

theorem diagMat_deg : deg (diagMat (F := F)) = 1 := by
  have h0 : (1 + X : F[X]) ≠ 0 := fun h => by
    have := natDegree_one_add_X (F := F)
    rw [h, natDegree_zero] at this
    exact absurd this (by decide)
  have e : pdeg (1 + X : F[X]) = 1 := by rw [pdeg_ne _ h0, natDegree_one_add_X]; rfl
  obtain ⟨-, h3, h4⟩ := deg_spec (diagMat (F := F))
  have h5 := h3 0 0 (show 0 < 2 by decide) (show 0 < 2 by decide)
  have h6 : (diagMat (F := F)).e (0, 0) = 1 + X := by simp [diagMat]
  rw [h6, e] at h5
  rcases h4 with h4 | ⟨i, j, _, _, h4⟩
  · rw [h4] at h5
    exact absurd h5 (by decide)
  · by_cases hij : i = j
    · have : (diagMat (F := F)).e (i, j) = 1 + X := by simp [diagMat, hij]
      rw [h4, this, e]
    · have : (diagMat (F := F)).e (i, j) = 0 := by simp [diagMat, hij]
      rw [h4, this, pdeg_zero] at h5
      exact absurd h5 (by decide)

theorem diagMat_inv : ConstInv (diagMat (F := F)) := by
  refine ⟨fun ij => if ij.1 = ij.2 then 1 else 0, ?_⟩
  intro i j hi hj
  have hi : i < 2 := hi
  have hj : j < 2 := hj
  have h1 : i = 0 ∨ i = 1 := by omega
  have h2 : j = 0 ∨ j = 1 := by omega
  unfold diagMat
  rcases h1 with rfl | rfl <;> rcases h2 with rfl | rfl <;> simp [Finset.sum_range_succ]

/-- **C95.** For the diagonal matrix with entries `1 + X, 1 + X`, no random choice gives the determinant, even up to a constant. -/
theorem C95_det_wrong [DecidableEq F] {C' : Calls F} (hC : C'.Ok) (ht : 1 ≤ C'.thresh) {N : Ntl F} (hN : N.Ok) (v : Nat → F[X]) (r : Nat → F) (d : F[X])
    (h : viaLinsolve C' N diagMat v r = .ok d) : ¬ Associated d (Det.detN 2 (diagMat (F := F)).e) := by
  have hdet : Det.detN 2 (diagMat (F := F)).e = (1 + X) * (1 + X) := by
    unfold Det.detN diagMat
    rw [Matrix.det_fin_two]
    simp
  rw [hdet]
  have hdv : d ∣ 1 + X := by
    rcases C95_series_partial hC ht hN false diagMat rfl (show 0 < 2 by decide) diagMat_inv (by rw [diagMat_deg]; decide) v r with ⟨u, den, h1, h2, h3, -⟩ | ⟨h1, h2⟩
    · unfold viaLinsolve at h
      rw [h1] at h
      have e : den = d := Out.ok.inj h
      rw [← e]
      refine h3 _ v fun i hi => ?_
      unfold diagMat at hi ⊢
      dsimp only at hi ⊢
      rw [Finset.sum_eq_single i (fun j _ hj => by rw [if_neg (Ne.symm hj), zero_mul]) (fun hn => absurd (Finset.mem_range.2 hi) hn), if_pos rfl]
    · unfold viaLinsolve at h
      rw [h1] at h
      cases h
  intro has
  have h0 : (1 + X : F[X]) ≠ 0 := fun h => by
    have := natDegree_one_add_X (F := F)
    rw [h, natDegree_zero] at this
    exact absurd this (by decide)
  have h1 : ((1 + X) * (1 + X) : F[X]) ∣ 1 + X := has.symm.dvd.trans hdv
  have h2 := natDegree_le_of_dvd h1 h0
  rw [natDegree_mul h0 h0, natDegree_one_add_X] at h2
  exact absurd h2 (by decide)

end PML.Ntl.Linsolve
