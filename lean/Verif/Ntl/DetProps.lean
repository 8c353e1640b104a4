import Verif.Ntl.DetPoints
import Verif.Ntl.DetExamples
import Verif.Ntl.ParlinProps

/-!
# C77: determinants of polynomial matrices
-/

namespace PML.Ntl.Det

open Polynomial PML.Ntl.Utils PML.Ntl.Inv PML.Ntl.Solve PML.Ntl.MatEval PML.Ntl.Mbasis

/-! ### Expansion by minors -/

/-- C77, partial: `determinant_expansion_by_minors`, for the dimensions 1 to 4.  Missing: the other ones
    (`C77_minors_unchanged`). -/
theorem C77_minors_partial {R : Type} [CommRing R] (det : R) (n : Nat) (a : Nat × Nat → R) (h0 : 1 ≤ n) (h4 : n ≤ 4) :
    minors det n a = (Matrix.of fun i j : Fin n => a (i, j)).det := minors_small det n a h0 h4

/-- C77, negation: for any other dimension, `det` keeps the value it had before the call. -/
theorem C77_minors_unchanged {R : Type} [CommRing R] (det : R) (n : Nat) (a : Nat × Nat → R) (h : n = 0 ∨ 5 ≤ n) : minors det n a = det := by
  unfold minors
  rw [if_neg (by omega), if_neg (by omega), if_neg (by omega), if_neg (by omega)]

/-- C77: `determinant_expansion_by_minors_rec`, for all positive dimensions; for the dimension 0, an error. -/
theorem C77_minors_rec {R : Type} [CommRing R] (a : Nat × Nat → R) :
    (∀ n, 1 ≤ n → minorsRec n a = .ok (Matrix.of fun i j : Fin n => a (i, j)).det) ∧ minorsRec 0 a = .error :=
  ⟨fun n hn => minorsRec_spec n a hn, rfl⟩

/-! ### Evaluation and interpolation -/

/-- C77, partial: `determinant_via_evaluation_general`, when the field has more than `dim * deg` elements.  Missing:
    smaller fields, and the zero matrix (`C77_general_fails`). -/
theorem C77_general_partial {p : Nat} [Fact p.Prime] {it : (ZMod p)[X] → Nat → (ZMod p)[X]} (hit : Crt.InvTruncOK it) (a : PMat (ZMod p)[X])
    (hc : a.cols = a.rows) (hd : 0 ≤ deg a ∨ a.rows = 0) (hp : (a.rows : Int) * deg a < p) :
    viaGeneral it a = .ok (Matrix.of fun i j : Fin a.rows => a.e (i, j)).det := general_spec hit a hc hd hp

/-- C77, negation: on a smaller field, an error; on the zero matrix, an error, or a computation without end for the
    dimension 1. -/
theorem C77_general_fails {p : Nat} [Fact p.Prime] (it : (ZMod p)[X] → Nat → (ZMod p)[X]) (a : PMat (ZMod p)[X]) :
    (0 ≤ deg a → (p : Int) ≤ (a.rows : Int) * deg a → viaGeneral it a = .error) ∧
    (deg a < 0 → 2 ≤ a.rows → viaGeneral it a = .error) ∧ (deg a < 0 → a.rows = 1 → viaGeneral it a = .loops) := by
  have h1 := (deg_spec a).1
  refine ⟨general_small_field it a, fun h hr => ?_, fun h hr => ?_⟩
  · unfold viaGeneral
    dsimp only
    rw [show deg a = -1 by omega, if_pos (by omega)]
  · unfold viaGeneral
    dsimp only
    rw [show deg a = -1 by omega, hr, if_neg (by norm_num), if_pos (by norm_num)]

/-- C77: `determinant_via_evaluation_geometric`, when `get_geometric_points` finds an element of order at least
    `2 * (dim * deg + 1)`. -/
theorem C77_geometric {p : Nat} [Fact p.Prime] (rnd : Nat → ZMod p) (nb : Nat) (a : PMat (ZMod p)[X]) (hc : a.cols = a.rows) (hd : 0 ≤ deg a)
    (r : ZMod p) (hr : r ≠ 0) (h : Order.elementOfOrder rnd (2 * (a.rows * (deg a).toNat + 1)) nb true = some r) {mp}
    (hmp : Geom.MidOK mp (a.rows * (deg a).toNat + 1)) (hm : 0 < a.rows) (feasible flags : Bool) :
    viaGeometric mp feasible flags r a = .ok (Matrix.of fun i j : Fin a.rows => a.e (i, j)).det :=
  geometric_spec rnd nb a hc hd r hr h hmp hm feasible flags

/-- C77: `determinant_via_evaluation_FFT`, for all square matrices for which the field has enough roots of unity. -/
theorem C77_fft {F : Type} [Field F] (T : FFT F) (a : PMat F[X]) (hc : a.cols = a.rows)
    (hT : FFTOk T (nextPow2 ((a.rows : Int) * deg a + 1).toNat)) :
    viaFFT T a = (Matrix.of fun i j : Fin a.rows => a.e (i, j)).det := fft_spec T a hc hT

/-! ### Verification -/

/-- C77: `verify_determinant` accepts the determinant, whatever the points, and, up to a constant, its multiples by
    a constant.  Without randomization, an error. -/
theorem C77_verify_complete {F : Type} [Field F] (pt pt2 : F) (a : PMat F[X]) (hc : a.cols = a.rows) :
    verify pt pt2 (Matrix.of fun i j : Fin a.rows => a.e (i, j)).det a false true = .ok true ∧
    (∀ c : F, verify pt pt2 (C c * (Matrix.of fun i j : Fin a.rows => a.e (i, j)).det) a true true = .ok true) ∧
    ∀ det b, verify pt pt2 det a b false = .error := by
  refine ⟨((verify_eq pt pt2 _ a hc).1).2 rfl, fun c => ((verify_eq pt pt2 _ a hc).2).2 ?_, fun det b => rfl⟩
  rw [eval_mul, eval_mul, eval_C, eval_C]
  unfold detN
  ring

/-- C77: it accepts anything else at `max (dim * deg) (deg det)` points at most. -/
theorem C77_verify_sound {p : Nat} [Fact p.Prime] (a : PMat (ZMod p)[X]) (hc : a.cols = a.rows) (d : Nat) (hd : deg a ≤ d) (det : (ZMod p)[X])
    (hne : det ≠ (Matrix.of fun i j : Fin a.rows => a.e (i, j)).det) (S : Finset (ZMod p)) (pt2 : ZMod p)
    (hS : ∀ pt ∈ S, verify pt pt2 det a false true = .ok true) : S.card ≤ max (a.rows * d) det.natDegree := by
  refine le_trans (card_roots_le (detN a.rows a.e - det) (sub_ne_zero.2 (Ne.symm hne)) S fun x hx => ?_) ?_
  · rw [eval_sub, sub_eq_zero]
    exact ((verify_eq x pt2 det a hc).1).1 (hS x hx)
  · exact le_trans (natDegree_sub_le _ _) (max_le_max (detN_natDegree a hc d hd) (le_refl _))

/-- C77, partial: up to a constant, it accepts what is not proportional to the determinant for
    `2 * max (dim * deg) (deg det) * p` pairs of points at most.  Missing: `det = 0` (`C77_verify_zero_accepted`). -/
theorem C77_verify_sound_up_to_partial {p : Nat} [Fact p.Prime] (a : PMat (ZMod p)[X]) (hc : a.cols = a.rows) (d : Nat) (hd : deg a ≤ d)
    (det : (ZMod p)[X]) (hne : ¬∃ x y : ZMod p, (x ≠ 0 ∨ y ≠ 0) ∧ C x * (Matrix.of fun i j : Fin a.rows => a.e (i, j)).det = C y * det)
    (S : Finset (ZMod p × ZMod p)) (hS : ∀ pt ∈ S, verify pt.1 pt.2 det a true true = .ok true) :
    S.card ≤ 2 * max (a.rows * d) det.natDegree * p :=
  pairs_count (detN a.rows a.e) det _ (le_trans (detN_natDegree a hc d hd) (le_max_left _ _)) (le_max_right _ _) hne S
    fun x hx => ((verify_eq x.1 x.2 det a hc).2).1 (hS x hx)

/-- C77, negation: up to a constant, 0 is always accepted; everything is accepted if the determinant is zero. -/
theorem C77_verify_zero_accepted {F : Type} [Field F] (pt pt2 : F) (a : PMat F[X]) (hc : a.cols = a.rows) :
    verify pt pt2 0 a true true = .ok true ∧
    ((Matrix.of fun i j : Fin a.rows => a.e (i, j)).det = 0 → ∀ det, verify pt pt2 det a true true = .ok true) := by
  refine ⟨((verify_eq pt pt2 0 a hc).2).2 (by simp), fun h det => ((verify_eq pt pt2 det a hc).2).2 ?_⟩
  have : detN a.rows a.e = 0 := h
  rw [this, eval_zero, eval_zero, zero_mul, zero_mul]

/-! ### Triangularization -/

variable {F : Type} [Field F] [DecidableEq F]

/-- C77, partial: `determinant_generic_knowing_degree` on a nonsingular matrix, if, at each level of the recursion,
    the last rows of the approximant basis annihilate the left columns: what is computed divides the determinant, and
    if `degree` is the degree of the determinant, then `true` is returned if and only if it is the determinant up to a
    constant.  Missing: the other matrices (`C77_generic_wrong`, `C77_generic_zero`). -/
theorem C77_generic_partial {C : Calls F} (hC : C.Ok) (det0 : F[X]) (a : PMat F[X]) (h0 : 0 < a.rows)
    (hdet : (Matrix.of fun i j : Fin a.rows => a.e (i, j)).det ≠ 0) (hcl : Clean C a.rows a) (degree : Int) :
    ∃ det b, generic C det0 a.rows a degree = .ok (det, b) ∧ det ∣ (Matrix.of fun i j : Fin a.rows => a.e (i, j)).det ∧
      (b = true ↔ degree = pdeg det) ∧
      (degree = pdeg (Matrix.of fun i j : Fin a.rows => a.e (i, j)).det →
        (b = true ↔ ∃ c : F, c ≠ 0 ∧ (Matrix.of fun i j : Fin a.rows => a.e (i, j)).det = Polynomial.C c * det)) := by
  obtain ⟨d, h1, h2⟩ := generic_spec hC det0 degree a.rows a (le_refl _) h0 hdet hcl
  have h2' : d ∣ (Matrix.of fun i j : Fin a.rows => a.e (i, j)).det := h2
  generalize (Matrix.of fun i j : Fin a.rows => a.e (i, j)).det = D at h2' hdet ⊢
  refine ⟨d, _, h1, h2', decide_eq_true_iff, fun hdeg => ?_⟩
  rw [decide_eq_true_iff, hdeg]
  obtain ⟨q, rfl⟩ := h2'
  have hd0 := left_ne_zero_of_mul hdet
  have hq0 := right_ne_zero_of_mul hdet
  rw [pdeg_ne _ hdet, pdeg_ne _ hd0, natDegree_mul hd0 hq0]
  constructor
  · intro h
    have hq : q.natDegree = 0 := by omega
    obtain ⟨c, rfl⟩ := natDegree_eq_zero.1 hq
    exact ⟨c, fun hc => hq0 (by rw [hc, C_0]), mul_comm _ _⟩
  · rintro ⟨c, hc, e⟩
    rw [mul_comm] at e
    rw [mul_right_cancel₀ hd0 e, natDegree_C]
    omega

/-- C77, negation: on some matrix of dimension 5, with the right degree, `true` is returned although the
    polynomial computed is not the determinant up to a constant, whatever the functions called. -/
theorem C77_generic_wrong : ∃ a : PMat F[X], a.rows = 5 ∧ a.cols = 5 ∧ pdeg (Matrix.of fun i j : Fin 5 => a.e (i, j)).det = 2 ∧
    ∀ (C : Calls F), C.Ok → ∀ det0, ∃ det, generic C det0 5 a 2 = .ok (det, true) ∧
      ¬∃ c : F, (Matrix.of fun i j : Fin 5 => a.e (i, j)).det = Polynomial.C c * det := by
  have hD : (Matrix.of fun i j : Fin 5 => (badMat (F := F)).e (i, j)).det = (X + 1) ^ 2 := badMat_det
  have hne : (X + 1 : F[X]) ≠ 0 := X_add_C_ne_zero 1
  refine ⟨badMat, rfl, rfl, ?_, fun C hC det0 => ?_⟩
  · rw [hD, pdeg_ne _ (pow_ne_zero _ hne), natDegree_pow, show (X + 1 : F[X]) = X + Polynomial.C 1 from rfl, natDegree_X_add_C]
    rfl
  · obtain ⟨c, hc, h⟩ := badMat_result hC det0 4
    refine ⟨_, h, ?_⟩
    rintro ⟨c', e⟩
    rw [hD] at e
    have := congrArg (Polynomial.eval 0) e
    simp at this

/-- C77, negation: it fails if the dimension is at least 5 and the left half of the columns is zero. -/
theorem C77_generic_zero {C : Calls F} (hC : C.Ok) (det0 : F[X]) (a : PMat F[X]) (h5 : 5 ≤ a.rows)
    (hz : ∀ i j, i < a.rows → j < a.rows / 2 → a.e (i, j) = 0) (fuel : Nat) (degree : Int) :
    generic C det0 (fuel + 1) a degree = .ub ∨ generic C det0 (fuel + 1) a degree = .error := by
  have hdeg : deg (columns 0 (a.rows / 2) a) = -1 := by
    have h1 := (deg_spec (columns 0 (a.rows / 2) a)).1
    have := (deg_neg_iff (columns 0 (a.rows / 2) a)).2 fun i j hi hj => by
      rw [columns_e 0 (a.rows / 2) a i j hi hj]; exact hz i j hi hj
    omega
  have ho : order C a.rows (columns 0 (a.rows / 2) a) ≤ 0 := by
    unfold order
    dsimp only
    rw [hdeg]
    have h0 : C.rd 0 = 0 := by simpa using hC.rd.int 0 (by norm_num)
    have h1 : C.rd ((((a.rows / 2 : Nat) : Int) * (-1) : Int) / ((a.rows - a.rows / 2 : Nat) : Rat)) ≤ 0 := by
      rw [← h0]
      refine hC.rd.mono (div_nonpos_of_nonpos_of_nonneg ?_ (Nat.cast_nonneg _))
      have : ((a.rows / 2 : Nat) : Int) * (-1) ≤ 0 := by omega
      exact_mod_cast this
    have := Int.ceil_le.2 (show C.rd ((((a.rows / 2 : Nat) : Int) * (-1) : Int) / ((a.rows - a.rows / 2 : Nat) : Rat)) ≤ ((0 : Int) : Rat) by exact_mod_cast h1)
    omega
  unfold generic
  dsimp only
  rw [if_neg (by omega)]
  by_cases hneg : order C a.rows (columns 0 (a.rows / 2) a) < 0
  · rw [if_pos hneg]; exact Or.inr rfl
  · rw [if_neg hneg, show order C a.rows (columns 0 (a.rows / 2) a) = 0 by omega]
    have := (C76_order_zero_fails C.nt C.mid C.mul C.thr 0 ⟨0, 0, fun _ => 0⟩ (columns 0 (a.rows / 2) a) (fun _ => 0)
      (by show a.rows / 2 ≤ a.rows / 2 + 1; omega)).2
    rw [show (0 : Int).toNat = 0 from rfl, this]
    exact Or.inl rfl

/-! ### The hypotheses are met -/

theorem calls_exist : ∃ C : Calls F, C.Ok := by
  obtain ⟨N, hN⟩ := nt_exists (F := F)
  obtain ⟨mid, hmid⟩ := middleOk_exists (F := F)
  obtain ⟨mul, hmul⟩ := mulOk_exists (F := F)
  exact ⟨⟨N, mid, mul, 32, id⟩, hN, hmid, hmul, by show 0 < 32; decide, Parlin.rounding_id⟩

/-- A matrix of dimension 2 and degree 1. -/
noncomputable def two5 {p : Nat} : PMat (ZMod p)[X] := ⟨2, 2, fun ij => if ij.1 = ij.2 then X else 1⟩

theorem two5_deg {p : Nat} [Fact p.Prime] : deg (two5 (p := p)) = 1 := by
  have h1 : deg (two5 (p := p)) < (2 : Nat) := (deg_lt_iff _ 2).2 fun i j _ _ k hk => by
    unfold two5
    dsimp only
    split_ifs
    · rw [coeff_X, if_neg (by omega)]
    · rw [coeff_one, if_neg (by omega)]
  have h2 : ¬ deg (two5 (p := p)) < (1 : Nat) := fun h => by
    have := (deg_lt_iff _ 1).1 h 0 0 (by show 0 < 2; decide) (by show 0 < 2; decide) 1 (le_refl _)
    simp [two5] at this
  push_cast at h1 h2
  omega

/-- Hypotheses of `C77_general_partial`. -/
example : ∃ it : (ZMod 5)[X] → Nat → (ZMod 5)[X], viaGeneral it two5 = .ok (X ^ 2 - 1) := by
  obtain ⟨it, h⟩ := Crt.exists_invTrunc (K := ZMod 5)
  refine ⟨it, (C77_general_partial h two5 rfl (Or.inl (by rw [two5_deg]; decide)) (by rw [two5_deg]; decide)).trans ?_⟩
  show Out.ok (Matrix.of fun i j : Fin 2 => (two5 (p := 5)).e (i, j)).det = _
  rw [Matrix.det_fin_two]
  simp [two5, sq]

/-- Those of the negation: 2 points. -/
example (it : (ZMod 2)[X] → Nat → (ZMod 2)[X]) : viaGeneral it two5 = .error :=
  (C77_general_fails it two5).1 (by rw [two5_deg]; decide) (by rw [two5_deg]; decide)

/-- Those of `C77_fft`: 4 points modulo 5. -/
example : viaFFT fft5 two5 = X ^ 2 - 1 := by
  refine (C77_fft fft5 two5 rfl (fft5_ok _ ?_)).trans ?_
  · rw [two5_deg]
    show Nat.clog 2 3 ≤ 2
    rw [Nat.clog_le_iff_le_pow (by omega)]
    decide
  · show (Matrix.of fun i j : Fin 2 => (two5 (p := 5)).e (i, j)).det = _
    rw [Matrix.det_fin_two]
    simp [two5, sq]

/-- Those of `C77_geometric`: 3 has order 6 modulo 7; here a matrix of dimension 1. -/
example : ∃ mp, viaGeometric (F := ZMod 7) mp true true 3 ⟨1, 1, fun _ => X ^ 2⟩ = .ok (X ^ 2) := by
  have hd : deg (⟨1, 1, fun _ => X ^ 2⟩ : PMat (ZMod 7)[X]) = 2 := MatMid.deg_mono 2
  obtain ⟨mp, h⟩ := Geom.exists_midOK (K := ZMod 7) (1 * (2 : Int).toNat + 1)
  refine ⟨mp, (C77_geometric (p := 7) (fun _ => 3) 1 ⟨1, 1, fun _ => X ^ 2⟩ rfl (by rw [hd]; decide) 3 (by decide) (by rw [hd]; decide) (by rw [hd]; exact h)
    (by decide) true true).trans ?_⟩
  show Out.ok (Matrix.of fun i j : Fin 1 => (X ^ 2 : (ZMod 7)[X])).det = _
  rw [Matrix.det_fin_one]
  rfl

/-- Those of `C77_verify_sound`: `X^2` instead of `X^2 - 1`. -/
example : (X ^ 2 : (ZMod 5)[X]) ≠ (Matrix.of fun i j : Fin 2 => (two5 (p := 5)).e (i, j)).det := by
  rw [Matrix.det_fin_two]
  intro h
  have := congrArg (Polynomial.eval 0) h
  simp [two5] at this

/-- Those of `C77_verify_sound_up_to_partial`. -/
example : ¬∃ x y : ZMod 5, (x ≠ 0 ∨ y ≠ 0) ∧ C x * (Matrix.of fun i j : Fin 2 => (two5 (p := 5)).e (i, j)).det = C y * X ^ 2 := by
  rw [Matrix.det_fin_two]
  rintro ⟨x, y, h, e⟩
  have h0 := congrArg (Polynomial.eval 0) e
  have h1 := congrArg (Polynomial.eval 1) e
  simp [two5] at h0 h1
  subst h0
  rcases h with h | h
  · exact h rfl
  · exact h h1.symm

/-- Those of `C77_generic_partial`: a matrix of dimension 5, with a recursive call. -/
example : ∃ C : Calls (ZMod 5), C.Ok ∧ Clean C 5 goodMat ∧ (Matrix.of fun i j : Fin 5 => (goodMat (F := ZMod 5)).e (i, j)).det = (X + 1) * X := by
  obtain ⟨C, hC⟩ := calls_exist (F := ZMod 5)
  exact ⟨C, hC, goodMat_clean hC 4, goodMat_det⟩

/-- Those of `C77_generic_wrong`. -/
example : ∃ C : Calls (ZMod 5), C.Ok := calls_exist

end PML.Ntl.Det
