import Verif.Approx.KStep
import Verif.Approx.PopovCall
import Verif.Approx.SpecInterp
import Mathlib.LinearAlgebra.Matrix.Rank

/-!
# Theory of interpolant bases

One step of the iterative algorithm at a point `a`; the determinant of an interpolant basis at pairwise distinct
points; characterization of bases by this determinant.
-/

namespace PML.Approx

open Polynomial Matrix Spec

variable {K : Type} [Field K] {m n : Nat}

/-- One step at the point `a`: the rows in `T` are multiplied by `X - a`, each other row `i` is replaced by the
    combination `κ i` of rows, whose last nonzero entry is the entry `i`; the vectors `κ i` generate the left
    kernel of the residual `R`. -/
structure KStepAt (a : K) (R : Matrix (Fin m) (Fin n) K) (s s' : Fin m → Int)
    (P P' : Matrix (Fin m) (Fin m) K[X]) (T : Finset (Fin m)) (κ : Fin m → Fin m → K) : Prop where
  ker : ∀ i, i ∉ T → ∀ j, ∑ l, κ i l * R l j = 0
  span : ∀ ν : Fin m → K, (∀ j, ∑ l, ν l * R l j = 0) → ∃ a : Fin m → K, ∀ l, ν l = ∑ i ∈ Tᶜ, a i * κ i l
  diag : ∀ i, i ∉ T → κ i i ≠ 0
  lex : ∀ i, i ∉ T → ∀ l, l ≠ i → κ i l ≠ 0 → s l < s i ∨ (s l = s i ∧ l < i)
  top : ∀ t ∈ T, ∀ l, P' t l = (X - C a) * P t l
  bot : ∀ i, i ∉ T → ∀ l, P' i l = ∑ k, C (κ i k) * P k l
  stop : ∀ t ∈ T, s' t = s t + 1
  sbot : ∀ i, i ∉ T → s' i = s i

theorem DegLE.linear_mul {s : Int} {p : K[X]} {d : Int} (a : K) (h : DegLE s p d) : DegLE s ((X - C a) * p) (d + 1) := by
  intro k hk
  rw [sub_mul, coeff_sub, coeff_C_mul, h.X_mul k hk, h k (by omega), mul_zero, sub_zero]

theorem KStepAt.pivots {a : K} {R : Matrix (Fin m) (Fin n) K} {s s' s0 : Fin m → Int}
    {P P' : Matrix (Fin m) (Fin m) K[X]} {T : Finset (Fin m)} {κ : Fin m → Fin m → K}
    (h : KStepAt a R s s' P P' T κ) (hP : Pivots s0 P s id) : Pivots s0 P' s' id := by
  refine ⟨fun i => ?_, strictMono_id⟩
  have hi := hP.row i
  by_cases hT : i ∈ T
  · refine ⟨fun j => ?_, fun j hj => ?_, ?_, ?_⟩
    · rw [h.top i hT, h.stop i hT]; exact (hi.le j).linear_mul a
    · rw [h.top i hT, h.stop i hT]; exact ((hi.after j hj).linear_mul a).mono (by omega)
    · rw [h.stop i hT]; have := hi.ge; show s0 i ≤ _; change s0 i ≤ s i at this; omega
    · have hge : s0 i ≤ s i := hi.ge
      show (P' i i).coeff (s' i - s0 i).toNat ≠ 0
      rw [h.top i hT, h.stop i hT, show (s i + 1 - s0 i).toNat = (s i - s0 i).toNat + 1 by omega, sub_mul,
        coeff_sub, coeff_X_mul, coeff_C_mul, (show (P i i).coeff ((s i - s0 i).toNat + 1) = 0 from
          hi.le i _ (by push_cast; omega)), mul_zero, sub_zero]
      exact hi.lead
  · have hlow : ∀ l, l ≠ i → ∀ j, i ≤ j → DegLE (s0 j) (C (κ i l) * P l j) (s i - 1) := by
      intro l hl j hj
      by_cases hc : κ i l = 0
      · rw [hc]; simp only [map_zero, zero_mul]; exact DegLE.zero
      · apply DegLE.C_mul
        rcases h.lex i hT l hl hc with h1 | ⟨h1, h2⟩
        · exact ((hP.row l).le j).mono (by omega)
        · exact ((hP.row l).after j (lt_of_lt_of_le h2 hj)).mono (by omega)
    refine ⟨fun j => ?_, fun j hj => ?_, ?_, ?_⟩
    · rw [h.bot i hT, h.sbot i hT]
      refine DegLE.sum _ _ fun l _ => ?_
      by_cases hc : κ i l = 0
      · rw [hc]; simp only [map_zero, zero_mul]; exact DegLE.zero
      · apply DegLE.C_mul
        by_cases hl : l = i
        · rw [hl]; exact hi.le j
        · rcases h.lex i hT l hl hc with h1 | ⟨h1, -⟩
          · exact ((hP.row l).le j).mono (by omega)
          · exact ((hP.row l).le j).mono (by omega)
    · rw [h.bot i hT, h.sbot i hT]
      refine DegLE.sum _ _ fun l _ => ?_
      by_cases hl : l = i
      · rw [hl]; exact (hi.after j hj).C_mul _
      · exact hlow l hl j (le_of_lt hj)
    · rw [h.sbot i hT]; exact hi.ge
    · have hge : s0 i ≤ s i := hi.ge
      show (P' i i).coeff (s' i - s0 i).toNat ≠ 0
      rw [h.bot i hT, h.sbot i hT, ← Finset.sum_erase_add _ _ (Finset.mem_univ i), coeff_add]
      have hz : DegLE (s0 i) (∑ l ∈ Finset.univ.erase i, C (κ i l) * P l i) (s i - 1) :=
        DegLE.sum _ _ fun l hl => hlow l (Finset.ne_of_mem_erase hl) i (le_refl _)
      rw [hz _ (by omega), zero_add, coeff_C_mul]
      exact mul_ne_zero (h.diag i hT) hi.lead

/-- `lam` is a vector of functionals on the module, which turn multiplication by a polynomial into multiplication by
    its value at `a`; the rows of the new matrix generate their common kernel. -/
theorem KStepAt.generates {N : (Fin m → K[X]) → Prop} {a : K} {s s' : Fin m → Int}
    {P P' : Matrix (Fin m) (Fin m) K[X]} {T : Finset (Fin m)} {κ : Fin m → Fin m → K}
    {R : Matrix (Fin m) (Fin n) K} (lam : (Fin m → K[X]) → Fin n → K)
    (hlam : ∀ u j, lam (u ᵥ* P) j = ∑ i, (u i).eval a * R i j)
    (h : KStepAt a R s s' P P' T κ) (hP : GenBy N P) : GenBy (fun v => N v ∧ ∀ j, lam v j = 0) P' := by
  classical
  intro v
  constructor
  · rintro ⟨hv, hl⟩
    obtain ⟨u, rfl⟩ := (hP v).1 hv
    have hu0 : ∀ j, ∑ i, (u i).eval a * R i j = 0 := fun j => by rw [← hlam, hl j]
    -- the rows `(X - C a) * P i` are combinations of the rows of `P'`
    have hX : ∀ i, (fun l => (X - C a) * P i l) ∈ LinearMap.range (Matrix.vecMulLinear P') := by
      have hwf : WellFounded fun l i : Fin m => s l < s i ∨ (s l = s i ∧ l < i) := by
        have : IsTrans (Fin m) fun l i : Fin m => s l < s i ∨ (s l = s i ∧ l < i) := ⟨by
          rintro a b c (h1 | ⟨h1, h2⟩) (h3 | ⟨h3, h4⟩)
          · exact Or.inl (by omega)
          · exact Or.inl (by omega)
          · exact Or.inl (by omega)
          · exact Or.inr ⟨by omega, h2.trans h4⟩⟩
        have : Std.Irrefl fun l i : Fin m => s l < s i ∨ (s l = s i ∧ l < i) := ⟨by
          rintro a (h1 | ⟨h1, h2⟩)
          · omega
          · exact lt_irrefl _ h2⟩
        exact Finite.wellFounded_of_trans_of_irrefl _
      intro i
      induction i using hwf.induction with
      | _ i ih =>
        by_cases hi : i ∈ T
        · have : (fun l => (X - C a) * P i l) = P' i := by funext l; rw [h.top i hi]
          rw [this]; exact mem_rows P' i
        · have e : (fun l => (X - C a) * P i l) = (C (κ i i)⁻¹ : K[X]) • ((X - C a : K[X]) • P' i -
              ∑ k ∈ Finset.univ.erase i, (C (κ i k) : K[X]) • fun l => (X - C a) * P k l) := by
            funext l
            simp only [Pi.smul_apply, Pi.sub_apply, Finset.sum_apply, smul_eq_mul, h.bot i hi]
            rw [← Finset.sum_erase_add _ _ (Finset.mem_univ i), mul_add, Finset.mul_sum]
            have : ∑ k ∈ Finset.univ.erase i, (X - C a : K[X]) * (C (κ i k) * P k l) =
                ∑ k ∈ Finset.univ.erase i, C (κ i k) * ((X - C a) * P k l) :=
              Finset.sum_congr rfl fun k _ => by ring
            rw [this, add_sub_cancel_left]
            have hc : (C (κ i i)⁻¹ : K[X]) * C (κ i i) = 1 := by
              rw [← C_mul, inv_mul_cancel₀ (h.diag i hi), C_1]
            linear_combination (- ((X - C a) * P i l)) * hc
          rw [e]
          refine Submodule.smul_mem _ _ (Submodule.sub_mem _ (Submodule.smul_mem _ _ (mem_rows P' i)) ?_)
          refine Submodule.sum_mem _ fun k hk => ?_
          by_cases hc : κ i k = 0
          · rw [hc, map_zero, zero_smul]; exact Submodule.zero_mem _
          · exact Submodule.smul_mem _ _ (ih k (h.lex i hi k (Finset.ne_of_mem_erase hk) hc))
    obtain ⟨b, hb⟩ := h.span (fun i => (u i).eval a) hu0
    have hq : ∀ i, ∃ q, u i - C ((u i).eval a) = (X - C a) * q := fun i => X_sub_C_dvd_sub_C_eval
    choose q hq using hq
    have hmem : u ᵥ* P ∈ LinearMap.range (Matrix.vecMulLinear P') := by
      have e : u ᵥ* P = ∑ i ∈ Tᶜ, (C (b i) : K[X]) • P' i + ∑ i, q i • fun l => (X - C a) * P i l := by
        funext l
        show ∑ i, u i * P i l = _
        simp only [Pi.add_apply, Finset.sum_apply, Pi.smul_apply, smul_eq_mul]
        have h1 : ∑ i ∈ Tᶜ, C (b i) * P' i l = ∑ k, C ((u k).eval a) * P k l := by
          have : ∀ i ∈ Tᶜ, C (b i) * P' i l = ∑ k, C (b i * κ i k) * P k l := fun i hi => by
            rw [h.bot i (Finset.mem_compl.1 hi), Finset.mul_sum]
            exact Finset.sum_congr rfl fun k _ => by rw [C_mul]; ring
          rw [Finset.sum_congr rfl this, Finset.sum_comm]
          refine Finset.sum_congr rfl fun k _ => ?_
          rw [hb k, map_sum, Finset.sum_mul]
        rw [h1, ← Finset.sum_add_distrib]
        refine Finset.sum_congr rfl fun i _ => ?_
        linear_combination (P i l) * hq i
      rw [e]
      refine Submodule.add_mem _ (Submodule.sum_mem _ fun i _ => Submodule.smul_mem _ _ (mem_rows P' i))
        (Submodule.sum_mem _ fun i _ => Submodule.smul_mem _ _ (hX i))
    obtain ⟨w, hw⟩ := hmem
    exact ⟨w, hw.symm⟩
  · rintro ⟨w, rfl⟩
    have e : w ᵥ* P' = (fun k => (∑ i ∈ T, if k = i then (X - C a) * w i else 0) + ∑ i ∈ Tᶜ, w i * C (κ i k)) ᵥ* P := by
      funext l
      show ∑ i, w i * P' i l = ∑ k, _ * P k l
      rw [← Finset.sum_add_sum_compl T]
      simp only [add_mul, Finset.sum_mul, Finset.sum_add_distrib]
      rw [Finset.sum_comm, Finset.sum_comm (t := Tᶜ)]
      congr 1
      · refine Finset.sum_congr rfl fun i hi => ?_
        simp only [ite_mul, zero_mul, Finset.sum_ite_eq', Finset.mem_univ, if_true]
        rw [h.top i hi]
        ring
      · refine Finset.sum_congr rfl fun i hi => ?_
        rw [h.bot i (Finset.mem_compl.1 hi), Finset.mul_sum]
        exact Finset.sum_congr rfl fun k _ => by ring
    refine ⟨(hP _).2 ⟨_, e⟩, fun j => ?_⟩
    rw [e, hlam]
    have hz : ∀ k : Fin m, eval a (∑ i ∈ T, if k = i then (X - C a) * w i else 0) = 0 := by
      intro k
      rw [eval_finsetSum]
      refine Finset.sum_eq_zero fun i _ => ?_
      split_ifs
      · rw [eval_mul, eval_sub, eval_X, eval_C, sub_self, zero_mul]
      · exact eval_zero
    simp only [eval_add, hz, zero_add, eval_finsetSum, eval_mul, eval_C, Finset.sum_mul]
    rw [Finset.sum_comm]
    refine Finset.sum_eq_zero fun i hi => ?_
    have := h.ker i (Finset.mem_compl.1 hi) j
    simp only [mul_assoc, ← Finset.mul_sum, this, mul_zero]

/-- The degrees grow by at most one. -/
theorem KStepAt.deg {a : K} {R : Matrix (Fin m) (Fin n) K} {s s' : Fin m → Int}
    {P P' : Matrix (Fin m) (Fin m) K[X]} {T : Finset (Fin m)} {κ : Fin m → Fin m → K}
    (h : KStepAt a R s s' P P' T κ) {d : Nat} (hd : ∀ i l k, d < k → (P i l).coeff k = 0) :
    ∀ i l k, d + 1 < k → (P' i l).coeff k = 0 := by
  intro i l k hk
  by_cases hi : i ∈ T
  · rw [h.top i hi]
    obtain ⟨k, rfl⟩ := Nat.exists_eq_succ_of_ne_zero (show k ≠ 0 by omega)
    rw [Nat.succ_eq_add_one, sub_mul, coeff_sub, coeff_X_mul, coeff_C_mul, hd i l k (by omega), hd i l (k + 1) (by omega),
      mul_zero, sub_zero]
  · rw [h.bot i hi, finsetSum_coeff]
    exact Finset.sum_eq_zero fun t _ => by rw [coeff_C_mul, hd t l k (by omega), mul_zero]

/-- The left kernel of the residual is zero. -/
theorem KStepAt.all {a : K} {R : Matrix (Fin m) (Fin n) K} {s : Fin m → Int} {P : Matrix (Fin m) (Fin m) K[X]}
    (h : ∀ ν : Fin m → K, (∀ j, ∑ l, ν l * R l j = 0) → ν = 0) :
    KStepAt a R s (fun i => s i + 1) P (fun i l => (X - C a) * P i l) Finset.univ fun _ _ => 0 where
  ker := fun i hi => absurd (Finset.mem_univ i) hi
  span := fun ν hν => ⟨0, fun l => by rw [h ν hν]; simp⟩
  diag := fun i hi => absurd (Finset.mem_univ i) hi
  lex := fun i hi => absurd (Finset.mem_univ i) hi
  top := fun _ _ _ => rfl
  bot := fun i hi => absurd (Finset.mem_univ i) hi
  stop := fun _ _ => rfl
  sbot := fun i hi => absurd (Finset.mem_univ i) hi

/-! ### Interpolants -/

theorem interpolant_succ (E : Nat → Matrix (Fin m) (Fin n) K) (x : Nat → K) (d : Nat) (v : Fin m → K[X]) :
    IsInterpolant E x (d + 1) v ↔ IsInterpolant E x d v ∧ ∀ j, ∑ l, (v l).eval (x d) * E d l j = 0 := by
  constructor
  · exact fun h => ⟨fun k hk => h k (by omega), h d (by omega)⟩
  · rintro ⟨h1, h2⟩ k hk
    by_cases e : k = d
    · rw [e]; exact h2
    · exact h1 k (by omega)

/-- The residual of `P` at the point `k`. -/
noncomputable def interpRes (E : Nat → Matrix (Fin m) (Fin n) K) (x : Nat → K) (k : Nat) (P : Matrix (Fin m) (Fin m) K[X]) :
    Matrix (Fin m) (Fin n) K := fun i j => ∑ l, (P i l).eval (x k) * E k l j

theorem interp_lam (E : Nat → Matrix (Fin m) (Fin n) K) (x : Nat → K) (k : Nat) (P : Matrix (Fin m) (Fin m) K[X])
    (u : Fin m → K[X]) (j : Fin n) :
    ∑ l, ((u ᵥ* P) l).eval (x k) * E k l j = ∑ i, (u i).eval (x k) * interpRes E x k P i j := by
  have : ∀ l, ((u ᵥ* P) l).eval (x k) = ∑ i, (u i).eval (x k) * (P i l).eval (x k) := by
    intro l
    show eval (x k) (∑ i, u i * P i l) = _
    rw [eval_finsetSum]
    exact Finset.sum_congr rfl fun i _ => eval_mul
  simp only [this, interpRes, Finset.sum_mul, Finset.mul_sum]
  rw [Finset.sum_comm]
  exact Finset.sum_congr rfl fun i _ => Finset.sum_congr rfl fun l _ => by ring

theorem interp_step {E : Nat → Matrix (Fin m) (Fin n) K} {x : Nat → K} {d : Nat} {s s' : Fin m → Int}
    {P P' : Matrix (Fin m) (Fin m) K[X]} {T : Finset (Fin m)} {κ : Fin m → Fin m → K}
    (h : KStepAt (x d) (interpRes E x d P) s s' P P' T κ) (hP : GenBy (IsInterpolant E x d) P) :
    GenBy (IsInterpolant E x (d + 1)) P' := by
  have := h.generates (fun v j => ∑ l, (v l).eval (x d) * E d l j) (interp_lam E x d P) hP
  intro v
  rw [interpolant_succ]
  exact this v

theorem interp_zero (E : Nat → Matrix (Fin m) (Fin n) K) (x : Nat → K) : GenBy (IsInterpolant E x 0) 1 :=
  fun v => ⟨fun _ => ⟨v, by simp⟩, fun _ k hk => by omega⟩

/-- The residual is zero. -/
theorem interp_full {E : Nat → Matrix (Fin m) (Fin n) K} {x : Nat → K} {d : Nat} {P : Matrix (Fin m) (Fin m) K[X]}
    (hP : GenBy (IsInterpolant E x d) P) (h : ∀ i j, interpRes E x d P i j = 0) : GenBy (IsInterpolant E x (d + 1)) P := by
  intro v
  rw [interpolant_succ, ← hP v]
  refine ⟨fun h => h.1, fun hv => ⟨hv, fun j => ?_⟩⟩
  obtain ⟨u, rfl⟩ := (hP v).1 hv
  rw [interp_lam]
  exact Finset.sum_eq_zero fun i _ => by rw [h, mul_zero]

/-- A basis is nonsingular. -/
theorem GenBy.interp_det_ne {E : Nat → Matrix (Fin m) (Fin n) K} {x : Nat → K} {d : Nat} {P : Matrix (Fin m) (Fin m) K[X]}
    (h : GenBy (IsInterpolant E x d) P) : P.det ≠ 0 := by
  set D : K[X] := ∏ k ∈ Finset.range d, (X - C (x k)) with hD
  have hD0 : D ≠ 0 := Finset.prod_ne_zero_iff.2 fun k _ => X_sub_C_ne_zero _
  have hrow : ∀ i : Fin m, ∃ u : Fin m → K[X], (fun l => if i = l then D else 0) = u ᵥ* P := by
    intro i
    refine (h _).1 fun k hk j => ?_
    refine Finset.sum_eq_zero fun l _ => ?_
    have : eval (x k) D = 0 := by
      rw [hD, eval_prod]
      exact Finset.prod_eq_zero (Finset.mem_range.2 hk) (by rw [eval_sub, eval_X, eval_C, sub_self])
    by_cases hil : i = l
    · rw [if_pos hil, this, zero_mul]
    · rw [if_neg hil, eval_zero, zero_mul]
  choose U hU using hrow
  have hmul : (Matrix.of U) * P = D • (1 : Matrix (Fin m) (Fin m) K[X]) := by
    refine Matrix.ext fun i l => ?_
    have := congrFun (hU i) l
    show (U i ᵥ* P) l = _
    rw [← this, Matrix.smul_apply, Matrix.one_apply, smul_eq_mul, mul_ite, mul_one, mul_zero]
  have := congrArg Matrix.det hmul
  rw [det_mul, det_smul, det_one, mul_one] at this
  intro e
  rw [e, mul_zero] at this
  exact pow_ne_zero _ hD0 this.symm

theorem GenBy.isInterpolantBasis {E : Nat → Matrix (Fin m) (Fin n) K} {x : Nat → K} {d : Nat}
    {P : Matrix (Fin m) (Fin m) K[X]} (h : GenBy (IsInterpolant E x d) P) : IsInterpolantBasis E x d P :=
  ⟨h.interp_det_ne, h⟩

/-- Composition: a basis for the first points, and a basis for its residuals at the next points. -/
theorem interp_compose {E : Nat → Matrix (Fin m) (Fin n) K} {x : Nat → K} {d e : Nat} {P Q : Matrix (Fin m) (Fin m) K[X]}
    {E' : Nat → Matrix (Fin m) (Fin n) K} (hP : GenBy (IsInterpolant E x d) P)
    (hE : ∀ k, k < e → E' k = interpRes E x (d + k) P) (hQ : GenBy (IsInterpolant E' (fun k => x (d + k)) e) Q) :
    GenBy (IsInterpolant E x (d + e)) (Q * P) := by
  have key : ∀ u : Fin m → K[X], IsInterpolant E' (fun k => x (d + k)) e u ↔
      ∀ k, k < e → ∀ j, ∑ l, ((u ᵥ* P) l).eval (x (d + k)) * E (d + k) l j = 0 := by
    intro u
    refine forall_congr' fun k => forall_congr' fun hk => forall_congr' fun j => ?_
    rw [interp_lam, hE k hk]
  intro v
  constructor
  · intro hv
    obtain ⟨u, rfl⟩ := (hP v).1 fun k hk => hv k (by omega)
    obtain ⟨w, rfl⟩ := (hQ u).1 ((key u).2 fun k hk => hv (d + k) (by omega))
    exact ⟨w, by rw [Matrix.vecMul_vecMul]⟩
  · rintro ⟨w, rfl⟩ k hk
    rw [← Matrix.vecMul_vecMul]
    by_cases h : k < d
    · exact (hP _).2 ⟨_, rfl⟩ k h
    · have := (key _).1 ((hQ _).2 ⟨w, rfl⟩) (k - d) (by omega)
      rwa [show d + (k - d) = k by omega] at this

/-! ### The determinant at pairwise distinct points -/

/-- A constant matrix has a step. -/
theorem exists_step (a : K) (R : Matrix (Fin m) (Fin n) K) (P : Matrix (Fin m) (Fin m) K[X]) :
    ∃ (s s' : Fin m → Int) (P' : Matrix (Fin m) (Fin m) K[X]) (T : Finset (Fin m)) (κ : Fin m → Fin m → K),
      KStepAt a R s s' P P' T κ ∧ T.card = R.rank ∧ ∃ c : K, c ≠ 0 ∧ P'.det = C c * (X - C a) ^ T.card * P.det := by
  classical
  obtain ⟨b, -, -, hspan, hind⟩ := exists_linearIndepOn_extension (K := K) (v := fun i => R i) (s := ∅) (t := Set.univ)
    (linearIndepOn_empty _ _) (Set.empty_subset _)
  set T : Finset (Fin m) := b.toFinset with hT
  have hmemT : ∀ i, i ∈ T ↔ i ∈ b := fun i => Set.mem_toFinset
  have hcomb : ∀ i, ∃ c : Fin m → K, R i = ∑ t ∈ T, c t • R t := by
    intro i
    have := hspan ⟨i, Set.mem_univ i, rfl⟩
    have hb : (fun i => R i) '' b = (fun i => R i) '' (T : Set (Fin m)) := by rw [hT, Set.coe_toFinset]
    rw [hb] at this
    obtain ⟨c, hc⟩ := (Submodule.mem_span_image_finset_iff_exists_fun K).1 this
    refine ⟨fun t => if h : t ∈ T then c ⟨t, h⟩ else 0, ?_⟩
    have hc' : R i = ∑ t : T, c t • R t := hc.symm
    rw [hc', ← Finset.sum_coe_sort T]
    exact Finset.sum_congr rfl fun t _ => by dsimp only; rw [dif_pos t.2]
  choose c hc using hcomb
  set κ : Fin m → Fin m → K := fun i l => (if l = i then 1 else 0) - (if l ∈ T then c i l else 0) with hκ
  set P' : Matrix (Fin m) (Fin m) K[X] := fun i l => if i ∈ T then (X - C a) * P i l else ∑ k, C (κ i k) * P k l with hP'
  have hsumR : ∀ i j, ∑ l, (if l ∈ T then c i l else 0) * R l j = R i j := by
    intro i j
    have := congrFun (hc i) j
    rw [Finset.sum_apply] at this
    rw [this]
    simp only [ite_mul, zero_mul, Finset.sum_ite_mem, Finset.univ_inter]
    rfl
  have hsingle : ∀ (i : Fin m) (f : Fin m → K), ∑ l, (if l = i then 1 else 0) * f l = f i := by
    intro i f
    simp only [ite_mul, one_mul, zero_mul, Finset.sum_ite_eq', Finset.mem_univ, if_true]
  refine ⟨fun l => if l ∈ T then 0 else 1, fun l => 1, P', T, κ, ?_, ?_, ?_⟩
  · constructor
    · intro i _ j
      simp only [hκ, sub_mul, Finset.sum_sub_distrib, hsumR, hsingle i fun l => R l j, sub_self]
    · intro ν hν
      refine ⟨ν, fun l => ?_⟩
      -- the coefficients on `T` vanish
      have hz : ∀ t ∈ T, ν t + ∑ i ∈ Tᶜ, ν i * c i t = 0 := by
        rw [linearIndepOn_iff'] at hind
        intro t ht
        refine hind T (fun t => ν t + ∑ i ∈ Tᶜ, ν i * c i t) (fun t ht => (hmemT t).1 ht) ?_ t ht
        funext j
        rw [Finset.sum_apply]
        simp only [Pi.smul_apply, smul_eq_mul, Pi.zero_apply, add_mul, Finset.sum_add_distrib]
        rw [← hν j, ← Finset.sum_add_sum_compl T]
        congr 1
        simp only [Finset.sum_mul]
        rw [Finset.sum_comm]
        refine Finset.sum_congr rfl fun i _ => ?_
        have := congrFun (hc i) j
        rw [Finset.sum_apply] at this
        rw [this, Finset.mul_sum]
        exact Finset.sum_congr rfl fun t _ => by rw [Pi.smul_apply, smul_eq_mul]; ring
      by_cases hl : l ∈ T
      · have e : ∀ i ∈ Tᶜ, ν i * κ i l = -(ν i * c i l) := by
          intro i hi
          have : l ≠ i := fun e => Finset.mem_compl.1 hi (e ▸ hl)
          simp only [hκ]
          rw [if_neg this, if_pos hl]; ring
        rw [Finset.sum_congr rfl e, Finset.sum_neg_distrib]
        exact eq_neg_of_add_eq_zero_left (hz l hl)
      · rw [Finset.sum_eq_single l]
        · simp [hκ, hl]
        · intro i _ hi
          simp only [hκ]; rw [if_neg (fun e => hi e.symm), if_neg hl]; ring
        · exact fun h => absurd (Finset.mem_compl.2 hl) h
    · intro i hi
      simp [hκ, hi]
    · intro i hi l hl hne
      have hlT : l ∈ T := by
        by_contra h
        apply hne
        simp only [hκ]; rw [if_neg hl, if_neg h, sub_zero]
      left
      rw [if_pos hlT, if_neg hi]; omega
    · intro t ht l
      simp only [hP']; rw [if_pos ht]
    · intro i hi l
      simp only [hP']; rw [if_neg hi]
    · intro t ht; rw [if_pos ht]; rfl
    · intro i hi; rw [if_neg hi]
  · rw [Matrix.rank_eq_finrank_span_row]
    have h1 : Submodule.span K (Set.range R.row) = Submodule.span K ((fun i => R i) '' b) := by
      refine le_antisymm (Submodule.span_le.2 ?_) (Submodule.span_mono (by rintro _ ⟨i, -, rfl⟩; exact ⟨i, rfl⟩))
      rintro _ ⟨i, rfl⟩
      exact hspan ⟨i, Set.mem_univ i, rfl⟩
    rw [h1, ← Set.range_domRestrict]
    have := finrank_span_eq_card (R := K) (b := fun i : b => R i) hind
    rw [hT, Set.toFinset_card]
    exact this.symm
  · -- the transformation
    set L : Matrix (Fin m) (Fin m) K := fun i l => if i ∈ T then (if l = i then 1 else 0) else κ i l with hL
    set L' : Matrix (Fin m) (Fin m) K := fun i l => (if l = i then 1 else 0) + (if i ∈ T then 0 else if l ∈ T then c i l else 0) with hL'
    have hLL : L * L' = 1 := by
      refine Matrix.ext fun i l => ?_
      rw [Matrix.mul_apply, Matrix.one_apply]
      by_cases hi : i ∈ T
      · simp only [hL, if_pos hi]
        rw [hsingle i fun k => L' k l]
        simp only [hL', if_pos hi, add_zero]
        by_cases e : l = i
        · rw [if_pos e, if_pos e.symm]
        · rw [if_neg e, if_neg (fun h => e h.symm)]
      · simp only [hL, if_neg hi, hκ, sub_mul, Finset.sum_sub_distrib]
        rw [hsingle i fun k => L' k l]
        have : ∑ k, (if k ∈ T then c i k else 0) * L' k l = if l ∈ T then c i l else 0 := by
          have : ∀ k, (if k ∈ T then c i k else 0) * L' k l = if l = k then (if l ∈ T then c i l else 0) else 0 := by
            intro k
            by_cases hk : k ∈ T
            · simp only [hL', if_pos hk, add_zero]
              by_cases e : l = k
              · rw [if_pos e, if_pos e, e, if_pos hk, mul_one]
              · rw [if_neg e, if_neg e, mul_zero]
            · rw [if_neg hk, zero_mul]
              by_cases e : l = k
              · rw [if_pos e, e, if_neg hk]
              · rw [if_neg e]
          simp only [this, Finset.sum_ite_eq, Finset.mem_univ, if_true]
        rw [this]
        simp only [hL', if_neg hi, add_sub_cancel_right]
        by_cases e : l = i
        · rw [if_pos e, if_pos e.symm]
        · rw [if_neg e, if_neg (fun h => e h.symm)]
    have hdetL : L.det ≠ 0 := by
      intro e
      have := congrArg Matrix.det hLL
      rw [det_mul, e, zero_mul, det_one] at this
      exact zero_ne_one this
    refine ⟨L.det, hdetL, ?_⟩
    have hfac : P' = Matrix.diagonal (fun i => if i ∈ T then X - C a else 1) * (L.map C * P) := by
      refine Matrix.ext fun i l => ?_
      rw [Matrix.diagonal_mul, Matrix.mul_apply]
      have hLe : ∀ k, L.map C i k = (C (if i ∈ T then (if k = i then 1 else 0) else κ i k) : K[X]) := fun k => rfl
      simp only [hLe, hP']
      by_cases hi : i ∈ T
      · simp only [if_pos hi]
        congr 1
        rw [Finset.sum_eq_single i]
        · rw [if_pos rfl, map_one, one_mul]
        · intro k _ hk; rw [if_neg hk, map_zero, zero_mul]
        · exact fun h => absurd (Finset.mem_univ i) h
      · simp only [if_neg hi, one_mul]
    rw [hfac, det_mul, det_mul, det_diagonal]
    have h1 : ∏ i, (if i ∈ T then X - C a else (1 : K[X])) = (X - C a) ^ T.card := by
      rw [Finset.prod_ite_mem, Finset.univ_inter, Finset.prod_const]
    have h2 : (L.map C).det = (C L.det : K[X]) := by
      rw [RingHom.map_det]; rfl
    rw [h1, h2]
    ring

/-- At pairwise distinct points, there is a basis, and its determinant is known. -/
theorem exists_interp_basis (E : Nat → Matrix (Fin m) (Fin n) K) (x : Nat → K) : ∀ (d : Nat),
    (∀ k l, k < d → l < d → x k = x l → k = l) →
    ∃ P : Matrix (Fin m) (Fin m) K[X], GenBy (IsInterpolant E x d) P ∧
      ∃ c : K, c ≠ 0 ∧ P.det = C c * ∏ k ∈ Finset.range d, (X - C (x k)) ^ (E k).rank
  | 0, _ => ⟨1, interp_zero E x, 1, one_ne_zero, by simp⟩
  | d + 1, hd => by
    obtain ⟨P, hP, c, hc, hdet⟩ := exists_interp_basis E x d fun k l hk hl => hd k l (by omega) (by omega)
    obtain ⟨s, s', P', T, κ, hst, hT, c', hc', hdet'⟩ := exists_step (x d) (interpRes E x d P) P
    refine ⟨P', interp_step hst hP, c' * c, mul_ne_zero hc' hc, ?_⟩
    have hrank : (interpRes E x d P).rank = (E d).rank := by
      have e : interpRes E x d P = P.map (eval (x d)) * E d := by
        refine Matrix.ext fun i j => ?_
        rw [Matrix.mul_apply]; rfl
      have hev : (P.map (eval (x d))).det = eval (x d) P.det := by
        rw [← coe_evalRingHom, RingHom.map_det]; rfl
      rw [e, Matrix.rank_mul_eq_right_of_isUnit_det]
      rw [hev, hdet, isUnit_iff_ne_zero, eval_mul, eval_C, eval_prod]
      refine mul_ne_zero hc (Finset.prod_ne_zero_iff.2 fun k hk => ?_)
      rw [eval_pow, eval_sub, eval_X, eval_C]
      refine pow_ne_zero _ (sub_ne_zero.2 fun e => ?_)
      have := Finset.mem_range.1 hk
      have := hd d k (by omega) (by omega) e
      omega
    rw [hdet', hdet, hT, hrank, Finset.prod_range_succ, C_mul]
    ring

/-- The degree of the determinant of a basis. -/
theorem interp_det_natDegree {E : Nat → Matrix (Fin m) (Fin n) K} {x : Nat → K} {d : Nat}
    (hd : ∀ k l, k < d → l < d → x k = x l → k = l) {P : Matrix (Fin m) (Fin m) K[X]} (h : GenBy (IsInterpolant E x d) P) :
    P.det.natDegree = ∑ k ∈ Finset.range d, (E k).rank := by
  obtain ⟨B, hB, c, hc, hdet⟩ := exists_interp_basis E x d hd
  rw [h.det_natDegree hB, hdet, natDegree_C_mul hc, natDegree_prod _ _ fun k _ => pow_ne_zero _ (X_sub_C_ne_zero _)]
  exact Finset.sum_congr rfl fun k _ => by rw [natDegree_pow, natDegree_X_sub_C, mul_one]

/-- Interpolants with a determinant of this degree are a basis. -/
theorem interp_basis_of_det {E : Nat → Matrix (Fin m) (Fin n) K} {x : Nat → K} {d : Nat}
    (hd : ∀ k l, k < d → l < d → x k = x l → k = l) {P : Matrix (Fin m) (Fin m) K[X]}
    (hi : ∀ i, IsInterpolant E x d (P i)) (h0 : P.det ≠ 0)
    (hdeg : P.det.natDegree = ∑ k ∈ Finset.range d, (E k).rank) : GenBy (IsInterpolant E x d) P := by
  obtain ⟨B, hB, -⟩ := exists_interp_basis E x d hd
  have : ∀ i, ∃ u : Fin m → K[X], P i = u ᵥ* B := fun i => (hB _).1 (hi i)
  choose U hU using this
  have hPU : P = (Matrix.of U) * B := Matrix.ext fun i l => congrFun (hU i) l
  have hdB := interp_det_natDegree hd hB
  have hdet : P.det = (Matrix.of U).det * B.det := by
    conv_lhs => rw [hPU]
    exact det_mul _ _
  have hU0 : (Matrix.of U).det ≠ 0 := fun e => h0 (by rw [hdet, e, zero_mul])
  have hB0 : B.det ≠ 0 := hB.interp_det_ne
  have hUd : (Matrix.of U).det.natDegree = 0 := by
    have := hdeg
    rw [hdet, natDegree_mul hU0 hB0, hdB] at this
    omega
  have hunit : IsUnit (Matrix.of U).det := by
    rw [Polynomial.isUnit_iff_degree_eq_zero, degree_eq_natDegree hU0, hUd]; rfl
  have hV : (Matrix.of U)⁻¹ * P = B := by
    conv_lhs => rw [hPU]
    rw [← Matrix.mul_assoc, Matrix.nonsing_inv_mul _ hunit, Matrix.one_mul]
  intro v
  rw [hB v]
  constructor
  · rintro ⟨u, rfl⟩
    exact ⟨u ᵥ* (Matrix.of U)⁻¹, by rw [Matrix.vecMul_vecMul, hV]⟩
  · rintro ⟨u, rfl⟩
    exact ⟨u ᵥ* Matrix.of U, by rw [Matrix.vecMul_vecMul, ← hPU]⟩

end PML.Approx
