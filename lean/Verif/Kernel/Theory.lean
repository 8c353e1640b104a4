import Verif.Approx.Pivot
import Verif.Kernel.Spec
import Verif.Forms.DetDegree
import Mathlib.LinearAlgebra.FreeModule.PID
import Mathlib.LinearAlgebra.Matrix.Rank
import Mathlib.LinearAlgebra.Matrix.NonsingularInverse
import Mathlib.LinearAlgebra.Matrix.SchurComplement
import Mathlib.LinearAlgebra.Matrix.Basis
import Mathlib.RingTheory.Localization.FractionRing
import Mathlib.RingTheory.Localization.Module
import Mathlib.Algebra.Polynomial.FieldDivision
import Mathlib.RingTheory.PrincipalIdealDomain
import Mathlib.Order.Interval.Finset.Fin
import Mathlib.Data.Fintype.EquivFin

/-!
# Theory: kernel bases with increasing pivots, and their degrees
-/

namespace PML.Kernel

open Polynomial Matrix PML.Approx PML.Kernel.Spec

variable {K : Type} [Field K] {k m n : Nat}

/-! ### Elements of minimal degree generate -/

/-- Rows of a module with increasing pivots generate it as soon as every pivot of
    the module is the pivot of one of them, of at most the same degree. -/
theorem generates_of_pivots {s : Fin m → Int} {M : Submodule K[X] (Fin m → K[X])}
    {P : Matrix (Fin k) (Fin m) K[X]} {t : Fin k → Int} {ρ : Fin k → Fin m}
    (hP : ∀ i, HasPivot s (P i) (t i) (ρ i)) (hrow : ∀ i, P i ∈ M)
    (hmin : ∀ v ∈ M, ∀ D π, HasPivot s v D π → ∃ i, ρ i = π ∧ t i ≤ D) :
    ∀ v ∈ M, ∃ u : Fin k → K[X], v = u ᵥ* P := by
  -- a lower bound of the shifts
  obtain ⟨S0, hS0⟩ : ∃ S0 : Int, ∀ j, S0 ≤ s j := by
    refine ⟨-∑ j, |s j|, fun j => ?_⟩
    have h1 := Finset.single_le_sum (f := fun j => |s j|) (fun i _ => abs_nonneg (s i)) (Finset.mem_univ j)
    have h2 := neg_abs_le (s j)
    linarith
  have key : ∀ N : Nat, ∀ v ∈ M,
      (∀ D π, HasPivot s v D π → (D - S0).toNat * m + (π : Nat) < N) →
      ∃ u : Fin k → K[X], v = u ᵥ* P := by
    intro N
    induction N with
    | zero =>
      intro v _ h
      by_cases hv : v = 0
      · exact ⟨0, by rw [hv, Matrix.zero_vecMul]⟩
      · obtain ⟨D, π, hp⟩ := exists_hasPivot s v hv
        exact absurd (h D π hp) (by omega)
    | succ N ih =>
      intro v hvM h
      by_cases hv : v = 0
      · exact ⟨0, by rw [hv, Matrix.zero_vecMul]⟩
      obtain ⟨D, π, hp⟩ := exists_hasPivot s v hv
      obtain ⟨i, hi, hti⟩ := hmin v hvM D π hp
      have hPi := hP i
      rw [hi] at hPi
      have hge := hPi.ge
      let a : K := (v π).coeff (D - s π).toNat
      let b : K := (P i π).coeff (t i - s π).toNat
      have hb : b ≠ 0 := hPi.lead
      let e : Nat := (D - t i).toNat
      let c : K[X] := C (a / b) * X ^ e
      have hcP : ∀ d', (∀ j, DegLE (s j) (P i j) d' → DegLE (s j) (c * P i j) (d' + e)) := by
        intro d' j h1 x hx
        simp only [c]
        rw [mul_assoc, coeff_C_mul, coeff_X_pow_mul']
        split_ifs with hxe
        · rw [h1 _ (by omega), mul_zero]
        · rw [mul_zero]
      have hle : ∀ j, DegLE (s j) ((v - c • P i) j) D := by
        intro j x hx
        rw [Pi.sub_apply, Pi.smul_apply, smul_eq_mul, coeff_sub, hp.le j x hx,
          hcP _ j (hPi.le j) x (by omega), sub_zero]
      have hafter : ∀ j, π ≤ j → DegLE (s j) ((v - c • P i) j) (D - 1) := by
        intro j hj x hx
        rw [Pi.sub_apply, Pi.smul_apply, smul_eq_mul, coeff_sub]
        rcases lt_or_eq_of_le hj with hj | hj
        · rw [hp.after j hj x hx, hcP _ j (hPi.after j hj) x (by omega), sub_zero]
        · subst hj
          by_cases hxD : D < (x : Int) + s π
          · rw [hp.le π x hxD, hcP _ π (hPi.le π) x (by omega), sub_zero]
          · have hx' : x = (D - s π).toNat := by omega
            have hx2 : x = (t i - s π).toNat + e := by omega
            simp only [c]
            rw [mul_assoc, coeff_C_mul, coeff_X_pow_mul', if_pos (by omega),
              show x - e = (t i - s π).toNat by omega, hx']
            show a - a / b * b = 0
            rw [div_mul_cancel₀ _ hb, sub_self]
      have hN := h D π hp
      obtain ⟨u, hu⟩ := ih (v - c • P i) (M.sub_mem hvM (M.smul_mem c (hrow i))) (by
        intro D' π' hp'
        have hD : D' ≤ D := by
          by_contra hc
          exact hp'.lead (hle π' _ (by have := hp'.ge; omega))
        have h0' := hS0 π'
        have hge' := hp'.ge
        by_cases hDD : D' = D
        · have hlt : π' < π := by
            by_contra hc
            exact hp'.lead (hafter π' (not_lt.1 hc) _ (by omega))
          have : (π' : Nat) < π := hlt
          rw [hDD]; omega
        · have h1 : (D' - S0).toNat + 1 ≤ (D - S0).toNat := by omega
          have h2 := Nat.mul_le_mul_right m h1
          have h3 := π'.2
          rw [Nat.add_mul, Nat.one_mul] at h2
          omega)
      refine ⟨u + c • Pi.single i 1, ?_⟩
      rw [Matrix.add_vecMul, ← hu, Matrix.smul_vecMul, Matrix.single_one_vecMul]
      show v = v - c • P i + c • P i
      rw [sub_add_cancel]
  intro v hv
  by_cases hv0 : v = 0
  · exact ⟨0, by rw [hv0, Matrix.zero_vecMul]⟩
  · obtain ⟨D, π, hp⟩ := exists_hasPivot s v hv0
    refine key ((D - S0).toNat * m + π + 1) v hv fun D' π' hp' => ?_
    obtain ⟨rfl, rfl⟩ := hp.unique hp'
    omega

/-- Every submodule has a basis with increasing pivots. -/
theorem exists_basis_pivots (s : Fin m → Int) (M : Submodule K[X] (Fin m → K[X])) :
    ∃ (k : Nat) (N : Matrix (Fin k) (Fin m) K[X]) (t : Fin k → Int) (ρ : Fin k → Fin m),
      Pivots s N t ρ ∧ (∀ i, N i ∈ M) ∧
      ∀ v ∈ M, ∀ D π, HasPivot s v D π → ∃ i, ρ i = π ∧ t i ≤ D := by
  classical
  let Pv : Finset (Fin m) := Finset.univ.filter fun π => ∃ v ∈ M, ∃ D, HasPivot s v D π
  have hmin : ∀ π ∈ Pv, ∃ v ∈ M, ∃ D, HasPivot s v D π ∧
      ∀ v' ∈ M, ∀ D', HasPivot s v' D' π → D ≤ D' := by
    intro π hπ
    have hex : ∃ d : Nat, ∃ v ∈ M, HasPivot s v (s π + d) π := by
      obtain ⟨v, hv, D, hp⟩ := (Finset.mem_filter.1 hπ).2
      refine ⟨(D - s π).toNat, v, hv, ?_⟩
      have e : s π + ((D - s π).toNat : Int) = D := by have := hp.ge; omega
      rw [e]; exact hp
    obtain ⟨v, hv, hp⟩ := Nat.find_spec hex
    refine ⟨v, hv, _, hp, fun v' hv' D' hp' => ?_⟩
    have := Nat.find_min' hex (m := (D' - s π).toNat) ⟨v', hv', by
      have e : s π + ((D' - s π).toNat : Int) = D' := by have := hp'.ge; omega
      rw [e]; exact hp'⟩
    have := hp'.ge
    omega
  choose! w hw D hD hmin using hmin
  let ρ := Pv.orderEmbOfFin rfl
  have hρ : ∀ i, ρ i ∈ Pv := fun i => Finset.orderEmbOfFin_mem _ _ i
  refine ⟨Pv.card, Matrix.of fun i => w (ρ i), fun i => D (ρ i), ρ,
    ⟨fun i => hD _ (hρ i), ρ.strictMono⟩, fun i => hw _ (hρ i), fun v hv D' π hp => ?_⟩
  have hπ : π ∈ Pv := Finset.mem_filter.2 ⟨Finset.mem_univ _, v, hv, D', hp⟩
  obtain ⟨i, hi⟩ : ∃ i, ρ i = π := by
    have : π ∈ Set.range ρ := by
      rw [Finset.range_orderEmbOfFin]; exact hπ
    exact this
  refine ⟨i, hi, ?_⟩
  show D (ρ i) ≤ D'
  rw [hi]; exact hmin π hπ v hv D' hp

/-- The left kernel, as a submodule. -/
noncomputable def kerModule (A : Matrix (Fin m) (Fin n) K[X]) : Submodule K[X] (Fin m → K[X]) :=
  LinearMap.ker A.vecMulLinear

theorem mem_kerModule {A : Matrix (Fin m) (Fin n) K[X]} {v : Fin m → K[X]} :
    v ∈ kerModule A ↔ v ᵥ* A = 0 := by
  rw [kerModule, LinearMap.mem_ker, Matrix.vecMulLinear_apply]

/-! ### Minors -/

/-- Independent rows: some minor of full size is nonzero. -/
theorem exists_minor {r : Nat} (B : Matrix (Fin r) (Fin n) K[X])
    (h : ∀ u : Fin r → K[X], u ᵥ* B = 0 → u = 0) :
    ∃ γ : Fin r → Fin n, Function.Injective γ ∧ (B.submatrix id γ).det ≠ 0 := by
  let F := FractionRing K[X]
  let φ := algebraMap K[X] F
  have hφ : Function.Injective φ := IsFractionRing.injective K[X] F
  let B' : Matrix (Fin r) (Fin n) F := B.map φ
  have hli : LinearIndependent F B'.row := by
    rw [← LinearIndependent.iff_fractionRing K[X] F, Fintype.linearIndependent_iff]
    intro u hu i
    have : u = 0 := by
      apply h
      funext j
      have := congrFun hu j
      rw [Finset.sum_apply] at this
      apply hφ
      rw [Pi.zero_apply, map_zero]
      rw [Pi.zero_apply] at this
      rw [← this]
      show φ (∑ i, u i * B i j) = _
      rw [map_sum]
      refine Finset.sum_congr rfl fun i _ => ?_
      rw [Pi.smul_apply, Algebra.smul_def, map_mul]; rfl
    rw [this]; rfl
  have hrank : B'.rank = r := by
    rw [hli.rank_matrix, Fintype.card_fin]
  rw [Matrix.rank_eq_finrank_span_cols] at hrank
  obtain ⟨f, hf1, -, hf3⟩ := Submodule.exists_fun_fin_finrank_span_eq F (Set.range B'.col)
  let f' : Fin r → (Fin r → F) := fun i => f (Fin.cast hrank.symm i)
  have hf' : ∀ i, ∃ j, B'.col j = f' i := fun i => hf1 _
  choose γ hγ using hf'
  have hlic : LinearIndependent F (B'.submatrix id γ).col := by
    have e : (B'.submatrix id γ).col = f' := by
      funext i; rw [← hγ i]; rfl
    rw [e]
    exact hf3.comp _ (Fin.cast_injective _)
  refine ⟨γ, fun i j hij => ?_, fun hdet => ?_⟩
  · apply hlic.injective
    show B'.col (γ i) = B'.col (γ j)
    rw [hij]
  rw [Matrix.linearIndependent_cols_iff_isUnit, Matrix.isUnit_iff_isUnit_det] at hlic
  apply hlic.ne_zero
  have e : B'.submatrix id γ = φ.mapMatrix (B.submatrix id γ) := rfl
  rw [e, ← RingHom.map_det, hdet, map_zero]

/-- Degree of a determinant, from bounds on the rows. -/
theorem natDegree_det_le {r : Nat} (S : Matrix (Fin r) (Fin r) K[X]) (d : Fin r → Nat)
    (h : ∀ i j, (S i j).natDegree ≤ d i) : S.det.natDegree ≤ ∑ i, d i := by
  rw [Matrix.det_apply]
  refine natDegree_sum_le_of_forall_le _ _ fun σ _ => ?_
  refine le_trans (natDegree_smul_le _ _) ?_
  refine le_trans (natDegree_prod_le _ _) ?_
  rw [← Equiv.sum_comp σ d]
  exact Finset.sum_le_sum fun i _ => h _ _

/-- The determinant of the pivot columns: its degree is the sum of the pivot degrees. -/
theorem Pivots.det {s : Fin m → Int} {N : Matrix (Fin k) (Fin m) K[X]} {t : Fin k → Int}
    {ρ : Fin k → Fin m} (h : Pivots s N t ρ) :
    (N.submatrix id ρ).det ≠ 0 ∧
      ((N.submatrix id ρ).det.natDegree : Int) = ∑ i, (t i - s (ρ i)) := by
  have hdeg : ∀ i, ((N i (ρ i)).natDegree : Int) = t i - s (ρ i) := by
    intro i
    have h1 := (h.row i).natDegree
    have h2 := (h.row i).ge
    omega
  have := PML.Forms.det_degree (N.submatrix id ρ) (fun j => s (ρ j)) t
    (fun i j hne => degLE_iff.1 ((h.row i).le (ρ j)) hne)
    (fun σ hσ => by
      obtain ⟨i, hi⟩ := PML.Forms.exists_lt_of_ne_one σ hσ
      refine ⟨i, fun hne => ?_⟩
      have := degLE_iff.1 ((h.row (σ i)).after (ρ i) (h.mono hi)) hne
      simp only [Matrix.submatrix_apply, id] at this ⊢
      omega)
    (fun i => (h.row i).entry_ne)
    (fun i => by
      have := hdeg i
      simp only [Matrix.submatrix_apply, id]
      omega)
  refine ⟨this.1, ?_⟩
  rw [this.2]
  push_cast
  exact Finset.sum_congr rfl fun i _ => hdeg i

/-- A basis of the kernel can be completed into a basis of the whole space: there
    are mutually inverse matrices, the first rows of one being the basis up to an
    invertible matrix. -/
theorem exists_completion {A : Matrix (Fin m) (Fin n) K[X]} {N : Matrix (Fin k) (Fin m) K[X]}
    (hN : IsKernelBasis A N) {r : Nat} (hkr : k + r = m) :
    ∃ (B B' : Matrix (Fin m) (Fin m) K[X]) (T : Matrix (Fin k) (Fin k) K[X]),
      B * B' = 1 ∧ IsUnit T.det ∧
      ∀ i : Fin k, B (Fin.cast hkr (Fin.castAdd r i)) = (T * N) i := by
  obtain ⟨kk, o, hno, bO, bN, a, hab⟩ := Submodule.exists_smith_normal_form_of_le
    (Pi.basisFun K[X] (Fin m)) (kerModule A) ⊤ le_top
  have ho : o = m := by
    have h1 := Module.finrank_eq_card_basis bO
    rw [finrank_top, Module.finrank_fin_fun, Fintype.card_fin] at h1
    exact h1.symm
  have hrow : ∀ i, N i ∈ kerModule A := by
    intro i
    rw [mem_kerModule]
    exact (hN.generates (N i)).2 ⟨Pi.single i 1, by rw [Matrix.single_one_vecMul]; rfl⟩
  have hkk : kk = k := by
    let w : Fin k → kerModule A := fun i => ⟨N i, hrow i⟩
    have hli : LinearIndependent K[X] w := by
      rw [Fintype.linearIndependent_iff]
      intro u hu i
      have : u = 0 := by
        apply hN.independent
        have := congrArg Subtype.val hu
        rw [AddSubmonoidClass.coe_finsetSum] at this
        rw [← ZeroMemClass.coe_zero (kerModule A), ← this]
        funext j
        rw [Finset.sum_apply]
        rfl
      rw [this]; rfl
    have hsp : ⊤ ≤ Submodule.span K[X] (Set.range w) := by
      rintro ⟨v, hv⟩ -
      obtain ⟨u, hu⟩ := (hN.generates v).1 (mem_kerModule.1 hv)
      have : (⟨v, hv⟩ : kerModule A) = ∑ i, u i • w i := by
        apply Subtype.ext
        rw [AddSubmonoidClass.coe_finsetSum]
        funext j
        rw [Finset.sum_apply]
        exact congrFun hu j
      rw [this]
      exact Submodule.sum_mem _ fun i _ => Submodule.smul_mem _ _ (Submodule.subset_span ⟨i, rfl⟩)
    have h1 := Module.finrank_eq_card_basis bN
    have h2 := Module.finrank_eq_card_basis (Module.Basis.mk hli hsp)
    rw [Fintype.card_fin] at h1 h2
    omega
  subst ho
  subst hkk
  let B : Matrix (Fin o) (Fin o) K[X] := Matrix.of fun i => (bO i : Fin o → K[X])
  let B' : Matrix (Fin o) (Fin o) K[X] := Matrix.of fun i l => bO.repr ⟨Pi.single i 1, trivial⟩ l
  have hB'B : B' * B = 1 := by
    refine Matrix.ext fun i j => ?_
    have h1 := congrArg Subtype.val (bO.sum_repr ⟨Pi.single i 1, trivial⟩)
    rw [AddSubmonoidClass.coe_finsetSum] at h1
    have h2 := congrFun h1 j
    rw [Finset.sum_apply] at h2
    rw [Matrix.mul_apply, Matrix.one_apply]
    refine Eq.trans ?_ (h2.trans ?_)
    · rfl
    · simp only [Pi.single_apply]
      simp only [eq_comm]
  have hBB' : B * B' = 1 := mul_eq_one_comm.1 hB'B
  have ha : ∀ i, a i ≠ 0 := by
    intro i h0
    have := hab i
    rw [h0, zero_smul] at this
    exact bN.ne_zero i (Subtype.ext this)
  have hker : ∀ i, B (Fin.castLE hno i) ∈ kerModule A := by
    intro i
    have h1 := (bN i).2
    rw [hab i, mem_kerModule, Matrix.smul_vecMul] at h1
    rw [mem_kerModule]
    exact (smul_eq_zero.1 h1).resolve_left (ha i)
  have hT : ∀ i, ∃ u : Fin kk → K[X], B (Fin.castLE hno i) = u ᵥ* N := fun i =>
    (hN.generates _).1 (mem_kerModule.1 (hker i))
  choose T hT using hT
  have hT' : ∀ i, ∃ u : Fin kk → K[X], N i = ∑ l, u l • B (Fin.castLE hno l) := by
    intro i
    refine ⟨fun l => bN.repr ⟨N i, hrow i⟩ l * a l, ?_⟩
    have h1 := congrArg Subtype.val (bN.sum_repr ⟨N i, hrow i⟩)
    rw [AddSubmonoidClass.coe_finsetSum] at h1
    refine h1.symm.trans ?_
    refine Finset.sum_congr rfl fun l _ => ?_
    rw [mul_smul]
    have := hab l
    show bN.repr ⟨N i, hrow i⟩ l • ((bN l : kerModule A) : Fin o → K[X]) = _
    rw [this]; rfl
  choose T' hT' using hT'
  have hTT : (Matrix.of T') * (Matrix.of T) = 1 := by
    refine Matrix.ext fun i => congrFun ?_
    have hz : ((Matrix.of T' * Matrix.of T) i - (1 : Matrix (Fin kk) (Fin kk) K[X]) i) ᵥ* N = 0 := by
      rw [Matrix.sub_vecMul]
      have h1 : ((1 : Matrix (Fin kk) (Fin kk) K[X]) i) ᵥ* N = N i := by
        show ((1 : Matrix (Fin kk) (Fin kk) K[X]) * N) i = N i
        rw [Matrix.one_mul]
      have h2 : ((Matrix.of T' * Matrix.of T) i) ᵥ* N = N i := by
        show ((Matrix.of T' * Matrix.of T) * N) i = N i
        rw [Matrix.mul_assoc]
        have h3 : Matrix.of T * N = Matrix.of fun i => B (Fin.castLE hno i) := by
          refine Matrix.ext fun i j => ?_
          exact (congrFun (hT i) j).symm
        rw [h3]
        conv_rhs => rw [hT' i]
        funext j
        rw [Finset.sum_apply]
        rfl
      rw [h1, h2, sub_self]
    exact sub_eq_zero.1 (hN.independent _ hz)
  refine ⟨B, B', Matrix.of T, hBB', ?_, fun i => ?_⟩
  · have := congrArg Matrix.det hTT
    rw [Matrix.det_mul, Matrix.det_one] at this
    exact IsUnit.of_mul_eq_one_right _ this
  · exact hT i

/-- The rows outside the pivot set of a kernel basis are independent. -/
theorem independent_rest {A : Matrix (Fin m) (Fin n) K[X]} {N : Matrix (Fin k) (Fin m) K[X]}
    {s : Fin m → Int} {t : Fin k → Int} {ρ : Fin k → Fin m}
    (hN : IsKernelBasis A N) (hP : Pivots s N t ρ) {r : Nat} (eq : Fin k ⊕ Fin r ≃ Fin m)
    (heq : ∀ i, eq (Sum.inl i) = ρ i) (u : Fin r → K[X])
    (hu : u ᵥ* A.submatrix (fun j => eq (Sum.inr j)) id = 0) : u = 0 := by
  by_contra hne
  let v : Fin m → K[X] := fun j => Sum.elim (fun _ => 0) u (eq.symm j)
  have hvA : v ᵥ* A = 0 := by
    funext j
    show ∑ l, v l * A l j = 0
    rw [← Equiv.sum_comp eq, Fintype.sum_sum_type]
    have h1 : ∀ i, v (eq (Sum.inl i)) = 0 := fun i => by simp [v]
    have h2 : ∀ i, v (eq (Sum.inr i)) = u i := fun i => by simp [v]
    simp only [h1, h2, zero_mul, Finset.sum_const_zero, zero_add]
    exact congrFun hu j
  have hv : v ≠ 0 := by
    intro h0
    apply hne
    funext i
    have := congrFun h0 (eq (Sum.inr i))
    simpa [v] using this
  obtain ⟨D, π, hp⟩ := exists_hasPivot s v hv
  obtain ⟨w, hw⟩ := (hN.generates v).1 hvA
  rw [hw] at hp
  obtain ⟨i, hi, -⟩ := hP.of_mem hp
  have := hp.entry_ne
  rw [← hw, ← hi, ← heq] at this
  simp [v] at this

/-- The degrees of a kernel basis in weak Popov form: at least `m - n` rows, and
    the pivot degrees sum to at most the sum of the degrees of the rows of the matrix
    outside the pivot set. -/
theorem kernel_degrees {A : Matrix (Fin m) (Fin n) K[X]} {N : Matrix (Fin k) (Fin m) K[X]}
    {s : Fin m → Int} {t : Fin k → Int} {ρ : Fin k → Fin m}
    (hN : IsKernelBasis A N) (hP : Pivots s N t ρ) :
    ∃ (r : Nat) (γ : Fin r → Fin n), Function.Injective γ ∧ k + r = m ∧
      ∀ rd : Fin m → Nat, (∀ i j, (A i j).natDegree ≤ rd i) →
        ∑ i, (t i - s (ρ i)) ≤ ∑ j ∈ Finset.univ.filter (fun j => ∀ i, ρ i ≠ j), (rd j : Int) := by
  classical
  generalize hJ : (Finset.univ.filter fun j : Fin m => ∀ i, ρ i ≠ j) = J
  obtain ⟨r, hr⟩ : ∃ r, J.card = r := ⟨_, rfl⟩
  let σ : Fin r → Fin m := fun i => J.orderEmbOfFin hr i
  have hσJ : ∀ i, σ i ∈ J := fun i => J.orderEmbOfFin_mem hr i
  have hσinj : Function.Injective σ := (J.orderEmbOfFin hr).injective
  have hρinj : Function.Injective ρ := hP.mono.injective
  have hdisj : ∀ i j, ρ i ≠ σ j := by
    intro i j
    have := hσJ j
    rw [← hJ, Finset.mem_filter] at this
    exact this.2 i
  have hsurjσ : ∀ j ∈ J, ∃ i, σ i = j := by
    intro j hj
    have : j ∈ Set.range (J.orderEmbOfFin hr) := by
      rw [Finset.range_orderEmbOfFin]; exact hj
    exact this
  have hbij : Function.Bijective (Sum.elim ρ σ) := by
    constructor
    · rintro (a | a) (b | b) h
      · exact congrArg _ (hρinj h)
      · exact absurd h (hdisj a b)
      · exact absurd h.symm (hdisj b a)
      · exact congrArg _ (hσinj h)
    · intro j
      by_cases hj : ∀ i, ρ i ≠ j
      · obtain ⟨i, hi⟩ := hsurjσ j (by rw [← hJ, Finset.mem_filter]; exact ⟨Finset.mem_univ _, hj⟩)
        exact ⟨Sum.inr i, hi⟩
      · push Not at hj
        obtain ⟨i, hi⟩ := hj
        exact ⟨Sum.inl i, hi⟩
  let eq : Fin k ⊕ Fin r ≃ Fin m := Equiv.ofBijective _ hbij
  have heql : ∀ i, eq (Sum.inl i) = ρ i := fun _ => rfl
  have heqr : ∀ i, eq (Sum.inr i) = σ i := fun _ => rfl
  have hkr : k + r = m := by
    have := Fintype.card_congr eq
    rw [Fintype.card_sum, Fintype.card_fin, Fintype.card_fin, Fintype.card_fin] at this
    exact this
  obtain ⟨γ, hγ, hdet⟩ := exists_minor (A.submatrix σ id)
    (fun u hu => independent_rest hN hP eq heql u hu)
  refine ⟨r, γ, hγ, hkr, fun rd hrd => ?_⟩
  obtain ⟨B, B', T, hBB, hTu, hBT⟩ := exists_completion hN hkr
  let e1 : Fin k ⊕ Fin r ≃ Fin m := finSumFinEquiv.trans (finCongr hkr)
  let W := B.submatrix e1 eq
  let V := B'.submatrix eq e1
  have hWV : W * V = 1 := by
    rw [Matrix.submatrix_mul_equiv, hBB, Matrix.submatrix_one_equiv]
  have hVW : V * W = 1 := mul_eq_one_comm.1 hWV
  have hW11 : W.toBlocks₁₁ = T * N.submatrix id ρ := by
    refine Matrix.ext fun i j => ?_
    exact congrFun (hBT i) (ρ j)
  have hWb : W = Matrix.fromBlocks W.toBlocks₁₁ W.toBlocks₁₂ W.toBlocks₂₁ W.toBlocks₂₂ :=
    (Matrix.fromBlocks_toBlocks W).symm
  have hVb : V = Matrix.fromBlocks V.toBlocks₁₁ V.toBlocks₁₂ V.toBlocks₂₁ V.toBlocks₂₂ :=
    (Matrix.fromBlocks_toBlocks V).symm
  have hprod : Matrix.fromBlocks W.toBlocks₁₁ W.toBlocks₁₂ W.toBlocks₂₁ W.toBlocks₂₂ *
      Matrix.fromBlocks V.toBlocks₁₁ V.toBlocks₁₂ V.toBlocks₂₁ V.toBlocks₂₂ =
      Matrix.fromBlocks 1 0 0 1 := by
    rw [← hWb, ← hVb, hWV, Matrix.fromBlocks_one]
  rw [Matrix.fromBlocks_multiply, Matrix.fromBlocks_inj] at hprod
  have hdetW : IsUnit W.det := by
    have := congrArg Matrix.det hWV
    rw [Matrix.det_mul, Matrix.det_one] at this
    exact IsUnit.of_mul_eq_one _ this
  have h1 : W.det * V.toBlocks₂₂.det = (T * N.submatrix id ρ).det := by
    have : W * Matrix.fromBlocks 1 V.toBlocks₁₂ 0 V.toBlocks₂₂ =
        Matrix.fromBlocks W.toBlocks₁₁ 0 W.toBlocks₂₁ 1 := by
      conv_lhs => rw [hWb]
      rw [Matrix.fromBlocks_multiply, hprod.2.1, hprod.2.2.2]
      simp
    have := congrArg Matrix.det this
    rw [Matrix.det_mul, Matrix.det_fromBlocks_zero₂₁, Matrix.det_fromBlocks_zero₁₂,
      Matrix.det_one, Matrix.det_one, one_mul, mul_one, hW11] at this
    exact this
  -- the product with the matrix
  let Ae : Matrix (Fin k ⊕ Fin r) (Fin r) K[X] := A.submatrix eq γ
  let H : Matrix (Fin r) (Fin r) K[X] := fun i j => (W * Ae) (Sum.inr i) j
  have htop : ∀ i j, (W * Ae) (Sum.inl i) j = 0 := by
    intro i j
    have h2 : W * Ae = (B * A).submatrix e1 γ := by
      rw [Matrix.submatrix_mul_equiv]
    rw [h2]
    show (B (e1 (Sum.inl i)) ᵥ* A) (γ j) = 0
    have h3 : B (e1 (Sum.inl i)) = T i ᵥ* N := hBT i
    rw [h3, (hN.generates _).2 ⟨T i, rfl⟩]
    rfl
  have hS : (A.submatrix σ id).submatrix id γ = V.toBlocks₂₂ * H := by
    refine Matrix.ext fun i j => ?_
    have h2 : Ae = V * (W * Ae) := by rw [← Matrix.mul_assoc, hVW, Matrix.one_mul]
    have h3 := congrFun (congrFun h2 (Sum.inr i)) j
    rw [Matrix.mul_apply, Fintype.sum_sum_type] at h3
    simp only [htop, mul_zero, Finset.sum_const_zero, zero_add] at h3
    exact h3
  have hdetS := congrArg Matrix.det hS
  rw [Matrix.det_mul] at hdetS
  rw [hdetS] at hdet
  have hV0 : V.toBlocks₂₂.det ≠ 0 := left_ne_zero_of_mul hdet
  have hH0 : H.det ≠ 0 := right_ne_zero_of_mul hdet
  have hd1 : (N.submatrix id ρ).det.natDegree = V.toBlocks₂₂.det.natDegree := by
    have h2 := congrArg Polynomial.natDegree h1
    rw [Matrix.det_mul, Polynomial.natDegree_mul hdetW.ne_zero hV0,
      Polynomial.natDegree_mul hTu.ne_zero (Pivots.det hP).1,
      Polynomial.natDegree_eq_zero_of_isUnit hdetW,
      Polynomial.natDegree_eq_zero_of_isUnit hTu] at h2
    omega
  have hd2 : V.toBlocks₂₂.det.natDegree ≤ ∑ i, rd (σ i) := by
    have h2 := congrArg Polynomial.natDegree hdetS
    rw [Polynomial.natDegree_mul hV0 hH0] at h2
    have h3 := natDegree_det_le ((A.submatrix σ id).submatrix id γ) (fun i => rd (σ i))
      (fun i j => hrd _ _)
    omega
  have hsum : ∑ i, rd (σ i) = ∑ j ∈ J, rd j := by
    refine Finset.sum_nbij σ (fun i _ => hσJ i) (fun a _ b _ h => hσinj h) ?_ (fun _ _ => rfl)
    intro j hj
    obtain ⟨i, hi⟩ := hsurjσ j hj
    exact ⟨i, Finset.mem_coe.2 (Finset.mem_univ _), hi⟩
  rw [← (Pivots.det hP).2, hd1, ← Nat.cast_sum, ← hsum]
  exact_mod_cast hd2

end PML.Kernel
