import Verif.Approx.Pivot
import Mathlib.Data.Fintype.EquivFin
import Mathlib.Order.WellFounded

/-!
# Theory: one step of mbasis with any basis of the left kernel of the residual

The rows of the basis are only asked to have pairwise distinct last entries, for the order by
(degree, index); they need not be reduced.
-/

namespace PML.Approx

open Polynomial Matrix Spec

variable {K : Type} [Field K] {m n : Nat}

/-- One step of mbasis: the rows in `T` are multiplied by `X`, each other row `i` is replaced by the
    combination `κ i` of rows, whose last nonzero entry is the entry `i`; the vectors `κ i` generate
    the left kernel of the residual `R`. -/
structure KStep (R : Matrix (Fin m) (Fin n) K) (s s' : Fin m → Int)
    (P P' : Matrix (Fin m) (Fin m) K[X]) (T : Finset (Fin m)) (κ : Fin m → Fin m → K) : Prop where
  ker : ∀ i, i ∉ T → ∀ j, ∑ l, κ i l * R l j = 0
  span : ∀ ν : Fin m → K, (∀ j, ∑ l, ν l * R l j = 0) → ∃ a : Fin m → K, ∀ l, ν l = ∑ i ∈ Tᶜ, a i * κ i l
  diag : ∀ i, i ∉ T → κ i i ≠ 0
  lex : ∀ i, i ∉ T → ∀ l, l ≠ i → κ i l ≠ 0 → s l < s i ∨ (s l = s i ∧ l < i)
  top : ∀ t ∈ T, ∀ l, P' t l = X * P t l
  bot : ∀ i, i ∉ T → ∀ l, P' i l = ∑ k, C (κ i k) * P k l
  stop : ∀ t ∈ T, s' t = s t + 1
  sbot : ∀ i, i ∉ T → s' i = s i

theorem KStep.pivots {R : Matrix (Fin m) (Fin n) K} {s s' s0 : Fin m → Int}
    {P P' : Matrix (Fin m) (Fin m) K[X]} {T : Finset (Fin m)} {κ : Fin m → Fin m → K}
    (h : KStep R s s' P P' T κ) (hP : Pivots s0 P s id) : Pivots s0 P' s' id := by
  refine ⟨fun i => ?_, strictMono_id⟩
  have hi := hP.row i
  by_cases hT : i ∈ T
  · refine ⟨fun j => ?_, fun j hj => ?_, ?_, ?_⟩
    · rw [h.top i hT, h.stop i hT]; exact (hi.le j).X_mul
    · rw [h.top i hT, h.stop i hT]; exact ((hi.after j hj).X_mul).mono (by omega)
    · rw [h.stop i hT]; have := hi.ge; show s0 i ≤ _; change s0 i ≤ s i at this; omega
    · have hge : s0 i ≤ s i := hi.ge
      show (P' i i).coeff (s' i - s0 i).toNat ≠ 0
      rw [h.top i hT, h.stop i hT, show (s i + 1 - s0 i).toNat = (s i - s0 i).toNat + 1 by omega, coeff_X_mul]
      exact hi.lead
  · have hlow : ∀ l, l ≠ i → ∀ j, i ≤ j → DegLE (s0 j) (C (κ i l) * P l j) (s i - 1) := by
      intro l hl j hj
      by_cases hc : κ i l = 0
      · rw [hc]; simp only [map_zero, zero_mul]; exact DegLE.zero
      · apply DegLE.C_mul
        rcases h.lex i hT l hl hc with h1 | ⟨h1, h2⟩
        · exact ((hP.row l).le j).mono (by omega)
        · exact ((hP.row l).after j (lt_of_lt_of_le h2 hj)).mono (by omega)
    refine ⟨fun j => ?_, fun j hj => ?_, ?_, ?_⟩
    · rw [h.bot i hT, h.sbot i hT]
      refine DegLE.sum _ _ fun l _ => ?_
      by_cases hc : κ i l = 0
      · rw [hc]; simp only [map_zero, zero_mul]; exact DegLE.zero
      · apply DegLE.C_mul
        by_cases hl : l = i
        · rw [hl]; exact hi.le j
        · rcases h.lex i hT l hl hc with h1 | ⟨h1, -⟩
          · exact ((hP.row l).le j).mono (by omega)
          · exact ((hP.row l).le j).mono (by omega)
    · rw [h.bot i hT, h.sbot i hT]
      refine DegLE.sum _ _ fun l _ => ?_
      by_cases hl : l = i
      · rw [hl]; exact (hi.after j hj).C_mul _
      · exact hlow l hl j (le_of_lt hj)
    · rw [h.sbot i hT]; exact hi.ge
    · have hge : s0 i ≤ s i := hi.ge
      show (P' i i).coeff (s' i - s0 i).toNat ≠ 0
      rw [h.bot i hT, h.sbot i hT, ← Finset.sum_erase_add _ _ (Finset.mem_univ i), coeff_add]
      have hz : DegLE (s0 i) (∑ l ∈ Finset.univ.erase i, C (κ i l) * P l i) (s i - 1) :=
        DegLE.sum _ _ fun l hl => hlow l (Finset.ne_of_mem_erase hl) i (le_refl _)
      rw [hz _ (by omega), zero_add, coeff_C_mul]
      exact mul_ne_zero (h.diag i hT) hi.lead

theorem mem_rows (P : Matrix (Fin m) (Fin m) K[X]) (i : Fin m) : P i ∈ LinearMap.range (Matrix.vecMulLinear P) :=
  ⟨Pi.single i 1, by rw [Matrix.vecMulLinear_apply, Matrix.single_one_vecMul]; rfl⟩

theorem KStep.generates {F : Matrix (Fin m) (Fin n) K[X]} {d : Nat} {s s' : Fin m → Int}
    {P P' : Matrix (Fin m) (Fin m) K[X]} {T : Finset (Fin m)} {κ : Fin m → Fin m → K}
    {R : Matrix (Fin m) (Fin n) K} (hR : ∀ i j, R i j = ((P * F) i j).coeff d)
    (h : KStep R s s' P P' T κ) (hP : Generates F d P) : Generates F (d + 1) P' := by
  classical
  constructor
  · intro i j
    by_cases hi : i ∈ T
    · have : (P' * F) i j = X * (P * F) i j := by
        simp only [Matrix.mul_apply, h.top i hi, Finset.mul_sum, mul_assoc]
      rw [this, pow_succ, mul_comm]; exact mul_dvd_mul_left X (hP.sound i j)
    · have hb : (P' * F) i j = ∑ k, C (κ i k) * (P * F) k j := by
        simp only [Matrix.mul_apply, h.bot i hi, Finset.mul_sum, Finset.sum_mul]
        rw [Finset.sum_comm]
        simp only [mul_assoc]
      rw [X_pow_dvd_iff]
      intro k hk
      rw [hb, finsetSum_coeff]
      simp only [coeff_C_mul]
      by_cases hkd : k < d
      · exact Finset.sum_eq_zero fun t _ => by rw [coeff_of_dvd (hP.sound t j) hkd, mul_zero]
      · have e : k = d := by omega
        subst e
        simp only [← hR]
        exact h.ker i hi j
  · intro v hv
    obtain ⟨u, rfl⟩ := hP.complete v fun j => (pow_dvd_pow X (Nat.le_succ d)).trans (hv j)
    have hu0 : ∀ j, ∑ i, (u i).coeff 0 * R i j = 0 := by
      intro j
      have h1 : ((u ᵥ* P) ᵥ* F) j = ∑ i, u i * (P * F) i j := by
        rw [Matrix.vecMul_vecMul]; rfl
      have h2 := coeff_of_dvd (hv j) (Nat.lt_succ_self d)
      rw [h1, finsetSum_coeff] at h2
      rw [← h2]
      refine Finset.sum_congr rfl fun i _ => ?_
      obtain ⟨q, hq⟩ := hP.sound i j
      rw [hR, hq, mul_comm (u i), mul_assoc]
      have hc : ∀ q : K[X], (X ^ d * q).coeff d = q.coeff 0 := by
        intro q
        have := coeff_X_pow_mul q d 0
        simpa using this
      rw [hc, hc, mul_coeff_zero, mul_comm]
    -- the rows `X * P i` are combinations of the rows of `P'`
    have hX : ∀ i, (fun l => X * P i l) ∈ LinearMap.range (Matrix.vecMulLinear P') := by
      have hwf : WellFounded fun l i : Fin m => s l < s i ∨ (s l = s i ∧ l < i) := by
        have : IsTrans (Fin m) fun l i : Fin m => s l < s i ∨ (s l = s i ∧ l < i) := ⟨by
          rintro a b c (h1 | ⟨h1, h2⟩) (h3 | ⟨h3, h4⟩)
          · exact Or.inl (by omega)
          · exact Or.inl (by omega)
          · exact Or.inl (by omega)
          · exact Or.inr ⟨by omega, h2.trans h4⟩⟩
        have : Std.Irrefl fun l i : Fin m => s l < s i ∨ (s l = s i ∧ l < i) := ⟨by
          rintro a (h1 | ⟨h1, h2⟩)
          · omega
          · exact lt_irrefl _ h2⟩
        exact Finite.wellFounded_of_trans_of_irrefl _
      intro i
      induction i using hwf.induction with
      | _ i ih =>
        by_cases hi : i ∈ T
        · have : (fun l => X * P i l) = P' i := by funext l; rw [h.top i hi]
          rw [this]; exact mem_rows P' i
        · have e : (fun l => X * P i l) = (C (κ i i)⁻¹ : K[X]) • ((X : K[X]) • P' i -
              ∑ k ∈ Finset.univ.erase i, (C (κ i k) : K[X]) • fun l => X * P k l) := by
            funext l
            simp only [Pi.smul_apply, Pi.sub_apply, Finset.sum_apply, smul_eq_mul, h.bot i hi]
            rw [← Finset.sum_erase_add _ _ (Finset.mem_univ i), mul_add, Finset.mul_sum]
            have : ∑ k ∈ Finset.univ.erase i, (X : K[X]) * (C (κ i k) * P k l) =
                ∑ k ∈ Finset.univ.erase i, C (κ i k) * (X * P k l) :=
              Finset.sum_congr rfl fun k _ => by ring
            rw [this, add_sub_cancel_left]
            have hc : (C (κ i i)⁻¹ : K[X]) * C (κ i i) = 1 := by
              rw [← C_mul, inv_mul_cancel₀ (h.diag i hi), C_1]
            linear_combination (- (X * P i l)) * hc
          rw [e]
          refine Submodule.smul_mem _ _ (Submodule.sub_mem _ (Submodule.smul_mem _ _ (mem_rows P' i)) ?_)
          refine Submodule.sum_mem _ fun k hk => ?_
          by_cases hc : κ i k = 0
          · rw [hc, map_zero, zero_smul]; exact Submodule.zero_mem _
          · exact Submodule.smul_mem _ _ (ih k (h.lex i hi k (Finset.ne_of_mem_erase hk) hc))
    obtain ⟨a, ha⟩ := h.span (fun i => (u i).coeff 0) hu0
    have hmem : u ᵥ* P ∈ LinearMap.range (Matrix.vecMulLinear P') := by
      have e : u ᵥ* P = ∑ i ∈ Tᶜ, (C (a i) : K[X]) • P' i + ∑ i, divX (u i) • fun l => X * P i l := by
        funext l
        show ∑ i, u i * P i l = _
        simp only [Pi.add_apply, Finset.sum_apply, Pi.smul_apply, smul_eq_mul]
        have h1 : ∑ i ∈ Tᶜ, C (a i) * P' i l = ∑ k, C ((u k).coeff 0) * P k l := by
          have : ∀ i ∈ Tᶜ, C (a i) * P' i l = ∑ k, C (a i * κ i k) * P k l := fun i hi => by
            rw [h.bot i (Finset.mem_compl.1 hi), Finset.mul_sum]
            exact Finset.sum_congr rfl fun k _ => by rw [C_mul]; ring
          rw [Finset.sum_congr rfl this, Finset.sum_comm]
          refine Finset.sum_congr rfl fun k _ => ?_
          rw [ha k, map_sum, Finset.sum_mul]
        rw [h1, ← Finset.sum_add_distrib]
        refine Finset.sum_congr rfl fun i _ => ?_
        conv_lhs => rw [← divX_mul_X_add (u i)]
        ring
      rw [e]
      refine Submodule.add_mem _ (Submodule.sum_mem _ fun i _ => Submodule.smul_mem _ _ (mem_rows P' i))
        (Submodule.sum_mem _ fun i _ => Submodule.smul_mem _ _ (hX i))
    obtain ⟨w, hw⟩ := hmem
    exact ⟨w, hw.symm⟩

/-- The degrees grow by at most one. -/
theorem KStep.deg {R : Matrix (Fin m) (Fin n) K} {s s' : Fin m → Int}
    {P P' : Matrix (Fin m) (Fin m) K[X]} {T : Finset (Fin m)} {κ : Fin m → Fin m → K}
    (h : KStep R s s' P P' T κ) {d : Nat} (hd : ∀ i l k, d < k → (P i l).coeff k = 0) :
    ∀ i l k, d + 1 < k → (P' i l).coeff k = 0 := by
  intro i l k hk
  by_cases hi : i ∈ T
  · rw [h.top i hi]
    obtain ⟨k, rfl⟩ := Nat.exists_eq_succ_of_ne_zero (show k ≠ 0 by omega)
    rw [Nat.succ_eq_add_one, coeff_X_mul]; exact hd i l k (by omega)
  · rw [h.bot i hi, finsetSum_coeff]
    exact Finset.sum_eq_zero fun t _ => by rw [coeff_C_mul, hd t l k (by omega), mul_zero]

theorem Pivots.one (s : Fin m → Int) : Pivots s (1 : Matrix (Fin m) (Fin m) K[X]) s id := (DiagPivots.one s).pivots

/-- If the left kernel of the residual is zero then so is the one of every later residual of `X P`. -/
theorem KStep.all {R : Matrix (Fin m) (Fin n) K} {s : Fin m → Int} {P : Matrix (Fin m) (Fin m) K[X]}
    (h : ∀ ν : Fin m → K, (∀ j, ∑ l, ν l * R l j = 0) → ν = 0) :
    KStep R s (fun i => s i + 1) P (fun i l => X * P i l) Finset.univ fun _ _ => 0 where
  ker := fun i hi => absurd (Finset.mem_univ i) hi
  span := fun ν hν => ⟨0, fun l => by rw [h ν hν]; simp⟩
  diag := fun i hi => absurd (Finset.mem_univ i) hi
  lex := fun i hi => absurd (Finset.mem_univ i) hi
  top := fun _ _ _ => rfl
  bot := fun i hi => absurd (Finset.mem_univ i) hi
  stop := fun _ _ => rfl
  sbot := fun i hi => absurd (Finset.mem_univ i) hi

/-- The residual is zero: nothing changes. -/
theorem KStep.none {R : Matrix (Fin m) (Fin n) K} {s : Fin m → Int} {P : Matrix (Fin m) (Fin m) K[X]}
    (h : ∀ i j, R i j = 0) : KStep R s s P P ∅ fun i l => if i = l then 1 else 0 where
  ker := fun i _ j => Finset.sum_eq_zero fun l _ => by rw [h, mul_zero]
  span := fun ν _ => ⟨ν, fun l => by
    rw [Finset.compl_empty, Finset.sum_eq_single l (fun i _ hi => by rw [if_neg hi, mul_zero])
      fun hl => absurd (Finset.mem_univ l) hl, if_pos rfl, mul_one]⟩
  diag := fun i _ => by rw [if_pos rfl]; exact one_ne_zero
  lex := fun i _ l hl hne => absurd (if_neg fun e => hl e.symm) hne
  top := fun t ht => absurd ht (Finset.notMem_empty t)
  bot := fun i _ l => by
    rw [Finset.sum_eq_single i (fun k _ hk => by rw [if_neg fun e => hk e.symm, map_zero, zero_mul])
      fun hi => absurd (Finset.mem_univ i) hi, if_pos rfl, map_one, one_mul]
  stop := fun t ht => absurd ht (Finset.notMem_empty t)
  sbot := fun _ _ => rfl

/-- `X^e P`. -/
noncomputable def scale (e : Nat) (P : Matrix (Fin m) (Fin m) K[X]) : Matrix (Fin m) (Fin m) K[X] := fun i l => X ^ e * P i l

/-- The left kernel of the residual is zero: `X^e P` is a basis at the order increased by `e`. -/
theorem shift_all {F : Matrix (Fin m) (Fin n) K[X]} {d : Nat} {s0 s : Fin m → Int} {P : Matrix (Fin m) (Fin m) K[X]}
    {R : Matrix (Fin m) (Fin n) K} (hR : ∀ i j, R i j = ((P * F) i j).coeff d)
    (h : ∀ ν : Fin m → K, (∀ j, ∑ l, ν l * R l j = 0) → ν = 0) (hG : Generates F d P) (hp : Pivots s0 P s id)
    (hd : ∀ i l k, d < k → (P i l).coeff k = 0) : ∀ e : Nat,
    Generates F (d + e) (scale e P) ∧ Pivots s0 (scale e P) (fun i => s i + e) id ∧
      ∀ i l k, d + e < k → (scale e P i l).coeff k = 0
  | 0 => by
    have : scale 0 P = P := by funext i l; unfold scale; rw [pow_zero, one_mul]
    simp only [this, Nat.cast_zero, add_zero]
    exact ⟨hG, hp, hd⟩
  | e + 1 => by
    obtain ⟨h1, h2, h3⟩ := shift_all hR h hG hp hd e
    have hst := KStep.all (R := R) (s := fun i => s i + e) (P := scale e P) h
    have hfun : scale (e + 1) P = fun i l => X * scale e P i l := by
      funext i l; unfold scale; rw [pow_succ]; ring
    have hs : (fun i => s i + ((e + 1 : Nat) : Int)) = fun i => s i + (e : Int) + 1 := by
      funext i; push_cast; ring
    have hr : ∀ i j, R i j = ((scale e P * F) i j).coeff (d + e) := by
      intro i j
      have : (scale e P * F) i j = X ^ e * (P * F) i j := by
        simp only [Matrix.mul_apply, Finset.mul_sum, mul_assoc, scale]
      rw [this, coeff_X_pow_mul, hR]
    rw [hfun, hs]
    exact ⟨hst.generates hr h1, hst.pivots h2, fun i l k hk => hst.deg h3 i l k (by omega)⟩

end PML.Approx
