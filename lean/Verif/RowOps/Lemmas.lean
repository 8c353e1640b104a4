import Verif.RowOps.Spec
import Verif.MatOps.Lemmas
import Mathlib.LinearAlgebra.Matrix.NonsingularInverse
import Mathlib.LinearAlgebra.Matrix.Transvection
import Mathlib.RingTheory.Localization.Module

/-! # Row operations as left multiplications -/

namespace PML.RowOps

open PML.MatOps PML.MatOps.Spec PML.PolyMul.Spec PML.RowOps.Spec

variable {R ι : Type} [CommRing R]

theorem Spec.Transformed.of_matrix {m : Nat} {σ : R} {A B : Nat → ι → R} (U : Matrix (Fin m) (Fin m) R)
    (hdet : U.det = σ) (hB : ∀ (i : Fin m) j, B i j = ∑ k : Fin m, U i k * A k j)
    (hout : ∀ i, m ≤ i → B i = A i) : Transformed m σ A B := by
  refine ⟨fun i k => if h : i < m ∧ k < m then U ⟨i, h.1⟩ ⟨k, h.2⟩ else 0, ?_, fun i hi j => ?_, hout⟩
  · rw [← hdet]
    congr 1
    ext i k
    simp [asMatrix]
  · rw [Finset.sum_range, hB ⟨i, hi⟩ j]
    refine Finset.sum_congr rfl fun k _ => ?_
    simp [hi]

theorem Spec.Transformed.matrix {m : Nat} {σ : R} {A B : Nat → ι → R} (h : Transformed m σ A B) :
    ∃ U : Matrix (Fin m) (Fin m) R, U.det = σ ∧
      (∀ (i : Fin m) j, B i j = ∑ k : Fin m, U i k * A k j) ∧ ∀ i, m ≤ i → B i = A i := by
  obtain ⟨U, h1, h2, h3⟩ := h
  refine ⟨asMatrix m m U, h1, fun i j => ?_, h3⟩
  rw [h2 i i.2 j, Finset.sum_range]
  rfl

theorem Spec.Transformed.refl (m : Nat) (A : Nat → ι → R) : Transformed m 1 A A :=
  .of_matrix 1 Matrix.det_one (fun i j => by simp [Matrix.one_apply]) fun _ _ => rfl

theorem Spec.Transformed.trans {m : Nat} {σ τ : R} {A B C : Nat → ι → R} (h : Transformed m σ A B)
    (h' : Transformed m τ B C) : Transformed m (τ * σ) A C := by
  obtain ⟨U, h1, h2, h3⟩ := h.matrix
  obtain ⟨V, k1, k2, k3⟩ := h'.matrix
  refine .of_matrix (V * U) (by rw [Matrix.det_mul, h1, k1]) (fun i j => ?_)
    fun i hi => by rw [k3 i hi, h3 i hi]
  rw [k2 i j]
  simp only [h2, Matrix.mul_apply, Finset.mul_sum, Finset.sum_mul]
  rw [Finset.sum_comm]
  exact Finset.sum_congr rfl fun _ _ => Finset.sum_congr rfl fun _ _ => (mul_assoc _ _ _).symm

/-- The same transformation on selected columns. -/
theorem Spec.Transformed.cols {κ : Type} {m : Nat} {σ : R} {A B : Nat → ι → R} (h : Transformed m σ A B)
    (f : κ → ι) : Transformed m σ (fun i k => A i (f k)) (fun i k => B i (f k)) := by
  obtain ⟨U, h1, h2, h3⟩ := h
  exact ⟨U, h1, fun i hi j => h2 i hi (f j), fun i hi => by funext j; exact congrFun (h3 i hi) (f j)⟩

/-- Replacing the result by an equal one. -/
theorem Spec.Transformed.congr {m : Nat} {σ : R} {A B B' : Nat → ι → R} (h : Transformed m σ A B)
    (e : ∀ i, B' i = B i) : Transformed m σ A B' := by
  rw [show B' = B from funext e]; exact h

theorem Spec.Transformed.symm {m : Nat} {σ τ : R} {A B : Nat → ι → R} (h : Transformed m σ A B)
    (hσ : τ * σ = 1) : Transformed m τ B A := by
  obtain ⟨U, h1, h2, h3⟩ := h.matrix
  have hu : IsUnit U.det := by rw [h1]; exact IsUnit.of_mul_eq_one τ (by rw [mul_comm]; exact hσ)
  have hUU : U⁻¹ * U = 1 := Matrix.nonsing_inv_mul U hu
  have hd : U⁻¹.det = τ := by
    have : U⁻¹.det * U.det = 1 := by rw [← Matrix.det_mul, hUU, Matrix.det_one]
    rw [h1] at this
    calc U⁻¹.det = U⁻¹.det * (τ * σ) := by rw [hσ, mul_one]
      _ = τ * (U⁻¹.det * σ) := by ring
      _ = τ := by rw [this, mul_one]
  refine .of_matrix U⁻¹ hd (fun i j => ?_) fun i hi => (h3 i hi).symm
  have : ∑ k : Fin m, U⁻¹ i k * B k j = ∑ l : Fin m, (U⁻¹ * U) i l * A l j := by
    simp only [h2, Matrix.mul_apply, Finset.mul_sum, Finset.sum_mul]
    rw [Finset.sum_comm]
    exact Finset.sum_congr rfl fun _ _ => Finset.sum_congr rfl fun _ _ => (mul_assoc _ _ _).symm
  rw [this, hUU]
  simp [Matrix.one_apply]

/-- Rows permuted by a permutation of `Fin m`. -/
theorem Spec.Transformed.perm {m : Nat} (p : Equiv.Perm (Fin m)) {A B : Nat → ι → R}
    (hB : ∀ i : Fin m, B i = A (p i)) (hout : ∀ i, m ≤ i → B i = A i) :
    Transformed m ((Equiv.Perm.sign p : ℤ) : R) A B := by
  refine .of_matrix ((1 : Matrix (Fin m) (Fin m) R).submatrix p id) ?_ (fun i j => ?_) hout
  · rw [Matrix.det_permute, Matrix.det_one, mul_one]
  · rw [hB i]
    simp [Matrix.one_apply]

theorem swapAt_apply {α : Type} (a b : Nat) (f : Nat → α) (i : Nat) :
    swapAt a b f i = f (Equiv.swap a b i) := by
  unfold swapAt
  by_cases hab : a = b
  · subst hab; simp
  · rw [if_pos hab]
    simp only [Function.update_apply, Equiv.swap_apply_def]
    split_ifs <;> simp_all

theorem Spec.Transformed.swap {m a b : Nat} (ha : a < m) (hb : b < m) (hab : a ≠ b) (A : Nat → ι → R) :
    Transformed m (-1) A (swapAt a b A) := by
  have h := Transformed.perm (R := R) (A := A) (B := swapAt a b A)
    (Equiv.swap (⟨a, ha⟩ : Fin m) ⟨b, hb⟩) (fun i => by
      rw [swapAt_apply]
      congr 1
      simp only [Equiv.swap_apply_def, Fin.ext_iff]
      split_ifs <;> rfl) (fun i hi => by
      rw [swapAt_apply, Equiv.swap_apply_of_ne_of_ne (by omega) (by omega)])
  rw [Equiv.Perm.sign_swap (by simpa [Fin.ext_iff] using hab)] at h
  simpa using h

/-- A multiple of row `b` is added to row `a`. -/
theorem Spec.Transformed.addRow {m a b : Nat} (ha : a < m) (hb : b < m) (hab : a ≠ b) (c : R)
    {A B : Nat → ι → R} (hBa : ∀ j, B a j = A a j + c * A b j) (hB : ∀ i, i ≠ a → B i = A i) :
    Transformed m 1 A B := by
  refine .of_matrix (Matrix.transvection ⟨a, ha⟩ ⟨b, hb⟩ c)
    (Matrix.det_transvection_of_ne _ _ (by simpa [Fin.ext_iff] using hab) c) (fun i j => ?_)
    fun i hi => hB i (by omega)
  simp only [Matrix.transvection, Matrix.add_apply, Matrix.one_apply, add_mul, ite_mul, one_mul,
    zero_mul, Finset.sum_add_distrib, Finset.sum_ite_eq, Finset.mem_univ, if_true]
  by_cases hi : i = ⟨a, ha⟩
  · subst hi
    rw [hBa j, Finset.sum_eq_single (⟨b, hb⟩ : Fin m)]
    · simp
    · intro k _ hk
      simp [Matrix.single_apply, Ne.symm hk]
    · simp
  · rw [hB i (by simpa [Fin.ext_iff] using hi), Finset.sum_eq_zero, add_zero]
    intro k _
    simp [Matrix.single_apply, Ne.symm hi]

/-- Row `a` is multiplied by `c`. -/
theorem Spec.Transformed.scaleRow {m a : Nat} (ha : a < m) (c : R)
    {A B : Nat → ι → R} (hBa : ∀ j, B a j = c * A a j) (hB : ∀ i, i ≠ a → B i = A i) :
    Transformed m c A B := by
  refine .of_matrix (Matrix.diagonal fun i : Fin m => if (i : Nat) = a then c else 1) ?_ (fun i j => ?_)
    fun i hi => hB i (by omega)
  · rw [Matrix.det_diagonal, Finset.prod_eq_single (⟨a, ha⟩ : Fin m)]
    · simp
    · intro k _ hk
      rw [if_neg]
      simpa [Fin.ext_iff] using hk
    · simp
  · simp only [Matrix.diagonal_apply, ite_mul, zero_mul, Finset.sum_ite_eq, Finset.mem_univ, if_true]
    by_cases hi : (i : Nat) = a
    · rw [if_pos hi, hi, hBa]
    · rw [if_neg hi, hB i hi, one_mul]

/-- Rows `a` and `b` are replaced by `u A[a] + v A[b]` and `w A[a] + z A[b]`. -/
theorem Spec.Transformed.pair {m a b : Nat} (ha : a < m) (hb : b < m) (hab : a ≠ b) (u v w z : R)
    {A B : Nat → ι → R} (hBa : ∀ j, B a j = u * A a j + v * A b j)
    (hBb : ∀ j, B b j = w * A a j + z * A b j) (hB : ∀ i, i ≠ a → i ≠ b → B i = A i) :
    Transformed m (u * z - v * w) A B := by
  have hab' : (⟨a, ha⟩ : Fin m) ≠ ⟨b, hb⟩ := by simpa [Fin.ext_iff] using hab
  let U : Matrix (Fin m) (Fin m) R :=
    ((1 : Matrix (Fin m) (Fin m) R).updateRow ⟨a, ha⟩ (u • Pi.single ⟨a, ha⟩ 1 + v • Pi.single ⟨b, hb⟩ 1)).updateRow
      ⟨b, hb⟩ (w • Pi.single ⟨a, ha⟩ 1 + z • Pi.single ⟨b, hb⟩ 1)
  have hdet : U.det = u * z - v * w := by
    have e1 : ∀ x y : Fin m → R, (((1 : Matrix (Fin m) (Fin m) R).updateRow ⟨a, ha⟩ x).updateRow ⟨b, hb⟩ y) =
        (((1 : Matrix (Fin m) (Fin m) R).updateRow ⟨b, hb⟩ y).updateRow ⟨a, ha⟩ x) := by
      intro x y
      rw [Matrix.updateRow_comm _ hab']
    have r1 : ∀ i : Fin m, (1 : Matrix (Fin m) (Fin m) R) i = Pi.single i 1 := by
      intro i
      funext k
      rw [Matrix.one_apply, Pi.single_apply]
      simp [eq_comm]
    have daa_bb : (((1 : Matrix (Fin m) (Fin m) R).updateRow ⟨a, ha⟩ (Pi.single ⟨a, ha⟩ 1)).updateRow ⟨b, hb⟩
        (Pi.single ⟨b, hb⟩ 1)).det = 1 := by
      rw [← r1, ← r1, Matrix.updateRow_eq_self, Matrix.updateRow_eq_self, Matrix.det_one]
    have dsame : ∀ x : Fin m → R,
        (((1 : Matrix (Fin m) (Fin m) R).updateRow ⟨a, ha⟩ x).updateRow ⟨b, hb⟩ x).det = 0 := by
      intro x
      refine Matrix.det_zero_of_row_eq hab' ?_
      rw [Matrix.updateRow_self, Matrix.updateRow_ne hab', Matrix.updateRow_self]
    have dab_ba : (((1 : Matrix (Fin m) (Fin m) R).updateRow ⟨a, ha⟩ (Pi.single ⟨b, hb⟩ 1)).updateRow ⟨b, hb⟩
        (Pi.single ⟨a, ha⟩ 1)).det = -1 := by
      have := Matrix.det_permute (Equiv.swap (⟨a, ha⟩ : Fin m) ⟨b, hb⟩) (1 : Matrix (Fin m) (Fin m) R)
      rw [Equiv.Perm.sign_swap hab', Matrix.det_one] at this
      rw [show (((1 : Matrix (Fin m) (Fin m) R).updateRow ⟨a, ha⟩ (Pi.single ⟨b, hb⟩ 1)).updateRow ⟨b, hb⟩
        (Pi.single ⟨a, ha⟩ 1)) = (1 : Matrix (Fin m) (Fin m) R).submatrix (Equiv.swap (⟨a, ha⟩ : Fin m) ⟨b, hb⟩) id from ?_, this]
      · simp
      · ext i k
        rw [Matrix.submatrix_apply, id]
        by_cases hib : i = ⟨b, hb⟩
        · subst hib
          rw [Matrix.updateRow_self, Equiv.swap_apply_right, r1]
        · by_cases hia : i = ⟨a, ha⟩
          · subst hia
            rw [Matrix.updateRow_ne hab', Matrix.updateRow_self, Equiv.swap_apply_left, r1]
          · rw [Matrix.updateRow_ne hib, Matrix.updateRow_ne hia, Equiv.swap_apply_of_ne_of_ne hia hib]
    show (((1 : Matrix (Fin m) (Fin m) R).updateRow ⟨a, ha⟩ _).updateRow ⟨b, hb⟩ _).det = _
    rw [Matrix.det_updateRow_add, Matrix.det_updateRow_smul, Matrix.det_updateRow_smul, e1, e1,
      Matrix.det_updateRow_add, Matrix.det_updateRow_add, Matrix.det_updateRow_smul,
      Matrix.det_updateRow_smul, Matrix.det_updateRow_smul, Matrix.det_updateRow_smul,
      ← e1, ← e1, ← e1, ← e1, daa_bb, dsame, dsame, dab_ba]
    ring
  refine .of_matrix U hdet (fun i j => ?_) fun i hi => hB i (by omega) (by omega)
  have hsum : ∀ (x y : R), ∑ k : Fin m, (x • Pi.single (⟨a, ha⟩ : Fin m) (1 : R) + y • Pi.single (⟨b, hb⟩ : Fin m) (1 : R) : Fin m → R) k * A k j =
      x * A a j + y * A b j := by
    intro x y
    simp [Pi.single_apply, add_mul, Finset.sum_add_distrib]
  by_cases hib : i = ⟨b, hb⟩
  · subst hib
    rw [hBb j]
    simp only [U, Matrix.updateRow_self]
    exact (hsum w z).symm
  · by_cases hia : i = ⟨a, ha⟩
    · subst hia
      rw [hBa j]
      simp only [U, Matrix.updateRow_ne hab', Matrix.updateRow_self]
      exact (hsum u v).symm
    · rw [hB i (by simpa [Fin.ext_iff] using hia) (by simpa [Fin.ext_iff] using hib)]
      simp only [U, Matrix.updateRow_ne hib, Matrix.updateRow_ne hia]
      simp [Matrix.one_apply]

theorem rotUp_eq_swap {α : Type} (i j : Nat) (hij : i < j) (f : Nat → α) :
    rotUp i j f = rotUp (i + 1) j (swapAt i (i + 1) f) := by
  have h1 := rotUp_spec (by omega : i ≤ j) f
  have h2 := rotUp_spec (by omega : i + 1 ≤ j) (swapAt i (i + 1) f)
  have e0 : swapAt i (i + 1) f i = f (i + 1) := by rw [swapAt_apply, Equiv.swap_apply_left]
  have e1 : swapAt i (i + 1) f (i + 1) = f i := by rw [swapAt_apply, Equiv.swap_apply_right]
  have e2 : ∀ k, k ≠ i → k ≠ i + 1 → swapAt i (i + 1) f k = f k := fun k a b => by
    rw [swapAt_apply, Equiv.swap_apply_of_ne_of_ne a b]
  funext k
  by_cases hk : k < i
  · rw [h1.other k (Or.inl hk), h2.other k (Or.inl (by omega)), e2 k (by omega) (by omega)]
  by_cases hk' : j < k
  · rw [h1.other k (Or.inr hk'), h2.other k (Or.inr hk'), e2 k (by omega) (by omega)]
  by_cases hkj : k = j
  · subst hkj
    rw [h1.last, h2.last, e1]
  rw [h1.block k (by omega) (by omega)]
  by_cases hki : k = i
  · subst hki
    rw [h2.other k (Or.inl (by omega)), e0]
  · rw [h2.block k (by omega) (by omega), e2 _ (by omega) (by omega)]

theorem Spec.Transformed.rotUp {m : Nat} {i j : Nat} (hij : i ≤ j) (hj : j < m) (A : Nat → ι → R) :
    Transformed m ((-1) ^ (j - i)) A (rotUp i j A) := by
  obtain ⟨n, rfl⟩ : ∃ n, j = i + n := ⟨j - i, by omega⟩
  rw [show i + n - i = n by omega]
  clear hij
  induction n generalizing i A with
  | zero =>
    have : MatOps.rotUp i (i + 0) A = A := by simp [MatOps.rotUp]
    rw [this, pow_zero]
    exact Transformed.refl m A
  | succ n ih =>
    rw [rotUp_eq_swap i (i + (n + 1)) (by omega)]
    have h1 := Transformed.swap (R := R) (by omega : i < m) (by omega : i + 1 < m) (by omega) A
    have h2 := ih (i := i + 1) (swapAt i (i + 1) A) (by omega)
    rw [show i + 1 + n = i + (n + 1) by omega] at h2
    have := h1.trans h2
    rwa [← pow_succ] at this

/-! ### Row spans and rank -/

/-- The module generated by the first `n` rows. -/
def rowSpan (n : Nat) (A : Nat → ι → R) : Submodule R (ι → R) :=
  Submodule.span R (Set.range fun i : Fin n => A i)

theorem row_mem_rowSpan {n i : Nat} (hi : i < n) (A : Nat → ι → R) : A i ∈ rowSpan n A :=
  Submodule.subset_span ⟨⟨i, hi⟩, rfl⟩

theorem rowSpan_le {n : Nat} {A : Nat → ι → R} {N : Submodule R (ι → R)} (h : ∀ i, i < n → A i ∈ N) :
    rowSpan n A ≤ N := by
  refine Submodule.span_le.2 ?_
  rintro _ ⟨i, rfl⟩
  exact h i i.2

theorem Spec.Transformed.rowSpan_le {m : Nat} {σ : R} {A B : Nat → ι → R} (h : Transformed m σ A B) :
    rowSpan m B ≤ rowSpan m A := by
  obtain ⟨U, _, h2, _⟩ := h
  refine PML.RowOps.rowSpan_le fun i hi => ?_
  have : B i = ∑ k ∈ Finset.range m, U i k • A k := by
    funext j
    rw [h2 i hi j, Finset.sum_apply]
    rfl
  rw [this]
  exact Submodule.sum_mem _ fun k hk => Submodule.smul_mem _ _ (row_mem_rowSpan (by simpa using hk) A)

theorem Spec.Transformed.rowSpan_eq {m : Nat} {σ : R} {A B : Nat → ι → R} (h : Transformed m σ A B)
    (hσ : IsUnit σ) : rowSpan m B = rowSpan m A := by
  refine le_antisymm h.rowSpan_le ?_
  obtain ⟨τ, hτ⟩ := hσ.exists_right_inv
  exact (h.symm (τ := τ) (by rw [mul_comm]; exact hτ)).rowSpan_le

/-- The first `c` columns. -/
def firstCols (c : Nat) (A : Nat → Nat → R) : Nat → Fin c → R := fun i j => A i j

section rank

variable [IsDomain R]

/-- Rows over the field of fractions. -/
noncomputable def fracRow (c : Nat) (v : Fin c → R) : Fin c → FractionRing R :=
  fun j => algebraMap R (FractionRing R) (v j)

theorem rankOf_eq_finrank (m c : Nat) (A : Nat → Nat → R) :
    rankOf m c A = Module.finrank (FractionRing R)
      (Submodule.span (FractionRing R) (fracRow c '' (rowSpan m (firstCols c A) : Set (Fin c → R)))) := by
  unfold rankOf
  rw [Matrix.rank_eq_finrank_span_row]
  have : Submodule.span (FractionRing R)
      (Set.range ((asMatrix m c A).map (algebraMap R (FractionRing R))).row) =
      Submodule.span (FractionRing R) (fracRow c '' (rowSpan m (firstCols c A) : Set (Fin c → R))) := by
    apply le_antisymm
    · refine Submodule.span_mono ?_
      rintro _ ⟨i, rfl⟩
      exact ⟨firstCols c A i, row_mem_rowSpan i.2 _, rfl⟩
    · refine Submodule.span_le.2 ?_
      rintro _ ⟨v, hv, rfl⟩
      refine Submodule.span_induction (p := fun v _ => fracRow c v ∈ Submodule.span (FractionRing R)
        (Set.range ((asMatrix m c A).map (algebraMap R (FractionRing R))).row)) ?_ ?_ ?_ ?_ hv
      · rintro _ ⟨i, rfl⟩
        exact Submodule.subset_span ⟨i, rfl⟩
      · have : fracRow c (0 : Fin c → R) = 0 := by funext j; simp [fracRow]
        rw [this]
        exact Submodule.zero_mem _
      · intro x y _ _ hx hy
        have : fracRow c (x + y) = fracRow c x + fracRow c y := by funext j; simp [fracRow]
        rw [this]
        exact Submodule.add_mem _ hx hy
      · intro a x _ hx
        have : fracRow c (a • x) = algebraMap R (FractionRing R) a • fracRow c x := by
          funext j; simp [fracRow]
        rw [this]
        exact Submodule.smul_mem _ _ hx
  rw [this]

theorem rankOf_congr {m m' c : Nat} {A B : Nat → Nat → R}
    (h : rowSpan m (firstCols c A) = rowSpan m' (firstCols c B)) : rankOf m c A = rankOf m' c B := by
  rw [rankOf_eq_finrank, rankOf_eq_finrank, h]

/-- Independent rows have full rank. -/
theorem rankOf_independent {m c : Nat} {A : Nat → Nat → R}
    (h : ∀ u : Nat → R, (∀ j, j < c → ∑ i ∈ Finset.range m, u i * A i j = 0) → ∀ i, i < m → u i = 0) :
    rankOf m c A = m := by
  have hli : LinearIndependent R ((asMatrix m c A).map (algebraMap R (FractionRing R))).row := by
    rw [Fintype.linearIndependent_iff]
    intro g hg i
    have := h (fun k => if hk : k < m then g ⟨k, hk⟩ else 0) (fun j hj => by
      apply IsFractionRing.injective R (FractionRing R)
      have := congrFun hg ⟨j, hj⟩
      rw [Finset.sum_apply] at this
      rw [Finset.sum_range, map_sum, map_zero]
      simpa [Matrix.row, asMatrix, Algebra.smul_def] using this) i i.2
    simpa using this
  have hli' := (LinearIndependent.iff_fractionRing R (FractionRing R)).1 hli
  unfold rankOf
  rw [hli'.rank_matrix, Fintype.card_fin]

end rank

end PML.RowOps
