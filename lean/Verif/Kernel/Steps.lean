import Verif.Kernel.Theory

/-!
# Theory: kernel bases from approximant bases
-/

namespace PML.Kernel

open Polynomial Matrix PML.Approx PML.Approx.Spec PML.Kernel.Spec

variable {K : Type} [Field K] {k m n : Nat}

theorem isKernelBasis_of_pivots {A : Matrix (Fin m) (Fin n) K[X]} {N : Matrix (Fin k) (Fin m) K[X]}
    {s : Fin m → Int} {t : Fin k → Int} {ρ : Fin k → Fin m} (hP : Pivots s N t ρ)
    (hrow : ∀ i, N i ᵥ* A = 0)
    (hmin : ∀ v, v ᵥ* A = 0 → ∀ D π, HasPivot s v D π → ∃ i, ρ i = π ∧ t i ≤ D) :
    IsKernelBasis A N := by
  refine ⟨hP.independent, fun v => ⟨fun hv => ?_, ?_⟩⟩
  · exact generates_of_pivots (M := kerModule A) hP.row (fun i => mem_kerModule.2 (hrow i))
      (fun v hv => hmin v (mem_kerModule.1 hv)) v (mem_kerModule.2 hv)
  · rintro ⟨u, rfl⟩
    rw [Matrix.vecMul_vecMul]
    have : N * A = 0 := by
      refine Matrix.ext fun i j => ?_
      exact congrFun (hrow i) j
    rw [this, Matrix.vecMul_zero]

/-- In a kernel basis with increasing pivots, every pivot of the kernel appears. -/
theorem minimal {A : Matrix (Fin m) (Fin n) K[X]} {N : Matrix (Fin k) (Fin m) K[X]}
    {s : Fin m → Int} {t : Fin k → Int} {ρ : Fin k → Fin m} (hN : IsKernelBasis A N)
    (hP : Pivots s N t ρ) {v : Fin m → K[X]} (hv : v ᵥ* A = 0) {D : Int} {π : Fin m}
    (hp : HasPivot s v D π) : ∃ i, ρ i = π ∧ t i ≤ D := by
  obtain ⟨u, rfl⟩ := (hN.generates v).1 hv
  obtain ⟨i, h1, -, h2⟩ := hP.of_mem hp
  exact ⟨i, h1, h2⟩

theorem row_mem {A : Matrix (Fin m) (Fin n) K[X]} {N : Matrix (Fin k) (Fin m) K[X]}
    (hN : IsKernelBasis A N) (i : Fin k) : N i ᵥ* A = 0 :=
  (hN.generates (N i)).2 ⟨Pi.single i 1, by rw [Matrix.single_one_vecMul]; rfl⟩

theorem mul_eq_zero {A : Matrix (Fin m) (Fin n) K[X]} {N : Matrix (Fin k) (Fin m) K[X]}
    (hN : IsKernelBasis A N) : N * A = 0 :=
  Matrix.ext fun i j => congrFun (row_mem hN i) j

/-- A kernel basis with increasing pivots exists for every shift. -/
theorem exists_kernelBasis (s : Fin m → Int) (A : Matrix (Fin m) (Fin n) K[X]) :
    ∃ (k : Nat) (N : Matrix (Fin k) (Fin m) K[X]) (t : Fin k → Int) (ρ : Fin k → Fin m),
      IsKernelBasis A N ∧ Pivots s N t ρ := by
  obtain ⟨k, N, t, ρ, hP, hrow, hmin⟩ := exists_basis_pivots s (kerModule A)
  exact ⟨k, N, t, ρ, isKernelBasis_of_pivots hP (fun i => mem_kerModule.1 (hrow i))
    (fun v hv => hmin v (mem_kerModule.2 hv)), hP⟩

/-- The identity is the kernel basis of the zero matrix. -/
theorem isKernelBasis_one {A : Matrix (Fin m) (Fin n) K[X]} (hA : A = 0) :
    IsKernelBasis A (1 : Matrix (Fin m) (Fin m) K[X]) :=
  ⟨fun u hu => by rwa [Matrix.vecMul_one] at hu, fun v => by
    rw [hA, Matrix.vecMul_zero]
    exact ⟨fun _ => ⟨v, (Matrix.vecMul_one v).symm⟩, fun _ => rfl⟩⟩

theorem pivots_one (s : Fin m → Int) : Pivots s (1 : Matrix (Fin m) (Fin m) K[X]) s id :=
  (DiagPivots.one s).pivots

/-- No row: the kernel is zero. -/
theorem isKernelBasis_zero {A : Matrix (Fin m) (Fin n) K[X]} {N : Matrix (Fin 0) (Fin m) K[X]}
    (h : ∀ v : Fin m → K[X], v ᵥ* A = 0 → v = 0) : IsKernelBasis A N :=
  ⟨fun u _ => Subsingleton.elim _ _, fun v => ⟨fun hv => ⟨0, by rw [h v hv, Matrix.zero_vecMul]⟩, by
    rintro ⟨u, rfl⟩
    have : u = 0 := Subsingleton.elim _ _
    rw [this, Matrix.zero_vecMul, Matrix.zero_vecMul]⟩⟩

theorem pivots_empty (s : Fin m → Int) (N : Matrix (Fin 0) (Fin m) K[X]) (t : Fin 0 → Int)
    (ρ : Fin 0 → Fin m) : Pivots s N t ρ :=
  ⟨fun i => i.elim0, fun i => i.elim0⟩

/-- The kernel of a matrix whose value at 0 has independent rows is zero. -/
theorem kernel_zero_of_coeff {A : Matrix (Fin m) (Fin n) K[X]}
    (h : ∀ w : Fin m → K, w ᵥ* (Matrix.of fun i j => (A i j).coeff 0) = 0 → w = 0)
    (v : Fin m → K[X]) (hv : v ᵥ* A = 0) : v = 0 := by
  have key : ∀ (d : Nat) (v : Fin m → K[X]), v ᵥ* A = 0 → ∀ i, (v i).coeff d = 0 := by
    intro d
    induction d with
    | zero =>
      intro v hv i
      have := h (fun i => (v i).coeff 0) (by
        funext j
        have := congrArg (fun p : K[X] => p.coeff 0) (congrFun hv j)
        simp only [Matrix.vecMul, dotProduct, finsetSum_coeff, mul_coeff_zero, Pi.zero_apply,
          coeff_zero] at this
        exact this)
      exact congrFun this i
    | succ d ih =>
      intro v hv i
      have h0 : ∀ i, (v i).coeff 0 = 0 := by
        have := h (fun i => (v i).coeff 0) (by
          funext j
          have := congrArg (fun p : K[X] => p.coeff 0) (congrFun hv j)
          simp only [Matrix.vecMul, dotProduct, finsetSum_coeff, mul_coeff_zero, Pi.zero_apply,
            coeff_zero] at this
          exact this)
        exact fun i => congrFun this i
      have hx : v = (X : K[X]) • fun i => (v i).divX := by
        funext i
        have := X_mul_divX_add (v i)
        rw [h0 i, C_0, add_zero] at this
        exact this.symm
      have hw : (fun i => (v i).divX) ᵥ* A = 0 := by
        rw [hx, Matrix.smul_vecMul] at hv
        exact (smul_eq_zero.1 hv).resolve_left X_ne_zero
      have := ih _ hw i
      rw [coeff_divX] at this
      exact this
  funext i
  ext d
  rw [key d v hv i]; rfl

/-- Composition of kernels, column blocks: kernel of `[A | B]` from the kernel of
    `A` and the kernel of (kernel of `A`) times `B`. -/
theorem isKernelBasis_mul {n₁ n₂ k₂ : Nat} {A : Matrix (Fin m) (Fin n₁) K[X]}
    {B : Matrix (Fin m) (Fin n₂) K[X]} {F : Matrix (Fin m) (Fin n) K[X]}
    {N : Matrix (Fin k) (Fin m) K[X]} {N₂ : Matrix (Fin k₂) (Fin k) K[X]}
    (hF : ∀ v : Fin m → K[X], v ᵥ* F = 0 ↔ v ᵥ* A = 0 ∧ v ᵥ* B = 0)
    (hN : IsKernelBasis A N) (hN₂ : IsKernelBasis (N * B) N₂) : IsKernelBasis F (N₂ * N) := by
  refine ⟨fun u hu => ?_, fun v => ?_⟩
  · rw [← Matrix.vecMul_vecMul] at hu
    exact hN₂.independent u (hN.independent _ hu)
  · rw [hF]
    constructor
    · rintro ⟨h1, h2⟩
      obtain ⟨u, rfl⟩ := (hN.generates v).1 h1
      rw [Matrix.vecMul_vecMul] at h2
      obtain ⟨w, rfl⟩ := (hN₂.generates u).1 h2
      exact ⟨w, by rw [Matrix.vecMul_vecMul]⟩
    · rintro ⟨w, rfl⟩
      rw [← Matrix.vecMul_vecMul]
      refine ⟨(hN.generates _).2 ⟨_, rfl⟩, ?_⟩
      rw [Matrix.vecMul_vecMul]
      exact (hN₂.generates _).2 ⟨_, rfl⟩

theorem natDegree_vecMul_lt {v : Fin m → K[X]} {F : Matrix (Fin m) (Fin n) K[X]} {b : Nat}
    (h : ∀ j c, v j ≠ 0 → (v j).natDegree + (F j c).natDegree < b) (hb : 0 < b) (c : Fin n) :
    ((v ᵥ* F) c).natDegree < b := by
  have : ((v ᵥ* F) c).natDegree ≤ b - 1 := by
    show (∑ j, v j * F j c).natDegree ≤ b - 1
    refine natDegree_sum_le_of_forall_le _ _ fun j _ => ?_
    by_cases hj : v j = 0
    · rw [hj, zero_mul, natDegree_zero]; omega
    · have h1 := h j c hj
      have h2 := natDegree_mul_le (p := v j) (q := F j c)
      omega
  omega

/-- An approximant of low degree is in the kernel. -/
theorem kernel_of_approx {v : Fin m → K[X]} {F : Matrix (Fin m) (Fin n) K[X]} {b : Nat}
    (ha : IsApproximant F b v)
    (h : ∀ j c, v j ≠ 0 → (v j).natDegree + (F j c).natDegree < b) (hb : 0 < b) : v ᵥ* F = 0 := by
  funext c
  by_contra hne
  have h1 := natDegree_vecMul_lt h hb c
  have h2 := natDegree_le_of_dvd (ha c) hne
  rw [natDegree_X_pow] at h2
  omega

variable {F : Matrix (Fin m) (Fin n) K[X]} {P : Matrix (Fin m) (Fin m) K[X]}
  {s t : Fin m → Int} {order dd : Nat}

theorem approx_row (hG : Generates F order P) (i : Fin m) : IsApproximant F order (P i) :=
  fun j => hG.sound i j

theorem approx_of_kernel {v : Fin m → K[X]} (hv : v ᵥ* F = 0) (d : Nat) : IsApproximant F d v :=
  fun j => by rw [hv]; exact dvd_zero _

/-- Elements of the kernel have at least the degree of the approximant basis. -/
theorem approx_min (hG : Generates F order P) (hD : DiagPivots dd s P t) {v : Fin m → K[X]}
    (hv : v ᵥ* F = 0) {D : Int} {π : Fin m} (hp : HasPivot s v D π) :
    ∃ u, v = u ᵥ* P ∧ HasPivot t u D π ∧ t π ≤ D := by
  obtain ⟨u, rfl⟩ := hG.complete v (approx_of_kernel hv order)
  obtain ⟨i, rfl, h1, h2⟩ := hD.pivots.of_mem hp
  exact ⟨u, rfl, h1, h2⟩

/-- Rows of low degree of an approximant basis are in the kernel. -/
theorem row_in_kernel (hG : Generates F order P) (hD : DiagPivots dd s P t) {rd : Fin m → Nat}
    (hrd : ∀ j c, (F j c).natDegree ≤ rd j) {diff : Int} (hdiff : ∀ j, (rd j : Int) + diff ≤ s j)
    {i : Fin m} (hi : t i < order + diff) : P i ᵥ* F = 0 := by
  have hb : 0 < order := by
    have := hD.ge i
    have := hdiff i
    omega
  refine kernel_of_approx (approx_row hG i) (fun j c hne => ?_) hb
  have h1 := degLE_iff.1 (hD.le i j) hne
  have h2 := hrd j c
  have h3 := hdiff j
  omega

/-- Splitting the rows of an approximant basis: `σ₁` selects rows in the kernel,
    `σ₂` the other ones; `R` is the residual, `N₂` its kernel. Every pivot of the
    kernel comes from one of the two parts. -/
theorem split_min {k₁ k₂ : Nat} (hG : Generates F order P) (hD : DiagPivots dd s P t)
    {σ₁ : Fin k₁ → Fin m} {σ₂ : Fin k₂ → Fin m} (hσ₁ : StrictMono σ₁) (hσ₂ : StrictMono σ₂)
    (hcover : ∀ j, (∃ i, σ₁ i = j) ∨ ∃ i, σ₂ i = j) (hdisj : ∀ i i', σ₁ i ≠ σ₂ i')
    (hker : ∀ i, P (σ₁ i) ᵥ* F = 0) {R : Matrix (Fin k₂) (Fin n) K[X]}
    (hR : ∀ i j, (P (σ₂ i) ᵥ* F) j = X ^ order * R i j) {N₂ : Matrix (Fin k) (Fin k₂) K[X]}
    {t₂ : Fin k → Int} {ρ₂ : Fin k → Fin k₂} (hN₂ : IsKernelBasis R N₂)
    (hP₂ : Pivots (fun i => t (σ₂ i)) N₂ t₂ ρ₂) {v : Fin m → K[X]} (hv : v ᵥ* F = 0) {D : Int}
    {π : Fin m} (hp : HasPivot s v D π) :
    (∃ i, σ₁ i = π ∧ t π ≤ D) ∨ ∃ i, σ₂ (ρ₂ i) = π ∧ t₂ i ≤ D := by
  obtain ⟨u, rfl, hu, htD⟩ := approx_min hG hD hv hp
  rcases hcover π with ⟨i, hi⟩ | ⟨i, hi⟩
  · exact Or.inl ⟨i, hi, htD⟩
  right
  have hbij : Function.Bijective (Sum.elim σ₁ σ₂) := by
    constructor
    · rintro (a | a) (b | b) h
      · exact congrArg _ (hσ₁.injective h)
      · exact absurd h (hdisj a b)
      · exact absurd h.symm (hdisj b a)
      · exact congrArg _ (hσ₂.injective h)
    · intro j
      rcases hcover j with ⟨i, hi⟩ | ⟨i, hi⟩
      · exact ⟨Sum.inl i, hi⟩
      · exact ⟨Sum.inr i, hi⟩
  let eq := Equiv.ofBijective _ hbij
  have hw : (fun i => u (σ₂ i)) ᵥ* R = 0 := by
    funext j
    have h1 := congrFun hv j
    rw [Matrix.vecMul_vecMul] at h1
    have h2 : (u ᵥ* (P * F)) j = ∑ l, u l * (P l ᵥ* F) j := rfl
    rw [h2, ← Equiv.sum_comp eq, Fintype.sum_sum_type] at h1
    have h3 : ∀ i, (P (eq (Sum.inl i)) ᵥ* F) j = 0 := fun i => congrFun (hker i) j
    have h4 : ∀ i, (P (eq (Sum.inr i)) ᵥ* F) j = X ^ order * R i j := fun i => hR i j
    simp only [h3, h4, mul_zero, Finset.sum_const_zero, zero_add, Pi.zero_apply] at h1
    have h5 : (X : K[X]) ^ order * ∑ i, u (σ₂ i) * R i j = 0 := by
      rw [Finset.mul_sum, ← h1]
      exact Finset.sum_congr rfl fun i _ => by show _ = u (σ₂ i) * _; ring
    exact (_root_.mul_eq_zero.1 h5).resolve_left (pow_ne_zero _ X_ne_zero)
  have hpw : HasPivot (fun i => t (σ₂ i)) (fun i => u (σ₂ i)) D i := by
    refine ⟨fun j => hu.le _, fun j hj => hu.after _ ?_, ?_, ?_⟩
    · rw [← hi]; exact hσ₂ hj
    · have := hu.ge; rw [← hi] at this; exact this
    · have := hu.lead; rw [← hi] at this; exact this
  obtain ⟨l, h1, h2⟩ := minimal hN₂ hP₂ hw hpw
  exact ⟨l, by rw [h1, hi], h2⟩

/-- Rows of the second part. -/
theorem split_row {k₂ : Nat} (hD : DiagPivots dd s P t) {σ₂ : Fin k₂ → Fin m} (hσ₂ : StrictMono σ₂)
    {R : Matrix (Fin k₂) (Fin n) K[X]}
    (hR : ∀ i j, (P (σ₂ i) ᵥ* F) j = X ^ order * R i j) {N₂ : Matrix (Fin k) (Fin k₂) K[X]}
    {t₂ : Fin k → Int} {ρ₂ : Fin k → Fin k₂} (hN₂ : IsKernelBasis R N₂)
    (hP₂ : Pivots (fun i => t (σ₂ i)) N₂ t₂ ρ₂) :
    Pivots s (N₂ * P.submatrix σ₂ id) t₂ (fun i => σ₂ (ρ₂ i)) ∧
      ∀ i, (N₂ * P.submatrix σ₂ id) i ᵥ* F = 0 := by
  constructor
  · exact Pivots.mul (P := P.submatrix σ₂ id) (t := fun i => t (σ₂ i))
      ⟨fun i => hD.pivots.row (σ₂ i), hσ₂⟩ hP₂
  · intro i
    have h1 : P.submatrix σ₂ id * F = (X : K[X]) ^ order • R := by
      refine Matrix.ext fun a b => ?_
      exact hR a b
    show N₂ i ᵥ* P.submatrix σ₂ id ᵥ* F = 0
    rw [Matrix.vecMul_vecMul, h1, Matrix.vecMul_smul, row_mem hN₂ i, smul_zero]

/-- Early exit: all the rows in the kernel have been found. -/
theorem early_exit (hG : Generates F order P) (hD : DiagPivots dd s P t) {rd : Fin m → Nat}
    (hrd : ∀ j c, (F j c).natDegree ≤ rd j) (I : Finset (Fin m))
    (hI : ∀ i ∈ I, P i ᵥ* F = 0)
    (hsum : ∑ i ∈ I, (t i - s i) = ∑ i ∈ Iᶜ, (rd i : Int))
    (hflag : ∀ i, i ∉ I → rd i = 0 → s i < t i) {v : Fin m → K[X]} (hv : v ᵥ* F = 0) {D : Int}
    {π : Fin m} (hp : HasPivot s v D π) : π ∈ I ∧ t π ≤ D := by
  classical
  obtain ⟨-, -, -, htD⟩ := approx_min hG hD hv hp
  refine ⟨?_, htD⟩
  by_contra hπ
  obtain ⟨k, N, τ, ρ, hN, hPv⟩ := exists_kernelBasis s F
  obtain ⟨r, γ, -, -, hdeg⟩ := kernel_degrees hN hPv
  have hdeg := hdeg rd hrd
  let Pv : Finset (Fin m) := Finset.univ.image ρ
  -- degree of the kernel at its pivots
  have hδ : ∀ i, t (ρ i) ≤ τ i := fun i => by
    obtain ⟨-, -, -, h⟩ := approx_min hG hD (row_mem hN i) (hPv.row i)
    exact h
  have hsum1 : ∑ i, (τ i - s (ρ i)) ≥ ∑ j ∈ Pv, (t j - s j) := by
    rw [Finset.sum_image (fun a _ b _ h => hPv.mono.injective h)]
    exact Finset.sum_le_sum fun i _ => by have := hδ i; omega
  have hfil : (Finset.univ.filter fun j => ∀ i, ρ i ≠ j) = Pvᶜ := by
    ext j
    simp [Pv]
  rw [hfil] at hdeg
  have hIP : I ⊆ Pv := by
    intro i hi
    obtain ⟨l, hl, -⟩ := minimal hN hPv (hI i hi) (hD.pivots.row i)
    exact Finset.mem_image.2 ⟨l, Finset.mem_univ _, hl⟩
  have hπP : π ∈ Pv := by
    obtain ⟨l, hl, -⟩ := minimal hN hPv hv hp
    exact Finset.mem_image.2 ⟨l, Finset.mem_univ _, hl⟩
  have e1 : ∑ j ∈ Pv, (t j - s j) = ∑ j ∈ Pv \ I, (t j - s j) + ∑ j ∈ I, (t j - s j) :=
    (Finset.sum_sdiff hIP).symm
  have hsub : Pvᶜ ⊆ Iᶜ := Finset.compl_subset_compl.2 hIP
  have e2 : ∑ j ∈ Iᶜ, (rd j : Int) = ∑ j ∈ Iᶜ \ Pvᶜ, (rd j : Int) + ∑ j ∈ Pvᶜ, (rd j : Int) :=
    (Finset.sum_sdiff hsub).symm
  have e3 : Iᶜ \ Pvᶜ = Pv \ I := by
    ext j; simp [and_comm]
  rw [e3] at e2
  have hpos : 0 < ∑ j ∈ Pv \ I, ((t j - s j) + (rd j : Int)) := by
    refine Finset.sum_pos' (fun j _ => ?_) ⟨π, Finset.mem_sdiff.2 ⟨hπP, hπ⟩, ?_⟩
    · have := hD.ge j; omega
    · have h1 := hD.ge π
      have h2 := hflag π hπ
      by_cases h0 : rd π = 0
      · have := h2 h0; omega
      · omega
  rw [Finset.sum_add_distrib] at hpos
  omega

/-- When `n < m`, the order chosen by the algorithm captures a row of the kernel. -/
theorem exists_low_row (hG : Generates F order P) (hD : DiagPivots dd s P t) {rd : Fin m → Nat}
    (hrd : ∀ j c, (F j c).natDegree ≤ rd j) {diff : Int} (hdiff : ∀ j, (rd j : Int) + diff ≤ s j)
    (horder : ∑ j, (s j - diff) < (order : Int) * ((m : Int) - n)) :
    ∃ i, t i < order + diff := by
  classical
  by_contra hall
  push Not at hall
  obtain ⟨k, N, τ, ρ, hN, hPv⟩ := exists_kernelBasis s F
  obtain ⟨r, γ, hγ, hkr, hdeg⟩ := kernel_degrees hN hPv
  have hdeg := hdeg rd hrd
  have hrn : r ≤ n := by
    have := Fintype.card_le_of_injective γ hγ
    rwa [Fintype.card_fin, Fintype.card_fin] at this
  let Pv : Finset (Fin m) := Finset.univ.image ρ
  have hδ : ∀ i, t (ρ i) ≤ τ i := fun i => by
    obtain ⟨-, -, -, h⟩ := approx_min hG hD (row_mem hN i) (hPv.row i)
    exact h
  have hfil : (Finset.univ.filter fun j => ∀ i, ρ i ≠ j) = Pvᶜ := by
    ext j
    simp [Pv]
  rw [hfil] at hdeg
  have e1 : ∑ j ∈ Pv, (s j - diff) = ∑ i, (s (ρ i) - diff) :=
    Finset.sum_image (fun a _ b _ h => hPv.mono.injective h)
  have e2 : ∑ j, (s j - diff) = ∑ j ∈ Pv, (s j - diff) + ∑ j ∈ Pvᶜ, (s j - diff) :=
    (Finset.sum_add_sum_compl Pv _).symm
  have e3 : ∑ j ∈ Pvᶜ, (rd j : Int) ≤ ∑ j ∈ Pvᶜ, (s j - diff) :=
    Finset.sum_le_sum fun j _ => by have := hdiff j; omega
  have e4 : ∑ i, (τ i - diff) = ∑ i, (τ i - s (ρ i)) + ∑ i, (s (ρ i) - diff) := by
    rw [← Finset.sum_add_distrib]
    exact Finset.sum_congr rfl fun i _ => by ring
  have e5 : (k : Int) * order ≤ ∑ i : Fin k, (τ i - diff) := by
    have : ∑ _i : Fin k, (order : Int) ≤ ∑ i : Fin k, (τ i - diff) :=
      Finset.sum_le_sum fun i _ => by
        have h1 := hδ i
        have h2 := hall (ρ i)
        omega
    simpa using this
  have e6 : (order : Int) * ((m : Int) - n) ≤ (k : Int) * order := by
    rw [mul_comm (k : Int)]
    exact mul_le_mul_of_nonneg_left (by omega) (by omega)
  omega

/-- Degrees of the kernel: at most the rank times the degree. -/
theorem kernel_degree_le {A : Matrix (Fin m) (Fin n) K[X]} {N : Matrix (Fin k) (Fin m) K[X]}
    {s : Fin m → Int} {t : Fin k → Int} {ρ : Fin k → Fin m}
    (hN : IsKernelBasis A N) (hP : Pivots s N t ρ) {d : Nat} (hd : ∀ i j, (A i j).natDegree ≤ d)
    (i : Fin k) : t i - s (ρ i) ≤ ((min m n * d : Nat) : Int) := by
  classical
  obtain ⟨r, γ, hγ, hkr, hdeg⟩ := kernel_degrees hN hP
  have hrn : r ≤ n := by
    have := Fintype.card_le_of_injective γ hγ
    rwa [Fintype.card_fin, Fintype.card_fin] at this
  have h1 := hdeg (fun _ => d) (fun i j => hd i j)
  have hcard : (Finset.univ.filter fun j : Fin m => ∀ i, ρ i ≠ j).card = r := by
    have hfil : (Finset.univ.filter fun j => ∀ i, ρ i ≠ j) = (Finset.univ.image ρ)ᶜ := by
      ext j
      simp
    rw [hfil, Finset.card_compl, Finset.card_image_of_injective _ hP.mono.injective,
      Fintype.card_fin, Finset.card_univ, Fintype.card_fin]
    omega
  rw [Finset.sum_const, hcard, nsmul_eq_mul] at h1
  have h2 : t i - s (ρ i) ≤ ∑ i, (t i - s (ρ i)) :=
    Finset.single_le_sum (f := fun i => t i - s (ρ i))
      (fun i _ => by have := (hP.row i).ge; show 0 ≤ t i - s (ρ i); omega) (Finset.mem_univ i)
  have h3 : r * d ≤ min m n * d := Nat.mul_le_mul_right d (by omega)
  have h4 : ((r * d : Nat) : Int) ≤ ((min m n * d : Nat) : Int) := by exact_mod_cast h3
  rw [Nat.cast_mul] at h4
  omega

end PML.Kernel
