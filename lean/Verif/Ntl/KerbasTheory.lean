import Verif.Kernel.Steps

/-!
# Theory: kernel bases from approximant or interpolant bases
-/

namespace PML.Ntl.Kerbas

open Polynomial Matrix PML.Approx PML.Approx.Spec PML.Kernel PML.Kernel.Spec

variable {K : Type} [Field K] {k m n : Nat}

/-- `P` has pivots on the diagonal, its row space contains the kernel of `F`, and `P F` is a multiple of `f`. -/
structure Pre (F : Matrix (Fin m) (Fin n) K[X]) (f : K[X]) (P : Matrix (Fin m) (Fin m) K[X]) (s t : Fin m → Int) : Prop where
  ne : f ≠ 0
  sound : ∀ i c, f ∣ (P i ᵥ* F) c
  complete : ∀ v, v ᵥ* F = 0 → ∃ u : Fin m → K[X], v = u ᵥ* P
  piv : Pivots s P t id

theorem HasPivot.add {s : Fin m → Int} {v : Fin m → K[X]} {D : Int} {π : Fin m} (h : HasPivot s v D π) (c : Int) :
    HasPivot (fun i => s i + c) v (D + c) π := by
  refine ⟨fun j k hk => h.le j k (by omega), fun j hj k hk => h.after j hj k (by omega), ?_, ?_⟩
  · have := h.ge; omega
  · rw [show D + c - (s π + c) = D - s π by omega]; exact h.lead

theorem Pivots.add {s : Fin m → Int} {P : Matrix (Fin k) (Fin m) K[X]} {t : Fin k → Int} {ρ : Fin k → Fin m}
    (h : Pivots s P t ρ) (c : Int) : Pivots (fun i => s i + c) P (fun i => t i + c) ρ :=
  ⟨fun i => HasPivot.add (h.row i) c, h.mono⟩

variable {F : Matrix (Fin m) (Fin n) K[X]} {f : K[X]} {P : Matrix (Fin m) (Fin m) K[X]} {s t : Fin m → Int}

theorem Pre.min (h : Pre F f P s t) {v : Fin m → K[X]} (hv : v ᵥ* F = 0) {D : Int} {π : Fin m} (hp : HasPivot s v D π) :
    ∃ u, v = u ᵥ* P ∧ HasPivot t u D π ∧ t π ≤ D := by
  obtain ⟨u, rfl⟩ := h.complete v hv
  obtain ⟨i, rfl, h1, h2⟩ := h.piv.of_mem hp
  exact ⟨u, rfl, h1, h2⟩

/-- Rows of low degree are in the kernel. -/
theorem Pre.low (h : Pre F f P s t) (i : Fin m)
    (hb : ∀ j c, P i j ≠ 0 → F j c ≠ 0 → (P i j).natDegree + (F j c).natDegree < f.natDegree) : P i ᵥ* F = 0 := by
  funext c
  by_contra hne
  have h2 := natDegree_le_of_dvd (h.sound i c) hne
  have hpos : 0 < f.natDegree := by
    by_contra h0
    apply hne
    show ∑ j, P i j * F j c = 0
    refine Finset.sum_eq_zero fun j _ => ?_
    by_contra hj
    have := hb j c (left_ne_zero_of_mul hj) (right_ne_zero_of_mul hj)
    omega
  have h1 : ((P i ᵥ* F) c).natDegree ≤ f.natDegree - 1 := by
    show (∑ j, P i j * F j c).natDegree ≤ _
    refine natDegree_sum_le_of_forall_le _ _ fun j _ => ?_
    by_cases hj : P i j * F j c = 0
    · rw [hj, natDegree_zero]; omega
    · have h1 := hb j c (left_ne_zero_of_mul hj) (right_ne_zero_of_mul hj)
      have h2 := natDegree_mul_le (p := P i j) (q := F j c)
      omega
  omega

theorem Pre.row_kernel (h : Pre F f P s t) (hs : ∀ j c, F j c ≠ 0 → ((F j c).natDegree : Int) ≤ s j) {i : Fin m}
    (hi : t i < f.natDegree) : P i ᵥ* F = 0 := by
  refine h.low i fun j c h1 h2 => ?_
  have h3 := degLE_iff.1 ((h.piv.row i).le j) h1
  have h4 := hs j c h2
  omega

theorem Pre.ge (h : Pre F f P s t) (i : Fin m) : s i ≤ t i := (h.piv.row i).ge

/-- A set of rows of `P` in the kernel that contains all the pivots of the kernel is a kernel basis. -/
theorem Pre.sub (h : Pre F f P s t) {k₁ : Nat} {σ : Fin k₁ → Fin m} (hσ : StrictMono σ) (hker : ∀ i, P (σ i) ᵥ* F = 0)
    (hall : ∀ v, v ᵥ* F = 0 → ∀ D π, HasPivot s v D π → ∃ i, σ i = π) :
    IsKernelBasis F (P.submatrix σ id) ∧ Pivots s (P.submatrix σ id) (fun i => t (σ i)) σ := by
  have hP : Pivots s (P.submatrix σ id) (fun i => t (σ i)) σ := ⟨fun i => h.piv.row (σ i), hσ⟩
  refine ⟨isKernelBasis_of_pivots hP hker fun v hv D π hp => ?_, hP⟩
  obtain ⟨i, rfl⟩ := hall v hv D π hp
  obtain ⟨-, -, -, h1⟩ := h.min hv hp
  exact ⟨i, rfl, h1⟩

section Split

variable {k₁ k₂ kk : Nat} {σ₁ : Fin k₁ → Fin m} {σ₂ : Fin k₂ → Fin m}

theorem split_bij (hσ₁ : StrictMono σ₁) (hσ₂ : StrictMono σ₂) (hcover : ∀ j, (∃ i, σ₁ i = j) ∨ ∃ i, σ₂ i = j)
    (hdisj : ∀ i i', σ₁ i ≠ σ₂ i') : Function.Bijective (Sum.elim σ₁ σ₂) := by
  constructor
  · rintro (a | a) (b | b) h
    · exact congrArg _ (hσ₁.injective h)
    · exact absurd h (hdisj a b)
    · exact absurd h.symm (hdisj b a)
    · exact congrArg _ (hσ₂.injective h)
  · intro j
    rcases hcover j with ⟨i, hi⟩ | ⟨i, hi⟩
    · exact ⟨Sum.inl i, hi⟩
    · exact ⟨Sum.inr i, hi⟩

variable {R : Matrix (Fin k₂) (Fin n) K[X]} {N₂ : Matrix (Fin k) (Fin k₂) K[X]}

/-- The part of a combination of the rows of `P` outside of the kernel rows is in the kernel of the residual. -/
theorem Pre.rest (h : Pre F f P s t) (hbij : Function.Bijective (Sum.elim σ₁ σ₂)) (hker : ∀ i, P (σ₁ i) ᵥ* F = 0)
    (hR : ∀ i j, (P (σ₂ i) ᵥ* F) j = f * R i j) {u : Fin m → K[X]} (hv : u ᵥ* P ᵥ* F = 0) :
    (fun i => u (σ₂ i)) ᵥ* R = 0 := by
  let eq := Equiv.ofBijective _ hbij
  funext j
  have h1 := congrFun hv j
  rw [Matrix.vecMul_vecMul] at h1
  have h2 : (u ᵥ* (P * F)) j = ∑ l, u l * (P l ᵥ* F) j := rfl
  rw [h2, ← Equiv.sum_comp eq, Fintype.sum_sum_type] at h1
  have h3 : ∀ i, (P (eq (Sum.inl i)) ᵥ* F) j = 0 := fun i => congrFun (hker i) j
  have h4 : ∀ i, (P (eq (Sum.inr i)) ᵥ* F) j = f * R i j := fun i => hR i j
  simp only [h3, h4, mul_zero, Finset.sum_const_zero, zero_add, Pi.zero_apply] at h1
  have h5 : f * ∑ i, u (σ₂ i) * R i j = 0 := by
    rw [Finset.mul_sum, ← h1]
    exact Finset.sum_congr rfl fun i _ => by show _ = u (σ₂ i) * _; ring
  exact (_root_.mul_eq_zero.1 h5).resolve_left h.ne

theorem split_rows (hR : ∀ i j, (P (σ₂ i) ᵥ* F) j = f * R i j) (hN : ∀ i, N₂ i ᵥ* R = 0) (i : Fin k) :
    (N₂ * P.submatrix σ₂ id) i ᵥ* F = 0 := by
  have h1 : P.submatrix σ₂ id * F = f • R := by
    refine Matrix.ext fun a b => ?_
    exact hR a b
  show N₂ i ᵥ* P.submatrix σ₂ id ᵥ* F = 0
  rw [Matrix.vecMul_vecMul, h1, Matrix.vecMul_smul, hN i, smul_zero]

/-- The rows of the two parts, in any order. -/
noncomputable def merged (P : Matrix (Fin m) (Fin m) K[X]) (σ₁ : Fin k₁ → Fin m) (σ₂ : Fin k₂ → Fin m) (N₂ : Matrix (Fin k) (Fin k₂) K[X])
    (e : Fin kk ≃ Fin k₁ ⊕ Fin k) : Matrix (Fin kk) (Fin m) K[X] :=
  fun i => Sum.elim (fun a => P (σ₁ a)) (fun b => (N₂ * P.submatrix σ₂ id) b) (e i)

theorem merged_vecMul (e : Fin kk ≃ Fin k₁ ⊕ Fin k) (u : Fin kk → K[X]) (j : Fin m) :
    (u ᵥ* merged P σ₁ σ₂ N₂ e) j = ∑ a, u (e.symm (.inl a)) * P (σ₁ a) j +
      ∑ b, ((fun b => u (e.symm (.inr b))) ᵥ* N₂) b * P (σ₂ b) j := by
  show ∑ i, u i * merged P σ₁ σ₂ N₂ e i j = _
  rw [← Equiv.sum_comp e.symm, Fintype.sum_sum_type]
  congr 1
  · refine Finset.sum_congr rfl fun a _ => ?_
    simp only [merged, Equiv.apply_symm_apply, Sum.elim_inl]
  · have h1 : ∀ b, merged P σ₁ σ₂ N₂ e (e.symm (.inr b)) j = (N₂ * P.submatrix σ₂ id) b j := fun b => by
      simp only [merged, Equiv.apply_symm_apply, Sum.elim_inr]
    simp only [h1]
    have h2 := congrFun (Matrix.vecMul_vecMul (fun b => u (e.symm (.inr b))) N₂ (P.submatrix σ₂ id)) j
    exact h2.symm

theorem merged_independent (h : Pivots s P t id) (hbij : Function.Bijective (Sum.elim σ₁ σ₂))
    (hN : ∀ w : Fin k → K[X], w ᵥ* N₂ = 0 → w = 0) (e : Fin kk ≃ Fin k₁ ⊕ Fin k) (u : Fin kk → K[X])
    (hu : u ᵥ* merged P σ₁ σ₂ N₂ e = 0) : u = 0 := by
  let eq := Equiv.ofBijective _ hbij
  let w : Fin m → K[X] := fun j => Sum.elim (fun a => u (e.symm (.inl a))) ((fun b => u (e.symm (.inr b))) ᵥ* N₂) (eq.symm j)
  have hw : w ᵥ* P = 0 := by
    funext j
    have h1 := congrFun hu j
    rw [merged_vecMul] at h1
    show ∑ l, w l * P l j = 0
    rw [← Equiv.sum_comp eq, Fintype.sum_sum_type]
    rw [Pi.zero_apply] at h1
    rw [← h1]
    congr 1 <;> refine Finset.sum_congr rfl fun a _ => ?_ <;> simp only [w, Equiv.symm_apply_apply] <;> rfl
  have hw0 := h.independent w hw
  have ha : ∀ a, u (e.symm (.inl a)) = 0 := fun a => by
    have := congrFun hw0 (eq (.inl a))
    simpa only [w, Equiv.symm_apply_apply, Sum.elim_inl, Pi.zero_apply] using this
  have hb := hN (fun b => u (e.symm (.inr b))) (by
    funext b
    have := congrFun hw0 (eq (.inr b))
    simpa only [w, Equiv.symm_apply_apply, Sum.elim_inr, Pi.zero_apply] using this)
  funext i
  rcases hi : e i with a | b
  · have := ha a
    rwa [← hi, Equiv.symm_apply_apply] at this
  · have := congrFun hb b
    rwa [← hi, Equiv.symm_apply_apply] at this

theorem Pre.merged_basis (h : Pre F f P s t) (hbij : Function.Bijective (Sum.elim σ₁ σ₂)) (hker : ∀ i, P (σ₁ i) ᵥ* F = 0)
    (hR : ∀ i j, (P (σ₂ i) ᵥ* F) j = f * R i j) (hN : IsKernelBasis R N₂) (e : Fin kk ≃ Fin k₁ ⊕ Fin k) :
    IsKernelBasis F (merged P σ₁ σ₂ N₂ e) := by
  refine ⟨merged_independent h.piv hbij hN.independent e, fun v => ⟨fun hv => ?_, ?_⟩⟩
  · obtain ⟨u, rfl⟩ := h.complete v hv
    obtain ⟨w, hw⟩ := (hN.generates _).1 (h.rest hbij hker hR hv)
    refine ⟨fun i => Sum.elim (fun a => u (σ₁ a)) w (e i), ?_⟩
    funext j
    rw [merged_vecMul]
    simp only [Equiv.apply_symm_apply, Sum.elim_inl, Sum.elim_inr]
    have h1 : w ᵥ* N₂ = fun i => u (σ₂ i) := hw.symm
    rw [h1]
    show ∑ l, u l * P l j = _
    let eq := Equiv.ofBijective _ hbij
    rw [← Equiv.sum_comp eq, Fintype.sum_sum_type]
    rfl
  · rintro ⟨u, rfl⟩
    rw [Matrix.vecMul_vecMul]
    have : merged P σ₁ σ₂ N₂ e * F = 0 := by
      refine Matrix.ext fun i j => ?_
      show (merged P σ₁ σ₂ N₂ e i ᵥ* F) j = 0
      unfold merged
      rcases e i with a | b
      · exact congrFun (hker a) j
      · exact congrFun (split_rows hR (fun i => row_mem hN i) b) j
    rw [this, Matrix.vecMul_zero]

end Split

/-- The kernel of a matrix, with the degrees of the rows `rd`, -1 for zero rows. -/
theorem zero_row (h : Pre F f P s t) {j : Fin m} (hj : ∀ c, F j c = 0) : t j = s j := by
  have h1 : (1 : Matrix (Fin m) (Fin m) K[X]) j ᵥ* F = 0 := by
    funext c
    have : ((1 : Matrix (Fin m) (Fin m) K[X]) * F) j c = 0 := by rw [Matrix.one_mul]; exact hj c
    exact this
  obtain ⟨-, -, -, h2⟩ := h.min h1 ((pivots_one s).row j)
  have := h.ge j
  simp only [id] at h2
  omega

theorem pos_degrees {rd : Fin m → Int} (hrdn : ∀ j, (∃ c, F j c ≠ 0) → 0 ≤ rd j) {N : Matrix (Fin k) (Fin m) K[X]}
    {τ : Fin k → Int} {ρ : Fin k → Fin m} (hN : IsKernelBasis F N) (hP : Pivots s N τ ρ) {j : Fin m} (hj : ∀ i, ρ i ≠ j) :
    0 ≤ rd j := by
  by_contra hc
  have h0 : ∀ c, F j c = 0 := by
    by_contra hn
    push Not at hn
    exact hc (hrdn j hn)
  have h1 : (1 : Matrix (Fin m) (Fin m) K[X]) j ᵥ* F = 0 := by
    funext c
    have : ((1 : Matrix (Fin m) (Fin m) K[X]) * F) j c = 0 := by rw [Matrix.one_mul]; exact h0 c
    exact this
  obtain ⟨i, hi, -⟩ := minimal hN hP h1 ((pivots_one s).row j)
  exact hj i hi

/-- The degrees of the kernel basis, with the convention -1 for zero rows. -/
theorem kernel_sum {rd : Fin m → Int} (hrd : ∀ j c, F j c ≠ 0 → ((F j c).natDegree : Int) ≤ rd j)
    (hrdn : ∀ j, (∃ c, F j c ≠ 0) → 0 ≤ rd j) {N : Matrix (Fin k) (Fin m) K[X]}
    {τ : Fin k → Int} {ρ : Fin k → Fin m} (hN : IsKernelBasis F N) (hP : Pivots s N τ ρ) :
    ∃ r, r ≤ n ∧ k + r = m ∧ ∑ i, (τ i - s (ρ i)) ≤ ∑ j ∈ Finset.univ.filter (fun j => ∀ i, ρ i ≠ j), rd j := by
  obtain ⟨r, γ, hγ, hkr, hdeg⟩ := kernel_degrees hN hP
  refine ⟨r, ?_, hkr, ?_⟩
  · have := Fintype.card_le_of_injective γ hγ
    rwa [Fintype.card_fin, Fintype.card_fin] at this
  · refine (hdeg (fun j => (rd j).toNat) fun i j => ?_).trans (Finset.sum_le_sum fun j hj => ?_)
    · by_cases h0 : F i j = 0
      · rw [h0, natDegree_zero]; exact Nat.zero_le _
      · have := hrd i j h0; omega
    · have := pos_degrees hrdn hN hP (Finset.mem_filter.1 hj).2
      omega

/-- The early exit, when every entry of the shift, but possibly the one of the only nonzero row, is below the order. -/
theorem Pre.early (h : Pre F f P s t) {rd : Fin m → Int} (hrd : ∀ j c, F j c ≠ 0 → ((F j c).natDegree : Int) ≤ rd j)
    (hrdn : ∀ j, (∃ c, F j c ≠ 0) → 0 ≤ rd j) (hs : ∀ j, rd j ≤ s j) {order : Int}
    (hlow : ∀ π j, π ≠ j → 0 ≤ s j → s π < order) (hne : ∃ j c, F j c ≠ 0) (I : Finset (Fin m)) (hI : ∀ i, i ∈ I ↔ t i < order)
    (hker : ∀ i ∈ I, P i ᵥ* F = 0) (hsum : ∑ i ∈ I, (t i - s i) = ∑ i ∈ Iᶜ, rd i) {v : Fin m → K[X]} (hv : v ᵥ* F = 0) {D : Int}
    {π : Fin m} (hp : HasPivot s v D π) : π ∈ I := by
  classical
  by_contra hπ
  obtain ⟨k, N, τ, ρ, hN, hPv⟩ := exists_kernelBasis s F
  obtain ⟨r, -, -, hdeg⟩ := kernel_sum hrd hrdn hN hPv
  let Pv : Finset (Fin m) := Finset.univ.image ρ
  have hδ : ∀ i, t (ρ i) ≤ τ i := fun i => by
    obtain ⟨-, -, -, h'⟩ := h.min (row_mem hN i) (hPv.row i)
    exact h'
  have hsum1 : ∑ i, (τ i - s (ρ i)) ≥ ∑ j ∈ Pv, (t j - s j) := by
    rw [Finset.sum_image (fun a _ b _ h => hPv.mono.injective h)]
    exact Finset.sum_le_sum fun i _ => by have := hδ i; omega
  have hfil : (Finset.univ.filter fun j => ∀ i, ρ i ≠ j) = Pvᶜ := by
    ext j
    simp [Pv]
  rw [hfil] at hdeg
  have hIP : I ⊆ Pv := by
    intro i hi
    obtain ⟨l, hl, -⟩ := minimal hN hPv (hker i hi) (h.piv.row i)
    exact Finset.mem_image.2 ⟨l, Finset.mem_univ _, hl⟩
  have hπP : π ∈ Pv := by
    obtain ⟨l, hl, -⟩ := minimal hN hPv hv hp
    exact Finset.mem_image.2 ⟨l, Finset.mem_univ _, hl⟩
  have e1 : ∑ j ∈ Pv, (t j - s j) = ∑ j ∈ Pv \ I, (t j - s j) + ∑ j ∈ I, (t j - s j) :=
    (Finset.sum_sdiff hIP).symm
  have hsub : Pvᶜ ⊆ Iᶜ := Finset.compl_subset_compl.2 hIP
  have e2 : ∑ j ∈ Iᶜ, rd j = ∑ j ∈ Iᶜ \ Pvᶜ, rd j + ∑ j ∈ Pvᶜ, rd j :=
    (Finset.sum_sdiff hsub).symm
  have e3 : Iᶜ \ Pvᶜ = Pv \ I := by
    ext j; simp [and_comm]
  rw [e3] at e2
  have hpos : 0 < ∑ j ∈ Pv \ I, ((t j - s j) + rd j) := by
    have key : ∀ j ∈ Pv \ I, 0 < (t j - s j) + rd j := by
      intro j hj
      obtain ⟨hjP, hjI⟩ := Finset.mem_sdiff.1 hj
      have hjt : order ≤ t j := by
        by_contra hc
        exact hjI ((hI j).2 (by omega))
      by_cases hother : ∃ l, l ≠ j ∧ ∃ c, F l c ≠ 0
      · obtain ⟨l, hlj, hl⟩ := hother
        have h1 := hlow j l hlj.symm (le_trans (hrdn l hl) (hs l))
        by_cases hz : ∃ c, F j c ≠ 0
        · have := hrdn j hz
          omega
        · push Not at hz
          have := zero_row h hz
          omega
      · exfalso
        push Not at hother
        obtain ⟨l, c, hlc⟩ := hne
        have hlj : l = j := by
          by_contra hx
          exact hlc (hother l hx c)
        subst hlj
        obtain ⟨i, -, hi⟩ := Finset.mem_image.1 hjP
        have h1 := congrFun (row_mem hN i) c
        have h2 : (N i ᵥ* F) c = N i l * F l c := by
          show ∑ a, N i a * F a c = _
          rw [Finset.sum_eq_single l (fun b _ hb => by rw [hother b hb c, mul_zero]) (fun hx => absurd (Finset.mem_univ l) hx)]
        rw [h2, Pi.zero_apply] at h1
        have h3 := (hPv.row i).entry_ne
        rw [hi] at h3
        exact (mul_ne_zero h3 hlc) h1
    exact Finset.sum_pos key ⟨π, Finset.mem_sdiff.2 ⟨hπP, hπ⟩⟩
  rw [Finset.sum_add_distrib] at hpos
  omega

/-- One column: the whole kernel has low degree. -/
theorem Pre.one_column (h : Pre F f P s t) (hn : n ≤ 1) {rd : Fin m → Int}
    (hrd : ∀ j c, F j c ≠ 0 → ((F j c).natDegree : Int) ≤ rd j)
    (hrdn : ∀ j, (∃ c, F j c ≠ 0) → 0 ≤ rd j) (hs : ∀ j, rd j ≤ s j) {order : Int} (hlow : ∀ π j, π ≠ j → s π + s j < order)
    (hlow1 : ∀ π, s π < order) {v : Fin m → K[X]} (hv : v ᵥ* F = 0) {D : Int}
    {π : Fin m} (hp : HasPivot s v D π) : t π < order := by
  classical
  obtain ⟨k, N, τ, ρ, hN, hPv⟩ := exists_kernelBasis s F
  obtain ⟨r, hr, hkr, hdeg⟩ := kernel_sum hrd hrdn hN hPv
  obtain ⟨l, hl, -⟩ := minimal hN hPv hv hp
  obtain ⟨-, -, -, h1⟩ := h.min (row_mem hN l) (hPv.row l)
  have hge : ∀ i, 0 ≤ τ i - s (ρ i) := fun i => by have := (hPv.row i).ge; omega
  have h2 : τ l - s (ρ l) ≤ ∑ i, (τ i - s (ρ i)) := Finset.single_le_sum (f := fun i => τ i - s (ρ i)) (fun i _ => hge i) (Finset.mem_univ l)
  have hcard : (Finset.univ.filter fun j : Fin m => ∀ i, ρ i ≠ j).card = r := by
    have hfil : (Finset.univ.filter fun j => ∀ i, ρ i ≠ j) = (Finset.univ.image ρ)ᶜ := by
      ext j; simp
    rw [hfil, Finset.card_compl, Finset.card_image_of_injective _ hPv.mono.injective, Finset.card_univ, Fintype.card_fin, Fintype.card_fin]
    omega
  rw [hl] at h1 h2
  rcases Nat.eq_zero_or_pos r with h0 | h0
  · rw [h0, Finset.card_eq_zero] at hcard
    rw [hcard, Finset.sum_empty] at hdeg
    have := hlow1 π
    omega
  · obtain ⟨j, hj⟩ := Finset.card_eq_one.1 (hcard.trans (by omega))
    rw [hj, Finset.sum_singleton] at hdeg
    have hjm : j ∈ Finset.univ.filter fun j : Fin m => ∀ i, ρ i ≠ j := by rw [hj]; exact Finset.mem_singleton_self j
    have hne : π ≠ j := fun e => (Finset.mem_filter.1 hjm).2 l (hl.trans e)
    have := hlow π j hne
    have := hs j
    omega

end PML.Ntl.Kerbas
