import Verif.Kernel.Zls
import Verif.Kernel.Output
import Verif.RowOps.Lemmas
import Verif.Common.Prime

/-!
# C37, C38, C52: kernel bases
-/

namespace PML.Kernel

open PML.MatOps PML.MatPoly PML.PolyMul PML.PolyMul.Spec PML.Forms PML.Forms.Spec PML.Pmbasis PML.Approx
open PML.Approx.Spec PML.Kernel.Spec PML.RowOps.Spec PML.Nullspace PML.Sort Polynomial Matrix

set_option linter.unusedSectionVars false

variable {q : Nat} [hqp : Fact q.Prime]

/-- Nullity and rank. -/
theorem nullity_rank {k m n : Nat} {A : Mat (ZMod q)[X]} {N : Mat (ZMod q)[X]}
    {s : Fin m → Int} {t : Fin k → Int} {ρ : Fin k → Fin m}
    (hN : IsKernelBasis (asMatrix m n A) (asMatrix k m N)) (hP : Pivots s (asMatrix k m N) t ρ) :
    k + rankOf m n A = m := by
  classical
  have hle : k + rankOf m n A ≤ m := by
    have h1 : rankOf k m N = k := PML.RowOps.rankOf_independent fun u hu i hi => by
      have := hN.independent (fun i => u i) (by
        funext j
        have := hu j j.2
        rw [Finset.sum_range (fun i => u i * N i j)] at this
        exact this)
      exact congrFun this ⟨i, hi⟩
    have h2 := Matrix.rank_add_rank_le_card_of_mul_eq_zero
      (A := (asMatrix k m N).map (algebraMap (ZMod q)[X] (FractionRing (ZMod q)[X])))
      (B := (asMatrix m n A).map (algebraMap (ZMod q)[X] (FractionRing (ZMod q)[X])))
      (by rw [← Matrix.map_mul, mul_eq_zero hN, Matrix.map_zero _ (map_zero _)])
    rw [Fintype.card_fin] at h2
    unfold rankOf at h1 ⊢
    omega
  refine le_antisymm hle ?_
  -- the rows outside the pivots are independent
  let Jc : Finset (Fin m) := (Finset.univ.image ρ)ᶜ
  obtain ⟨r, hr⟩ : ∃ r, Jc.card = r := ⟨_, rfl⟩
  have hkr : k + r = m := by
    rw [← hr, Finset.card_compl, Finset.card_image_of_injective _ hP.mono.injective,
      Fintype.card_fin, Finset.card_univ, Fintype.card_fin]
    have := Fintype.card_le_of_injective ρ hP.mono.injective
    rw [Fintype.card_fin, Fintype.card_fin] at this
    omega
  let σ : Fin r → Fin m := fun i => Jc.orderEmbOfFin hr i
  have hbij : Function.Bijective (Sum.elim ρ σ) := by
    rw [Fintype.bijective_iff_injective_and_card]
    refine ⟨?_, by rw [Fintype.card_sum, Fintype.card_fin, Fintype.card_fin, Fintype.card_fin]; exact hkr⟩
    have hd : ∀ a b, ρ a ≠ σ b := fun a b h => by
      have := Jc.orderEmbOfFin_mem hr b
      rw [Finset.mem_compl] at this
      exact this (Finset.mem_image.2 ⟨a, Finset.mem_univ _, h⟩)
    rintro (a | a) (b | b) h
    · exact congrArg _ (hP.mono.injective h)
    · exact absurd h (hd a b)
    · exact absurd h.symm (hd b a)
    · exact congrArg _ ((Jc.orderEmbOfFin hr).injective h)
  have hli := fun u hu => independent_rest hN hP (Equiv.ofBijective _ hbij) (fun _ => rfl) u hu
  -- rank of the submatrix
  let B : Mat (ZMod q)[X] := fun i j => if h : i < r then A (σ ⟨i, h⟩) j else 0
  have hB : rankOf r n B = r := PML.RowOps.rankOf_independent fun u hu i hi => by
    have := hli (fun i : Fin r => u i) (by
      funext j
      have := hu j j.2
      rw [Finset.sum_range (fun i => u i * B i j)] at this
      refine Eq.trans (show _ = _ from ?_) this
      show ∑ i, u (i : Fin r) * A (σ i) j = ∑ i : Fin r, u i * B i j
      refine Finset.sum_congr rfl fun i _ => ?_
      have e : B i j = A (σ i) j := dif_pos i.2
      rw [e])
    exact congrFun this ⟨i, hi⟩
  have hmono : rankOf r n B ≤ rankOf m n A := by
    unfold rankOf
    rw [Matrix.rank_eq_finrank_span_row, Matrix.rank_eq_finrank_span_row]
    refine Submodule.finrank_mono (Submodule.span_mono ?_)
    rintro _ ⟨i, rfl⟩
    refine ⟨σ i, ?_⟩
    funext j
    have e : B i j = A (σ i) j := dif_pos i.2
    show algebraMap _ _ (A (σ i) j) = algebraMap _ _ (B i j)
    rw [e]
  omega

/-- The invariant of the proofs gives the specification. -/
theorem KerOK.output {m n : Nat} {s : Nat → Int} {A : Mat (ZMod q)[X]} {r : Res q}
    (h : KerOK m n s A r) : IsOrderedKernelBasis false m n s A r.nullity r.ker r.piv r.shift := by
  obtain ⟨ρ, hρ, hP⟩ := h.pivots
  have hge : ∀ i : Fin r.nullity, s (ρ i) ≤ r.shift i := fun i => (hP.row i).ge
  have hdeg : ∀ i : Fin r.nullity, ((r.ker i (ρ i)).natDegree : Int) + s (ρ i) = r.shift i := fun i => by
    have h1 : (r.ker i (ρ i)).natDegree = (r.shift i - s (ρ i)).toNat := (hP.row i).natDegree
    have := hge i
    omega
  have hne : ∀ i : Fin r.nullity, r.ker i (ρ i) ≠ 0 := fun i => (hP.row i).entry_ne
  have hle : ∀ (i : Fin r.nullity) j, j < m → r.ker i j ≠ 0 →
      ((r.ker i j).natDegree : Int) + s j ≤ r.shift i := fun i j hj hn =>
    degLE_iff.1 ((hP.row i).le ⟨j, hj⟩) hn
  refine ⟨h.basis, nullity_rank h.basis hP, fun i hi => ?_, fun i j hij hj => ?_, fun i hi => ?_⟩
  · refine ⟨ρ ⟨i, hi⟩, (r.ker i (ρ ⟨i, hi⟩)).natDegree, hρ ⟨i, hi⟩, ?_⟩
    rw [if_neg (by simp)]
    have hd := hdeg ⟨i, hi⟩
    refine ⟨(ρ ⟨i, hi⟩).2, hne ⟨i, hi⟩, rfl, fun j hj hn => ?_, fun j hj hlt hn => ?_⟩
    · have := hle ⟨i, hi⟩ j hj hn
      simp only at this hd
      omega
    · have := degLE_iff.1 ((hP.row ⟨i, hi⟩).after ⟨j, hj⟩ hlt) hn
      simp only [asMatrix] at this hd
      have h2 : ((r.ker i j).natDegree : Int) + s j ≤ r.shift i - 1 := this
      omega
  · rw [hρ ⟨i, by omega⟩, hρ ⟨j, hj⟩]
    have := Fin.lt_def.1 (hP.mono (show (⟨i, by omega⟩ : Fin r.nullity) < ⟨j, hj⟩ from hij))
    omega
  · exact ⟨fun j hj hn => hle ⟨i, hi⟩ j hj hn, ρ ⟨i, hi⟩, (ρ ⟨i, hi⟩).2, hne ⟨i, hi⟩, hdeg ⟨i, hi⟩⟩

/-- **C37** (approximant basis at a large order). For every prime modulus, every
    matrix and every shift, `nmod_poly_mat_kernel_via_approx` succeeds and every row it
    returns multiplies the matrix to zero. -/
theorem C37_kernel_via_approx (e : Env q) (he : EnvOK e) (m n : Nat) (ker : Mat (ZMod q)[X])
    (piv shift luperm : Nat → Int) (pmat : Mat (ZMod q)[X]) :
    ∃ r, viaApprox e m n ker piv shift luperm pmat = Outcome.ok r ∧
      asMatrix r.nullity m r.ker * asMatrix m n pmat = 0 := by
  obtain ⟨r, h1, h2⟩ := viaApprox_ok e he m n ker piv shift luperm pmat
  exact ⟨r, h1, mul_eq_zero h2.basis⟩

/-- **C37** (Zhou-Labahn-Storjohann). With a recursion depth of at most `m + n + 1`. -/
theorem C37_kernel_zls_approx (e : Env q) (he : EnvOK e) (fresh : Nat → Int) (fuel m n : Nat)
    (ker : Mat (ZMod q)[X]) (piv shift : Nat → Int) (pmat : Mat (ZMod q)[X]) (hfuel : m + n < fuel) :
    ∃ r, zls e fresh fuel m n ker piv shift pmat = Outcome.ok r ∧
      asMatrix r.nullity m r.ker * asMatrix m n pmat = 0 := by
  obtain ⟨r, h1, h2⟩ := zls_ok e he fresh fuel m n ker piv shift pmat hfuel
  exact ⟨r, h1, mul_eq_zero h2.basis⟩

/-- **C38** (approximant basis at a large order). The rows returned are a basis of the
    left kernel in shifted ordered weak Popov form; the number returned is the
    nullity, `pivind` holds the pivot indices and `shift` the shifted row degrees. -/
theorem C38_kernel_via_approx (e : Env q) (he : EnvOK e) (m n : Nat) (ker : Mat (ZMod q)[X])
    (piv shift luperm : Nat → Int) (pmat : Mat (ZMod q)[X]) :
    ∃ r, viaApprox e m n ker piv shift luperm pmat = Outcome.ok r ∧
      IsOrderedKernelBasis false m n shift pmat r.nullity r.ker r.piv r.shift := by
  obtain ⟨r, h1, h2⟩ := viaApprox_ok e he m n ker piv shift luperm pmat
  exact ⟨r, h1, h2.output⟩

/-- **C38** (Zhou-Labahn-Storjohann). -/
theorem C38_kernel_zls_approx (e : Env q) (he : EnvOK e) (fresh : Nat → Int) (fuel m n : Nat)
    (ker : Mat (ZMod q)[X]) (piv shift : Nat → Int) (pmat : Mat (ZMod q)[X]) (hfuel : m + n < fuel) :
    ∃ r, zls e fresh fuel m n ker piv shift pmat = Outcome.ok r ∧
      IsOrderedKernelBasis false m n shift pmat r.nullity r.ker r.piv r.shift := by
  obtain ⟨r, h1, h2⟩ := zls_ok e he fresh fuel m n ker piv shift pmat hfuel
  exact ⟨r, h1, h2.output⟩

/-! ### The general interface -/

theorem mirrorLoop_spec (c nul : Nat) (piv : Nat → Int) : ∀ k, k ≤ nul / 2 → ∀ i,
    mirrorLoop c nul piv k i =
      if (i < k ∨ (nul - k ≤ i ∧ i < nul)) then (c : Int) - 1 - piv (nul - 1 - i) else piv i := by
  intro k
  induction k with
  | zero =>
    intro _ i
    rw [if_neg (by omega)]; rfl
  | succ k ih =>
    intro hk i
    have ih := ih (by omega)
    have h1 : mirrorLoop c nul piv k k = piv k := by rw [ih, if_neg (by omega)]
    have h2 : mirrorLoop c nul piv k (nul - 1 - k) = piv (nul - 1 - k) := by
      rw [ih, if_neg (by omega)]
    simp only [mirrorLoop, h1, h2]
    by_cases hi : i = nul - 1 - k
    · rw [hi, Function.update_self, if_pos (by omega), show nul - 1 - (nul - 1 - k) = k by omega]
    · rw [Function.update_of_ne hi]
      by_cases hik : i = k
      · rw [hik, Function.update_self, if_pos (by omega)]
      · rw [Function.update_of_ne hik, ih]
        by_cases hc : i < k ∨ (nul - k ≤ i ∧ i < nul)
        · rw [if_pos hc, if_pos (by omega)]
        · rw [if_neg hc, if_neg (by omega)]

theorem mirror_spec (c nul : Nat) (piv : Nat → Int) (i : Nat) (hi : i < nul) :
    mirror c nul piv i = (c : Int) - 1 - piv (nul - 1 - i) := by
  unfold mirror
  have h := mirrorLoop_spec c nul piv (nul / 2) (le_refl _)
  by_cases ho : nul % 2 = 1
  · rw [if_pos ho]
    by_cases hm : i = nul / 2
    · rw [hm, Function.update_self, h, if_neg (by omega), show nul - 1 - nul / 2 = nul / 2 by omega]
    · rw [Function.update_of_ne hm, h, if_pos (by omega)]
  · rw [if_neg ho, h, if_pos (by omega)]

theorem reverse_apply {α : Type} (r : Nat) (M : Nat → α) {i : Nat} (hi : i < r) :
    reverse r M i = M (r - 1 - i) := if_pos hi

theorem asMatrix_reverse (m n : Nat) (A : Mat (ZMod q)[X]) :
    asMatrix m n (reverse m A) = (asMatrix m n A).submatrix Fin.rev id := by
  refine Matrix.ext fun i j => ?_
  show reverse m A i j = A (Fin.rev i) j
  rw [reverse_apply m A i.2, Fin.val_rev, show m - 1 - (i : Nat) = m - ((i : Nat) + 1) by omega]

theorem rankOf_reverse (m n : Nat) (A : Mat (ZMod q)[X]) : rankOf m n (reverse m A) = rankOf m n A := by
  unfold rankOf
  rw [asMatrix_reverse]
  exact Matrix.rank_submatrix (((asMatrix m n A).map (algebraMap _ (FractionRing (ZMod q)[X]))))
    Fin.revPerm (Equiv.refl _)

/-- Kernel basis of the mirrored matrix. -/
theorem isKernelBasis_rev {k m n : Nat} {A : Matrix (Fin m) (Fin n) (ZMod q)[X]}
    {N : Matrix (Fin k) (Fin m) (ZMod q)[X]} (h : IsKernelBasis (A.submatrix Fin.rev id) N) :
    IsKernelBasis A (N.submatrix Fin.rev Fin.rev) := by
  have hv : ∀ v : Fin m → (ZMod q)[X], (fun i => v (Fin.rev i)) ᵥ* A.submatrix Fin.rev id = v ᵥ* A := by
    intro v
    funext j
    exact Equiv.sum_comp Fin.revPerm (fun i => v i * A i j)
  have hu : ∀ u : Fin k → (ZMod q)[X], (fun i => u (Fin.rev i)) ᵥ* N =
      fun j => (u ᵥ* N.submatrix Fin.rev Fin.rev) (Fin.rev j) := by
    intro u
    funext j
    have := Equiv.sum_comp Fin.revPerm (fun i => u (Fin.rev i) * N i j)
    refine this.symm.trans ?_
    show _ = ∑ i, u i * N (Fin.rev i) (Fin.rev (Fin.rev j))
    rw [Fin.rev_rev]
    exact Finset.sum_congr rfl fun i _ => by rw [Fin.revPerm_apply, Fin.rev_rev]
  refine ⟨fun u hz => ?_, fun v => ?_⟩
  · have := h.independent (fun i => u (Fin.rev i)) (by rw [hu u, hz]; rfl)
    funext i
    have := congrFun this (Fin.rev i)
    simpa using this
  · rw [← hv v, h.generates]
    constructor
    · rintro ⟨w, hw⟩
      refine ⟨fun i => w (Fin.rev i), ?_⟩
      have h1 := hu (fun i => w (Fin.rev i))
      simp only [Fin.rev_rev] at h1
      have h2 := hw.trans h1
      funext j
      have := congrFun h2 (Fin.rev j)
      simpa using this
    · rintro ⟨u, rfl⟩
      exact ⟨fun i => u (Fin.rev i), (hu u).symm⟩

/-- Mirroring a kernel basis. -/
theorem output_mirror {m n : Nat} {s : Nat → Int} {A : Mat (ZMod q)[X]} {r : Res q}
    (h : IsOrderedKernelBasis false m n (reverse m s) (reverse m A) r.nullity r.ker r.piv r.shift) :
    IsOrderedKernelBasis true m n s A r.nullity
      (fun i => if i < r.nullity then reverse m (reverse r.nullity r.ker i) else r.ker i)
      (mirror m r.nullity r.piv) (reverse r.nullity r.shift) := by
  have hrow : ∀ i, i < r.nullity → ∀ j, j < m →
      (if i < r.nullity then reverse m (reverse r.nullity r.ker i) else r.ker i) j =
        r.ker (r.nullity - 1 - i) (m - 1 - j) := by
    intro i hi j hj
    rw [if_pos hi, reverse_apply m _ hj, reverse_apply _ _ hi]
  have hs : ∀ j, j < m → reverse m s (m - 1 - j) = s j := fun j hj => by
    rw [reverse_apply m s (by omega), show m - 1 - (m - 1 - j) = j by omega]
  refine ⟨?_, ?_, fun i hi => ?_, fun i j hij hj => ?_, fun i hi => ?_⟩
  · have h1 := h.basis
    rw [asMatrix_reverse] at h1
    have h2 := isKernelBasis_rev h1
    have : asMatrix r.nullity m (fun i => if i < r.nullity then reverse m (reverse r.nullity r.ker i)
        else r.ker i) = (asMatrix r.nullity m r.ker).submatrix Fin.rev Fin.rev := by
      refine Matrix.ext fun i j => ?_
      refine (hrow i i.2 j j.2).trans ?_
      show _ = r.ker (Fin.rev i) (Fin.rev j)
      rw [Fin.val_rev, Fin.val_rev, show m - 1 - (j : Nat) = m - (j + 1) by omega,
        show r.nullity - 1 - (i : Nat) = r.nullity - (i + 1) by omega]
    rw [this]
    exact h2
  · have := h.nullity
    rwa [rankOf_reverse] at this
  · obtain ⟨π, δ, h1, h2⟩ := h.pivot (r.nullity - 1 - i) (by omega)
    rw [if_neg (by simp)] at h2
    have hlt := h2.lt
    refine ⟨m - 1 - π, δ, ?_, ?_⟩
    · rw [mirror_spec _ _ _ _ hi, h1]; omega
    · rw [if_pos rfl]
      have hππ : m - 1 - (m - 1 - π) = π := by omega
      have hsπ : s (m - 1 - π) = reverse m s π := by rw [reverse_apply m s hlt]
      refine ⟨by omega, ?_, ?_, fun j hj hn => ?_, fun j hj hlt' hn => ?_⟩
      · rw [hrow i hi _ (by omega), hππ]; exact h2.nonzero
      · rw [hrow i hi _ (by omega), hππ]; exact h2.degree
      · rw [hrow i hi j hj] at hn ⊢
        have := h2.le (m - 1 - j) (by omega) hn
        rw [hs j hj] at this
        rw [hsπ]; exact this
      · rw [hrow i hi j hj] at hn ⊢
        have := h2.after (m - 1 - j) (by omega) (by omega) hn
        rw [hs j hj] at this
        rw [hsπ]; exact this
  · rw [mirror_spec _ _ _ _ (by omega), mirror_spec _ _ _ _ hj]
    have := h.increasing (r.nullity - 1 - j) (r.nullity - 1 - i) (by omega) (by omega)
    omega
  · have h1 := h.degree (r.nullity - 1 - i) (by omega)
    rw [reverse_apply r.nullity r.shift hi]
    refine ⟨fun j hj hn => ?_, ?_⟩
    · rw [hrow i hi j hj] at hn ⊢
      have := h1.le (m - 1 - j) (by omega) hn
      rw [hs j hj] at this
      exact this
    · obtain ⟨j, hj, h2, h3⟩ := h1.attained
      refine ⟨m - 1 - j, by omega, ?_, ?_⟩
      · rw [hrow i hi _ (by omega), show m - 1 - (m - 1 - j) = j by omega]; exact h2
      · rw [hrow i hi _ (by omega), show m - 1 - (m - 1 - j) = j by omega, ← h3, reverse_apply m s hj]

theorem leftKernel_ok (e : Env q) (he : EnvOK e) (fresh : Nat → Int) (upper : Bool) (m n : Nat)
    (ker : Mat (ZMod q)[X]) (piv shift : Nat → Int) (pmat : Mat (ZMod q)[X]) :
    ∃ r, leftKernel e fresh upper m n ker piv shift pmat = Outcome.ok r ∧
      IsOrderedKernelBasis upper m n shift pmat r.nullity r.ker r.piv r.shift := by
  unfold leftKernel
  cases upper with
  | false =>
    rw [if_neg (by simp)]
    exact C38_kernel_zls_approx e he fresh (m + n + 1) m n ker piv shift pmat (by omega)
  | true =>
    rw [if_pos rfl]
    obtain ⟨r, h1, h2⟩ := C38_kernel_zls_approx e he fresh (m + n + 1) m n ker piv (reverse m shift)
      (reverse m pmat) (by omega)
    rw [h1]
    exact ⟨_, rfl, output_mirror h2⟩

theorem IsOrderedKernelBasis.congr {upper : Bool} {m n nul : Nat} {s piv rdeg : Nat → Int}
    {A ker ker' : Mat (ZMod q)[X]} (h : IsOrderedKernelBasis upper m n s A nul ker piv rdeg)
    (hk : ∀ i j, i < nul → j < m → ker' i j = ker i j) :
    IsOrderedKernelBasis upper m n s A nul ker' piv rdeg := by
  have e1 : asMatrix nul m ker' = asMatrix nul m ker := Matrix.ext fun i j => hk i j i.2 j.2
  refine ⟨by rw [e1]; exact h.basis, h.nullity, fun i hi => ?_, h.increasing, fun i hi => ?_⟩
  · obtain ⟨π, δ, h1, h2⟩ := h.pivot i hi
    refine ⟨π, δ, h1, ?_⟩
    cases upper with
    | false =>
      rw [if_neg (by simp)] at h2 ⊢
      refine ⟨h2.lt, by rw [hk i π hi h2.lt]; exact h2.nonzero, by rw [hk i π hi h2.lt]; exact h2.degree,
        fun j hj hn => ?_, fun j hj hlt hn => ?_⟩
      · rw [hk i j hi hj] at hn ⊢; exact h2.le j hj hn
      · rw [hk i j hi hj] at hn ⊢; exact h2.after j hj hlt hn
    | true =>
      rw [if_pos rfl] at h2 ⊢
      refine ⟨h2.lt, by rw [hk i π hi h2.lt]; exact h2.nonzero, by rw [hk i π hi h2.lt]; exact h2.degree,
        fun j hj hn => ?_, fun j hj hlt hn => ?_⟩
      · rw [hk i j hi hj] at hn ⊢; exact h2.le j hj hn
      · rw [hk i j hi hj] at hn ⊢; exact h2.before j hj hlt hn
  · have h1 := h.degree i hi
    refine ⟨fun j hj hn => ?_, ?_⟩
    · rw [hk i j hi hj] at hn ⊢; exact h1.le j hj hn
    · obtain ⟨j, hj, h2, h3⟩ := h1.attained
      exact ⟨j, hj, by rw [hk i j hi hj]; exact h2, by rw [hk i j hi hj]; exact h3⟩

/-- Changing the matrix outside its dimensions. -/
theorem IsOrderedKernelBasis.congr_input {upper : Bool} {m n nul : Nat} {s piv rdeg : Nat → Int}
    {A A' ker : Mat (ZMod q)[X]} (h : IsOrderedKernelBasis upper m n s A nul ker piv rdeg)
    (hk : ∀ i j, i < m → j < n → A' i j = A i j) :
    IsOrderedKernelBasis upper m n s A' nul ker piv rdeg := by
  have e1 : asMatrix m n A' = asMatrix m n A := Matrix.ext fun i j => hk i j i.2 j.2
  refine ⟨by rw [e1]; exact h.basis, ?_, h.pivot, h.increasing, h.degree⟩
  have := h.nullity
  unfold rankOf at this ⊢
  rw [e1]; exact this

/-- **C52**, left kernels. For the two row orientations, and any form up to ordered
    weak Popov, `nmod_poly_mat_kernel` returns the nullity and a left kernel basis in
    ordered weak Popov form with the pivots of the orientation, for the given shift, or
    for the row degrees when the shift is `NULL` (0 for zero rows). The arrays
    `pivind` and `shift` hold the pivot indices and shifted row degrees. -/
theorem C52_left_kernel (e : Env q) (he : EnvOK e) (fresh : Nat → Int) (r c : Nat)
    (ker : Mat (ZMod q)[X]) (pivind shift : Option (Nat → Int)) (pmat : Mat (ZMod q)[X]) (form : Form)
    (hform : form = .none ∨ form = .reduced ∨ form = .weakPopov ∨ form = .ordWeakPopov)
    (orient : Orient) (horient : orient = .rowLower ∨ orient = .rowUpper) :
    ∃ res s, kernel e fresh r c ker pivind shift pmat form orient = Outcome.ok res ∧
      (∀ s', shift = some s' → s = s') ∧
      (shift = none → ∀ i, i < r → IsVecDegree c (fun _ => 0) (pmat i) 0 (s i)) ∧
      IsOrderedKernelBasis (decide (orient = .rowUpper)) r c s pmat res.nullity res.ker res.piv res.shift := by
  have hrow : orient.isRow = true := by rcases horient with rfl | rfl <;> rfl
  have hk : kernel e fresh r c ker pivind shift pmat form orient =
      leftKernel e fresh (decide (orient = .rowUpper)) r c ker (pivind.getD fresh)
        (shift.getD (lineDegreesZero true r c pmat none fresh).1) pmat := by
    unfold kernel
    rcases hform with rfl | rfl | rfl | rfl <;> simp only [hrow, if_true]
  obtain ⟨res, h1, h2⟩ := leftKernel_ok e he fresh (decide (orient = .rowUpper)) r c ker
    (pivind.getD fresh) (shift.getD (lineDegreesZero true r c pmat none fresh).1) pmat
  refine ⟨res, _, hk.trans h1, fun s' hs => by rw [hs]; rfl, fun hs i hi => ?_, h2⟩
  rw [hs]
  exact (C29_row_degree r c pmat none fresh 0
    (by by_cases h : c = 0
        · exact Or.inl ⟨h, rfl⟩
        · exact Or.inr ⟨fun j _ => le_refl _, 0, by omega, rfl⟩)).2.2.2.1 i hi

/-- **C52**, right kernels. For the two column orientations, the columns of the
    result are a basis of the right kernel: the statement on left kernels holds for
    the transposes. -/
theorem C52_right_kernel (e : Env q) (he : EnvOK e) (fresh : Nat → Int) (r c : Nat)
    (ker : Mat (ZMod q)[X]) (pivind shift : Option (Nat → Int)) (pmat : Mat (ZMod q)[X]) (form : Form)
    (hform : form = .none ∨ form = .reduced ∨ form = .weakPopov ∨ form = .ordWeakPopov)
    (orient : Orient) (horient : orient = .colUpper ∨ orient = .colLower) :
    ∃ res s, kernel e fresh r c ker pivind shift pmat form orient = Outcome.ok res ∧
      (∀ s', shift = some s' → s = s') ∧
      (shift = none → ∀ j, j < c → IsVecDegree r (fun _ => 0) (fun i => pmat i j) 0 (s j)) ∧
      IsOrderedKernelBasis (decide (orient = .colLower)) c r s (fun j i => pmat i j) res.nullity
        (fun j i => res.ker i j) res.piv res.shift := by
  have hrow : orient.isRow = false := by rcases horient with rfl | rfl <;> rfl
  obtain ⟨res, h1, h2⟩ := leftKernel_ok e he fresh (decide (orient = .colLower)) c r (fun _ _ => 0)
    (pivind.getD fresh) (shift.getD (lineDegreesZero false r c pmat none fresh).1)
    (transposeInto r c (fun _ _ => 0) pmat)
  have hk : kernel e fresh r c ker pivind shift pmat form orient =
      Outcome.ok { res with ker := transposeInto c c ker res.ker } := by
    unfold kernel
    rcases hform with rfl | rfl | rfl | rfl <;> simp only [hrow, Bool.false_eq_true, if_false, h1]
  have hnul : res.nullity ≤ c := by
    have := h2.nullity
    omega
  refine ⟨_, shift.getD (lineDegreesZero false r c pmat none fresh).1, hk, fun s' hs => by rw [hs]; rfl, fun hs j hj => ?_, ?_⟩
  · rw [hs]
    exact (C29_column_degree r c pmat none fresh 0
      (by by_cases h : r = 0
          · exact Or.inl ⟨h, rfl⟩
          · exact Or.inr ⟨fun j _ => le_refl _, 0, by omega, rfl⟩)).2.2.2.1 j hj
  · refine IsOrderedKernelBasis.congr (IsOrderedKernelBasis.congr_input h2 fun i j hi hj => ?_)
      fun i j hi hj => ?_
    · exact (if_pos ⟨hi, hj⟩).symm
    · exact if_pos ⟨hj, lt_of_lt_of_le hi hnul⟩

/-- **C52**: other forms are rejected. -/
theorem C52_rejected (e : Env q) (fresh : Nat → Int) (r c : Nat)
    (ker : Mat (ZMod q)[X]) (pivind shift : Option (Nat → Int)) (pmat : Mat (ZMod q)[X]) (form : Form)
    (hform : form = .popov ∨ form = .echelon ∨ form = .hermite) (orient : Orient) :
    kernel e fresh r c ker pivind shift pmat form orient = Outcome.fail := by
  unfold kernel
  rcases hform with rfl | rfl | rfl <;> rfl

/-- The hypotheses are met for every prime, with the threshold of the code. The
    kernel of `[X; X^2; 1]` over `ZMod 5` for the shift `(0, 0, 3)` then has dimension
    two. -/
example : ∃ e : Env 5, EnvOK e ∧ e.thr = 32 ∧
    let F : Mat (ZMod 5)[X] := fun i _ => if i = 0 then X else if i = 1 then X ^ 2 else 1
    let s : Nat → Int := fun i => if i = 2 then 3 else 0
    (∃ r, viaApprox e 3 1 (fun _ _ => 0) (fun _ => 0) s (fun _ => 0) F = Outcome.ok r ∧ r.nullity = 2) ∧
    (∃ r, zls e (fun _ => 0) 5 3 1 (fun _ _ => 0) (fun _ => 0) s F = Outcome.ok r ∧ r.nullity = 2) := by
  obtain ⟨fl, hfl⟩ := flintContract_satisfiable (K := ZMod 5)
  obtain ⟨o, ho⟩ := oracles_satisfiable (q := 5)
  have he : EnvOK (q := 5) ⟨fl, insQsort, o, id, true, 32⟩ :=
    ⟨hfl, insQsort_contract, ho, by show 1 ≤ 32; omega⟩
  refine ⟨⟨fl, insQsort, o, id, true, 32⟩, he, rfl, ?_⟩
  intro F s
  have hrank : rankOf 3 1 F = 1 := by
    have h1 : rankOf 3 1 F ≤ 1 := by
      unfold rankOf
      have := Matrix.rank_le_width ((asMatrix 3 1 F).map (algebraMap _ (FractionRing (ZMod 5)[X])))
      exact this
    have h2 : rankOf 3 1 F ≠ 0 := by
      unfold rankOf
      intro h
      rw [Matrix.rank_eq_finrank_span_row, Submodule.finrank_eq_zero, Submodule.span_eq_bot] at h
      have h := h _ ⟨2, rfl⟩
      have := congrFun h 0
      simp [asMatrix, F] at this
    omega
  constructor
  · obtain ⟨r, h1, h2⟩ := C38_kernel_via_approx _ he 3 1 (fun _ _ => 0) (fun _ => 0) s (fun _ => 0) F
    exact ⟨r, h1, by have := h2.nullity; omega⟩
  · obtain ⟨r, h1, h2⟩ := C38_kernel_zls_approx _ he (fun _ => 0) 5 3 1 (fun _ _ => 0) (fun _ => 0) s F
      (by omega)
    exact ⟨r, h1, by have := h2.nullity; omega⟩

end PML.Kernel
