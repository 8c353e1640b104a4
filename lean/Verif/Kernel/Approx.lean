import Verif.Kernel.Lemmas

/-!
# Proofs: the kernel functions compute ordered weak Popov kernel bases
-/

namespace PML.Kernel

open PML.MatOps PML.MatPoly PML.PolyMul PML.PolyMul.Spec PML.Forms PML.Forms.Spec PML.Pmbasis PML.Approx
open PML.Approx.Spec PML.Kernel.Spec Polynomial Matrix

set_option linter.unusedSectionVars false

variable {q : Nat} [hqp : Fact q.Prime]

/-- The result is a kernel basis with increasing pivots `piv` and shifted row
    degrees `shift`. -/
structure KerOK (m n : Nat) (s : Nat → Int) (A : Mat (ZMod q)[X]) (r : Res q) : Prop where
  basis : IsKernelBasis (asMatrix m n A) (asMatrix r.nullity m r.ker)
  pivots : ∃ ρ : Fin r.nullity → Fin m, (∀ i : Fin r.nullity, r.piv i = ((ρ i : Nat) : Int)) ∧
    Pivots (fun j : Fin m => s j) (asMatrix r.nullity m r.ker) (fun i : Fin r.nullity => r.shift i) ρ

theorem asMatrix_eq_zero {m n : Nat} {A : Mat (ZMod q)[X]} (h : maxLength m n A = 0) :
    asMatrix m n A = 0 := by
  refine Matrix.ext fun i j => ?_
  ext k
  exact maxLength_coeff (le_of_eq h) i.2 j.2 (Nat.zero_le k)

theorem natDegree_le_of_maxLength {m n d : Nat} {A : Mat (ZMod q)[X]} (h : maxLength m n A ≤ d + 1)
    (i : Fin m) (j : Fin n) : (asMatrix m n A i j).natDegree ≤ d :=
  natDegree_le_iff_coeff_eq_zero.2 fun k hk => maxLength_coeff h i.2 j.2 (by omega)

theorem exists_ne_zero {m n : Nat} {A : Mat (ZMod q)[X]} (h : maxLength m n A ≠ 0) :
    ∃ (i : Fin m) (j : Fin n), asMatrix m n A i j ≠ 0 := by
  by_contra hc
  push Not at hc
  apply h
  rw [← Nat.le_zero, maxLength_le_iff]
  intro i hi j hj k _
  have : A i j = 0 := hc ⟨i, hi⟩ ⟨j, hj⟩
  rw [this, coeff_zero]

theorem identityRes_ok (m n : Nat) (ker : Mat (ZMod q)[X]) (piv s : Nat → Int) (A : Mat (ZMod q)[X])
    (hA : asMatrix m n A = 0) : KerOK m n s A (identityRes m ker piv s) := by
  have h1 : asMatrix m m (identityRes m ker piv s).ker = 1 := by
    refine Matrix.ext fun i j => ?_
    rw [Matrix.one_apply]
    show (if (i : Nat) < m ∧ (j : Nat) < m then (if (i : Nat) = j then (1 : (ZMod q)[X]) else 0)
      else ker i j) = _
    rw [if_pos ⟨i.2, j.2⟩]
    simp only [Fin.ext_iff]
  refine ⟨?_, id, fun i => ?_, ?_⟩
  · show IsKernelBasis _ (asMatrix m m (identityRes m ker piv s).ker)
    rw [h1]; exact isKernelBasis_one hA
  · show (if (i : Nat) < m then ((i : Nat) : Int) else piv i) = _
    exact if_pos (show (i : Nat) < m from i.2)
  · show Pivots _ (asMatrix m m (identityRes m ker piv s).ker) (fun i : Fin m => s i) id
    rw [h1]; exact pivots_one _

theorem empty_ok (m n : Nat) (s : Nat → Int) (A : Mat (ZMod q)[X]) (r : Res q) (hr : r.nullity = 0)
    (hA : ∀ v : Fin m → (ZMod q)[X], v ᵥ* asMatrix m n A = 0 → v = 0) : KerOK m n s A r := by
  obtain ⟨ker, piv, shift, nul⟩ := r
  simp only at hr
  subst hr
  exact ⟨isKernelBasis_zero hA, fun i => i.elim0, fun i => i.elim0, pivots_empty _ _ _ _⟩

/-- The kernel of a nonzero row is zero. -/
theorem kernel_row {n : Nat} {A : Mat (ZMod q)[X]} (h : maxLength 1 n A ≠ 0) :
    ∀ v : Fin 1 → (ZMod q)[X], v ᵥ* asMatrix 1 n A = 0 → v = 0 := by
  intro v hv
  obtain ⟨i, j, hij⟩ := exists_ne_zero h
  have h1 := congrFun hv j
  have h2 : (v ᵥ* asMatrix 1 n A) j = v i * asMatrix 1 n A i j := by
    rw [show i = 0 from Subsingleton.elim _ _]
    simp [Matrix.vecMul, dotProduct]
  rw [h2] at h1
  funext l
  rw [show l = i from Subsingleton.elim _ _]
  exact (_root_.mul_eq_zero.1 h1).resolve_right hij

theorem viaApprox_ok (e : Env q) (he : EnvOK e) (m n : Nat) (ker : Mat (ZMod q)[X])
    (piv shift luperm : Nat → Int) (pmat : Mat (ZMod q)[X]) :
    ∃ r, viaApprox e m n ker piv shift luperm pmat = Outcome.ok r ∧ KerOK m n shift pmat r := by
  unfold viaApprox
  simp only
  by_cases h0 : maxLength m n pmat = 0
  · rw [if_pos (by omega)]
    exact ⟨_, rfl, identityRes_ok m n ker piv shift pmat (asMatrix_eq_zero h0)⟩
  rw [if_neg (by omega)]
  by_cases hm1 : m = 1
  · subst hm1
    rw [if_pos rfl]
    exact ⟨_, rfl, empty_ok 1 n shift pmat _ rfl (kernel_row h0)⟩
  rw [if_neg hm1]
  by_cases hrk : m ≤ n ∧ (Matrix.of fun (i : Fin m) (j : Fin n) => (pmat i j).coeff 0).rank = m
  · rw [if_pos hrk]
    refine ⟨_, rfl, empty_ok m n shift pmat _ rfl (kernel_zero_of_coeff ?_)⟩
    have hli : LinearIndependent (ZMod q)
        (Matrix.of fun (i : Fin m) (j : Fin n) => (pmat i j).coeff 0).row := by
      rw [linearIndependent_iff_card_eq_finrank_span, Set.finrank, ← Matrix.rank_eq_finrank_span_row,
        hrk.2, Fintype.card_fin]
    intro w hw
    exact Matrix.vecMul_injective_iff.2 hli (hw.trans (Matrix.zero_vecMul _).symm)
  rw [if_neg hrk]
  obtain ⟨d, hd⟩ : ∃ d : Nat, maxLength m n pmat = d + 1 := ⟨maxLength m n pmat - 1, by omega⟩
  have hdeg : ∀ i j, (asMatrix m n pmat i j).natDegree ≤ d :=
    natDegree_le_of_maxLength (le_of_eq hd)
  rw [hd, show ((d + 1 : Nat) : Int) - 1 = d by omega]
  have hamp := ampLoop_spec shift m
  obtain ⟨amp, ha⟩ : ∃ a, (ampLoop shift m).2 - (ampLoop shift m).1 = a := ⟨_, rfl⟩
  rw [ha]
  have hamp0 : 0 ≤ amp := by omega
  have hamp2 : ∀ i j, i < m → j < m → shift i - shift j ≤ amp := fun i j hi hj => by
    have h1 := hamp.2.2 i hi
    have h2 := hamp.2.2 j hj
    omega
  obtain ⟨order, ho⟩ : ∃ o : Nat, ((min m n : Nat) : Int) * d + amp + d + 1 = o := by
    have h1 : 0 ≤ ((min m n : Nat) : Int) * d := by positivity
    exact ⟨_, (Int.toNat_of_nonneg (by omega)).symm⟩
  rw [ho, Int.toNat_natCast]
  obtain ⟨P, t, hP, hG, hD⟩ := pmbasis_spec e he m n (order + 1) ker shift pmat order (by omega)
  rw [hP]
  simp only
  obtain ⟨h1, hE, -, h4⟩ := keepLoop_spec m amp order d P t shift m
  generalize keepLoop m amp order d ⟨P, t, shift, 0⟩ m = st at *
  obtain ⟨σ, hσ, hσp, hσD, hσs⟩ := hE.map
  refine ⟨_, rfl, ?_⟩
  have hrow : ∀ i : Fin st.nullity, asMatrix st.nullity m st.ker i = asMatrix m m P (σ i) := by
    intro i
    funext j
    have := (h4 i i.2).2 j j.2
    rw [hσp i, Int.toNat_natCast] at this
    exact this
  have hshift : ∀ i : Fin st.nullity, st.shift i = t (σ i) := by
    intro i
    have := (h4 i i.2).1
    rw [hσp i, Int.toNat_natCast] at this
    exact this
  have hpiv : Pivots (fun j : Fin m => shift j) (asMatrix st.nullity m st.ker)
      (fun i : Fin st.nullity => st.shift i) σ := by
    refine ⟨fun i => ?_, hσ⟩
    rw [hrow i, hshift i]
    exact hD.pivots.row (σ i)
  refine ⟨isKernelBasis_of_pivots hpiv (fun i => ?_) (fun v hv D π hp => ?_), σ, hσp, hpiv⟩
  · -- rows of low degree are in the kernel
    show asMatrix st.nullity m st.ker i ᵥ* _ = 0
    rw [hrow i]
    have hb := hσD i
    refine kernel_of_approx (approx_row hG (σ i)) (fun j c hne => ?_) ?_
    · have g1 := degLE_iff.1 (hD.le (σ i) j) hne
      have g2 := hdeg j c
      have g3 := hamp2 (σ i) j (σ i).2 j.2
      omega
    · have h1 : 0 ≤ ((min m n : Nat) : Int) * d := by positivity
      omega
  · -- all pivots of the kernel are found
    obtain ⟨k, N, τ, ρ, hN, hPv⟩ := exists_kernelBasis (fun j : Fin m => shift j) (asMatrix m n pmat)
    obtain ⟨l, hl, hτ⟩ := minimal hN hPv hv hp
    have hle := kernel_degree_le hN hPv hdeg l
    obtain ⟨-, -, -, htD⟩ := approx_min hG hD hv hp
    obtain ⟨-, -, -, htl⟩ := approx_min hG hD (row_mem hN l) (hPv.row l)
    rw [hl] at hle htl
    push_cast at hle ho
    obtain ⟨i, hi⟩ := hσs π (by show t π - shift π + amp < (order : Int) - d; omega)
    exact ⟨i, hi, by rw [hshift i, hi]; exact htD⟩

end PML.Kernel
