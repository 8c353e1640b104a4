import Verif.Kernel.Approx

/-!
# Proofs: the Zhou-Labahn-Storjohann algorithm
-/

namespace PML.Kernel

open PML.MatOps PML.MatPoly PML.PolyMul PML.PolyMul.Spec PML.Forms PML.Forms.Spec PML.Pmbasis PML.Approx
open PML.Approx.Spec PML.Kernel.Spec Polynomial Matrix

set_option linter.unusedSectionVars false

variable {q : Nat} [hqp : Fact q.Prime]

/-- Row degrees as computed by `nmod_poly_mat_row_degree_zero`. -/
theorem rowDegrees_spec (m n : Nat) (A : Mat (ZMod q)[X]) (fresh : Nat → Int) :
    (∀ i, i < m → ∃ r : Nat, (lineDegreesZero true m n A none fresh).1 i = (r : Int) ∧
      ∀ j, j < n → (A i j).natDegree ≤ r) ∧
    ((lineDegreesZero true m n A none fresh).2 = 0 → asMatrix m n A = 0) := by
  obtain ⟨-, -, -, h4, -, h6⟩ := C29_row_degree m n A none fresh 0
    (by by_cases h : n = 0
        · exact Or.inl ⟨h, rfl⟩
        · exact Or.inr ⟨fun j _ => le_refl _, 0, by omega, rfl⟩)
  refine ⟨fun i hi => ?_, fun h => ?_⟩
  · obtain ⟨g1, g2⟩ := h4 i hi
    by_cases hz : ZeroVec n (A i)
    · refine ⟨0, g1 hz, fun j hj => ?_⟩
      rw [hz j hj, natDegree_zero]
    · have := g2 hz
      obtain ⟨j0, hj0, hne0, he0⟩ := this.attained
      have hs : ∀ j, shiftOf none j = 0 := fun _ => rfl
      rw [hs] at he0
      refine ⟨(A i j0).natDegree, by omega, fun j hj => ?_⟩
      by_cases hne : A i j = 0
      · rw [hne, natDegree_zero]; omega
      · have := this.le j hj hne
        rw [hs] at this
        omega
  · rw [h6] at h
    unfold nonzeroRows at h
    rw [Finset.card_eq_zero] at h
    refine Matrix.ext fun i j => ?_
    by_contra hne
    apply Finset.eq_empty_iff_forall_notMem.1 h i
    refine (@Finset.mem_filter _ _ (_) _ _).2 ⟨Finset.mem_range.2 i.2, fun hz => hne (hz j j.2)⟩

/-- Merged rows form the kernel basis. -/
theorem final_ok {m n c : Nat} {s : Nat → Int} {A : Mat (ZMod q)[X]} {ker : Mat (ZMod q)[X]}
    {piv shift buf : Nat → Int}
    (hrow : ∀ i, i < c → ∃ π : Fin m, piv i = ((π : Nat) : Int) ∧
      HasPivot (fun j : Fin m => s j) (fun j : Fin m => ker i j) (shift i) π ∧
      (fun j : Fin m => ker i j) ᵥ* asMatrix m n A = 0)
    (hmin : ∀ v, v ᵥ* asMatrix m n A = 0 → ∀ D (π : Fin m), HasPivot (fun j : Fin m => s j) v D π →
      ∃ i, i < c ∧ piv i = ((π : Nat) : Int) ∧ shift i ≤ D)
    (hrange : ∀ a, a < c → ∃ i, i < c ∧ buf a = ((i : Nat) : Int))
    (hsurj : ∀ i, i < c → ∃ a, a < c ∧ buf a = ((i : Nat) : Int))
    (hmono : ∀ a b, a < b → b < c → piv (buf a).toNat < piv (buf b).toNat) :
    KerOK m n s A ⟨permuteRows c buf ker, permuteRows c buf piv, permuteRows c buf shift, c⟩ := by
  have hp : ∀ {α : Type} (f : Nat → α) (a : Fin c), permuteRows c buf f a = f (buf a).toNat :=
    fun f a => if_pos a.2
  have h1 : ∀ a : Fin c, ∃ π : Fin m, piv (buf a).toNat = ((π : Nat) : Int) ∧
      HasPivot (fun j : Fin m => s j) (fun j : Fin m => ker (buf a).toNat j) (shift (buf a).toNat) π ∧
      (fun j : Fin m => ker (buf a).toNat j) ᵥ* asMatrix m n A = 0 := by
    intro a
    obtain ⟨i, hi, e⟩ := hrange a a.2
    rw [e, Int.toNat_natCast]
    exact hrow i hi
  choose ρ g1 g2 g3 using h1
  have hrowa : ∀ a : Fin c, asMatrix c m (permuteRows c buf ker) a =
      fun j : Fin m => ker (buf a).toNat j := fun a => by
    funext j
    exact congrFun (hp ker a) j
  have hP : Pivots (fun j : Fin m => s j) (asMatrix c m (permuteRows c buf ker))
      (fun i : Fin c => permuteRows c buf shift i) ρ := by
    refine ⟨fun a => ?_, fun a b hab => ?_⟩
    · rw [hrowa a, hp shift a]
      exact g2 a
    · have := hmono a b hab b.2
      rw [g1 a, g1 b] at this
      exact Fin.lt_def.2 (by omega)
  refine ⟨isKernelBasis_of_pivots hP (fun a => ?_) (fun v hv D π hp' => ?_), ρ, fun a => ?_, hP⟩
  · show asMatrix c m (permuteRows c buf ker) a ᵥ* _ = 0
    rw [hrowa a]
    exact g3 a
  · obtain ⟨i, hi, e1, e2⟩ := hmin v hv D π hp'
    obtain ⟨a, ha, e3⟩ := hsurj i hi
    refine ⟨⟨a, ha⟩, Fin.ext ?_, ?_⟩
    · have := g1 ⟨a, ha⟩
      simp only [e3, Int.toNat_natCast, e1] at this
      omega
    · rw [hp shift ⟨a, ha⟩]
      simp only [e3, Int.toNat_natCast]
      exact e2
  · show permuteRows c buf piv a = _
    rw [hp piv a]
    exact g1 a

theorem nullity_le {m n : Nat} {s : Nat → Int} {A : Mat (ZMod q)[X]} {r : Res q}
    (h : KerOK m n s A r) : r.nullity ≤ m := by
  obtain ⟨ρ, -, hP⟩ := h.pivots
  have := Fintype.card_le_of_injective ρ hP.mono.injective
  rwa [Fintype.card_fin, Fintype.card_fin] at this

theorem sum_pdeg {m dd : Nat} {P : Matrix (Fin m) (Fin m) (ZMod q)[X]} {s t : Fin m → Int}
    (hD : DiagPivots dd s P t) (i : Fin m) : pdeg (P i i) = t i - s i := by
  have h1 := (hD.pivots.row i).entry_ne
  have h2 := (hD.pivots.row i).natDegree
  have h3 := hD.ge i
  simp only [id] at h1 h2
  rw [pdeg_of_ne h1, h2]
  omega

theorem zls_ok (e : Env q) (he : EnvOK e) (fresh : Nat → Int) : ∀ (fuel m n : Nat)
    (ker : Mat (ZMod q)[X]) (piv shift : Nat → Int) (pmat : Mat (ZMod q)[X]), m + n < fuel →
    ∃ r, zls e fresh fuel m n ker piv shift pmat = Outcome.ok r ∧ KerOK m n shift pmat r := by
  intro fuel
  induction fuel with
  | zero => intro m n _ _ _ _ h; omega
  | succ fuel ih =>
    intro m n ker piv shift pmat hf
    rw [zls]
    by_cases h0 : m = 0 ∨ n = 0 ∨ ((m = 1 ∨ n = 1) ∧ maxLength m n pmat = 0)
    · rw [if_pos h0]
      refine ⟨_, rfl, identityRes_ok m n ker piv shift pmat ?_⟩
      rcases h0 with h0 | h0 | h0
      · subst h0; exact Matrix.ext fun i => i.elim0
      · subst h0; exact Matrix.ext fun i j => j.elim0
      · exact asMatrix_eq_zero h0.2
    rw [if_neg h0]
    by_cases hm1 : m = 1
    · rw [if_pos hm1]
      have hne : maxLength m n pmat ≠ 0 := fun h => h0 (Or.inr (Or.inr ⟨Or.inl hm1, h⟩))
      subst hm1
      exact ⟨_, rfl, empty_ok 1 n shift pmat _ rfl (kernel_row hne)⟩
    rw [if_neg hm1]
    by_cases hsplit : 2 * n > m
    · -- two column blocks
      rw [if_pos hsplit]
      obtain ⟨r1, e1, hr1⟩ := ih m (n - n / 2) ker piv shift pmat (by omega)
      rw [e1]
      simp only
      have hnul := nullity_le hr1
      -- columns
      have hcols : ∀ v : Fin m → (ZMod q)[X], v ᵥ* asMatrix m n pmat = 0 ↔
          v ᵥ* asMatrix m (n - n / 2) pmat = 0 ∧
          v ᵥ* asMatrix m (n / 2) (fun i j => pmat i (n - n / 2 + j)) = 0 := by
        intro v
        constructor
        · intro hv
          refine ⟨funext fun j => ?_, funext fun j => ?_⟩
          · exact congrFun hv ⟨j, by omega⟩
          · exact congrFun hv ⟨n - n / 2 + j, by omega⟩
        · rintro ⟨h1, h2⟩
          funext j
          by_cases hj : (j : Nat) < n - n / 2
          · exact congrFun h1 ⟨j, hj⟩
          · have := congrFun h2 ⟨j - (n - n / 2), by omega⟩
            have hj2 : n - n / 2 + ((j : Nat) - (n - n / 2)) = j := by omega
            replace this : ∑ i : Fin m, v i * pmat i (n - n / 2 + ((j : Nat) - (n - n / 2))) = 0 := this
            rw [hj2] at this
            exact this
      by_cases hz : r1.nullity = 0
      · rw [if_pos hz]
        refine ⟨_, rfl, empty_ok m n shift pmat _ rfl fun v hv => ?_⟩
        obtain ⟨u, hu⟩ := (hr1.basis.generates v).1 ((hcols v).1 hv).1
        have : u = 0 := by
          funext i
          exact absurd i.2 (by omega)
        rw [hu, this, Matrix.zero_vecMul]
      rw [if_neg hz]
      obtain ⟨residual, e2, hres, -⟩ := C27_multiply e.mul he.mul r1.nullity m (n / 2) pmat r1.ker
        (fun i j => pmat i (n - n / 2 + j))
      rw [e2]
      simp only
      obtain ⟨r2, e3, hr2⟩ := ih r1.nullity (n / 2) (fun _ _ => 0) fresh r1.shift residual (by omega)
      rw [e3]
      simp only
      obtain ⟨ker3, e4, hk3, -⟩ := C27_multiply e.mul he.mul r2.nullity r1.nullity m (fun _ _ => 0)
        r2.ker r1.ker
      rw [e4]
      refine ⟨_, rfl, ?_⟩
      obtain ⟨ρ1, hρ1, hP1⟩ := hr1.pivots
      obtain ⟨ρ2, hρ2, hP2⟩ := hr2.pivots
      have hkk : asMatrix r2.nullity m (fun i j => if i < r2.nullity ∧ j < m then ker3 i j else r1.ker i j) =
          asMatrix r2.nullity r1.nullity r2.ker * asMatrix r1.nullity m r1.ker := by
        rw [← hk3]
        refine Matrix.ext fun i j => ?_
        exact if_pos ⟨i.2, j.2⟩
      have hb2 := hr2.basis
      rw [hres] at hb2
      refine ⟨?_, fun i => ρ1 (ρ2 i), fun i => ?_, ?_⟩
      · show IsKernelBasis _ (asMatrix r2.nullity m _)
        rw [hkk]
        exact isKernelBasis_mul hcols hr1.basis hb2
      · show composeLoop 0 r2.piv r1.piv r2.nullity i = _
        have := (composeLoop_spec 0 r2.piv r1.piv r2.nullity (mono_ge (fun a ha => by
            rw [hρ2 ⟨a, ha⟩]; omega) (fun a b hab hb => by
            rw [hρ2 ⟨a, by omega⟩, hρ2 ⟨b, hb⟩]
            have := hP2.mono (show (⟨a, by omega⟩ : Fin r2.nullity) < ⟨b, hb⟩ from hab)
            have := Fin.lt_def.1 this
            omega)) r2.nullity (le_refl _)).1 i i.2
        rw [Nat.zero_add, Nat.zero_add, hρ2 i, Int.toNat_natCast, hρ1 (ρ2 i)] at this
        exact this
      · show Pivots _ (asMatrix r2.nullity m _) (fun i : Fin r2.nullity => r2.shift i) _
        rw [hkk]
        exact hP1.mul hP2
    rw [if_neg hsplit]
    -- approximation
    obtain ⟨hrd1, hrd2⟩ := rowDegrees_spec m n pmat fresh
    simp only
    generalize lineDegreesZero true m n pmat none fresh = rd at *
    by_cases hnz : rd.2 = 0
    · rw [if_pos hnz]
      exact ⟨_, rfl, identityRes_ok m n ker piv shift pmat (hrd2 hnz)⟩
    rw [if_neg hnz]
    have hmn : n < m := by omega
    have hmd := degShiftLoop_spec rd.1 shift (m - 1)
    generalize degShiftLoop rd.1 shift (m - 1) = md at *
    obtain ⟨maxdeg, diff⟩ := md
    simp only at hmd ⊢
    have hrdn : ∀ i : Fin m, ∃ r : Nat, rd.1 i = (r : Int) ∧
        ∀ j, j < n → (pmat i j).natDegree ≤ r := fun i => hrd1 i i.2
    choose rdn hrdn1 hrdn2 using hrdn
    have hmax : ∀ i : Fin m, (rdn i : Int) ≤ maxdeg := fun i => by
      have := (hmd i (by omega)).1
      rw [hrdn1 i] at this
      exact this
    have hdiff : ∀ i : Fin m, (rdn i : Int) + diff ≤ shift i := fun i => by
      have := (hmd i (by omega)).2
      rw [hrdn1 i] at this
      exact this
    have hmax0 : 0 ≤ maxdeg := by
      have := hmax ⟨0, by omega⟩
      omega
    obtain ⟨ho1, ho2⟩ := zlsOrder_spec m n shift maxdeg diff hmn hmax0 (fun i hi => by
      have := hdiff ⟨i, hi⟩
      simp only at this
      omega)
    obtain ⟨order, ho⟩ : ∃ o : Nat, zlsOrder m n shift maxdeg diff = o :=
      ⟨_, (Int.toNat_of_nonneg (by omega)).symm⟩
    obtain ⟨mx, hmx⟩ : ∃ o : Nat, maxdeg = o := ⟨_, (Int.toNat_of_nonneg hmax0).symm⟩
    rw [ho] at ho1 ho2 ⊢
    subst hmx
    rw [Int.toNat_natCast]
    obtain ⟨P, t, hP, hG, hD⟩ := pmbasis_spec e he m n (order + 1) ker shift pmat order (by omega)
    rw [hP]
    simp only
    have hdegA : ∀ (j : Fin m) (c : Fin n), (asMatrix m n pmat j c).natDegree ≤ rdn j :=
      fun j c => hrdn2 j c c.2
    obtain ⟨hd1, hE1, hE2, -, hd5, hd6⟩ := detectLoop_spec order diff P t piv rd.1 m
    generalize detectLoop order diff P t piv rd.1 m = det at *
    obtain ⟨nul, sum, flag, dpiv, dbuf⟩ := det
    simp only at hd1 hE1 hE2 hd5 hd6 ⊢
    obtain ⟨σ1, hσ1, hσ1p, hσ1D, hσ1s⟩ := hE1.map
    obtain ⟨σ2, hσ2, hσ2p, hσ2D, hσ2s⟩ := hE2.map
    -- at least one row has been found
    obtain ⟨i0, hi0⟩ := exists_low_row hG hD hdegA hdiff ho2
    have hnul : 0 < nul := by
      obtain ⟨a, -⟩ := hσ1s i0 hi0
      have := a.2
      omega
    have hker1 : ∀ i, asMatrix m m P (σ1 i) ᵥ* asMatrix m n pmat = 0 := fun i =>
      row_in_kernel hG hD hdegA hdiff (hσ1D i)
    -- permuted arrays
    obtain ⟨piv', hpiv'⟩ : ∃ p : Nat → Int,
      (fun i => if nul ≤ i ∧ i < m then dbuf (i - nul) else dpiv i) = p := ⟨_, rfl⟩
    rw [hpiv']
    have hpe : ∀ i, (if nul ≤ i ∧ i < m then dbuf (i - nul) else dpiv i) = piv' i := fun i => by
      rw [← hpiv']
    simp only [hpe]
    have hp1 : ∀ i : Fin nul, piv' i = ((σ1 i : Nat) : Int) := fun i => by
      rw [← hpiv', ← hσ1p i]
      exact if_neg (by omega)
    have hp2 : ∀ i : Fin (m - nul), piv' (nul + i) = ((σ2 i : Nat) : Int) := fun i => by
      rw [← hpiv', ← hσ2p i]
      show (if nul ≤ nul + (i : Nat) ∧ nul + (i : Nat) < m then dbuf (nul + i - nul) else dpiv (nul + i)) = _
      rw [if_pos (by omega), Nat.add_sub_cancel_left]
    have hperm : ∀ {α : Type} (f : Nat → α),
        (∀ i : Fin nul, permuteRows m piv' f i = f (σ1 i)) ∧
        ∀ i : Fin (m - nul), permuteRows m piv' f (nul + i) = f (σ2 i) := by
      intro α f
      constructor
      · intro i
        show (if (i : Nat) < m then f (piv' i).toNat else f i) = _
        rw [if_pos (by omega), hp1 i, Int.toNat_natCast]
      · intro i
        show (if nul + (i : Nat) < m then f (piv' (nul + i)).toNat else f (nul + i)) = _
        rw [if_pos (by omega), hp2 i, Int.toNat_natCast]
    have hk1 := (hperm P).1
    have hk2 := (hperm P).2
    have ht1 := (hperm t).1
    have ht2 := (hperm t).2
    generalize permuteRows m piv' P = ker' at *
    generalize permuteRows m piv' t = shift' at *
    have hdisj : ∀ i i', σ1 i ≠ σ2 i' := fun i i' h => hσ2D i' (h ▸ hσ1D i)
    have hcover : ∀ j, (∃ i, σ1 i = j) ∨ ∃ i, σ2 i = j := fun j => by
      by_cases hj : t j < order + diff
      · exact Or.inl (hσ1s j hj)
      · exact Or.inr (hσ2s j hj)
    -- the rows found
    have hPiv1 : Pivots (fun j : Fin m => shift j) (asMatrix nul m ker') (fun i : Fin nul => shift' i) σ1 := by
      refine ⟨fun i => ?_, hσ1⟩
      have hr : asMatrix nul m ker' i = asMatrix m m P (σ1 i) := funext fun j => congrFun (hk1 i) j
      rw [hr, ht1 i]
      exact hD.pivots.row (σ1 i)
    have hrow1 : ∀ i, asMatrix nul m ker' i ᵥ* asMatrix m n pmat = 0 := fun i => by
      have hr : asMatrix nul m ker' i = asMatrix m m P (σ1 i) := funext fun j => congrFun (hk1 i) j
      rw [hr]; exact hker1 i
    by_cases hexit : (nul : Int) ≥ (m : Int) - n ∧ flag = true ∧
        sumLoop (fun i => pdeg (ker' i (piv' i).toNat)) 0 nul = sum
    · -- early exit
      rw [if_pos hexit]
      obtain ⟨-, hflag, hsum⟩ := hexit
      refine ⟨_, rfl, isKernelBasis_of_pivots hPiv1 hrow1 (fun v hv D π hp => ?_), σ1, hp1, hPiv1⟩
      let I : Finset (Fin m) := Finset.univ.image σ1
      have hIc : ∀ i, i ∉ I ↔ ¬ t i < order + diff := by
        intro i
        constructor
        · intro hi hlt
          obtain ⟨a, ha⟩ := hσ1s i hlt
          exact hi (Finset.mem_image.2 ⟨a, Finset.mem_univ _, ha⟩)
        · intro hi hmem
          obtain ⟨a, -, ha⟩ := Finset.mem_image.1 hmem
          exact hi (ha ▸ hσ1D a)
      have hs : ∑ i ∈ I, (t i - shift i) = ∑ i ∈ Iᶜ, (rdn i : Int) := by
        rw [Finset.sum_image (fun a _ b _ h => hσ1.injective h)]
        rw [sumLoop_eq, zero_add, hd5, Finset.sum_range (fun i => pdeg (ker' i (piv' i).toNat)),
          Finset.sum_filter, Finset.sum_range (fun i => if ¬ t i < order + diff then rd.1 i else 0)] at hsum
        have e1 : ∑ i : Fin nul, pdeg (ker' i (piv' i).toNat) =
            ∑ i : Fin nul, (t (σ1 i) - shift (σ1 i)) := by
          refine Finset.sum_congr rfl fun i _ => ?_
          rw [hp1 i, Int.toNat_natCast, congrFun (hk1 i) (σ1 i)]
          exact sum_pdeg hD (σ1 i)
        rw [← e1, hsum]
        have e2 : Iᶜ = Finset.univ.filter fun i : Fin m => ¬ t i < order + diff := by
          ext i
          rw [Finset.mem_compl, hIc, Finset.mem_filter]
          simp
        rw [e2, Finset.sum_filter]
        refine Finset.sum_congr rfl fun i _ => ?_
        rw [hrdn1 i]
      obtain ⟨hπ, hle⟩ := early_exit hG hD hdegA I (fun i hi => by
          obtain ⟨a, -, ha⟩ := Finset.mem_image.1 hi
          rw [← ha]; exact hker1 a) hs (fun i hi h0 => by
          have h1 := hd6 hflag i i.2 ((hIc i).1 hi)
          have h2 : pdeg (P i i) = t i - shift i := sum_pdeg hD i
          rw [h2, hrdn1 i, h0] at h1
          have h3 : ¬ (t i - shift i ≤ 0) := fun h => h1 ⟨rfl, h⟩
          omega) hv hp
      obtain ⟨a, -, ha⟩ := Finset.mem_image.1 hπ
      refine ⟨a, ha, ?_⟩
      show shift' a ≤ D
      rw [ht1 a, ha]; exact hle
    rw [if_neg hexit]
    -- residual
    obtain ⟨residual, e2, hres, -⟩ := C28_mulmid e.geom e.mul he.mul (m - nul) m n order
      ((order : Int) + mx + 1).toNat 3 (le_refl _) (fun _ _ => 0) (fun i j => ker' (nul + i) j) pmat
    rw [e2]
    simp only
    have happ : asMatrix (m - nul) m (fun i j => ker' (nul + i) j) = (asMatrix m m P).submatrix σ2 id :=
      Matrix.ext fun i j => congrFun (hk2 i) j
    have hR : ∀ (i : Fin (m - nul)) (j : Fin n), (asMatrix m m P (σ2 i) ᵥ* asMatrix m n pmat) j =
        X ^ order * asMatrix (m - nul) n residual i j := by
      intro i j
      have hw := hres i j
      rw [happ] at hw
      have hval : ((asMatrix m m P).submatrix σ2 id * asMatrix m n pmat) i j =
          (asMatrix m m P (σ2 i) ᵥ* asMatrix m n pmat) j := rfl
      rw [hval] at hw
      ext k
      rw [coeff_X_pow_mul']
      by_cases hk : order ≤ k
      · rw [if_pos hk, hw (k - order)]
        rw [show order + (k - order) = k by omega]
        by_cases hk2 : k < ((order : Int) + mx + 1).toNat
        · rw [if_pos hk2]
        · rw [if_neg hk2]
          refine coeff_eq_zero_of_natDegree_lt (lt_of_lt_of_le
            (natDegree_vecMul_lt (b := order + mx + 1) (fun l c hne => ?_) (by omega) j) (by omega))
          have g1 : (asMatrix m m P (σ2 i) l).natDegree ≤ order :=
            natDegree_le_iff_coeff_eq_zero.2 fun k hk => hD.deg _ _ k hk
          have g2 := hdegA l c
          have g3 := hmax l
          omega
      · rw [if_neg hk]
        exact coeff_of_dvd (hG.sound (σ2 i) j) (by omega)
    obtain ⟨r2, e3, hr2⟩ := ih (m - nul) n (fun _ _ => 0) dbuf (fun i => shift' (nul + i)) residual (by omega)
    rw [e3]
    simp only
    obtain ⟨ρ2, hρ2, hP2⟩ := hr2.pivots
    have hsh : (fun j : Fin (m - nul) => shift' (nul + j)) = fun j => t (σ2 j) := funext fun j => ht2 j
    rw [hsh] at hP2
    have hsplitmin := fun v (hv : v ᵥ* asMatrix m n pmat = 0) D (π : Fin m)
        (hp : HasPivot (fun j : Fin m => shift j) v D π) =>
      split_min hG hD hσ1 hσ2 hcover hdisj hker1 hR hr2.basis hP2 hv hp
    by_cases hz : r2.nullity = 0
    · rw [if_pos hz]
      have hPiv1' : Pivots (fun j : Fin m => shift j) (asMatrix nul m ker')
          (fun i : Fin nul => if nul ≤ (i : Nat) then r2.shift (i - nul) else shift' i) σ1 := by
        refine ⟨fun i => ?_, hσ1⟩
        rw [if_neg (by omega)]
        exact hPiv1.row i
      refine ⟨_, rfl, isKernelBasis_of_pivots hPiv1' hrow1 (fun v hv D π hp => ?_), σ1, hp1, hPiv1'⟩
      rcases hsplitmin v hv D π hp with ⟨i, h1, h2⟩ | ⟨i, -⟩
      · refine ⟨i, h1, ?_⟩
        show (if nul ≤ (i : Nat) then r2.shift (i - nul) else shift' i) ≤ D
        rw [if_neg (by omega), ht1 i, h1]
        exact h2
      · exact absurd i.2 (by omega)
    rw [if_neg hz]
    obtain ⟨prod, e4, hprod, -⟩ := C27_multiply e.mul he.mul r2.nullity (m - nul) m (fun _ _ => 0) r2.ker
      (fun i j => ker' (nul + i) j)
    rw [e4]
    simp only
    rw [happ] at hprod
    have hrow2 := split_row hD hσ2 hR hr2.basis hP2
    rw [← hprod] at hrow2
    have hnul2 := nullity_le hr2
    -- pivot indices
    obtain ⟨hc1, hc2⟩ := composeLoop_spec nul r2.piv piv' r2.nullity (mono_ge (fun a ha => by
        rw [hρ2 ⟨a, ha⟩]; omega) (fun a b hab hb => by
        rw [hρ2 ⟨a, by omega⟩, hρ2 ⟨b, hb⟩]
        have := hP2.mono (show (⟨a, by omega⟩ : Fin r2.nullity) < ⟨b, hb⟩ from hab)
        have := Fin.lt_def.1 this
        omega)) r2.nullity (le_refl _)
    generalize composeLoop nul r2.piv piv' r2.nullity = piv'' at *
    have hq1 : ∀ i : Fin nul, piv'' i = ((σ1 i : Nat) : Int) := fun i => by
      rw [hc2 i (Or.inl i.2), hp1 i]
    have hq2 : ∀ i : Fin r2.nullity, piv'' (nul + i) = ((σ2 (ρ2 i) : Nat) : Int) := fun i => by
      rw [hc1 i i.2, hρ2 i, Int.toNat_natCast, hp2 (ρ2 i)]
    obtain ⟨hfst, hg2, hg3, hg4, hg5, hg6, -⟩ := mergeLoop_spec nul r2.nullity piv'' r2.piv
      (fun a b hab hb => by
        rw [hq1 ⟨a, by omega⟩, hq1 ⟨b, hb⟩]
        have := Fin.lt_def.1 (hσ1 (show (⟨a, by omega⟩ : Fin nul) < ⟨b, hb⟩ from hab))
        omega)
      (fun a b hab hb => by
        rw [hq2 ⟨a, by omega⟩, hq2 ⟨b, hb⟩]
        have := Fin.lt_def.1 (hσ2 (hP2.mono (show (⟨a, by omega⟩ : Fin r2.nullity) < ⟨b, hb⟩ from hab)))
        omega)
      (fun a b ha hb h => by
        rw [hq1 ⟨a, ha⟩, hq2 ⟨b, hb⟩] at h
        exact hdisj ⟨a, ha⟩ (ρ2 ⟨b, hb⟩) (Fin.ext (by omega))) (nul + r2.nullity) (le_refl _)
    generalize mergeLoop nul r2.nullity piv'' r2.piv (nul + r2.nullity) = mg at *
    obtain ⟨i1, i2, buf⟩ := mg
    simp only at hg2 hg3 hg4 hg5 hg6 hfst ⊢
    obtain rfl : i1 = nul := by omega
    obtain rfl : i2 = r2.nullity := by omega
    refine ⟨_, rfl, final_ok (fun i hi => ?_) (fun v hv D π hp => ?_) (fun a ha => ?_) (fun i hi => ?_) hg6⟩
    · by_cases hi1 : i < i1
      · have hc : ∀ j : Fin m, ¬ (i1 ≤ i ∧ i < i1 + r2.nullity ∧ (j : Nat) < m) := fun j => by omega
        refine ⟨σ1 ⟨i, hi1⟩, hq1 ⟨i, hi1⟩, ?_, ?_⟩
        · have := hPiv1.row ⟨i, hi1⟩
          simp only [if_neg (by omega : ¬ i1 ≤ i), if_neg (hc _)]
          exact this
        · have := hrow1 ⟨i, hi1⟩
          simp only [if_neg (hc _)]
          exact this
      · have hlt : i - i1 < r2.nullity := by omega
        have hadd : i1 + (i - i1) = i := by omega
        have hc : ∀ j : Fin m, (i1 ≤ i ∧ i < i1 + r2.nullity ∧ (j : Nat) < m) := fun j =>
          ⟨by omega, hi, j.2⟩
        refine ⟨σ2 (ρ2 ⟨i - i1, hlt⟩), ?_, ?_, ?_⟩
        · have := hq2 ⟨i - i1, hlt⟩
          simp only [hadd] at this
          exact this
        · have := hrow2.1.row ⟨i - i1, hlt⟩
          simp only [if_pos (by omega : i1 ≤ i), if_pos (hc _)]
          exact this
        · have := hrow2.2 ⟨i - i1, hlt⟩
          simp only [if_pos (hc _)]
          exact this
    · rcases hsplitmin v hv D π hp with ⟨i, h1, h2⟩ | ⟨i, h1, h2⟩
      · refine ⟨i, by omega, by rw [hq1 i, h1], ?_⟩
        rw [if_neg (by omega), ht1 i, h1]
        exact h2
      · refine ⟨i1 + i, by omega, by rw [hq2 i, h1], ?_⟩
        rw [if_pos (by omega), Nat.add_sub_cancel_left]
        exact h2
    · obtain ⟨i, h1, h2⟩ := hg4 a ha
      exact ⟨i, by omega, h1⟩
    · exact hg5 i (by omega)

end PML.Kernel
