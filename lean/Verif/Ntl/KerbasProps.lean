import Verif.Ntl.KerbasZls
import Verif.Ntl.KerbasSpec

/-!
# C81: kernel bases of polynomial matrices (ntl-extras)
-/

namespace PML.Ntl.Kerbas

open Polynomial PML.Ntl.Utils PML.Ntl.Inv PML.Ntl.Solve PML.Ntl.Forms PML.Ntl.Mbasis PML.Ntl.MatMul PML.Approx PML.Approx.Spec
  PML.Kernel PML.Kernel.Spec PML.Forms.Spec

set_option linter.unusedSectionVars false

variable {F : Type} [Field F] [DecidableEq F]

/-! ### The bases computed -/

theorem approx_pre {e : Env F} (he : EnvOk e) {pmat : PMat F[X]} (s : List Int) {order : Nat} (hm : 0 < pmat.rows) (ho : 0 < order) :
    ∃ P t, pmbasis e.N e.mid e.mul e.thr order (noRows 0) pmat order (vec s) = .ok (P, t) ∧ P.rows = pmat.rows ∧ P.cols = pmat.rows ∧
      deg P ≤ order ∧
      Pre (mat pmat.rows pmat.cols pmat) (X ^ order) (mat pmat.rows pmat.rows P) (fun i => vec s i) (fun i => t i) := by
  obtain ⟨P, t, h1, h2, h3, h4⟩ := pmbasis_good he.N he.mid he.mul he.thr order (noRows 0) pmat order (vec s) le_rfl hm (Or.inl ho)
  exact ⟨P, t, h1, h2, h3, Good.deg_le h2 h3 h4, pre_approx h4⟩

theorem elt_pow {e : Env F} (he : EnvOk e) {order : Nat} (h : e.elt (2 * order) ≠ 0) :
    ∀ i, 1 ≤ i → i < order → e.elt (2 * order) ^ (2 * i) ≠ 1 := fun i h1 h2 =>
  ((he.elt (2 * order)).resolve_left h) (2 * i) (by omega) (by omega)

theorem interp_pre {e : Env F} (he : EnvOk e) {pmat : PMat F[X]} (s : List Int) {order : Nat} (hm : 0 < pmat.rows) (ho : 0 < order)
    (hr : e.elt (2 * order) ≠ 0) (hdeg : deg pmat < order) :
    ∃ P t x, Intbas.pmbasisGeometric e.N e.mul e.mp e.feasible e.flags e.thr order (noRows 0) pmat (e.elt (2 * order)) order (vec s) =
        .ok (P, t, x) ∧ P.rows = pmat.rows ∧ P.cols = pmat.rows ∧
      Pre (mat pmat.rows pmat.cols pmat) (∏ i ∈ Finset.range order, (X - C (x i))) (mat pmat.rows pmat.rows P) (fun i => vec s i)
        (fun i => t i) := by
  obtain ⟨P, t, x, h1, h2, h3⟩ := Intbas.C80_pmbasis_geometric_poly he.N he.mul e.feasible e.flags he.thr order (noRows 0) pmat
    (e.elt (2 * order)) order (vec s) (fun n _ => he.mp n) le_rfl ho hm hr (elt_pow he hr) fun i j hi hj => by
      have h4 := (deg_spec pmat).2.1 i j hi hj
      by_cases h0 : pmat.e (i, j) = 0
      · rw [h0, natDegree_zero]; exact ho
      · rw [pdeg_ne _ h0] at h4; omega
  refine ⟨P, t, x, h1, h2.rows, h2.cols, pre_interp ?_ h2⟩
  intro k l hk hl hkl
  rcases Nat.lt_or_ge 1 order with h | h
  · rw [Nat.zero_add, Nat.zero_add, h3 h k hk, h3 h l hl] at hkl
    by_contra hne
    have key : ∀ a b, a < b → b < order → e.elt (2 * order) ^ (2 * a) = e.elt (2 * order) ^ (2 * b) → False := by
      intro a b hab hb hpow
      refine elt_pow he hr (b - a) (by omega) (by omega) ?_
      have h5 : e.elt (2 * order) ^ (2 * b) = e.elt (2 * order) ^ (2 * a) * e.elt (2 * order) ^ (2 * (b - a)) := by
        rw [← pow_add]; congr 1; omega
      rw [h5] at hpow
      have h6 : e.elt (2 * order) ^ (2 * a) ≠ 0 := pow_ne_zero _ hr
      exact (mul_left_cancel₀ h6 (by rw [mul_one]; exact hpow)).symm
    rcases Nat.lt_or_ge k l with h5 | h5
    · exact key k l h5 hl hkl
    · exact key l k (by omega) hk hkl.symm
  · omega

/-- If an entry has degree `order` or more, `pmbasis_geometric` ends in an error. -/
theorem interp_reject {e : Env F} (he : EnvOk e) {pmat : PMat F[X]} (s : List Int) {order : Nat} (ho : 0 < order)
    (hr : e.elt (2 * order) ≠ 0) (hdeg : (order : Int) ≤ deg pmat) :
    Intbas.pmbasisGeometric e.N e.mul e.mp e.feasible e.flags e.thr order (noRows 0) pmat (e.elt (2 * order)) order (vec s) = .error := by
  obtain ⟨o, o', e1, e2, hsp⟩ := Geom.C62_geometric order (he.mp order) (e.feasible order) (e.flags order) (e.elt (2 * order)) 1 ho hr
    one_ne_zero (elt_pow he hr) [] (by simp)
  obtain rfl : o = o' := by simpa [Geom.calls] using e2
  unfold Intbas.pmbasisGeometric
  rw [e1]
  show andThen (Intbas.evaluateMatrix (Geom.evaluate e.mp o) order pmat) _ = _
  unfold Intbas.evaluateMatrix
  rw [if_neg]
  · rfl
  · intro h
    simp only [List.all_eq_true, List.mem_range] at h
    rcases (deg_spec pmat).2.2 with h1 | ⟨i, j, hi, hj, h1⟩
    · omega
    · have h2 := h i hi j hj
      have h3 : pmat.e (i, j) ≠ 0 := fun h0 => by rw [h0, pdeg_zero] at h1; omega
      rw [pdeg_ne _ h3] at h1
      rw [hsp.eval_reject _ (by omega)] at h2
      exact absurd h2 (by simp)

/-! ### One basis -/

theorem popov_of_pivots {k m : Nat} {K : PMat F[X]} {s : List Int} {t : Fin k → Int} {ρ : Fin k → Fin m}
    (hp : Pivots (fun i : Fin m => vec s i) (mat k m K) t ρ) : OrderedWeakPopovLower k m (fun j => s.getD j 0) fun i j => K.e (i, j) := by
  refine ⟨fun i => if h : i < k then ρ ⟨i, h⟩ else 0, fun i => if h : i < k then (t ⟨i, h⟩ - vec s (ρ ⟨i, h⟩)).toNat else 0, fun i hi => ?_, fun i j hij hj => ?_⟩
  · dsimp only
    rw [dif_pos hi, dif_pos hi]
    exact (lower_of_hasPivot (p := fun j => K.e (i, j)) (hp.row ⟨i, hi⟩)).1
  · dsimp only
    rw [dif_pos hj, dif_pos (hij.trans hj)]
    exact hp.mono (show (⟨i, hij.trans hj⟩ : Fin k) < ⟨j, hj⟩ from hij)

theorem minKernel_of_pivots {pmat K : PMat F[X]} {s : List Int} {piv : List Nat} {t : List Int} (hc : K.cols = pmat.rows)
    (hb : IsKernelBasis (mat pmat.rows pmat.cols pmat) (mat K.rows pmat.rows K)) (hl : piv.length = K.rows) (hl' : t.length = K.rows)
    {ρ : Fin K.rows → Fin pmat.rows}
    (hp : Pivots (fun i : Fin pmat.rows => vec s i) (mat K.rows pmat.rows K) (fun i => t.getD i 0) ρ)
    (hρ : ∀ i : Fin K.rows, piv.getD i 0 = ρ i) : IsMinKernel pmat s K piv t := by
  refine ⟨hc, hb, popov_of_pivots hp, hl, hl', fun i hi => ?_, fun i hi => ?_⟩
  · have := (lower_of_hasPivot (p := fun j => K.e (i, j)) (hp.row ⟨i, hi⟩)).1
    rw [← hρ ⟨i, hi⟩] at this
    exact ⟨_, this⟩
  · exact (lower_of_hasPivot (p := fun j => K.e (i, j)) (hp.row ⟨i, hi⟩)).2

/-- The rows of the identity. -/
theorem minKernel_one {pmat : PMat F[X]} {s : List Int} (hl : s.length = pmat.rows) (h0 : mat pmat.rows pmat.cols pmat = 0) :
    IsMinKernel pmat s (one pmat.rows) (List.range pmat.rows) s := by
  obtain ⟨h1, h2, h3⟩ := one_spec (F := F) pmat.rows
  have key : ∀ (k : Nat) (hk : k = pmat.rows), IsKernelBasis (mat pmat.rows pmat.cols pmat) (mat k pmat.rows (one pmat.rows : PMat F[X])) ∧
      ∃ ρ, Pivots (fun i : Fin pmat.rows => vec s i) (mat k pmat.rows (one pmat.rows : PMat F[X])) (fun i => s.getD i 0) ρ ∧
        ∀ i : Fin k, (List.range pmat.rows).getD i 0 = ρ i := by
    rintro k rfl
    rw [h3]
    refine ⟨isKernelBasis_one h0, id, pivots_one (K := F) fun i : Fin pmat.rows => vec s i, fun i => ?_⟩
    rw [getD_eq 0 (by simp), List.getElem_range]
    rfl
  obtain ⟨hb, ρ, hp, hr⟩ := key _ h1
  exact minKernel_of_pivots h2 hb (by rw [List.length_range, h1]) (hl.trans h1.symm) hp hr

theorem minKernel_none {pmat : PMat F[X]} {s : List Int} (h : ∀ v, Matrix.vecMul v (mat pmat.rows pmat.cols pmat) = 0 → v = 0) :
    IsMinKernel pmat s (noRows pmat.rows) [] [] :=
  minKernel_of_pivots (ρ := fun i => i.elim0) rfl (isKernelBasis_zero h) rfl rfl (pivots_empty _ _ _ _) fun i => i.elim0

theorem natDegree_le_deg (pmat : PMat F[X]) (i : Fin pmat.rows) (j : Fin pmat.cols) (h : mat pmat.rows pmat.cols pmat i j ≠ 0) :
    ((mat pmat.rows pmat.cols pmat i j).natDegree : Int) ≤ deg pmat := by
  have h4 := (deg_spec pmat).2.1 i j i.2 j.2
  have h5 : pmat.e ((i : Nat), (j : Nat)) ≠ 0 := h
  rw [pdeg_ne _ h5] at h4
  exact h4

/-- The selection of the rows. -/
theorem via_min {pmat : PMat F[X]} {shift : List Int} (hl : shift.length = pmat.rows) {basis : Nat → Out (PMat F[X] × (Nat → Int) ⊕ Result F)}
    (hbasis : ∀ order : Nat, 0 < order → deg pmat < order → 0 < pmat.rows → ∃ z, basis order = .ok z ∧
      match z with
      | .inr r => IsMinKernel pmat shift r.ker r.piv r.shift
      | .inl r => r.1.rows = pmat.rows ∧ r.1.cols = pmat.rows ∧ ∃ f : F[X], f.natDegree = order ∧
        Pre (mat pmat.rows pmat.cols pmat) f (mat pmat.rows pmat.rows r.1) (fun i => vec shift i) (fun i => r.2 i)) :
    ∃ r, via pmat shift basis = .ok r ∧ IsMinKernel pmat shift r.ker r.piv r.shift := by
  unfold via
  dsimp only
  split
  · rename_i h1
    refine ⟨_, rfl, minKernel_one hl (Matrix.ext fun i j => (deg_neg_iff pmat).1 h1 i j i.2 j.2)⟩
  · rename_i h1
    have hA : mat pmat.rows pmat.cols pmat ≠ 0 := fun h0 =>
      h1 ((deg_neg_iff pmat).2 fun i j hi hj => congrFun (congrFun h0 ⟨i, hi⟩) ⟨j, hj⟩)
    have hd : 0 ≤ deg pmat := by have := (deg_spec pmat).1; omega
    split
    · rename_i h2
      refine ⟨_, rfl, ?_⟩
      have := minKernel_none (s := shift) (pmat := pmat) (by
          rcases pmat with ⟨m, n, e⟩
          dsimp only at h2
          subst h2
          exact kernel_row hA)
      rw [h2] at this
      exact this
    · rename_i h2
      split
      · rename_i h3
        exact ⟨_, rfl, minKernel_none (rank0_full h3.2)⟩
      · rename_i h3
        obtain ⟨j0, c0, hjc⟩ := exists_ne_of_ne hA
        have hm : 0 < pmat.rows := lt_of_le_of_lt (Nat.zero_le _) j0.2
        obtain ⟨a, b, hamp, ha, hb, hab⟩ := C78_amplitude shift (by intro h; rw [h] at hl; simp at hl; omega)
        rw [hamp]
        have hnd : 0 ≤ (pmat.cols : Int) * deg pmat := Int.mul_nonneg (Int.natCast_nonneg _) hd
        have hoe : ((pmat.cols : Int) + 1) * deg pmat + (b - a) + 1 = (pmat.cols : Int) * deg pmat + deg pmat + (b - a) + 1 := by ring
        have hba := (hab a ha).2
        have hmems : ∀ i : Fin pmat.rows, vec shift i ∈ shift := fun i => by
          show shift.getD i 0 ∈ shift
          rw [getD_eq 0 (by rw [hl]; exact i.2)]; exact List.getElem_mem _
        set order : Int := ((pmat.cols : Int) + 1) * deg pmat + (b - a) + 1 with horder
        obtain ⟨z, hz, hz'⟩ := hbasis order.toNat (by omega) (by omega) hm
        show ∃ r, andThen (basis order.toNat) _ = .ok r ∧ _
        rw [hz]
        rcases z with ⟨P, t⟩ | r
        · obtain ⟨hPr, hPc, f, hfd, hpre⟩ := hz'
          refine ⟨_, rfl, ?_⟩
          dsimp only at hPr hPc hpre ⊢
          set I := (List.range pmat.rows).filter fun i => decide (t i - shift.getD i 0 + (b - a) < order - deg pmat) with hI
          have hx : ∀ x ∈ I, x < pmat.rows := (filter_sorted _ _).2
          have hs : I.Pairwise (· < ·) := (filter_sorted _ _).1
          have hlt : ∀ i, t (sel I hx i) - vec shift (sel I hx i) + (b - a) < order - deg pmat := fun i => by
            have := (List.mem_filter.1 (List.getElem_mem (l := I) i.2)).2
            exact of_decide_eq_true this
          have hker : ∀ i, Matrix.vecMul (mat pmat.rows pmat.rows P (sel I hx i)) (mat pmat.rows pmat.cols pmat) = 0 := fun i =>
            hpre.low _ fun j c hP hF => by
              have h4 := natDegree_le_deg pmat j c hF
              have h5 := degLE_iff.1 ((hpre.piv.row (sel I hx i)).le j) hP
              have h6 := hlt i
              have h7 := hab _ (hmems j)
              have h8 := hab _ (hmems (sel I hx i))
              omega
          obtain ⟨hb1, hb2⟩ := hpre.sub (sel_mono hx hs) hker fun v hv D π hp => by
            obtain ⟨k, N, τ, ρ, hN, hPv⟩ := exists_kernelBasis (fun i : Fin pmat.rows => vec shift i) (mat pmat.rows pmat.cols pmat)
            obtain ⟨l, hl1, -⟩ := minimal hN hPv hv hp
            have h4 := kernel_degree_le hN hPv (d := (deg pmat).toNat) (fun i j => by
              by_cases h0 : mat pmat.rows pmat.cols pmat i j = 0
              · rw [h0, natDegree_zero]; exact Nat.zero_le _
              · have := natDegree_le_deg pmat i j h0; omega) l
            obtain ⟨-, -, -, h5⟩ := hpre.min (row_mem hN l) (hPv.row l)
            rw [hl1] at h4 h5
            have h6 : ((min pmat.rows pmat.cols * (deg pmat).toNat : Nat) : Int) ≤ (pmat.cols : Int) * deg pmat := by
              rw [Nat.cast_mul, Int.toNat_of_nonneg hd]
              exact mul_le_mul_of_nonneg_right (by exact_mod_cast Nat.min_le_right _ _) hd
            have h7 : (π : Nat) ∈ I := List.mem_filter.2 ⟨List.mem_range.2 π.2, decide_eq_true (by
              show t π - vec shift π + (b - a) < _
              omega)⟩
            obtain ⟨i, hi, he⟩ := List.mem_iff_getElem.1 h7
            exact ⟨⟨i, hi⟩, Fin.ext he⟩
          have hmI : mat (rowsAt P I).rows pmat.rows (rowsAt P I) = (mat pmat.rows pmat.rows P).submatrix (sel I hx) id := mat_rowsAt I hx
          refine minKernel_of_pivots (ρ := sel I hx) hPc ?_ rfl (List.length_map _) ?_ fun i => ?_
          · rw [hmI]; exact hb1
          · rw [hmI]
            have ht : (fun i : Fin (rowsAt P I).rows => (I.map t).getD i 0) = fun i : Fin I.length => t (sel I hx i) := by
              funext i
              have hi : (i : Nat) < I.length := i.2
              show (I.map t).getD i 0 = t (I[(i : Nat)])
              rw [getD_eq 0 (by rw [List.length_map]; exact hi), List.getElem_map]
            rw [ht]
            exact hb2
          · exact getD_eq 0 i.2
        · exact ⟨r, rfl, hz'⟩

/-- **C81.** `kernel_basis_via_approximation`: for every matrix and every shift it ends without an error, with a basis of the
    left kernel in ordered weak Popov form, the indices of its pivots and the shifted degrees of its rows. -/
theorem C81_via_approximation {e : Env F} (he : EnvOk e) (pmat : PMat F[X]) (shift : List Int) (hl : shift.length = pmat.rows) :
    ∃ r, viaApproximation e pmat shift = .ok r ∧ IsMinKernel pmat shift r.ker r.piv r.shift := by
  refine via_min hl fun order ho _ hm => ?_
  obtain ⟨P, t, h1, h2, h3, -, h4⟩ := approx_pre he shift hm ho
  refine ⟨.inl (P, t), by rw [h1]; rfl, h2, h3, X ^ order, natDegree_X_pow _, h4⟩

/-- **C81.** The same for `kernel_basis_via_interpolation`, in any field: also in those where it calls the other function. -/
theorem C81_via_interpolation {e : Env F} (he : EnvOk e) (pmat : PMat F[X]) (shift : List Int) (hl : shift.length = pmat.rows) :
    ∃ r, viaInterpolation e pmat shift = .ok r ∧ IsMinKernel pmat shift r.ker r.piv r.shift := by
  obtain ⟨r0, hr0, hk0⟩ := C81_via_approximation he pmat shift hl
  refine via_min hl fun order ho hd hm => ?_
  split
  · exact ⟨.inr r0, by rw [hr0]; rfl, hk0⟩
  · split
    · exact ⟨.inr r0, by rw [hr0]; rfl, hk0⟩
    · rename_i h5
      obtain ⟨P, t, x, h1, h2, h3, h4⟩ := interp_pre he shift hm ho h5 hd
      exact ⟨.inl (P, t), by rw [h1]; rfl, h2, h3, _, prod_natDegree _ _, h4⟩

/-! ### The Zhou-Labahn-Storjohann algorithm -/

theorem res_dot {pmat P : PMat F[X]} (idx : List Nat) (hidx : ∀ x ∈ idx, x < pmat.rows) (hPc : P.cols = pmat.rows) {i j : Nat}
    (hi : i < idx.length) (hj : j < pmat.cols) :
    ∑ l ∈ Finset.range (rowsAt P idx).cols, (rowsAt P idx).e (i, l) * pmat.e (l, j) =
      Matrix.vecMul (mat pmat.rows pmat.rows P (sel idx hidx ⟨i, hi⟩)) (mat pmat.rows pmat.cols pmat) ⟨j, hj⟩ := by
  show ∑ l ∈ Finset.range P.cols, P.e (idx.getD i 0, l) * pmat.e (l, j) = ∑ l : Fin pmat.rows, P.e (idx[i], (l : Nat)) * pmat.e ((l : Nat), j)
  rw [hPc, Finset.sum_range, getD_eq 0 hi]

theorem approxBackend_ok {e : Env F} (he : EnvOk e) : BackendOk False (approxBackend e) := by
  intro pmat s order hm ho hl
  obtain ⟨P, t, h1, h2, h3, h4, h5⟩ := approx_pre he s hm ho
  unfold approxBackend
  rw [h1]
  refine ⟨h2, h3, X ^ order, natDegree_X_pow _, h5, fun idx hidx hne => ?_⟩
  have hdeg : deg (rowsAt P idx) ≤ order := by
    have h6 : deg (rowsAt P idx) < ((order + 1 : Nat) : Int) := by
      refine (deg_lt_iff _ _).2 fun i j hi hj => ?_
      have h7 : deg P < ((order + 1 : Nat) : Int) := by push_cast; omega
      have hi' : i < idx.length := hi
      refine (deg_lt_iff _ _).1 h7 (idx.getD i 0) j ?_ hj
      rw [h2, getD_eq 0 hi']
      exact hidx _ (List.getElem_mem _)
    push_cast at h6
    omega
  have hcols : (rowsAt P idx).cols = pmat.rows := h3
  obtain ⟨i0, hi0⟩ := hne
  obtain ⟨j0, hj0⟩ : ∃ j, Matrix.vecMul (mat pmat.rows pmat.rows P (sel idx hidx i0)) (mat pmat.rows pmat.cols pmat) j ≠ 0 := by
    by_contra hc
    push Not at hc
    exact hi0 (funext hc)
  obtain ⟨g1, b, g2, g3, g4, g5⟩ := middle_residual he.mid (a := rowsAt P idx) (c := pmat) (order := order) hcols (by rw [hcols]; exact hm) hdeg
    (fun i j hi hj => by
      rw [res_dot idx hidx h3 hi hj]
      exact h5.sound _ _) ⟨i0, j0, i0.2, j0.2, by rw [res_dot idx hidx h3 i0.2 j0.2]; exact hj0⟩
  refine ⟨b, ?_, g3, g4, fun i j => ?_⟩
  · dsimp only
    rw [if_neg (by omega), g2]
    rfl
  · have := g5 i j i.2 j.2
    rw [res_dot idx hidx h3 i.2 j.2] at this
    exact this

/-- What `kernel_basis_zls_via_approximation` and `kernel_basis_zls_via_interpolation` return. -/
theorem zls_spec {pmat K : PMat F[X]} {shift sh : List Int} (h : Ret pmat shift K sh) :
    InKernel pmat K ∧ sh.length = K.rows ∧
      (pmat.cols ≤ 2 ∨ pmat.rows ≤ 5 ∨ pmat.cols ≤ 4 ∧ pmat.rows < 2 * pmat.cols → IsKernelBasis (mat pmat.rows pmat.cols pmat) (mat K.rows pmat.rows K)) ∧
      (pmat.cols ≤ 3 →
        OrderedWeakPopovLower K.rows pmat.rows (fun j => shift.getD j 0) fun i j => K.e (i, j)) := by
  refine ⟨⟨h.cols, h.zero, h.indep⟩, h.len, h.basis, fun hc => ?_⟩
  obtain ⟨t, ρ, hp⟩ := h.piv hc
  exact popov_of_pivots hp

theorem zlsApprox_ret {e : Env F} (he : EnvOk e) (pmat : PMat F[X]) (shift : List Int) (hl : shift.length = pmat.rows) :
    ∃ r, zlsApprox e pmat shift = .ok r ∧ Ret pmat shift r.1 r.2 := by
  have h := zls_ret he.mul (approxBackend_ok he) (pmat.cols + 1) pmat shift (by omega) hl
  unfold zlsApprox
  cases hz : zls e.mul (approxBackend e) (pmat.cols + 1) pmat shift with
  | ok r => rw [hz] at h; exact ⟨r, rfl, h⟩
  | error => rw [hz] at h; exact h.elim
  | ub => rw [hz] at h; exact h.elim
  | loops => rw [hz] at h; exact h.elim

/-- **C81, partial.** `kernel_basis_zls_via_approximation`: for every matrix and every shift it ends without an error and without
    reading or writing out of bounds, with linearly independent rows of the left kernel.  With at most two columns, at
    most five rows, or at most four columns and fewer than twice as many rows, they generate it; with at most three columns they are in
    ordered weak Popov form.
    What is missing: in general they do not generate the kernel (`C81_zls_incomplete`), and the shift returned does not hold the
    shifted degrees (`C81_zls_degrees`). -/
theorem C81_zls_approximation_partial {e : Env F} (he : EnvOk e) (pmat : PMat F[X]) (shift : List Int) (hl : shift.length = pmat.rows) :
    ∃ r, zlsApprox e pmat shift = .ok r ∧ InKernel pmat r.1 ∧ r.2.length = r.1.rows ∧
      (pmat.cols ≤ 2 ∨ pmat.rows ≤ 5 ∨ pmat.cols ≤ 4 ∧ pmat.rows < 2 * pmat.cols → IsKernelBasis (mat pmat.rows pmat.cols pmat) (mat r.1.rows pmat.rows r.1)) ∧
      (pmat.cols ≤ 3 →
        OrderedWeakPopovLower r.1.rows pmat.rows (fun j => shift.getD j 0) fun i j => r.1.e (i, j)) := by
  obtain ⟨r, h1, h2⟩ := zlsApprox_ret he pmat shift hl
  exact ⟨r, h1, zls_spec h2⟩

/-- **C81, partial.** `kernel_basis`: the same. -/
theorem C81_kernel_basis_partial {e : Env F} (he : EnvOk e) (pmat : PMat F[X]) (shift : List Int) (hl : shift.length = pmat.rows) :
    ∃ K, kernelBasis e pmat shift = .ok K ∧ InKernel pmat K ∧
      (pmat.cols ≤ 2 ∨ pmat.rows ≤ 5 ∨ pmat.cols ≤ 4 ∧ pmat.rows < 2 * pmat.cols → IsKernelBasis (mat pmat.rows pmat.cols pmat) (mat K.rows pmat.rows K)) ∧
      (pmat.cols ≤ 3 →
        OrderedWeakPopovLower K.rows pmat.rows (fun j => shift.getD j 0) fun i j => K.e (i, j)) := by
  obtain ⟨r, h1, h2⟩ := zlsApprox_ret he pmat shift hl
  obtain ⟨a, -, b⟩ := zls_spec h2
  exact ⟨r.1, by unfold kernelBasis; rw [h1]; rfl, a, b⟩

theorem interpBackend_ok {e : Env F} (he : EnvOk e) : BackendOk True (interpBackend e) := by
  intro pmat s order hm ho hl
  obtain ⟨r0, hr0, hk0⟩ := zlsApprox_ret he pmat s hl
  unfold interpBackend
  split
  · rw [hr0]; exact hk0
  · split
    · rw [hr0]; exact hk0
    · rename_i h5
      rcases lt_or_ge (deg pmat) (order : Int) with hd | hd
      · obtain ⟨P, t, x, h1, h2, h3, h4⟩ := interp_pre he s hm ho h5 hd
        rw [h1]
        refine ⟨h2, h3, _, prod_natDegree _ _, h4, fun idx hidx _ => ?_⟩
        have hcols : (rowsAt P idx).cols = pmat.rows := h3
        obtain ⟨c, hc, hp⟩ := he.mul (rowsAt P idx) pmat hcols (by rw [hcols]; exact hm)
        dsimp only
        rw [hc]
        refine ⟨_, rfl, hp.1, hp.2.1, fun i j => ?_⟩
        have h6 := hp.2.2 i j i.2 j.2
        rw [res_dot idx hidx h3 i.2 j.2] at h6
        have h7 := h4.sound (sel idx hidx i) j
        refine h6.symm.trans ?_
        show c.e (i, j) = _ * (c.e (i, j) /ₘ _)
        rw [← h6] at h7
        obtain ⟨q, hq⟩ := h7
        rw [hq, mul_divByMonic_cancel_left q (prod_monic x order)]
      · rw [interp_reject he s ho h5 hd]
        trivial

theorem zlsInterp_ret {e : Env F} (he : EnvOk e) (pmat : PMat F[X]) (shift : List Int) (hl : shift.length = pmat.rows) :
    zlsInterp e pmat shift = .error ∨ ∃ r, zlsInterp e pmat shift = .ok r ∧ Ret pmat shift r.1 r.2 := by
  have h := zls_ret he.mul (interpBackend_ok he) (pmat.cols + 1) pmat shift (by omega) hl
  unfold zlsInterp
  cases hz : zls e.mul (interpBackend e) (pmat.cols + 1) pmat shift with
  | ok r => rw [hz] at h; exact Or.inr ⟨r, rfl, h⟩
  | error => exact Or.inl rfl
  | ub => rw [hz] at h; exact h.elim
  | loops => rw [hz] at h; exact h.elim

/-- **C81, partial.** `kernel_basis_zls_via_interpolation` ends in an error, or as `kernel_basis_zls_via_approximation`.
    What is missing: it may end in an error (`C81_zls_interpolation_error`), and as above. -/
theorem C81_zls_interpolation_partial {e : Env F} (he : EnvOk e) (pmat : PMat F[X]) (shift : List Int) (hl : shift.length = pmat.rows) :
    zlsInterp e pmat shift = .error ∨ ∃ r, zlsInterp e pmat shift = .ok r ∧ InKernel pmat r.1 ∧ r.2.length = r.1.rows ∧
      (pmat.cols ≤ 2 ∨ pmat.rows ≤ 5 ∨ pmat.cols ≤ 4 ∧ pmat.rows < 2 * pmat.cols → IsKernelBasis (mat pmat.rows pmat.cols pmat) (mat r.1.rows pmat.rows r.1)) ∧
      (pmat.cols ≤ 3 →
        OrderedWeakPopovLower r.1.rows pmat.rows (fun j => shift.getD j 0) fun i j => r.1.e (i, j)) := by
  rcases zlsInterp_ret he pmat shift hl with h | ⟨r, h1, h2⟩
  · exact Or.inl h
  · exact Or.inr ⟨r, h1, zls_spec h2⟩

/-! ### Verification -/

theorem dot_eq (m : Nat) (a b : Nat → F[X]) : dot m a b = ∑ i ∈ Finset.range m, a i * b i := by
  unfold dot
  induction m with
  | zero => rfl
  | succ m ih => rw [List.range_succ, List.foldl_append, ih, Finset.sum_range_succ]; rfl

theorem kernel_iff {K pmat c : PMat F[X]} (hc : K.cols = pmat.rows) (h : IsProduct K pmat c) :
    isZero c = true ↔ ∀ i : Fin K.rows, Matrix.vecMul (mat K.rows pmat.rows K i) (mat pmat.rows pmat.cols pmat) = 0 := by
  have hm := mat_mul' h rfl hc rfl
  rw [C65_is_zero, h.1, h.2.1]
  constructor
  · intro h0 i
    funext j
    have h1 : mat K.rows pmat.cols c i j = 0 := h0 i j i.2 j.2
    rw [hm] at h1
    exact h1
  · intro h0 i j hi hj
    have h1 : mat K.rows pmat.cols c ⟨i, hi⟩ ⟨j, hj⟩ = 0 := by
      rw [hm]; exact congrFun (h0 ⟨i, hi⟩) ⟨j, hj⟩
    exact h1

/-- **C81.** `is_kernel_basis`, not randomized: it returns true exactly when the matrix has the right number of columns, is in
    the form, and its rows are in the left kernel.  It does not test that they generate it: `C81_verify_generation`. -/
theorem C81_verify {mul : PMat F[X] → PMat F[X] → Option (PMat F[X])} (hmul : MulOk mul) (K pmat : PMat F[X]) (shift : List Int) (form : Form)
    (left right : Nat → F) (hm : 0 < pmat.rows) (hl : shift.length = pmat.rows) (hf : form ≠ .other) :
    ∃ b, isKernelBasis mul K pmat shift form false left right = .ok b ∧
      (b = true ↔ K.cols = pmat.rows ∧ HasForm K.rows K.cols (fun j => shift.getD j 0) (fun i j => K.e (i, j)) form ∧
        ∀ i : Fin K.rows, Matrix.vecMul (mat K.rows pmat.rows K i) (mat pmat.rows pmat.cols pmat) = 0) := by
  unfold isKernelBasis
  dsimp only
  by_cases hc : K.cols = pmat.rows
  · rw [if_neg (not_not.2 hc)]
    obtain ⟨b, hb1, hb2⟩ := (C78_row_form K (some shift) (fun l hl' => by cases hl'; exact ⟨by omega, by omega⟩) form).2 hf
    rw [hb1]
    cases b with
    | false =>
      refine ⟨false, rfl, fun h => absurd h (by simp), fun h => hb2.2 h.2.1⟩
    | true =>
      obtain ⟨c, h1, h2⟩ := hmul K pmat hc (by omega)
      show ∃ b, andThen (ofOpt (mul K pmat)) _ = _ ∧ _
      rw [h1]
      exact ⟨_, rfl, fun h => ⟨hc, hb2.1 rfl, (kernel_iff hc h2).1 h⟩, fun h => (kernel_iff hc h2).2 h.2.2⟩
  · rw [if_pos hc]
    exact ⟨false, rfl, fun h => absurd h (by simp), fun h => absurd h.1 hc⟩

/-- The randomized test: the value at two vectors of the bilinear form given by the product. -/
theorem C81_verify_randomized (mul : PMat F[X] → PMat F[X] → Option (PMat F[X])) (K pmat : PMat F[X]) (shift : List Int) (form : Form)
    (left right : Nat → F) (hm : 0 < pmat.rows) (hl : shift.length = pmat.rows) (hf : form ≠ .other) :
    ∃ b, isKernelBasis mul K pmat shift form true left right = .ok b ∧
      (b = true ↔ K.cols = pmat.rows ∧ HasForm K.rows K.cols (fun j => shift.getD j 0) (fun i j => K.e (i, j)) form ∧
        ∑ i : Fin K.rows, ∑ j : Fin pmat.cols, C (left i) * (mat K.rows pmat.rows K * mat pmat.rows pmat.cols pmat) i j * C (right j) = 0) := by
  unfold isKernelBasis
  dsimp only
  by_cases hc : K.cols = pmat.rows
  · rw [if_neg (not_not.2 hc)]
    obtain ⟨b, hb1, hb2⟩ := (C78_row_form K (some shift) (fun l hl' => by cases hl'; exact ⟨by omega, by omega⟩) form).2 hf
    rw [hb1]
    cases b with
    | false =>
      refine ⟨false, rfl, fun h => absurd h (by simp), fun h => hb2.2 h.2.1⟩
    | true =>
      obtain ⟨n1, y1⟩ := C66_mul_const_left (⟨1, K.rows, fun ij => left ij.2⟩ : PMat F) K
      obtain ⟨n2, y2⟩ := C66_mul_const_right pmat (⟨pmat.cols, 1, fun ij => right ij.1⟩ : PMat F)
      cases hpk : mulConstLeft (⟨1, K.rows, fun ij => left ij.2⟩ : PMat F) K with
      | none => exact absurd rfl (n1.1 hpk)
      | some pk =>
        cases hpp : mulConstRight pmat (⟨pmat.cols, 1, fun ij => right ij.1⟩ : PMat F) with
        | none => exact absurd rfl (n2.1 hpp)
        | some pp =>
          have hdot : dot pmat.rows (fun i => pk.e (0, i)) (fun i => pp.e (i, 0)) =
              ∑ i : Fin K.rows, ∑ j : Fin pmat.cols, C (left i) * (mat K.rows pmat.rows K * mat pmat.rows pmat.cols pmat) i j * C (right j) := by
            rw [dot_eq, Finset.sum_range]
            have h1 : ∀ l : Fin pmat.rows, pk.e (0, l) * pp.e (l, 0) =
                ∑ i : Fin K.rows, ∑ j : Fin pmat.cols, C (left i) * (K.e (i, l) * pmat.e (l, j)) * C (right j) := by
              intro l
              rw [(y1 pk hpk).2.2 0 l one_pos (by rw [hc]; exact l.2), (y2 pp hpp).2.2 l 0 l.2 one_pos, Finset.sum_range, Finset.sum_range,
                Finset.sum_mul_sum]
              refine Finset.sum_congr rfl fun i _ => Finset.sum_congr rfl fun j _ => ?_
              ring
            rw [Finset.sum_congr rfl fun l _ => h1 l, Finset.sum_comm]
            refine Finset.sum_congr rfl fun i _ => ?_
            rw [Finset.sum_comm]
            refine Finset.sum_congr rfl fun j _ => ?_
            rw [Matrix.mul_apply, Finset.mul_sum, Finset.sum_mul]
            rfl
          refine ⟨decide (dot pmat.rows (fun i => pk.e (0, i)) (fun i => pp.e (i, 0)) = 0), rfl, ?_⟩
          rw [hdot, decide_eq_true_iff]
          exact ⟨fun h => ⟨hc, hb2.1 rfl, h⟩, fun h => h.2.2⟩
  · rw [if_pos hc]
    exact ⟨false, rfl, fun h => absurd h (by simp), fun h => absurd h.1 hc⟩

/-- **C81.** `is_kernel_basis`, randomized: a matrix in the form whose rows are in the kernel is accepted whatever the vectors drawn.
    If some row is not in the kernel, the first vector that lets the test be passed for all the choices of the second is in a proper
    subspace, and for the other ones the second that lets it be passed is in a proper subspace. -/
theorem C81_verify_random_accepts (mul : PMat F[X] → PMat F[X] → Option (PMat F[X])) (K pmat : PMat F[X]) (shift : List Int) (form : Form)
    (hm : 0 < pmat.rows) (hl : shift.length = pmat.rows) (hf : form ≠ .other) (hc : K.cols = pmat.rows)
    (hform : HasForm K.rows K.cols (fun j => shift.getD j 0) (fun i j => K.e (i, j)) form) :
    ((∀ i, Matrix.vecMul (mat K.rows pmat.rows K i) (mat pmat.rows pmat.cols pmat) = 0) → ∀ left right,
      isKernelBasis mul K pmat shift form true left right = .ok true) ∧
    ((∃ i, Matrix.vecMul (mat K.rows pmat.rows K i) (mat pmat.rows pmat.cols pmat) ≠ 0) →
      ∃ V : Submodule F (Fin pmat.cols → F), V ≠ ⊤ ∧ ∀ right : Nat → F, (fun j : Fin pmat.cols => right j) ∉ V →
      ∃ W : Submodule F (Fin K.rows → F), W ≠ ⊤ ∧ ∀ left : Nat → F, (fun i : Fin K.rows => left i) ∉ W →
        isKernelBasis mul K pmat shift form true left right = .ok false) := by
  set A := mat K.rows pmat.rows K * mat pmat.rows pmat.cols pmat with hA
  constructor
  · intro h left right
    obtain ⟨b, h1, h2⟩ := C81_verify_randomized mul K pmat shift form left right hm hl hf
    rw [h1, h2.2 ⟨hc, hform, ?_⟩]
    refine Finset.sum_eq_zero fun i _ => Finset.sum_eq_zero fun j _ => ?_
    have h3 : A i j = 0 := congrFun (h i) j
    rw [← hA, h3, mul_zero, zero_mul]
  · rintro ⟨i0, hi0⟩
    obtain ⟨j0, hj0⟩ : ∃ j, A i0 j ≠ 0 := by
      by_contra hn
      push Not at hn
      exact hi0 (funext hn)
    let V : Submodule F (Fin pmat.cols → F) :=
      { carrier := {r | ∀ i, ∑ j, A i j * C (r j) = 0}
        add_mem' := fun {a b} ha hb i => by
          have : ∑ j, A i j * C ((a + b) j) = ∑ j, A i j * C (a j) + ∑ j, A i j * C (b j) := by
            rw [← Finset.sum_add_distrib]; exact Finset.sum_congr rfl fun j _ => by rw [Pi.add_apply, C_add, mul_add]
          rw [this, ha i, hb i, add_zero]
        zero_mem' := fun i => Finset.sum_eq_zero fun j _ => by rw [Pi.zero_apply, C_0, mul_zero]
        smul_mem' := fun c a ha i => by
          have : ∑ j, A i j * C ((c • a) j) = C c * ∑ j, A i j * C (a j) := by
            rw [Finset.mul_sum]; exact Finset.sum_congr rfl fun j _ => by rw [Pi.smul_apply, smul_eq_mul, C_mul]; ring
          rw [this, ha i, mul_zero] }
    refine ⟨V, fun htop => ?_, fun right hright => ?_⟩
    · have h1 : (Pi.single j0 1 : Fin pmat.cols → F) ∈ V := by rw [htop]; trivial
      have h2 : ∑ j, A i0 j * C ((Pi.single j0 1 : Fin pmat.cols → F) j) = 0 := h1 i0
      rw [Finset.sum_eq_single j0 (fun j _ hj => by rw [Pi.single_eq_of_ne hj, C_0, mul_zero]) (by simp), Pi.single_eq_same, C_1, mul_one] at h2
      exact hj0 h2
    · have h1 : ∃ i, ∑ j : Fin pmat.cols, A i j * C (right j) ≠ 0 := by
        by_contra hn
        push Not at hn
        exact hright hn
      obtain ⟨i1, hi1⟩ := h1
      let W : Submodule F (Fin K.rows → F) :=
        { carrier := {l | ∑ i, C (l i) * ∑ j : Fin pmat.cols, A i j * C (right j) = 0}
          add_mem' := fun {a b} ha hb => by
            have h3 : ∑ i, C ((a + b) i) * ∑ j : Fin pmat.cols, A i j * C (right j) =
                ∑ i, C (a i) * ∑ j : Fin pmat.cols, A i j * C (right j) + ∑ i, C (b i) * ∑ j : Fin pmat.cols, A i j * C (right j) := by
              rw [← Finset.sum_add_distrib]; exact Finset.sum_congr rfl fun j _ => by rw [Pi.add_apply, C_add, add_mul]
            have ha' : ∑ i, C (a i) * ∑ j : Fin pmat.cols, A i j * C (right j) = 0 := ha
            have hb' : ∑ i, C (b i) * ∑ j : Fin pmat.cols, A i j * C (right j) = 0 := hb
            show _ = _
            rw [h3, ha', hb', add_zero]
          zero_mem' := Finset.sum_eq_zero fun i _ => by rw [Pi.zero_apply, C_0, zero_mul]
          smul_mem' := fun c a ha => by
            have h3 : ∑ i, C ((c • a) i) * ∑ j : Fin pmat.cols, A i j * C (right j) =
                C c * ∑ i, C (a i) * ∑ j : Fin pmat.cols, A i j * C (right j) := by
              rw [Finset.mul_sum]; exact Finset.sum_congr rfl fun j _ => by rw [Pi.smul_apply, smul_eq_mul, C_mul, mul_assoc]
            have ha' : ∑ i, C (a i) * ∑ j : Fin pmat.cols, A i j * C (right j) = 0 := ha
            show _ = _
            rw [h3, ha', mul_zero] }
      refine ⟨W, fun htop => ?_, fun left hleft => ?_⟩
      · have h2 : (Pi.single i1 1 : Fin K.rows → F) ∈ W := by rw [htop]; trivial
        have h3 : ∑ i, C ((Pi.single i1 1 : Fin K.rows → F) i) * ∑ j : Fin pmat.cols, A i j * C (right j) = 0 := h2
        rw [Finset.sum_eq_single i1 (fun j _ hj => by rw [Pi.single_eq_of_ne hj, C_0, zero_mul]) (by simp), Pi.single_eq_same, C_1, one_mul] at h3
        exact hi1 h3
      · obtain ⟨b, h2, h3⟩ := C81_verify_randomized mul K pmat shift form left right hm hl hf
        rw [h2]
        cases b with
        | false => rfl
        | true =>
          exfalso
          apply hleft
          show ∑ i : Fin K.rows, C (left i) * ∑ j : Fin pmat.cols, A i j * C (right j) = 0
          rw [← (h3.1 rfl).2.2, ← hA]
          refine Finset.sum_congr rfl fun i _ => ?_
          rw [Finset.mul_sum]
          exact Finset.sum_congr rfl fun j _ => (mul_assoc _ _ _).symm

end PML.Ntl.Kerbas
