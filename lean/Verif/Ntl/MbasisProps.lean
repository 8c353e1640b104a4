import Verif.Ntl.MbasisState
import Verif.Ntl.InvProps
import Mathlib.Data.Prod.Lex
import Verif.Ntl.MatMulSpec
import Verif.Ntl.MatMidSpec
import Verif.Common.Prime

/-!
# C76: approximant bases with NTL
-/

namespace PML.Ntl.Mbasis

open Polynomial PML.Ntl.Utils PML.Ntl.Inv PML.Ntl.Solve PML.Approx PML.Ntl.MatMul PML.Ntl.MatMid

set_option linter.unusedSectionVars false

variable {F : Type} [Field F] [DecidableEq F]

/-! ### mbasis_rescomp -/

/-- The exchange of rows of lines 548-549. -/
theorem swap_loop {m : Nat} {key : Nat → Int} {perm : List Nat} (hp : SortSpec key m fun i => perm.getD i 0) (pRes res : Nat → Nat → F) :
    (∀ i, i < m → (forN m (fun i (st : (Nat → Nat → F) × (Nat → Nat → F)) =>
      (write i (st.2 (perm.getD i 0)) st.1, write (perm.getD i 0) (st.1 i) st.2)) (pRes, res)).1 i = res (perm.getD i 0)) ∧
    (∀ i, i < m → (forN m (fun i (st : (Nat → Nat → F) × (Nat → Nat → F)) =>
      (write i (st.2 (perm.getD i 0)) st.1, write (perm.getD i 0) (st.1 i) st.2)) (pRes, res)).2 (perm.getD i 0) = pRes i) := by
  have := forN_inv (P := fun (t : Nat) (st : (Nat → Nat → F) × (Nat → Nat → F)) =>
      (∀ i, i < t → st.1 i = res (perm.getD i 0)) ∧ (∀ i, t ≤ i → st.1 i = pRes i) ∧
      (∀ i, i < t → st.2 (perm.getD i 0) = pRes i) ∧ ∀ i, t ≤ i → i < m → st.2 (perm.getD i 0) = res (perm.getD i 0))
    (f := fun i st => (write i (st.2 (perm.getD i 0)) st.1, write (perm.getD i 0) (st.1 i) st.2)) (s := (pRes, res)) (n := m)
    ⟨fun i hi => by omega, fun _ _ => rfl, fun i hi => by omega, fun _ _ _ => rfl⟩ (by
      rintro t ⟨x, y⟩ ht ⟨q1, q2, q3, q4⟩
      dsimp only at q1 q2 q3 q4 ⊢
      refine ⟨fun i hi => ?_, fun i hi => ?_, fun i hi => ?_, fun i hi him => ?_⟩
      · by_cases e : i = t
        · subst e; rw [wr_eq, q4 i (le_refl _) ht]
        · rw [wr_ne _ _ e]; exact q1 i (by omega)
      · rw [wr_ne _ _ (by omega)]; exact q2 i (by omega)
      · by_cases e : i = t
        · subst e; rw [wr_eq, q2 i (le_refl _)]
        · rw [wr_ne _ _ (fun h => e (hp.inj i t (by omega) ht h))]; exact q3 i (by omega)
      · rw [wr_ne _ _ (fun h => by have := hp.inj i t him ht h; omega)]; exact q4 i (by omega) him)
  exact ⟨this.1, this.2.2.1⟩

theorem rescompLoop_spec {N : Nt F} (hN : N.Ok) {m n order : Nat} {A : Nat → Nat → F[X]} {s0 : Nat → Int} (pc : Nat × (Nat × Nat) → F)
    (hpc : ∀ d i j, d < order → i < m → j < n → pc (d, (i, j)) = (A i j).coeff d) (app0 : PMat F[X]) :
    ∀ (steps ord : Nat) (s : State F) (res pRes : Nat → Nat → F), 1 ≤ ord → ord + steps = order + 1 → SOk m n A s0 (ord - 1) s →
    (steps ≠ 0 → (∀ i, s.isPiv i = false) ∧ ∀ i j, i < m → j < n → res i j = resid m s.poly A (ord - 1) i j) →
    (ord = 1 → ∀ i j, pRes i j = 0) →
    ∃ P t, rescompLoop N m n order pc app0 steps ord s res pRes = .ok (P, t) ∧ P.rows = m ∧ P.cols = m ∧
      Good m n A s0 order t fun i j => P.e (i, j)
  | 0, ord, s, res, pRes => by
    intro ho hos hs _ _
    obtain ⟨t1, t2, t3⟩ := toPoly_spec hs app0
    refine ⟨_, _, rfl, t1, t2, ?_⟩
    rw [show order = ord - 1 by omega]
    exact hs.good.congr (fun _ _ => rfl) t3
  | steps + 1, ord, s, res, pRes => by
    intro ho hos hs hsteps hp0
    obtain ⟨hip, hres⟩ := hsteps (Nat.succ_ne_zero steps)
    have hp := sortBy_spec s.shift m
    unfold rescompLoop
    dsimp only
    obtain ⟨w1, w2⟩ := swap_loop hp pRes res
    generalize (forN m (fun i (st : (Nat → Nat → F) × (Nat → Nat → F)) =>
      (write i (st.2 ((sortBy s.shift m).getD i 0)) st.1, write ((sortBy s.shift m).getD i 0) (st.1 i) st.2)) (pRes, res)) = sw at w1 w2 ⊢
    -- the rest of the matrix of residuals is zero
    have hz : ∀ i j, i < m → (if 1 < ord then fun _ _ => 0 else sw.2 : Nat → Nat → F) i j = 0 := by
      intro i j hi
      by_cases h : 1 < ord
      · rw [if_pos h]
      · rw [if_neg h]
        obtain ⟨i', hi', rfl⟩ := hp.surj i hi
        rw [w2 i' hi']
        exact hp0 (by omega) i' j
    generalize (if 1 < ord then fun _ _ => 0 else sw.2 : Nat → Nat → F) = res0 at hz ⊢
    obtain ⟨-, k2, k3⟩ := kernel_facts hN ⟨m, n, fun ij => sw.1 ij.1 ij.2⟩
    generalize N.ker ⟨m, n, fun ij => sw.1 ij.1 ij.2⟩ = pk at k2 k3 ⊢
    dsimp only at k2 k3
    have k3' : Spans m n (fun i j => res ((sortBy s.shift m).getD i 0) j) pk.rows fun r l => pk.e (r, l) := by
      intro v
      rw [← k3 v]
      refine forall_congr' fun j => forall_congr' fun _ => ?_
      have : ∑ l ∈ Finset.range m, v l * sw.1 l j = ∑ l ∈ Finset.range m, v l * res ((sortBy s.shift m).getD l 0) j :=
        Finset.sum_congr rfl fun l hl => by rw [← w1 l (Finset.mem_range.1 hl)]
      rw [this]
    have hle := rows_le k2 k3
    by_cases hk0 : pk.rows = 0
    · rw [if_pos hk0]
      obtain ⟨e1, e2, e3⟩ := early_spec hs hres (Spans.unperm hp (A := res) k3' hk0) (steps + 1)
      refine ⟨_, _, rfl, e1, e2, ?_⟩
      rw [show order = ord - 1 + (steps + 1) by omega]
      exact e3
    by_cases hkm : pk.rows = m
    · rw [if_neg hk0, if_pos hkm]
      rw [hkm] at k2 k3'
      have hR0 : ∀ i j, i < m → j < n → resid m s.poly A (ord - 1) i j = 0 := by
        intro i j hi hj
        rw [← hres i j hi hj]
        obtain ⟨i', hi', rfl⟩ := hp.surj i hi
        exact zero_of_full k2 k3' i' j hi' hj
      have hs' := hs.full hR0
      rw [show ord - 1 + 1 = ord + 1 - 1 by omega] at hs'
      split_ifs with h0
      · exact rescompLoop_spec hN pc hpc app0 steps (ord + 1) s res0 sw.1 (by omega) (by omega) hs' (fun h => absurd h0 h) (by omega)
      · rw [show ord + 1 - 1 = ord by omega] at hs'
        obtain ⟨r, e1, e2⟩ := resSum_spec hs' (by omega) pc hpc res0
        rw [e1]
        exact rescompLoop_spec hN pc hpc app0 steps (ord + 1) s r sw.1 (by omega) (by omega) hs'
          (fun _ => ⟨hip, fun i j hi hj => by rw [e2 i j hi hj, hz i j hi, zero_add]; rfl⟩) (by omega)
    · rw [if_neg hk0, if_neg hkm]
      obtain ⟨b, e, hb⟩ := base_spec hN (A := res) hp s.kerbas pk (s.pPiv.drop pk.rows) k2 k3'
      rw [e]
      simp only [andThen]
      obtain ⟨u1, -, u3, -, -⟩ := usual_ok hs hres hb hip
      rw [show ord - 1 + 1 = ord by omega] at u1
      split_ifs with h0
      · exact rescompLoop_spec hN pc hpc app0 steps (ord + 1) _ res0 sw.1 (by omega) (by omega) u1 (fun h => absurd h0 h) (by omega)
      · obtain ⟨r, e1, e2⟩ := resSum_spec u1 (by omega) pc hpc res0
        rw [e1]
        exact rescompLoop_spec hN pc hpc app0 steps (ord + 1) _ r sw.1 (by omega) (by omega) u1.restore
          (fun _ => ⟨u3, fun i j hi hj => by rw [e2 i j hi hj, hz i j hi, zero_add]; rfl⟩) (by omega)

theorem resid_start (m : Nat) (A : Nat → Nat → F[X]) (s0 : Nat → Int) (d i j : Nat) (hi : i < m) :
    resid m (start m s0).poly A d i j = (A i j).coeff d := by
  have hone : ∀ l, (start (F := F) m s0).poly i l = if i = l then 1 else 0 := by
    intro l
    ext k
    unfold State.poly start
    dsimp only
    rw [ofCoeffs_coeff]
    by_cases hk : k < 1
    · have : k = 0 := by omega
      subst this
      rw [if_pos hk]
      split_ifs with h1 h2 h2
      · rw [coeff_one, if_pos rfl]
      · exact absurd h1.2 h2
      · exact absurd ⟨rfl, h2⟩ h1
      · rw [coeff_zero]
    · rw [if_neg hk]
      split_ifs
      · rw [coeff_one, if_neg (by omega)]
      · rw [coeff_zero]
  unfold resid
  congr 1
  rw [Finset.sum_eq_single i]
  · rw [hone, if_pos rfl, one_mul]
  · intro l _ hne
    rw [hone, if_neg (Ne.symm hne), zero_mul]
  · intro h; exact absurd (Finset.mem_range.2 hi) h

theorem rescomp_good {N : Nt F} (hN : N.Ok) (app0 pmat : PMat F[X]) (order : Nat) (s : Nat → Int) (hord : 0 < order) (hm : 0 < pmat.rows) :
    ∃ P t, rescomp N app0 pmat order s = .ok (P, t) ∧ P.rows = pmat.rows ∧ P.cols = pmat.rows ∧
      Good pmat.rows pmat.cols (fun i j => pmat.e (i, j)) s order t fun i j => P.e (i, j) := by
  have hpc := (C65_conv_order pmat pmat order 0 0 0 fun _ _ => 0).1.2
  unfold rescomp
  dsimp only
  rw [if_neg (by omega), if_neg (by omega)]
  refine rescompLoop_spec hN _ (fun d i j h1 h2 h3 => hpc d i j h1 h2 h3) app0 order 1 _ _ _ (le_refl _) (by omega)
    (start_ok _ _ _ _) (fun _ => ⟨fun _ => rfl, fun i j hi hj => ?_⟩) fun _ _ _ => rfl
  rw [resid_start _ _ _ _ _ _ hi, hpc 0 i j hord hi hj]

/-! ### mbasis_resupdate -/

theorem resid_comb {m d i j : Nat} {V V' A : Nat → Nat → F[X]} {κ : Nat → F}
    (h : ∀ l, l < m → V' i l = ∑ t ∈ Finset.range m, C (κ t) * V t l) :
    resid m V' A d i j = ∑ t ∈ Finset.range m, κ t * resid m V A d t j := by
  unfold resid
  have e : ∑ l ∈ Finset.range m, V' i l * A l j = ∑ t ∈ Finset.range m, C (κ t) * ∑ l ∈ Finset.range m, V t l * A l j := by
    rw [Finset.sum_congr rfl fun l hl => by rw [h l (Finset.mem_range.1 hl), Finset.sum_mul], Finset.sum_comm]
    exact Finset.sum_congr rfl fun t _ => by rw [Finset.mul_sum]; exact Finset.sum_congr rfl fun l _ => by rw [mul_assoc]
  rw [e, finsetSum_coeff]
  exact Finset.sum_congr rfl fun t _ => by rw [coeff_C_mul]

theorem resid_X {m d i j : Nat} {V V' A : Nat → Nat → F[X]} (h : ∀ l, l < m → V' i l = X * V i l) :
    resid m V' A (d + 1) i j = resid m V A d i j := by
  unfold resid
  rw [Finset.sum_congr rfl fun l hl => by rw [h l (Finset.mem_range.1 hl), mul_assoc], ← Finset.mul_sum, coeff_X_mul]

theorem resupdateLoop_spec {N : Nt F} (hN : N.Ok) {m n order : Nat} {A : Nat → Nat → F[X]} {s0 : Nat → Int} (app0 : PMat F[X]) :
    ∀ (steps ord : Nat) (s : State F) (res : Nat × Nat → Nat → F), 1 ≤ ord → ord + steps = order + 1 → SOk m n A s0 (ord - 1) s →
    (∀ i, s.isPiv i = false) →
    (∀ d i j, ord - 1 ≤ d → d < order → i < m → j < n → res (d, i) j = resid m s.poly A d i j) →
    ∃ P t, resupdateLoop N m n order app0 steps ord s res = .ok (P, t) ∧ P.rows = m ∧ P.cols = m ∧
      Good m n A s0 order t fun i j => P.e (i, j)
  | 0, ord, s, res => by
    intro ho hos hs _ _
    obtain ⟨t1, t2, t3⟩ := toPoly_spec hs app0
    refine ⟨_, _, rfl, t1, t2, ?_⟩
    rw [show order = ord - 1 by omega]
    exact hs.good.congr (fun _ _ => rfl) t3
  | steps + 1, ord, s, res => by
    intro ho hos hs hip hres
    have hp := sortBy_spec s.shift m
    have hres0 : ∀ i j, i < m → j < n → res (ord - 1, i) j = resid m s.poly A (ord - 1) i j := fun i j hi hj =>
      hres _ i j (le_refl _) (by omega) hi hj
    unfold resupdateLoop
    dsimp only
    obtain ⟨-, k2, k3⟩ := kernel_facts hN ⟨m, n, fun ij => res (ord - 1, (sortBy s.shift m).getD ij.1 0) ij.2⟩
    generalize N.ker ⟨m, n, fun ij => res (ord - 1, (sortBy s.shift m).getD ij.1 0) ij.2⟩ = pk at k2 k3 ⊢
    dsimp only at k2 k3
    have hle := rows_le k2 k3
    by_cases hk0 : pk.rows = 0
    · rw [if_pos hk0]
      obtain ⟨e1, e2, e3⟩ := early_spec hs hres0 (Spans.unperm hp (A := fun i j => res (ord - 1, i) j) k3 hk0) (steps + 1)
      refine ⟨_, _, rfl, e1, e2, ?_⟩
      rw [show order = ord - 1 + (steps + 1) by omega]
      exact e3
    by_cases hkm : pk.rows < m
    · rw [if_neg hk0, if_pos hkm]
      obtain ⟨b, e, hb⟩ := base_spec hN (A := fun i j => res (ord - 1, i) j) hp s.kerbas pk (s.pPiv.drop pk.rows) k2 k3
      rw [e]
      simp only [andThen]
      obtain ⟨u1, u2, u3, u4, u5⟩ := usual_ok hs hres0 hb hip
      rw [show ord - 1 + 1 = ord + 1 - 1 by omega] at u1
      refine resupdateLoop_spec hN app0 steps (ord + 1) _ _ (by omega) (by omega) u1.restore u3 fun d i j hd1 hd2 hi hj => ?_
      show moveRows m (ord - 1) (order - 1) (usual m pk.rows b s).isPiv _ (d, i) j = resid m (usual m pk.rows b s).poly A d i j
      obtain ⟨r1, r2⟩ := replaceRows_spec (m := m) b.kerbas b.piv b.rows b.pos (fun i _ => rfl) hb.inj ord (order - ord) res
      generalize replaceRows m pk.rows b.kerbas b.piv b.rows ord (order - ord) res = res1 at r1 r2 ⊢
      obtain ⟨v1, -, v3⟩ := moveRows_spec m (ord - 1) (order - 1) (usual m pk.rows b s).isPiv res1 (by omega)
      by_cases hex : ∃ i', i' < pk.rows ∧ b.pos i' = i
      · obtain ⟨i', hi', rfl⟩ := hex
        have hpv : (usual m pk.rows b s).isPiv (b.pos i') = true := by
          by_contra hf
          exact (u2 (b.pos i')).1 (by simpa using hf) i' hi' rfl
        rw [v3 d _ (Or.inr (Or.inr (Or.inr hpv))), r1 d i' j (by omega) (by omega) hi']
        rw [resid_comb (V := s.poly) (κ := fun t => b.kerbas.e (i', t)) fun l hl => u4 i' l hi' hl]
        exact Finset.sum_congr rfl fun l hl => by rw [hres d l j (by omega) hd2 (Finset.mem_range.1 hl) hj]
      · have hn : ∀ i', i' < pk.rows → b.pos i' ≠ i := fun i' hi' e => hex ⟨i', hi', e⟩
        have := v1 (d - 1) i (by omega) (by omega) hi ((u2 i).2 hn)
        rw [show d - 1 + 1 = d by omega] at this
        rw [this, r2 _ _ (Or.inr (Or.inr hn)), hres (d - 1) i j (by omega) (by omega) hi hj]
        obtain ⟨d', rfl⟩ : ∃ d', d = d' + 1 := ⟨d - 1, by omega⟩
        rw [resid_X (V := s.poly) fun l hl => u5 i l hi hl hn]
        rfl
    · rw [if_neg hk0, if_neg hkm]
      have hkm' : pk.rows = m := by omega
      rw [hkm'] at k2 k3
      have hR0 : ∀ i j, i < m → j < n → resid m s.poly A (ord - 1) i j = 0 := by
        intro i j hi hj
        rw [← hres0 i j hi hj]
        obtain ⟨i', hi', rfl⟩ := hp.surj i hi
        exact zero_of_full k2 k3 i' j hi' hj
      have hs' := hs.full hR0
      rw [show ord - 1 + 1 = ord + 1 - 1 by omega] at hs'
      exact resupdateLoop_spec hN app0 steps (ord + 1) s res (by omega) (by omega) hs' hip fun d i j h1 h2 => hres d i j (by omega) h2

theorem resupdate_good {N : Nt F} (hN : N.Ok) (app0 pmat : PMat F[X]) (order : Nat) (s : Nat → Int) (hm : 0 < pmat.rows) :
    ∃ P t, resupdate N app0 pmat order s = .ok (P, t) ∧ P.rows = pmat.rows ∧ P.cols = pmat.rows ∧
      Good pmat.rows pmat.cols (fun i j => pmat.e (i, j)) s order t fun i j => P.e (i, j) := by
  have hpc := (C65_conv_order pmat pmat order 0 0 0 fun _ _ => 0).1.2
  unfold resupdate
  dsimp only
  rw [if_neg (by omega)]
  refine resupdateLoop_spec hN app0 order 1 _ _ (le_refl _) (by omega) (start_ok _ _ _ _) (fun _ => rfl) fun d i j _ hd hi hj => ?_
  rw [resid_start _ _ _ _ _ _ hi, hpc d i j hd hi hj]

/-- `mbasis` -/
theorem mbasis_good {N : Nt F} (hN : N.Ok) (app0 pmat : PMat F[X]) (order : Nat) (s : Nat → Int) (hm : 0 < pmat.rows)
    (hord : 0 < order ∨ pmat.rows / 2 + 1 < pmat.cols) :
    ∃ P t, mbasis N app0 pmat order s = .ok (P, t) ∧ P.rows = pmat.rows ∧ P.cols = pmat.rows ∧
      Good pmat.rows pmat.cols (fun i j => pmat.e (i, j)) s order t fun i j => P.e (i, j) := by
  unfold mbasis
  split_ifs with h
  · exact resupdate_good hN app0 pmat order s hm
  · exact rescomp_good hN app0 pmat order s (hord.resolve_right h) hm

/-! ### pmbasis -/

/-- What is assumed of `middle_product` (C69): here `dB` may be smaller than the degree of `a`. -/
def MiddleOk (mid : PMat F[X] → PMat F[X] → Nat → Nat → Option (PMat F[X])) : Prop :=
  ∀ (a c : PMat F[X]) (dA dB : Nat), a.cols = c.rows → 0 < a.cols → 0 ≤ deg a → deg a ≤ dA → deg c ≤ dA + dB →
    ∃ b, mid a c dA dB = some b ∧ IsMiddle a c dA dB b

theorem Good.of_congr {m n : Nat} {A B : Nat → Nat → F[X]} {s0 : Nat → Int} {d : Nat} {s : Nat → Int} {V : Nat → Nat → F[X]}
    (h : Good m n A s0 d s V) (hAB : ∀ i j, i < m → j < n → ∀ k, k < d → (A i j).coeff k = (B i j).coeff k) : Good m n B s0 d s V := by
  refine ⟨?_, h.piv, h.deg⟩
  have hdvd : ∀ i j, X ^ d ∣ tm m n B i j - tm m n A i j := by
    intro i j
    rw [X_pow_dvd_iff]
    intro k hk
    rw [coeff_sub]
    show (B i j).coeff k - (A i j).coeff k = 0
    rw [hAB i j i.2 j.2 k hk, sub_self]
  have key : ∀ (v : Fin m → F[X]) (j : Fin n), X ^ d ∣ ∑ l, v l * tm m n B l j - ∑ l, v l * tm m n A l j := by
    intro v j
    rw [← Finset.sum_sub_distrib]
    refine Finset.dvd_sum fun l _ => ?_
    rw [← mul_sub]
    exact Dvd.dvd.mul_left (hdvd l j) _
  constructor
  · intro i j
    have h1 := key (tm m m V i) j
    have h2 := h.gen.sound i j
    rw [Matrix.mul_apply] at h2 ⊢
    have := dvd_add h1 h2
    rwa [sub_add_cancel] at this
  · intro v hv
    refine h.gen.complete v fun j => ?_
    have h1 := key v j
    have h2 := hv j
    change X ^ d ∣ ∑ l, v l * tm m n B l j at h2
    show X ^ d ∣ ∑ l, v l * tm m n A l j
    have := dvd_sub h2 h1
    rwa [sub_sub_cancel] at this

theorem Good.deg_nonneg {pmat : PMat F[X]} {s0 s : Nat → Int} {d : Nat} {P : PMat F[X]} (hr : P.rows = pmat.rows) (hc : P.cols = pmat.rows)
    (hm : 0 < pmat.rows) (h : Good pmat.rows pmat.cols (fun i j => pmat.e (i, j)) s0 d s fun i j => P.e (i, j)) : 0 ≤ Utils.deg P := by
  have h1 := (deg_spec P).1
  by_contra hneg
  have hz := (deg_neg_iff P).1 (by omega) 0 0 (by omega) (by omega)
  exact (h.piv.row ⟨0, hm⟩).entry_ne hz

theorem pmbasis_good {N : Nt F} (hN : N.Ok) {mid : PMat F[X] → PMat F[X] → Nat → Nat → Option (PMat F[X])} (hmid : MiddleOk mid)
    {mul : PMat F[X] → PMat F[X] → Option (PMat F[X])} (hmul : MulOk mul) {thr : Nat} (hthr : 0 < thr) :
    ∀ (fuel : Nat) (app0 pmat : PMat F[X]) (order : Nat) (s : Nat → Int), order ≤ fuel → 0 < pmat.rows →
    (0 < order ∨ pmat.rows / 2 + 1 < pmat.cols) →
    ∃ P t, pmbasis N mid mul thr fuel app0 pmat order s = .ok (P, t) ∧ P.rows = pmat.rows ∧ P.cols = pmat.rows ∧
      Good pmat.rows pmat.cols (fun i j => pmat.e (i, j)) s order t fun i j => P.e (i, j) := by
  intro fuel
  induction fuel with
  | zero =>
    intro app0 pmat order s hf hm ho
    unfold pmbasis
    rw [if_pos (by omega)]
    exact mbasis_good hN app0 pmat order s hm ho
  | succ fuel ih =>
    intro app0 pmat order s hf hm ho
    unfold pmbasis
    by_cases hthr' : order ≤ thr
    · rw [if_pos hthr']
      exact mbasis_good hN app0 pmat order s hm ho
    rw [if_neg hthr']
    dsimp only
    obtain ⟨t1, t2, t3⟩ := C65_trunc false (⟨0, 0, fun _ => 0⟩ : PMat F[X]) pmat (order / 2)
    generalize trunc false (⟨0, 0, fun _ => 0⟩ : PMat F[X]) pmat (order / 2) = T at t1 t2 t3 ⊢
    obtain ⟨P1, s1, e1, r1, c1, hG1⟩ := ih app0 T (order / 2) s (by omega) (by omega) (Or.inl (by omega))
    rw [e1]
    simp only [andThen]
    rw [t1] at r1 c1
    rw [t1, t2] at hG1
    have hG1' : Good pmat.rows pmat.cols (fun i j => pmat.e (i, j)) s (order / 2) s1 fun i j => P1.e (i, j) :=
      hG1.of_congr fun i j hi hj k hk => by rw [t3 i j hi hj, if_pos hk]
    obtain ⟨u1, u2, u3⟩ := C65_trunc false T pmat order
    generalize trunc false T pmat order = U at u1 u2 u3 ⊢
    have hdeg1 := hG1'.deg_le r1 c1
    have hdegU : deg U ≤ (order / 2 : Nat) + (order - order / 2 - 1 : Nat) := by
      have := (deg_lt_iff U order).2 fun i j hi hj k hk => by rw [u3 i j (by omega) (by omega), if_neg (by omega)]
      omega
    obtain ⟨R, e2, m1, m2, m3⟩ := hmid P1 U (order / 2) (order - order / 2 - 1) (by omega) (by omega) (hG1'.deg_nonneg r1 c1 hm) hdeg1 hdegU
    rw [e2]
    simp only [ofMid]
    obtain ⟨P2, s2, e3, r2, c2, hG2⟩ := ih ⟨0, 0, fun _ => 0⟩ R (order - order / 2) s1 (by omega) (by omega) (Or.inl (by omega))
    rw [e3]
    dsimp only
    rw [m1, r1] at r2 c2
    rw [m1, m2, r1, u2] at hG2
    obtain ⟨P, e4, p1, p2, p3⟩ := hmul P2 P1 (by omega) (by omega)
    rw [e4]
    simp only [ofOpt]
    refine ⟨P, s2, rfl, by omega, by omega, ?_⟩
    rw [r1, u2, c1] at m3
    -- the residual
    have hcoef : ∀ i j, i < pmat.rows → j < pmat.cols → ∀ k, k < order - order / 2 →
        (R.e (i, j)).coeff k = (∑ l ∈ Finset.range pmat.rows, P1.e (i, l) * pmat.e (l, j)).coeff (order / 2 + k) := by
      intro i j hi hj k hk
      rw [m3 i j hi hj k, if_pos (by omega), finsetSum_coeff, finsetSum_coeff]
      refine Finset.sum_congr rfl fun l hl => ?_
      have hl := Finset.mem_range.1 hl
      rw [(Polynomial.modByMonic_eq_self_iff (monic_X_pow _)).2 (by
        rw [degree_X_pow, degree_lt_iff_coeff_zero]
        intro x hx
        exact coeff_of_deg P1 i l x (by omega) (by omega) (by omega))]
      rw [coeff_mul_range, coeff_mul_range]
      refine Finset.sum_congr rfl fun x hx => ?_
      rw [u3 l j (by omega) (by omega), if_pos (by have := Finset.mem_range.1 hx; omega)]
    have hsum : order / 2 + (order - order / 2) = order := by omega
    have hPe : tm pmat.rows pmat.rows (fun i j => P.e (i, j)) =
        tm pmat.rows pmat.rows (fun i j => P2.e (i, j)) * tm pmat.rows pmat.rows fun i j => P1.e (i, j) := by
      funext i j
      rw [tm_mul]
      show P.e (i, j) = _
      rw [p3 i j (by rw [r2]; exact i.2) (by rw [c1]; exact j.2), c2]
    refine ⟨?_, ?_, fun i l hi hl k hk => ?_⟩
    · rw [hPe]
      have := Generates.mul (d₁ := order / 2) (d₂ := order - order / 2) hG1'.gen (G := tm pmat.rows pmat.cols fun i j => R.e (i, j))
        (fun i j => ?_) hG2.gen
      · rwa [hsum] at this
      · rw [hsum, X_pow_dvd_iff]
        intro k hk
        rw [coeff_sub, coeff_X_pow_mul']
        by_cases hk1 : k < order / 2
        · rw [if_neg (by omega), sub_zero]
          exact coeff_of_dvd (hG1'.gen.sound i j) hk1
        · rw [if_pos (by omega), tm_mul, show tm pmat.rows pmat.cols (fun i j => R.e (i, j)) i j = R.e (i, j) from rfl,
            hcoef i j i.2 j.2 _ (by omega), show order / 2 + (k - order / 2) = k by omega, sub_self]
    · rw [hPe]
      exact hG1'.piv.mul hG2.piv
    · rw [p3 i l (by omega) (by omega), finsetSum_coeff]
      refine Finset.sum_eq_zero fun x hx => ?_
      have hx := Finset.mem_range.1 hx
      rw [coeff_mul_range]
      refine Finset.sum_eq_zero fun y hy => ?_
      by_cases hy2 : order - order / 2 < y
      · rw [hG2.deg i x hi (by omega) y hy2, zero_mul]
      · rw [hG1'.deg x l (by omega) hl (k - y) (by omega), mul_zero]

/-! ### The assumptions can be satisfied -/

/-- Every space has generators in echelon form. -/
theorem exists_echelon (W : Submodule F (Nat → F)) (n : Nat) : ∃ (k : Nat) (E : Nat → Nat → F) (q : Nat → Nat),
    (∀ r, r < k → E r ∈ W ∧ q r < n ∧ E r (q r) ≠ 0 ∧ ∀ j, j < q r → E r j = 0) ∧ (∀ r r', r < r' → r' < k → q r < q r') ∧
    ∀ v ∈ W, ∃ c : Nat → F, ∀ l, l < n → v l = ∑ r ∈ Finset.range k, c r * E r l := by
  have key : ∀ t, t ≤ n → ∃ (k : Nat) (E : Nat → Nat → F) (q : Nat → Nat),
      (∀ r, r < k → E r ∈ W ∧ n - t ≤ q r ∧ q r < n ∧ E r (q r) ≠ 0 ∧ ∀ j, j < q r → E r j = 0) ∧
      (∀ r r', r < r' → r' < k → q r < q r') ∧
      ∀ v ∈ W, (∀ j, j < n - t → v j = 0) → ∃ c : Nat → F, ∀ l, l < n → v l = ∑ r ∈ Finset.range k, c r * E r l := by
    intro t
    induction t with
    | zero =>
      intro _
      exact ⟨0, fun _ _ => 0, fun _ => 0, fun r hr => by omega, fun r r' _ h => by omega, fun v _ hv => ⟨0, fun l hl => by
        rw [Finset.range_zero, Finset.sum_empty]; exact hv l (by omega)⟩⟩
    | succ t ih =>
      intro ht
      obtain ⟨k, E, q, h1, h2, h3⟩ := ih (by omega)
      by_cases hw : ∃ w ∈ W, w (n - (t + 1)) ≠ 0 ∧ ∀ j, j < n - (t + 1) → w j = 0
      · obtain ⟨w, hw1, hw2, hw3⟩ := hw
        refine ⟨k + 1, fun r => match r with | 0 => w | r + 1 => E r, fun r => match r with | 0 => n - (t + 1) | r + 1 => q r,
          fun r hr => ?_, fun r r' hr hr' => ?_, fun v hv hz => ?_⟩
        · cases r with
          | zero => exact ⟨hw1, le_refl _, by dsimp only; omega, hw2, hw3⟩
          | succ r =>
            obtain ⟨a1, a2, a3, a4, a5⟩ := h1 r (by omega)
            exact ⟨a1, by dsimp only; omega, a3, a4, a5⟩
        · cases r' with
          | zero => omega
          | succ r' =>
            cases r with
            | zero => have := (h1 r' (by omega)).2.1; dsimp only; omega
            | succ r => exact h2 r r' (by omega) (by omega)
        · obtain ⟨c, hc⟩ := h3 (v - (v (n - (t + 1)) / w (n - (t + 1))) • w) (W.sub_mem hv (W.smul_mem _ hw1)) (fun j hj => by
            rw [Pi.sub_apply, Pi.smul_apply, smul_eq_mul]
            by_cases e : j = n - (t + 1)
            · subst e; rw [div_mul_cancel₀ _ hw2, sub_self]
            · rw [hz j (by omega), hw3 j (by omega), mul_zero, sub_zero])
          refine ⟨fun r => match r with | 0 => v (n - (t + 1)) / w (n - (t + 1)) | r + 1 => c r, fun l hl => ?_⟩
          rw [Finset.sum_range_succ']
          have := hc l hl
          rw [Pi.sub_apply, Pi.smul_apply, smul_eq_mul] at this
          dsimp only
          rw [← this, sub_add_cancel]
      · refine ⟨k, E, q, fun r hr => ?_, h2, fun v hv hz => h3 v hv fun j hj => ?_⟩
        · obtain ⟨a1, a2, a3, a4, a5⟩ := h1 r hr
          exact ⟨a1, by omega, a3, a4, a5⟩
        · by_cases e : j = n - (t + 1)
          · subst e
            by_contra hne
            exact hw ⟨v, hv, hne, hz⟩
          · exact hz j (by omega)
  obtain ⟨k, E, q, h1, h2, h3⟩ := key n (le_refl _)
  exact ⟨k, E, q, fun r hr => ⟨(h1 r hr).1, (h1 r hr).2.2⟩, h2, fun v hv => h3 v hv fun j hj => by omega⟩

/-- A space given by its first `n` entries. -/
theorem exists_echelon' (W : Submodule F (Nat → F)) (n : Nat) (hW : ∀ v, (∀ l, l < n → v l = 0) → v ∈ W) :
    ∃ (k : Nat) (E : Nat → Nat → F) (q : Nat → Nat),
    ((∀ r, r < k → q r < n ∧ E r (q r) ≠ 0 ∧ ∀ j, j < q r → E r j = 0) ∧ (∀ r r', r < r' → r' < k → q r < q r')) ∧
    ∀ v, v ∈ W ↔ ∃ c : Nat → F, ∀ l, l < n → v l = ∑ r ∈ Finset.range k, c r * E r l := by
  obtain ⟨k, E, q, h1, h2, h3⟩ := exists_echelon W n
  refine ⟨k, E, q, ⟨fun r hr => (h1 r hr).2, h2⟩, fun v => ⟨h3 v, ?_⟩⟩
  rintro ⟨c, hc⟩
  have hmem : (∑ r ∈ Finset.range k, c r • E r) ∈ W := W.sum_mem fun r hr => W.smul_mem _ (h1 r (Finset.mem_range.1 hr)).1
  have : v = (v - ∑ r ∈ Finset.range k, c r • E r) + ∑ r ∈ Finset.range k, c r • E r := (sub_add_cancel _ _).symm
  rw [this]
  refine W.add_mem (hW _ fun l hl => ?_) hmem
  rw [Pi.sub_apply, Finset.sum_apply, hc l hl]
  exact sub_self _

theorem exists_kernel (A : PMat F) : ∃ X, IsLeftKernel A X := by
  let W : Submodule F (Nat → F) :=
    { carrier := {v | ∀ j, j < A.cols → ∑ l ∈ Finset.range A.rows, v l * A.e (l, j) = 0}
      add_mem' := fun {a b} ha hb j hj => by
        simp only [Pi.add_apply, add_mul, Finset.sum_add_distrib]; rw [ha j hj, hb j hj, add_zero]
      zero_mem' := fun j _ => by simp
      smul_mem' := fun c v hv j hj => by
        simp only [Pi.smul_apply, smul_eq_mul, mul_assoc]; rw [← Finset.mul_sum, hv j hj, mul_zero] }
  obtain ⟨k, E, q, ⟨h1, h2⟩, h3⟩ := exists_echelon' W A.rows fun v hv j _ =>
    Finset.sum_eq_zero fun l hl => by rw [hv l (Finset.mem_range.1 hl), zero_mul]
  exact ⟨⟨k, A.rows, fun ij => E ij.1 ij.2⟩, rfl, echelon_indep h1 h2, h3⟩

theorem exists_image (A : PMat F) : ∃ X, IsImage A X := by
  let W : Submodule F (Nat → F) :=
    { carrier := {v | ∃ c : Nat → F, ∀ l, l < A.cols → v l = ∑ r ∈ Finset.range A.rows, c r * A.e (r, l)}
      add_mem' := fun {a b} ha hb => by
        obtain ⟨c, hc⟩ := ha
        obtain ⟨d, hd⟩ := hb
        exact ⟨fun r => c r + d r, fun l hl => by
          rw [Pi.add_apply, hc l hl, hd l hl, ← Finset.sum_add_distrib]
          exact Finset.sum_congr rfl fun r _ => by ring⟩
      zero_mem' := ⟨0, fun l _ => by simp⟩
      smul_mem' := fun c v hv => by
        obtain ⟨d, hd⟩ := hv
        exact ⟨fun r => c * d r, fun l hl => by
          rw [Pi.smul_apply, smul_eq_mul, hd l hl, Finset.mul_sum]
          exact Finset.sum_congr rfl fun r _ => by ring⟩ }
  obtain ⟨k, E, q, h1, h3⟩ := exists_echelon' W A.cols fun v hv => ⟨0, fun l hl => by rw [hv l hl]; simp⟩
  exact ⟨⟨k, A.cols, fun ij => E ij.1 ij.2⟩, rfl, h3, q, h1⟩

/-- There are functions with the properties assumed of `kernel` and `image`. -/
theorem nt_exists : ∃ N : Nt F, N.Ok := by
  choose ker hk using exists_kernel (F := F)
  choose img hi using exists_image (F := F)
  exact ⟨⟨ker, img⟩, hk, hi⟩

theorem middleOk_exists : ∃ mid : PMat F[X] → PMat F[X] → Nat → Nat → Option (PMat F[X]), MiddleOk mid := by
  refine ⟨fun a c dA dB => some ⟨a.rows, c.cols, fun ij => ofCoeffs (dB + 1) fun k =>
    (∑ l ∈ Finset.range a.cols, (a.e (ij.1, l) %ₘ X ^ (dA + 1)) * c.e (l, ij.2)).coeff (dA + k)⟩, fun a c dA dB _ _ _ _ _ => ⟨_, rfl, rfl, rfl, ?_⟩⟩
  intro i j _ _ k
  dsimp only
  rw [ofCoeffs_coeff]
  simp only [Nat.lt_succ_iff]

/-! ### The properties -/

/-- Rows whose last entries, for the order by (degree, index), are at distinct places are independent. -/
theorem BaseOk.indep {m n : Nat} {A : Nat → Nat → F} {s : Nat → Int} {k : Nat} {b : Base F} (h : BaseOk m n A s k b) (c : Nat → F)
    (hc : ∀ l, l < m → ∑ r ∈ Finset.range k, c r * b.kerbas.e (r, l) = 0) : ∀ r, r < k → c r = 0 := by
  by_contra hcon
  push Not at hcon
  obtain ⟨r0, hr0, hne0⟩ := hcon
  obtain ⟨r, hr, hmax⟩ := Finset.exists_max_image ((Finset.range k).filter fun r => c r ≠ 0) (fun r => toLex (s (b.pos r), b.pos r))
    ⟨r0, Finset.mem_filter.2 ⟨Finset.mem_range.2 hr0, hne0⟩⟩
  obtain ⟨hrk, hcr⟩ := Finset.mem_filter.1 hr
  have hrk := Finset.mem_range.1 hrk
  have := hc (b.pos r) (h.lt _ (h.rows r hrk))
  rw [Finset.sum_eq_single r] at this
  · exact (mul_ne_zero hcr (h.ne r hrk)) this
  · intro r' hr' hrr
    have hr' := Finset.mem_range.1 hr'
    by_cases h1 : c r' = 0
    · rw [h1, zero_mul]
    · by_cases h2 : b.kerbas.e (r', b.pos r) = 0
      · rw [h2, mul_zero]
      · have hl := h.lex r' (b.pos r) hr' (h.lt _ (h.rows r hrk)) (fun e => hrr (h.inj r r' hrk hr' e).symm) h2
        have hm := hmax r' (Finset.mem_filter.2 ⟨Finset.mem_range.2 hr', h1⟩)
        rw [Prod.Lex.toLex_le_toLex] at hm
        unfold Lex at hl
        change _ < s (b.pos r') ∨ (_ = s (b.pos r') ∧ _ < b.pos r') at hl
        dsimp only at hm
        omega
  · intro hn; exact absurd (Finset.mem_range.2 hrk) hn

/-- C76: the base case `mbasis1` never fails; its result is a basis of the left kernel of the constant matrix.
    When this kernel is neither zero nor everything, the rows have their last entries, for the order by
    (degree, index), at increasing places, which are those where the vector returned is 0; it is 1 elsewhere. -/
theorem C76_mbasis1 {N : Nt F} (hN : N.Ok) (kerbas pmat : PMat F) (s : Nat → Int) :
    ∃ K diff, mbasis1 N kerbas pmat s = .ok (K, diff) ∧ IsLeftKernel pmat K ∧
      (K.rows = 0 → ∀ i, diff i = 1) ∧ (0 < K.rows → K.rows = pmat.rows → ∀ i, diff i = 0) ∧
      (0 < K.rows → K.rows < pmat.rows → ∃ L : Nat → Nat, (∀ i, i < K.rows → L i < pmat.rows) ∧ (∀ i j, i < j → j < K.rows → L i < L j) ∧
        (∀ i, i < K.rows → K.e (i, L i) ≠ 0) ∧
        (∀ i l, i < K.rows → l < pmat.rows → K.e (i, l) ≠ 0 → l = L i ∨ s l < s (L i) ∨ (s l = s (L i) ∧ l < L i)) ∧
        ∀ t, ((∃ i, i < K.rows ∧ L i = t) → diff t = 0) ∧ ((¬∃ i, i < K.rows ∧ L i = t) → diff t = 1)) := by
  have hp := sortBy_spec s pmat.rows
  obtain ⟨h1, h2, h3⟩ := kernel_facts hN (permRows pmat.rows pmat.cols (sortBy s pmat.rows) pmat)
  unfold mbasis1
  dsimp only
  generalize hK : N.ker (permRows pmat.rows pmat.cols (sortBy s pmat.rows) pmat) = K at *
  change K.cols = pmat.rows at h1
  change ∀ c : Nat → F, (∀ l, l < pmat.rows → _) → _ at h2
  change Spans pmat.rows pmat.cols (fun i j => pmat.e ((sortBy s pmat.rows).getD i 0, j)) _ _ at h3
  by_cases hk0 : K.rows = 0
  · rw [if_pos hk0]
    have := Spans.unperm hp (A := fun i j => pmat.e (i, j)) h3 hk0
    exact ⟨K, _, rfl, ⟨h1, h2, by rw [hk0]; exact this⟩, fun _ _ => rfl, fun h => by omega, fun h => by omega⟩
  by_cases hkm : K.rows = pmat.rows
  · rw [if_neg hk0, if_pos hkm]
    have h2' := h2
    have h3' := h3
    rw [hkm] at h2' h3'
    have hz := zero_of_full h2' h3'
    have hz' : ∀ i j, i < pmat.rows → j < pmat.cols → pmat.e (i, j) = 0 := by
      intro i j hi hj
      obtain ⟨i', hi', rfl⟩ := hp.surj i hi
      exact hz i' j hi' hj
    refine ⟨K, _, rfl, ⟨h1, h2, fun v => ?_⟩, fun h => by omega, fun _ _ _ => rfl, fun _ h => by omega⟩
    have e1 := h3 v
    have e2 : ∀ j, j < pmat.cols → ∑ l ∈ Finset.range pmat.rows, v l * pmat.e ((sortBy s pmat.rows).getD l 0, j) = 0 := fun j hj =>
      Finset.sum_eq_zero fun l hl => by rw [hz l j (Finset.mem_range.1 hl) hj, mul_zero]
    have e3 : ∀ j, j < pmat.cols → ∑ l ∈ Finset.range pmat.rows, v l * pmat.e (l, j) = 0 := fun j hj =>
      Finset.sum_eq_zero fun l hl => by rw [hz' l j (Finset.mem_range.1 hl) hj, mul_zero]
    exact ⟨fun _ => e1.1 e2, fun _ => e3⟩
  · rw [if_neg hk0, if_neg hkm]
    obtain ⟨b, e, hb⟩ := base_spec hN (A := fun i j => pmat.e (i, j)) hp kerbas K [] h2 h3
    rw [e]
    have hd := hb.dim
    refine ⟨b.kerbas, _, rfl, ⟨hd.2, by rw [hd.1]; exact hb.indep, by rw [hd.1]; exact hb.spans⟩, fun h => by omega, fun h h' => by omega, fun _ _ => ?_⟩
    rw [hd.1]
    refine ⟨b.pos, fun i hi => hb.lt _ (hb.rows i hi), hb.mono, hb.ne, fun i l hi hl hne => ?_, fun t => ?_⟩
    · by_cases e : l = b.pos i
      · exact Or.inl e
      · exact Or.inr (hb.lex i l hi hl e hne)
    · obtain ⟨m1, m2⟩ := marks K.rows (fun a => b.piv.getD a 0) (0 : Int) (fun _ => 1) t
      refine ⟨?_, fun h => m2 ((hb.is_piv t).2 fun i hi e => h ⟨i, hi, e⟩)⟩
      rintro ⟨i, hi, e⟩
      exact m1 _ (hb.rows i hi) e

/-- C76: `mbasis_plain` never fails, and its result is an approximant basis in ordered weak Popov form, for all
    dimensions, orders and shifts. -/
theorem C76_mbasis_plain {N : Nt F} (hN : N.Ok) (app pmat : PMat F[X]) (order : Nat) (s : Nat → Int) :
    ∃ P t, plain N app pmat order s = .ok (P, t) ∧ IsMinBasis pmat order s P t := by
  obtain ⟨P, t, h1, h2, h3, h4⟩ := plain_good hN app pmat order s
  exact ⟨P, t, h1, h4.minBasis h2 h3⟩

/-- C76, partial: `mbasis_rescomp`.  Missing: order 0, matrices without rows (`C76_order_zero_fails`, `C76_no_row_fails`). -/
theorem C76_rescomp_partial {N : Nt F} (hN : N.Ok) (app0 pmat : PMat F[X]) (order : Nat) (s : Nat → Int)
    (hm : 0 < pmat.rows) (hord : 0 < order) :
    ∃ P t, rescomp N app0 pmat order s = .ok (P, t) ∧ IsMinBasis pmat order s P t := by
  obtain ⟨P, t, h1, h2, h3, h4⟩ := rescomp_good hN app0 pmat order s hord hm
  exact ⟨P, t, h1, h4.minBasis h2 h3⟩

/-- C76, partial: `mbasis_resupdate`.  Missing: matrices without rows (`C76_no_row_fails`). -/
theorem C76_resupdate_partial {N : Nt F} (hN : N.Ok) (app0 pmat : PMat F[X]) (order : Nat) (s : Nat → Int)
    (hm : 0 < pmat.rows) :
    ∃ P t, resupdate N app0 pmat order s = .ok (P, t) ∧ IsMinBasis pmat order s P t := by
  obtain ⟨P, t, h1, h2, h3, h4⟩ := resupdate_good hN app0 pmat order s hm
  exact ⟨P, t, h1, h4.minBasis h2 h3⟩

/-- C76, partial: `mbasis`.  Missing: order 0 when there are few columns, matrices without rows
    (`C76_order_zero_fails`, `C76_no_row_fails`). -/
theorem C76_mbasis_partial {N : Nt F} (hN : N.Ok) (app0 pmat : PMat F[X]) (order : Nat) (s : Nat → Int)
    (hm : 0 < pmat.rows) (hord : 0 < order ∨ pmat.rows / 2 + 1 < pmat.cols) :
    ∃ P t, mbasis N app0 pmat order s = .ok (P, t) ∧ IsMinBasis pmat order s P t := by
  obtain ⟨P, t, h1, h2, h3, h4⟩ := mbasis_good hN app0 pmat order s hm hord
  exact ⟨P, t, h1, h4.minBasis h2 h3⟩

/-- C76, partial: `pmbasis`, with the threshold 32 or any other positive one.  Missing: as for `mbasis`. -/
theorem C76_pmbasis_partial {N : Nt F} (hN : N.Ok) {mid : PMat F[X] → PMat F[X] → Nat → Nat → Option (PMat F[X])}
    (hmid : MiddleOk mid) {mul : PMat F[X] → PMat F[X] → Option (PMat F[X])} (hmul : MulOk mul) {thr : Nat} (hthr : 0 < thr)
    (app0 pmat : PMat F[X]) (order : Nat) (s : Nat → Int) (hm : 0 < pmat.rows) (hord : 0 < order ∨ pmat.rows / 2 + 1 < pmat.cols) :
    ∃ P t, pmbasis N mid mul thr order app0 pmat order s = .ok (P, t) ∧ IsMinBasis pmat order s P t := by
  obtain ⟨P, t, h1, h2, h3, h4⟩ := pmbasis_good hN hmid hmul hthr order app0 pmat order s (le_refl _) hm hord
  exact ⟨P, t, h1, h4.minBasis h2 h3⟩

/-- C76, negation: with order 0 and few columns, `mbasis` and `pmbasis` read the first entry of an empty vector. -/
theorem C76_order_zero_fails (N : Nt F) (mid : PMat F[X] → PMat F[X] → Nat → Nat → Option (PMat F[X]))
    (mul : PMat F[X] → PMat F[X] → Option (PMat F[X])) (thr fuel : Nat) (app0 pmat : PMat F[X]) (s : Nat → Int)
    (h : pmat.cols ≤ pmat.rows / 2 + 1) :
    mbasis N app0 pmat 0 s = .ub ∧ pmbasis N mid mul thr fuel app0 pmat 0 s = .ub := by
  have h1 : mbasis N app0 pmat 0 s = .ub := by
    unfold mbasis rescomp
    rw [if_neg (by omega), if_pos rfl]
  refine ⟨h1, ?_⟩
  unfold pmbasis
  rw [if_pos (Nat.zero_le _), h1]

/-- C76, negation: a matrix without rows makes `mbasis` raise an error (or read out of bounds, for order 0), while
    `mbasis_plain` returns the basis. -/
theorem C76_no_row_fails {N : Nt F} (hN : N.Ok) (app0 pmat : PMat F[X]) (order : Nat) (s : Nat → Int) (h : pmat.rows = 0) (hord : 0 < order) :
    mbasis N app0 pmat order s = .error ∧ ∃ P t, plain N app0 pmat order s = .ok (P, t) ∧ IsMinBasis pmat order s P t := by
  refine ⟨?_, C76_mbasis_plain hN app0 pmat order s⟩
  unfold mbasis resupdate rescomp
  dsimp only
  split_ifs with h1 h2
  · rfl
  · omega
  · rfl

/-! ### Cases -/

/-- A column `(1, X, 1 + X)`. -/
noncomputable def col5 : PMat (ZMod 5)[X] := ⟨3, 1, fun ij => if ij.1 = 0 then 1 else if ij.1 = 1 then X else 1 + X⟩

example : ∃ (N : Nt (ZMod 5)) (P : _) (t : _), N.Ok ∧ mbasis N ⟨0, 0, fun _ => 0⟩ col5 4 (fun i => i) = .ok (P, t) ∧ IsMinBasis col5 4 (fun i => i) P t :=
  let ⟨N, hN⟩ := nt_exists (F := ZMod 5)
  let ⟨P, t, h⟩ := C76_mbasis_partial hN ⟨0, 0, fun _ => 0⟩ col5 4 (fun i => i) (Nat.succ_pos 2) (Or.inl (Nat.succ_pos 3))
  ⟨N, P, t, hN, h⟩

/-- Two levels of recursion. -/
example : ∃ (N : Nt (ZMod 5)) (mid : _) (mul : _) (P : _) (t : _), N.Ok ∧ MiddleOk mid ∧ MulOk mul ∧
    pmbasis N mid mul 32 100 ⟨0, 0, fun _ => 0⟩ col5 100 (fun i => i) = .ok (P, t) ∧ IsMinBasis col5 100 (fun i => i) P t :=
  let ⟨N, hN⟩ := nt_exists (F := ZMod 5)
  let ⟨mid, hmid⟩ := middleOk_exists (F := ZMod 5)
  let ⟨mul, hmul⟩ := mulOk_exists (F := ZMod 5)
  let ⟨P, t, h⟩ := C76_pmbasis_partial hN hmid hmul (Nat.succ_pos 31) ⟨0, 0, fun _ => 0⟩ col5 100 (fun i => i) (Nat.succ_pos 2) (Or.inl (Nat.succ_pos 99))
  ⟨N, mid, mul, P, t, hN, hmid, hmul, h⟩

/-- The identity is not the basis at a positive order. -/
example (t : Nat → Int) : ¬IsMinBasis col5 1 (fun _ => 0) (ident ⟨0, 0, fun _ => 0⟩ 3) t := by
  intro h
  have hz : (0 : Nat) < col5.rows := Nat.succ_pos 2
  have hb := h.basis
  have hI : mat col5.rows col5.rows (ident (⟨0, 0, fun _ => 0⟩ : PMat (ZMod 5)[X]) 3) = 1 := by
    funext i j
    rw [Matrix.one_apply]
    show (ident (⟨0, 0, fun _ => 0⟩ : PMat (ZMod 5)[X]) 3).e (i, j) = _
    rw [(C65_ident (⟨0, 0, fun _ => 0⟩ : PMat (ZMod 5)[X]) 3).2.2 i j i.2 j.2]
    simp only [Fin.ext_iff]
  rw [hI] at hb
  have := (hb.generates (Pi.single ⟨0, hz⟩ 1)).2 ⟨Pi.single ⟨0, hz⟩ 1, by rw [Matrix.vecMul_one]⟩ ⟨0, Nat.succ_pos 0⟩
  rw [Matrix.single_one_vecMul, pow_one, X_dvd_iff] at this
  change (1 : (ZMod 5)[X]).coeff 0 = 0 at this
  rw [coeff_one, if_pos rfl] at this
  exact one_ne_zero this

example (N : Nt (ZMod 5)) : mbasis N ⟨0, 0, fun _ => 0⟩ col5 0 (fun _ => 0) = .ub :=
  (C76_order_zero_fails N (fun _ _ _ _ => none) (fun _ _ => none) 32 0 _ col5 _ (by show 1 ≤ 3 / 2 + 1; omega)).1

end PML.Ntl.Mbasis
