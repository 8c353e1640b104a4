import Verif.Ntl.IntbasState
import Verif.Ntl.MbasisProps

/-!
# mbasis_rescomp, mbasis_resupdate and pmbasis for interpolants
-/

namespace PML.Ntl.Intbas

open Polynomial PML.Ntl.Utils PML.Ntl.Inv PML.Ntl.Solve PML.Ntl.Mbasis PML.Approx PML.Approx.Spec

set_option linter.unusedSectionVars false

variable {F : Type} [Field F] [DecidableEq F]

/-- The matrices from `off` on. -/
def from' (E : Nat × Nat → Nat → F) (off : Nat) : Nat → Nat → Nat → F := fun k l j => E (off + k, l) j

theorem rescompLoopI_spec {N : Nt F} (hN : N.Ok) {m n off order : Nat} (E : Nat × Nat → Nat → F) (x : Nat → F) {s0 : Nat → Int}
    (int0 : PMat F[X]) :
    ∀ (steps t : Nat) (s : State F) (res pRes : Nat → Nat → F), t + steps = order →
    SOkI m n (from' E off) (fun k => x (off + k)) s0 t s →
    (steps ≠ 0 → (∀ i, s.isPiv i = false) ∧
      ∀ i j, i < m → j < n → res i j = residI m s.poly (from' E off) (fun k => x (off + k)) t i j) →
    ∃ P sh, rescompLoop N m n E x int0 steps (off + t) s res pRes = .ok (P, sh) ∧ P.rows = m ∧ P.cols = m ∧
      GoodI m n (from' E off) (fun k => x (off + k)) s0 order sh fun i j => P.e (i, j)
  | 0, t, s, res, pRes => by
    intro hos hs _
    obtain ⟨t1, t2, t3⟩ := toPolyI_spec hs int0
    refine ⟨_, _, rfl, t1, t2, ?_⟩
    rw [show order = t by omega]
    exact hs.good.congr (fun _ _ => rfl) t3
  | steps + 1, t, s, res, pRes => by
    intro hos hs hsteps
    obtain ⟨hip, hres⟩ := hsteps (Nat.succ_ne_zero steps)
    have hp := sortBy_spec s.shift m
    unfold rescompLoop
    dsimp only
    obtain ⟨w1, w2⟩ := swap_loop hp pRes res
    generalize (forN m (fun i (st : (Nat → Nat → F) × (Nat → Nat → F)) =>
      (write i (st.2 ((sortBy s.shift m).getD i 0)) st.1, write ((sortBy s.shift m).getD i 0) (st.1 i) st.2)) (pRes, res)) = sw at w1 w2 ⊢
    obtain ⟨-, k2, k3⟩ := kernel_facts hN ⟨m, n, fun ij => sw.1 ij.1 ij.2⟩
    generalize N.ker ⟨m, n, fun ij => sw.1 ij.1 ij.2⟩ = pk at k2 k3 ⊢
    dsimp only at k2 k3
    have k3' : Spans m n (fun i j => res ((sortBy s.shift m).getD i 0) j) pk.rows fun r l => pk.e (r, l) := by
      intro v
      rw [← k3 v]
      refine forall_congr' fun j => forall_congr' fun _ => ?_
      have : ∑ l ∈ Finset.range m, v l * sw.1 l j = ∑ l ∈ Finset.range m, v l * res ((sortBy s.shift m).getD l 0) j :=
        Finset.sum_congr rfl fun l hl => by rw [← w1 l (Finset.mem_range.1 hl)]
      rw [this]
    have hle := rows_le k2 k3
    have hnext : ∀ s' : State F, SOkI m n (from' E off) (fun k => x (off + k)) s0 (t + 1) s' → steps ≠ 0 →
        ∀ i j, i < m → j < n →
        (if steps = 0 then sw.2 else nextRes m s' (x (off + t + 1)) fun l => E (off + t + 1, l)) i j =
          residI m s'.poly (from' E off) (fun k => x (off + k)) (t + 1) i j := by
      intro s' hs' h0 i j hi hj
      rw [if_neg h0]
      exact nextRes_spec hs' (t + 1) (fun l => E (off + t + 1, l)) (fun l j _ _ => rfl) i j hi hj
    by_cases hk0 : pk.rows = 0
    · rw [if_pos hk0]
      obtain ⟨z1, -⟩ := zeroStep_ok hs hres (Spans.unperm hp (A := res) k3' hk0)
      exact rescompLoopI_spec hN E x int0 steps (t + 1) _ _ sw.1 (by omega) z1 fun h0 => ⟨hip, hnext _ z1 h0⟩
    by_cases hkm : pk.rows = m
    · rw [if_neg hk0, if_pos hkm]
      rw [hkm] at k2 k3'
      have hR0 : ∀ i j, i < m → j < n → residI m s.poly (from' E off) (fun k => x (off + k)) t i j = 0 := by
        intro i j hi hj
        rw [← hres i j hi hj]
        obtain ⟨i', hi', rfl⟩ := hp.surj i hi
        exact zero_of_full k2 k3' i' j hi' hj
      have hs' := hs.full hR0
      exact rescompLoopI_spec hN E x int0 steps (t + 1) s _ sw.1 (by omega) hs' fun h0 => ⟨hip, hnext _ hs' h0⟩
    · rw [if_neg hk0, if_neg hkm]
      obtain ⟨b, e, hb⟩ := base_spec hN (A := res) hp s.kerbas pk (s.pPiv.drop pk.rows) k2 k3'
      rw [e]
      simp only [andThen]
      obtain ⟨s', e', u1, -, u3, -, -⟩ := usualI_ok hs hres hb hip
      rw [e']
      dsimp only
      by_cases h0 : steps = 0
      · rw [if_pos h0]
        exact rescompLoopI_spec hN E x int0 steps (t + 1) s' _ sw.1 (by omega) u1 fun h => absurd h0 h
      · rw [if_neg h0]
        exact rescompLoopI_spec hN E x int0 steps (t + 1) _ _ sw.1 (by omega) u1.restore fun _ => ⟨u3, hnext s' u1 h0⟩

theorem residI_start (m : Nat) (A : Nat → Nat → Nat → F) (x : Nat → F) (s0 : Nat → Int) (k i j : Nat) (hi : i < m) :
    residI m (start m s0).poly A x k i j = A k i j := by
  have hone : ∀ l, (start (F := F) m s0).poly i l = if i = l then 1 else 0 := by
    intro l
    ext k
    unfold State.poly start
    dsimp only
    rw [ofCoeffs_coeff]
    by_cases hk : k < 1
    · have : k = 0 := by omega
      subst this
      rw [if_pos hk]
      split_ifs with h1 h2 h2
      · rw [coeff_one, if_pos rfl]
      · exact absurd h1.2 h2
      · exact absurd ⟨rfl, h2⟩ h1
      · rw [coeff_zero]
    · rw [if_neg hk]
      split_ifs
      · rw [coeff_one, if_neg (by omega)]
      · rw [coeff_zero]
  unfold residI
  rw [Finset.sum_eq_single i]
  · rw [hone, if_pos rfl, eval_one, one_mul]
  · intro l _ hne
    rw [hone, if_neg (Ne.symm hne), eval_zero, zero_mul]
  · intro h; exact absurd (Finset.mem_range.2 hi) h

theorem rescompI_good {N : Nt F} (hN : N.Ok) (int0 : PMat F[X]) (E : Evals F) (np : Nat) (x : Nat → F) (s : Nat → Int) (off order : Nat)
    (hoff : off < E.len) (hlen : off + order ≤ E.len) (hnp : off + order ≤ np) (hm : 0 < E.rows) :
    ∃ P sh, rescomp N int0 E np x s off order = .ok (P, sh) ∧ P.rows = E.rows ∧ P.cols = E.rows ∧
      GoodI E.rows E.cols (from' E.e off) (fun k => x (off + k)) s order sh fun i j => P.e (i, j) := by
  unfold rescomp
  rw [if_neg (by omega), if_neg (by omega)]
  refine rescompLoopI_spec hN E.e x int0 order 0 _ _ _ (by omega) (startI_ok _ _ _ _ _) fun _ => ⟨fun _ => rfl, fun i j hi hj => ?_⟩
  rw [residI_start _ _ _ _ _ _ _ hi]
  rfl

/-! ### mbasis_resupdate -/

theorem residI_comb {m k i j : Nat} {V V' : Nat → Nat → F[X]} {A : Nat → Nat → Nat → F} {x : Nat → F} {κ : Nat → F}
    (h : ∀ l, l < m → V' i l = ∑ t ∈ Finset.range m, C (κ t) * V t l) :
    residI m V' A x k i j = ∑ t ∈ Finset.range m, κ t * residI m V A x k t j := by
  unfold residI
  rw [Finset.sum_congr rfl fun l hl => by
    rw [h l (Finset.mem_range.1 hl), eval_finsetSum, Finset.sum_mul]]
  rw [Finset.sum_comm]
  refine Finset.sum_congr rfl fun t _ => ?_
  rw [Finset.mul_sum]
  exact Finset.sum_congr rfl fun l _ => by rw [eval_mul, eval_C]; ring

theorem residI_lin {m k i j : Nat} {V V' : Nat → Nat → F[X]} {A : Nat → Nat → Nat → F} {x : Nat → F} {a : F}
    (h : ∀ l, l < m → V' i l = (X - C a) * V i l) : residI m V' A x k i j = (x k - a) * residI m V A x k i j := by
  unfold residI
  rw [Finset.mul_sum]
  exact Finset.sum_congr rfl fun l hl => by
    rw [h l (Finset.mem_range.1 hl), eval_mul, eval_sub, eval_X, eval_C]; ring

theorem scaleRows_spec (m k0 n : Nat) (isPiv : Nat → Bool) (x : Nat → F) (pt : F) (e : Nat × Nat → Nat → F) :
    (∀ k i j, k0 ≤ k → k < k0 + n → i < m → isPiv i = false → scaleRows m k0 n isPiv x pt e (k, i) j = e (k, i) j * (x k + -pt)) ∧
    ∀ k i, (k < k0 ∨ k0 + n ≤ k ∨ m ≤ i ∨ isPiv i = true) → scaleRows m k0 n isPiv x pt e (k, i) = e (k, i) := by
  have key := forN_inv (P := fun (t : Nat) (y : Nat × Nat → Nat → F) =>
      (∀ k i j, k0 ≤ k → k < k0 + t → i < m → isPiv i = false → y (k, i) j = e (k, i) j * (x k + -pt)) ∧
      ∀ k i, (k < k0 ∨ k0 + t ≤ k ∨ m ≤ i ∨ isPiv i = true) → y (k, i) = e (k, i))
    (f := fun t => forN m fun i (e : Nat × Nat → Nat → F) =>
      let k := k0 + t
      if isPiv i then e else write (k, i) (fun j => e (k, i) j * (x k + -pt)) e) (s := e) (n := n)
    ⟨fun k i j h1 h2 => by omega, fun _ _ _ => rfl⟩ (by
      rintro t y ht ⟨q1, q2⟩
      obtain ⟨b1, b2⟩ := row_loop m (k0 + t) isPiv (fun i e j => e (k0 + t, i) j * (x (k0 + t) + -pt)) (fun i y y' h => by rw [h]) y
      refine ⟨fun k i j h1 h2 hi hp => ?_, fun k i h => ?_⟩
      · by_cases h3 : k = k0 + t
        · subst h3
          exact (congrFun (b1 i hi hp) j).trans (by rw [q2 _ _ (Or.inr (Or.inl (le_refl _)))])
        · exact (congrFun (b2 k i (Or.inl h3)) j).trans (q1 k i j h1 (by omega) hi hp)
      · by_cases h0 : m ≤ i ∨ isPiv i = true
        · exact (b2 k i (Or.inr h0)).trans (q2 k i (Or.inr (Or.inr h0)))
        · have h3 : k < k0 ∨ k0 + (t + 1) ≤ k := by
            rcases h with h | h | h
            · exact Or.inl h
            · exact Or.inr h
            · exact absurd h h0
          exact (b2 k i (Or.inl (by omega))).trans (q2 k i (by rcases h3 with h | h; exacts [Or.inl h, Or.inr (Or.inl (by omega))])))
  exact key

theorem resupdateLoopI_spec {N : Nt F} (hN : N.Ok) {m n off order : Nat} (E : Nat × Nat → Nat → F) (x : Nat → F) {s0 : Nat → Int}
    (hx : DistinctPts x off order) (int0 : PMat F[X]) :
    ∀ (steps t : Nat) (s : State F) (e : Nat × Nat → Nat → F) (c : Nat → F), t + steps = order →
    SOkI m n (from' E off) (fun k => x (off + k)) s0 t s →
    (∀ i, s.isPiv i = false) → (∀ k, t ≤ k → k < order → c k ≠ 0) →
    (∀ k i j, t ≤ k → k < order → i < m → j < n →
      e (off + k, i) j = c k * residI m s.poly (from' E off) (fun k => x (off + k)) k i j) →
    ∃ P sh e', resupdateLoop N m n x int0 steps (off + t) s e = .ok (P, sh, e') ∧ P.rows = m ∧ P.cols = m ∧
      (GoodI m n (from' E off) (fun k => x (off + k)) s0 order sh fun i j => P.e (i, j)) ∧
      ∀ k i, (k < off ∨ off + order ≤ k) → e' (k, i) = e (k, i)
  | 0, t, s, e, c => by
    intro hos hs _ _ _
    obtain ⟨t1, t2, t3⟩ := toPolyI_spec hs int0
    refine ⟨_, _, _, rfl, t1, t2, ?_, fun _ _ _ => rfl⟩
    rw [show order = t by omega]
    exact hs.good.congr (fun _ _ => rfl) t3
  | steps + 1, t, s, e, c => by
    intro hos hs hip hc hres
    have hp := sortBy_spec s.shift m
    have hct := hc t (le_refl _) (by omega)
    have hres0 : ∀ i j, i < m → j < n → e (off + t, i) j = c t * residI m s.poly (from' E off) (fun k => x (off + k)) t i j :=
      fun i j hi hj => hres _ i j (le_refl _) (by omega) hi hj
    unfold resupdateLoop
    dsimp only
    obtain ⟨-, k2, k3⟩ := kernel_facts hN ⟨m, n, fun ij => e (off + t, (sortBy s.shift m).getD ij.1 0) ij.2⟩
    generalize N.ker ⟨m, n, fun ij => e (off + t, (sortBy s.shift m).getD ij.1 0) ij.2⟩ = pk at k2 k3 ⊢
    dsimp only at k2 k3
    have hle := rows_le k2 k3
    by_cases hk0 : pk.rows = 0
    · rw [if_pos hk0]
      have hsp := Spans.scale hct hres0 (Spans.unperm hp (A := fun i j => e (off + t, i) j) k3 hk0)
      obtain ⟨z1, z2⟩ := zeroStep_ok hs (fun _ _ _ _ => rfl) hsp
      have hne : ∀ k, t + 1 ≤ k → k < order → x (off + k) - x (off + t) ≠ 0 := by
        intro k h1 h2 h
        have := hx k t h2 (by omega) (sub_eq_zero.1 h)
        omega
      refine resupdateLoopI_spec hN E x hx int0 steps (t + 1) _ e (fun k => c k * (x (off + k) - x (off + t))⁻¹) (by omega) z1 hip
        (fun k h1 h2 => mul_ne_zero (hc k (by omega) h2) (inv_ne_zero (hne k h1 h2))) fun k i j h1 h2 hi hj => ?_
      rw [hres k i j (by omega) h2 hi hj, residI_lin (V := s.poly) fun l _ => z2 i l hi, mul_assoc,
        inv_mul_cancel_left₀ (hne k h1 h2)]
    by_cases hkm : pk.rows < m
    · rw [if_neg hk0, if_pos hkm]
      obtain ⟨b, e1, hb⟩ := base_spec hN (A := fun i j => e (off + t, i) j) hp s.kerbas pk (s.pPiv.drop pk.rows) k2 k3
      rw [e1]
      simp only [andThen]
      have hb' := BaseOk.scale hct hres0 hb
      obtain ⟨s', e2, u1, u2, u3, u4, u5⟩ := usualI_ok hs (fun _ _ _ _ => rfl) hb' hip
      rw [e2]
      dsimp only
      obtain ⟨r1, r2⟩ := replaceRows_spec (m := m) b.kerbas b.piv b.rows b.pos (fun i _ => rfl) hb.inj (off + t + 1) steps e
      generalize replaceRows m pk.rows b.kerbas b.piv b.rows (off + t + 1) steps e = f at r1 r2 ⊢
      obtain ⟨v1, v2⟩ := scaleRows_spec m (off + t + 1) steps s'.isPiv x (x (off + t)) f
      generalize scaleRows m (off + t + 1) steps s'.isPiv x (x (off + t)) f = g at v1 v2 ⊢
      obtain ⟨P, sh, e', h1, h2, h3, h4, h5⟩ := resupdateLoopI_spec hN E x hx int0 steps (t + 1) (PML.Ntl.Mbasis.restore pk.rows b s') g c (by omega)
        u1.restore u3 (fun k h1 h2 => hc k (by omega) h2) (fun k i j hk1 hk2 hi hj => by
          show g (off + k, i) j = c k * residI m s'.poly (from' E off) (fun k => x (off + k)) k i j
          by_cases hex : ∃ i', i' < pk.rows ∧ b.pos i' = i
          · obtain ⟨i', hi', rfl⟩ := hex
            have hpv : s'.isPiv (b.pos i') = true := by
              by_contra hf
              exact (u2 (b.pos i')).1 (by simpa using hf) i' hi' rfl
            rw [v2 _ _ (Or.inr (Or.inr (Or.inr hpv))), r1 _ i' j (by omega) (by omega) hi']
            rw [residI_comb (V := s.poly) (κ := fun t => b.kerbas.e (i', t)) fun l hl => u4 i' l hi' hl, Finset.mul_sum]
            exact Finset.sum_congr rfl fun l hl => by rw [hres k l j (by omega) hk2 (Finset.mem_range.1 hl) hj]; ring
          · have hn : ∀ i', i' < pk.rows → b.pos i' ≠ i := fun i' hi' e => hex ⟨i', hi', e⟩
            rw [v1 _ i j (by omega) (by omega) hi ((u2 i).2 hn), r2 _ _ (Or.inr (Or.inr hn)), hres k i j (by omega) hk2 hi hj,
              residI_lin (V := s.poly) fun l hl => u5 i l hi hl hn]
            ring)
      refine ⟨P, sh, e', h1, h2, h3, h4, fun k i hk => ?_⟩
      rw [h5 k i hk, v2 k i (by rcases hk with hk | hk; exacts [Or.inl (by omega), Or.inr (Or.inl (by omega))]),
        r2 k i (by rcases hk with hk | hk; exacts [Or.inl (by omega), Or.inr (Or.inl (by omega))])]
    · rw [if_neg hk0, if_neg hkm]
      have hkm' : pk.rows = m := by omega
      rw [hkm'] at k2 k3
      have hR0 : ∀ i j, i < m → j < n → residI m s.poly (from' E off) (fun k => x (off + k)) t i j = 0 := by
        intro i j hi hj
        obtain ⟨i', hi', rfl⟩ := hp.surj i hi
        have := zero_of_full k2 k3 i' j hi' hj
        rw [hres0 _ j (hp.lt i' hi') hj] at this
        exact (mul_eq_zero.1 this).resolve_left hct
      exact resupdateLoopI_spec hN E x hx int0 steps (t + 1) s e c (by omega) (hs.full hR0) hip (fun k h1 h2 => hc k (by omega) h2)
        fun k i j h1 h2 => hres k i j (by omega) h2

/-- What the functions return: a basis, and evaluations changed only at their own points. -/
structure RetOk (E : Evals F) (x : Nat → F) (s : Nat → Int) (off order : Nat) (P : PMat F[X]) (sh : Nat → Int) (E' : Evals F) : Prop where
  rows : P.rows = E.rows
  cols : P.cols = E.rows
  good : GoodI E.rows E.cols (from' E.e off) (fun k => x (off + k)) s order sh fun i j => P.e (i, j)
  len' : E'.len = E.len
  rows' : E'.rows = E.rows
  cols' : E'.cols = E.cols
  frame : ∀ k i, (k < off ∨ off + order ≤ k) → E'.e (k, i) = E.e (k, i)

theorem resupdateI_good {N : Nt F} (hN : N.Ok) (int0 : PMat F[X]) (E : Evals F) (np : Nat) (x : Nat → F) (s : Nat → Int) (off order : Nat)
    (h0 : 0 < E.len) (hlen : off + order ≤ E.len) (hnp : off + order ≤ np) (hm : 0 < E.rows) (hx : DistinctPts x off order) :
    ∃ P sh E', resupdate N int0 E np x s off order = .ok (P, sh, E') ∧ RetOk E x s off order P sh E' := by
  unfold resupdate
  rw [if_neg (by omega), if_neg (by omega)]
  obtain ⟨P, sh, e', h1, h2, h3, h4, h5⟩ := resupdateLoopI_spec hN (m := E.rows) (n := E.cols) E.e x (s0 := s) hx int0 order 0
    (start E.rows s) E.e (fun _ => 1) (by omega) (startI_ok _ _ _ _ _) (fun _ => rfl) (fun _ _ _ => one_ne_zero) fun k i j _ hk hi hj => by
      rw [residI_start _ _ _ _ _ _ _ hi, one_mul]; rfl
  rw [Nat.add_zero] at h1
  rw [h1]
  exact ⟨P, sh, _, rfl, h2, h3, h4, rfl, rfl, rfl, h5⟩

theorem mbasisI_good {N : Nt F} (hN : N.Ok) (int0 : PMat F[X]) (E : Evals F) (np : Nat) (x : Nat → F) (s : Nat → Int) (off order : Nat)
    (h0 : 0 < E.len) (hlen : off + order ≤ E.len) (hnp : off + order ≤ np) (hm : 0 < E.rows) (hx : DistinctPts x off order) :
    ∃ P sh E', mbasis N int0 E np x s off order = .ok (P, sh, E') ∧ RetOk E x s off order P sh E' := by
  unfold mbasis
  by_cases h : order ≤ 5 ∨ (E.cols + 1 = E.rows ∧ 20 < E.rows)
  · rw [if_pos h]
    exact resupdateI_good hN int0 E np x s off order h0 hlen hnp hm hx
  · rw [if_neg h, if_neg (by omega)]
    obtain ⟨P, sh, h1, h2, h3, h4⟩ := rescompI_good hN int0 E np x s off order (by omega) hlen hnp hm
    rw [h1]
    exact ⟨P, sh, E, rfl, h2, h3, h4, rfl, rfl, rfl, fun _ _ _ => rfl⟩

/-! ### pmbasis -/

/-- What is assumed of the evaluation objects: they evaluate polynomials of degree at most the number of points.  (Proved
    for both kinds of objects below.) -/
def MakerOk (mk : Maker F) (x : Nat → F) (off order : Nat) : Prop :=
  ∀ o n, off ≤ o → o + n ≤ off + order → 0 < n → n < order → ∃ ev c, mk o n = some (ev, c) ∧ ∀ f : F[X], f.natDegree ≤ n →
    ∃ v, ev f = some v ∧ ∀ i, i < n → v i = f.eval (x (o + i))

theorem MakerOk.sub {mk : Maker F} {x : Nat → F} {off order o n : Nat} (h : MakerOk mk x off order) (h1 : off ≤ o) (h2 : o + n ≤ off + order) :
    MakerOk mk x o n := fun a b h3 h4 h5 h6 => h a b (by omega) (by omega) h5 (by omega)

theorem evaluateMatrix_spec {ev : F[X] → Option (Nat → F)} {c n : Nat} {y : Nat → F} {P : PMat F[X]}
    (hev : ∀ i j, i < P.rows → j < P.cols → ∃ v, ev (P.e (i, j)) = some v ∧ ∀ k, k < n → v k = (P.e (i, j)).eval (y k)) :
    ∃ V, evaluateMatrix ev c P = .ok V ∧ V.len = c ∧ V.rows = P.rows ∧ V.cols = P.cols ∧
      ∀ k i j, k < n → i < P.rows → j < P.cols → V.e (k, i) j = (P.e (i, j)).eval (y k) := by
  unfold evaluateMatrix
  rw [if_pos]
  · refine ⟨_, rfl, rfl, rfl, rfl, fun k i j hk hi hj => ?_⟩
    obtain ⟨v, h1, h2⟩ := hev i j hi hj
    dsimp only
    rw [h1]
    exact h2 k hk
  · simp only [List.all_eq_true, List.mem_range]
    intro i hi j hj
    obtain ⟨v, h1, -⟩ := hev i j hi hj
    rw [h1]; rfl

theorem GoodI.natDegree_le {m n d : Nat} {A : Nat → Nat → Nat → F} {x : Nat → F} {s0 s : Nat → Int} {V : Nat → Nat → F[X]}
    (h : GoodI m n A x s0 d s V) (i l : Nat) (hi : i < m) (hl : l < m) : (V i l).natDegree ≤ d := by
  rw [Polynomial.natDegree_le_iff_coeff_eq_zero]
  exact fun k hk => h.deg i l hi hl k hk

/-- Composition. -/
theorem GoodI.mul {m n d e : Nat} {A B : Nat → Nat → Nat → F} {x : Nat → F} {s0 s1 s2 : Nat → Int} {V W U : Nat → Nat → F[X]}
    (h1 : GoodI m n A x s0 d s1 V) (hB : ∀ k i j, k < e → i < m → j < n → B k i j = residI m V A x (d + k) i j)
    (h2 : GoodI m n B (fun k => x (d + k)) s1 e s2 W)
    (hU : ∀ i l, i < m → l < m → U i l = ∑ t ∈ Finset.range m, W i t * V t l) : GoodI m n A x s0 (d + e) s2 U := by
  have hUe : tm m m U = tm m m W * tm m m V := by
    funext i l
    rw [tm_mul]
    exact hU i l i.2 l.2
  refine ⟨?_, ?_, fun i l hi hl k hk => ?_⟩
  · rw [hUe]
    refine interp_compose (E' := mats m n B) h1.gen (fun k hk => ?_) h2.gen
    rw [residI_eq]
    funext i j
    exact hB k i j hk i.2 j.2
  · rw [hUe]
    exact h1.piv.mul h2.piv
  · rw [hU i l hi hl, finsetSum_coeff]
    refine Finset.sum_eq_zero fun t ht => ?_
    have ht := Finset.mem_range.1 ht
    refine coeff_eq_zero_of_natDegree_lt (lt_of_le_of_lt natDegree_mul_le ?_)
    have a1 := h2.natDegree_le i t hi ht
    have a2 := h1.natDegree_le t l ht hl
    omega

theorem pmbasisI_good {N : Nt F} (hN : N.Ok) {mul : PMat F[X] → PMat F[X] → Option (PMat F[X])} (hmul : MulOk mul) {mk : Maker F}
    {thr : Nat} (hthr : 0 < thr) (np : Nat) (x : Nat → F) :
    ∀ (fuel : Nat) (int0 : PMat F[X]) (E : Evals F) (s : Nat → Int) (off order : Nat), order ≤ fuel → 0 < E.rows → 0 < E.len →
    off + order ≤ E.len → off + order ≤ np → DistinctPts x off order → MakerOk mk x off order →
    ∃ P sh E', pmbasis N mul mk thr fuel int0 E np x s off order = .ok (P, sh, E') ∧ RetOk E x s off order P sh E' := by
  intro fuel
  induction fuel with
  | zero =>
    intro int0 E s off order hf hm h0 hlen hnp hx hmk
    unfold pmbasis
    rw [if_pos (by omega)]
    exact mbasisI_good hN int0 E np x s off order h0 hlen hnp hm hx
  | succ fuel ih =>
    intro int0 E s off order hf hm h0 hlen hnp hx hmk
    unfold pmbasis
    by_cases hthr' : order ≤ thr
    · rw [if_pos hthr']
      exact mbasisI_good hN int0 E np x s off order h0 hlen hnp hm hx
    rw [if_neg hthr']
    dsimp only
    set o1 := order / 2 with ho1
    set o2 := order - o1 with ho2
    have hsum : o1 + o2 = order := by omega
    obtain ⟨P1, s1, E1, e1, r1⟩ := ih int0 E s off o1 (by omega) hm h0 (by omega) (by omega)
      (fun k l hk hl => hx k l (by omega) (by omega)) (hmk.sub (le_refl _) (by omega))
    rw [e1]
    simp only [andThen]
    rw [if_neg (by omega)]
    obtain ⟨ev, c, e2, hev⟩ := hmk (off + o1) o2 (by omega) (by omega) (by omega) (by omega)
    rw [e2]
    simp only [ofOpt]
    obtain ⟨V, e3, v0, v1, v2, v3⟩ := evaluateMatrix_spec (ev := ev) (c := c) (n := o2) (y := fun k => x (off + o1 + k)) (P := P1)
      fun i j hi hj => hev _ ((r1.good.natDegree_le i j (by rw [← r1.rows]; exact hi) (by rw [← r1.cols]; exact hj)).trans (by omega))
    rw [e3]
    dsimp only
    have e4 : updEvals (off + o1) o2 V E1 = .ok ⟨E1.len, E1.rows, E1.cols, fun ki j =>
        if off + o1 ≤ ki.1 ∧ ki.1 < off + o1 + o2 then ∑ l ∈ Finset.range E1.rows, V.e (ki.1 - (off + o1), ki.2) l * E1.e (ki.1, l) j
        else E1.e ki j⟩ := by
      unfold updEvals
      rw [if_neg]
      rw [v1, v2, r1.rows, r1.cols, r1.rows']
      simp
    rw [e4]
    dsimp only
    generalize hE2 : (⟨E1.len, E1.rows, E1.cols, fun ki j =>
        if off + o1 ≤ ki.1 ∧ ki.1 < off + o1 + o2 then ∑ l ∈ Finset.range E1.rows, V.e (ki.1 - (off + o1), ki.2) l * E1.e (ki.1, l) j
        else E1.e ki j⟩ : Evals F) = E2
    have hE2l : E2.len = E.len := by rw [← hE2]; exact r1.len'
    have hE2r : E2.rows = E.rows := by rw [← hE2]; exact r1.rows'
    have hE2c : E2.cols = E.cols := by rw [← hE2]; exact r1.cols'
    have hE2in : ∀ k i j, k < o2 → i < E.rows → E2.e (off + o1 + k, i) j =
        residI E.rows (fun i j => P1.e (i, j)) (from' E.e off) (fun k => x (off + k)) (o1 + k) i j := by
      intro k i j hk hi
      rw [← hE2]
      dsimp only
      rw [if_pos (by omega), r1.rows', Nat.add_sub_cancel_left]
      refine Finset.sum_congr rfl fun l hl => ?_
      have hl := Finset.mem_range.1 hl
      rw [v3 k i l hk (by rw [r1.rows]; exact hi) (by rw [r1.cols]; exact hl), r1.frame _ _ (Or.inr (by omega)), Nat.add_assoc]
      rfl
    have hE2out : ∀ k i, (k < off + o1 ∨ off + o1 + o2 ≤ k) → E2.e (k, i) = E1.e (k, i) := by
      intro k i hk
      rw [← hE2]
      funext j
      dsimp only
      rw [if_neg (by omega)]
    obtain ⟨P2, s2, E3, e5, r2⟩ := ih ⟨0, 0, fun _ => 0⟩ E2 s1 (off + o1) o2 (by omega) (by omega) (by omega) (by omega) (by omega)
      (fun k l hk hl h => by
        have := hx (o1 + k) (o1 + l) (by omega) (by omega) (by rw [← Nat.add_assoc, ← Nat.add_assoc]; exact h)
        omega)
      (hmk.sub (by omega) (by omega))
    rw [e5]
    dsimp only
    have p2r := r2.rows
    have p2c := r2.cols
    rw [hE2r] at p2r p2c
    have p1r := r1.rows
    have p1c := r1.cols
    obtain ⟨P, e6, p1, p2, p3⟩ := hmul P2 P1 (by omega) (by omega)
    rw [e6]
    refine ⟨P, s2, E3, rfl, by omega, by omega, ?_, r2.len'.trans hE2l, r2.rows'.trans hE2r, r2.cols'.trans hE2c, fun k i hk => ?_⟩
    · have g2 := r2.good
      rw [hE2r, hE2c] at g2
      rw [← hsum]
      refine GoodI.mul (B := from' E2.e (off + o1)) r1.good (fun k i j hk hi hj => hE2in k i j hk hi) (s2 := s2)
        (W := fun i j => P2.e (i, j)) ?_ fun i l hi hl => ?_
      · have : (fun k => x (off + o1 + k)) = fun k => x (off + (o1 + k)) := by funext k; rw [Nat.add_assoc]
        rw [this] at g2
        exact g2
      · rw [p3 i l (by omega) (by omega), p2c]
    · rw [r2.frame k i (by omega), hE2out k i (by omega), r1.frame k i (by omega)]

end PML.Ntl.Intbas
