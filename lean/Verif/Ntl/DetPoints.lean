import Verif.Ntl.DetEval

/-!
# Determinants by evaluation, and their verification
-/

namespace PML.Ntl.Det
open Polynomial PML.Ntl.Utils PML.Ntl.Inv PML.Ntl.Solve PML.Ntl.MatEval

variable {F : Type} [Field F]

theorem toNat_mul (a : PMat F[X]) (h : 0 ≤ deg a ∨ a.rows = 0) : (((a.rows : Int) * deg a + 1).toNat : Int) = a.rows * deg a + 1 := by
  rcases h with h | h
  · have := mul_nonneg (Int.natCast_nonneg a.rows) h
    omega
  · rw [h]; norm_num

theorem general_spec {p : Nat} [Fact p.Prime] {it : (ZMod p)[X] → Nat → (ZMod p)[X]} (hit : Crt.InvTruncOK it) (a : PMat (ZMod p)[X])
    (hc : a.cols = a.rows) (hd : 0 ≤ deg a ∨ a.rows = 0) (hp : (a.rows : Int) * deg a < p) : viaGeneral it a = .ok (detN a.rows a.e) := by
  have hn := toNat_mul a hd
  have hpos : 0 ≤ (a.rows : Int) * deg a := by
    rcases hd with h | h
    · exact mul_nonneg (Int.natCast_nonneg a.rows) h
    · rw [h]; norm_num
  unfold viaGeneral
  dsimp only
  rw [if_neg (by omega), if_neg (by omega)]
  generalize hN : ((a.rows : Int) * deg a + 1).toNat = nb at hn
  have hinj : ∀ i j, i < nb → j < nb → (i : ZMod p) = (j : ZMod p) → i = j := by
    intro i j hi hj h
    have h1 := congrArg ZMod.val h
    rwa [ZMod.val_natCast, ZMod.val_natCast, Nat.mod_eq_of_lt (by omega), Nat.mod_eq_of_lt (by omega)] at h1
  obtain ⟨M, e, h1, h2, -, -⟩ := Crt.C58_multipoint hit (fun i => (i : ZMod p)) nb (by omega) nb (le_refl _) hinj
  rw [e]
  simp only [ofOpt, andThen]
  exact viaPoints_spec nb _ _ (fun i => (i : ZMod p)) a hc (by omega) hd hinj (fun i j hi hj => ⟨_, rfl, fun k hk => h1 _ k hk⟩)
    fun v => ⟨_, rfl, fun k hk => (degree_lt_iff_coeff_zero _ _).1 (h2 v).1 k hk, (h2 v).2⟩

theorem invLoop_none {K : Type} [Field K] [DecidableEq K] (v : Nat → K) : ∀ n, ((∃ v', Crt.invLoop n v = some v' ∧ ∀ i, n ≤ i → v' i = v i) ∨ Crt.invLoop n v = none) ∧
    ((∃ i, i < n ∧ v i = 0) → Crt.invLoop n v = none)
  | 0 => ⟨Or.inl ⟨v, rfl, fun _ _ => rfl⟩, fun ⟨i, hi, _⟩ => absurd hi (Nat.not_lt_zero _)⟩
  | n + 1 => by
    obtain ⟨h1, h2⟩ := invLoop_none v n
    unfold Crt.invLoop
    rcases h1 with ⟨v', e, hv⟩ | e
    · rw [e]
      dsimp only
      split_ifs with h0
      · exact ⟨Or.inr rfl, fun _ => rfl⟩
      · refine ⟨Or.inl ⟨_, rfl, fun i hi => ?_⟩, ?_⟩
        · rw [Function.update_of_ne (by omega)]; exact hv i (by omega)
        · rintro ⟨i, hi, h⟩
          by_cases hin : i = n
          · subst hin
            exact absurd (by rw [hv i (le_refl _), h]) h0
          · rw [h2 ⟨i, by omega, h⟩] at e
            cases e
    · rw [e]
      exact ⟨Or.inr rfl, fun _ => rfl⟩

theorem general_small_field {p : Nat} [Fact p.Prime] (it : (ZMod p)[X] → Nat → (ZMod p)[X]) (a : PMat (ZMod p)[X])
    (hd : 0 ≤ deg a) (hp : (p : Int) ≤ (a.rows : Int) * deg a) : viaGeneral it a = .error := by
  have hn := toNat_mul a (Or.inl hd)
  have hpos := (Fact.out : p.Prime).pos
  unfold viaGeneral
  dsimp only
  rw [if_neg (by omega), if_neg (by omega)]
  generalize hN : ((a.rows : Int) * deg a + 1).toNat = nb at hn
  have hfun : (fun i => C (-(i : ZMod p)) + C 1 * X ^ 1 : Nat → (ZMod p)[X]) = fun i : Nat => X - C (i : ZMod p) := by
    funext i; exact Crt.leaf_eq _
  obtain ⟨L, hL, hroot, hmm⟩ := Crt.C57_multimod (fun i : Nat => (X - C (i : ZMod p) : (ZMod p)[X])) nb (by omega)
    (fun i _ => X_sub_C_ne_zero (i : ZMod p)) nb (le_refl _)
  have : Crt.mkMultipoint it nb nb (fun i => (i : ZMod p)) = none := by
    unfold Crt.mkMultipoint
    rw [hfun, hL]
    dsimp only
    rw [(invLoop_none _ nb).2 ⟨0, by omega, ?_⟩]
    unfold Crt.evaluate
    rw [hmm _ 0 (by omega), mod_X_sub_C_eq_C_eval, coeff_C_zero, hroot]
    have hdvd : (X - C (0 : ZMod p)) ^ 2 ∣ ∏ i ∈ Finset.range nb, (X - C ((i : Nat) : ZMod p)) := by
      rw [← Finset.mul_prod_erase _ _ (Finset.mem_range.2 (by omega : 0 < nb)),
        ← Finset.mul_prod_erase _ _ (Finset.mem_erase.2 ⟨hpos.ne', Finset.mem_range.2 (by omega : p < nb)⟩)]
      rw [← mul_assoc, Nat.cast_zero, ZMod.natCast_self, ← pow_two]
      exact Dvd.intro _ rfl
    obtain ⟨Q, hQ⟩ := hdvd
    rw [hQ]
    simp [derivative_mul, derivative_pow]
  rw [this]
  rfl

theorem geometric_spec {p : Nat} [Fact p.Prime] (rnd : Nat → ZMod p) (nb : Nat) (a : PMat (ZMod p)[X]) (hc : a.cols = a.rows) (hd : 0 ≤ deg a)
    (r : ZMod p) (hr : r ≠ 0) (h : Order.elementOfOrder rnd (2 * (a.rows * (deg a).toNat + 1)) nb true = some r) {mp}
    (hmp : Geom.MidOK mp (a.rows * (deg a).toNat + 1)) (hm : 0 < a.rows) (feasible flags : Bool) :
    viaGeometric mp feasible flags r a = .ok (detN a.rows a.e) := by
  unfold viaGeometric
  dsimp only
  have hn := toNat_mul a (Or.inl hd)
  have hle : (deg a).toNat ≤ a.rows * (deg a).toNat := Nat.le_mul_of_pos_left _ hm
  have hnb : (a.rows : Int) * deg a < (a.rows * (deg a).toNat + 1 : Nat) := by
    push_cast
    rw [Int.toNat_of_nonneg hd]
    omega
  have hdn : deg a < (a.rows * (deg a).toNat + 1 : Nat) := by omega
  generalize a.rows * (deg a).toNat + 1 = n at *
  have : Fact (1 < p) := ⟨(Fact.out : p.Prime).one_lt⟩
  obtain ⟨-, ho⟩ := Order.C63_order_at_least rnd (2 * n) nb r hr h
  obtain ⟨o₀, o, h1, h2, h3⟩ := Order.C63_get_geometric_points rnd n nb (by omega) r hr h hmp feasible flags [.prepare (deg a).toNat] (fun d hd => by
      simp only [List.mem_cons, Geom.Call.prepare.injEq, List.not_mem_nil, or_false] at hd
      omega)
  rw [h1]
  simp only [ofOpt, andThen]
  rw [h2]
  dsimp only
  refine viaPoints_spec n _ _ (fun i => 1 * r ^ (2 * i)) a hc hnb (Or.inl hd) (fun i j hi hj e => by
      rw [one_mul, one_mul] at e
      have := pow_injOn_Iio_orderOf (show 2 * i ∈ Set.Iio (orderOf r) by rw [Set.mem_Iio]; omega)
        (show 2 * j ∈ Set.Iio (orderOf r) by rw [Set.mem_Iio]; omega) e
      omega) (fun i j hi hj => h3.eval _ ?_) fun v => ?_
  · have : (a.e (i, j)).natDegree ≤ n - 1 := natDegree_le_iff_coeff_eq_zero.2 fun k hk => (deg_lt_iff a n).1 hdn i j hi hj k (by omega)
    omega
  · obtain ⟨P, e1, e2, e3⟩ := h3.interp v
    exact ⟨P, e1, fun k hk => coeff_eq_zero_of_natDegree_lt (by omega), e3⟩

theorem fft_spec (T : FFT F) (a : PMat F[X]) (hc : a.cols = a.rows) (hT : FFTOk T (nextPow2 ((a.rows : Int) * deg a + 1).toNat)) :
    viaFFT T a = detN a.rows a.e := by
  unfold viaFFT
  dsimp only
  by_cases hd : 0 ≤ deg a ∨ a.rows = 0
  · have hn := toNat_mul a hd
    generalize ((a.rows : Int) * deg a + 1).toNat = cnt at *
    have hcnt : cnt ≤ 2 ^ nextPow2 cnt := Nat.le_pow_clog one_lt_two cnt
    have hco : ∀ k, cnt ≤ k → (detN a.rows a.e).coeff k = 0 := by
      intro k hk
      refine coeff_eq_zero_of_natDegree_lt ?_
      have h1 := detN_natDegree a hc (deg a).toNat (by omega)
      rcases hd with h | h
      · have : ((a.rows * (deg a).toNat : Nat) : Int) = a.rows * deg a := by push_cast; rw [Int.toNat_of_nonneg h]
        omega
      · rw [h] at hn h1 ⊢
        omega
    rw [fromEval_eq (T.pt (nextPow2 cnt)) _ 0 cnt hT.inj _ (detN a.rows a.e) (fun k hk => hco k (by omega)) fun r hr => ?_]
    · ext k
      rw [slice_coeff]
      split_ifs with h
      · rw [Nat.zero_add]
      · rw [hco k (by omega)]
    · rw [dets_spec _ _ _ r hr, detN_eval]
      refine detN_congr _ _ _ fun i j hi hj => ?_
      have h2 : Fills {x : Nat × (Nat × Nat) | ∃ i, i < a.rows ∧ ∃ j, j < a.rows ∧ ∃ k, k < 2 ^ nextPow2 cnt ∧ x = (k, (i, j))}
          (fun x => (a.e x.2).eval (T.pt (nextPow2 cnt) x.1))
          (forN a.rows fun i => forN a.rows fun j => forN (2 ^ nextPow2 cnt) fun k => write (k, (i, j)) ((a.e (i, j)).eval (T.pt (nextPow2 cnt) k))) :=
        Fills.forN fun i _ => Fills.forN fun j _ => Fills.forN fun k _ => Fills.write _ _ rfl
      exact (h2 _ (r, (i, j))).1 ⟨i, hi, j, hj, r, hr, rfl⟩
  · have h1 := (deg_spec a).1
    obtain ⟨n, hn⟩ : ∃ n, a.rows = n + 1 := ⟨a.rows - 1, by omega⟩
    have hz : ∀ i j, i < a.rows → j < a.rows → a.e (i, j) = 0 := fun i j hi hj => (deg_neg_iff a).1 (by omega) i j hi (by omega)
    have h0 : ((a.rows : Int) * deg a + 1).toNat = 0 := by
      rw [show deg a = -1 by omega, hn]; push_cast; omega
    rw [h0]
    have : detN a.rows a.e = 0 := by
      rw [detN_congr a.rows a.e (fun _ => 0) hz, hn]
      exact Matrix.det_eq_zero_of_row_eq_zero 0 fun _ => rfl
    rw [this]
    unfold fromEval
    ext k
    rw [slice_coeff, if_neg (by omega), coeff_zero]

/-! ### Verification -/

theorem eval_det (a : PMat F[X]) (hc : a.cols = a.rows) (x : F) :
    detN a.rows (Utils.eval ⟨0, 0, fun _ => 0⟩ a x).e = (detN a.rows a.e).eval x := by
  rw [detN_eval]
  refine detN_congr _ _ _ fun i j hi hj => ?_
  exact loop2_at _ _ (fun i j => (a.e (i, j)).eval x) _ i j hi (by omega)

theorem verify_eq (pt pt2 : F) (det : F[X]) (a : PMat F[X]) (hc : a.cols = a.rows) :
    (verify pt pt2 det a false true = .ok true ↔ (detN a.rows a.e).eval pt = det.eval pt) ∧
    (verify pt pt2 det a true true = .ok true ↔ (detN a.rows a.e).eval pt * det.eval pt2 = (detN a.rows a.e).eval pt2 * det.eval pt) := by
  unfold verify
  dsimp only
  rw [eval_det a hc, eval_det a hc]
  simp

theorem card_roots_le {p : Nat} [Fact p.Prime] (P : (ZMod p)[X]) (hP : P ≠ 0) (S : Finset (ZMod p)) (hS : ∀ x ∈ S, P.eval x = 0) : S.card ≤ P.natDegree := by
  classical
  calc S.card ≤ P.roots.toFinset.card := Finset.card_le_card fun x hx => by
        rw [Multiset.mem_toFinset, mem_roots hP]; exact hS x hx
    _ ≤ P.roots.card := Multiset.toFinset_card_le _
    _ ≤ P.natDegree := card_roots' P

theorem pairs_count {p : Nat} [Fact p.Prime] (D E : (ZMod p)[X]) (M : Nat) (hD : D.natDegree ≤ M) (hE : E.natDegree ≤ M)
    (hne : ¬∃ x y : ZMod p, (x ≠ 0 ∨ y ≠ 0) ∧ C x * D = C y * E) (S : Finset (ZMod p × ZMod p))
    (hS : ∀ x ∈ S, D.eval x.1 * E.eval x.2 = D.eval x.2 * E.eval x.1) : S.card ≤ 2 * M * p := by
  classical
  have hD0 : D ≠ 0 := by
    rintro rfl
    exact hne ⟨1, 0, Or.inl one_ne_zero, by simp⟩
  have hdeg : ∀ x y : ZMod p, (C x * E - C y * D).natDegree ≤ M := fun x y =>
    le_trans (natDegree_sub_le _ _) (max_le (le_trans (natDegree_C_mul_le _ _) hE) (le_trans (natDegree_C_mul_le _ _) hD))
  -- the common roots, and the others
  let B : Finset (ZMod p) := Finset.univ.filter fun x => D.eval x = 0
  have hB : B.card ≤ M := le_trans (card_roots_le D hD0 B fun x hx => (Finset.mem_filter.1 hx).2) hD
  have h1 : (S.filter fun x => x.1 ∈ B).card ≤ M * p := by
    calc (S.filter fun x => x.1 ∈ B).card ≤ (B ×ˢ (Finset.univ : Finset (ZMod p))).card := Finset.card_le_card fun x hx =>
          Finset.mem_product.2 ⟨(Finset.mem_filter.1 hx).2, Finset.mem_univ _⟩
      _ = B.card * p := by rw [Finset.card_product, Finset.card_univ, ZMod.card]
      _ ≤ M * p := Nat.mul_le_mul_right _ hB
  have h2 : (S.filter fun x => x.1 ∉ B).card ≤ M * p := by
    have : (S.filter fun x => x.1 ∉ B).card ≤ ∑ y ∈ (Finset.univ : Finset (ZMod p)), M := by
      rw [Finset.card_eq_sum_card_fiberwise (f := Prod.fst) (t := Finset.univ) fun _ _ => by simp]
      refine Finset.sum_le_sum fun y _ => ?_
      by_cases hy : D.eval y = 0
      · have : ((S.filter fun x => x.1 ∉ B).filter fun x => x.1 = y) = ∅ := by
          refine Finset.filter_eq_empty_iff.2 fun x hx e => ?_
          exact (Finset.mem_filter.1 hx).2 (Finset.mem_filter.2 ⟨Finset.mem_univ _, by rw [e]; exact hy⟩)
        rw [this, Finset.card_empty]
        exact Nat.zero_le _
      · have hP : C (D.eval y) * E - C (E.eval y) * D ≠ 0 := fun h =>
          hne ⟨E.eval y, D.eval y, Or.inr hy, (sub_eq_zero.1 h).symm⟩
        have hinj : Set.InjOn (Prod.snd : ZMod p × ZMod p → ZMod p) (((S.filter fun x => x.1 ∉ B).filter fun x => x.1 = y) : Set _) := by
          intro x hx z hz e
          have h1 := (Finset.mem_filter.1 (Finset.mem_coe.1 hx)).2
          have h2 := (Finset.mem_filter.1 (Finset.mem_coe.1 hz)).2
          exact Prod.ext (h1.trans h2.symm) e
        rw [← Finset.card_image_of_injOn hinj]
        refine le_trans (card_roots_le _ hP _ fun z hz => ?_) (hdeg _ _)
        obtain ⟨x, hx, rfl⟩ := Finset.mem_image.1 hz
        have hx' := Finset.mem_filter.1 hx
        have := hS x (Finset.mem_filter.1 hx'.1).1
        rw [hx'.2] at this
        rw [eval_sub, eval_mul, eval_C, eval_mul, eval_C, this, mul_comm, sub_self]
    rwa [Finset.sum_const, Finset.card_univ, ZMod.card, smul_eq_mul, mul_comm] at this
  have := Finset.card_filter_add_card_filter_not (s := S) fun x => x.1 ∈ B
  rw [mul_assoc, two_mul]
  omega

end PML.Ntl.Det
