import Verif.Ntl.IntbasStep

/-!
# The updates of mbasis_rescomp and mbasis_resupdate
-/

namespace PML.Ntl.Intbas

open Polynomial PML.Ntl.Utils PML.Ntl.Inv PML.Ntl.Solve PML.Ntl.Mbasis PML.Approx PML.Approx.Spec

set_option linter.unusedSectionVars false

variable {F : Type} [Field F] [DecidableEq F]

/-- A loop on the rows of one matrix. -/
theorem row_loop (m e : Nat) (isPiv : Nat → Bool) (g : Nat → (Nat × Nat → Nat → F) → Nat → F)
    (hg : ∀ i y y', (∀ d, y (d, i) = y' (d, i)) → g i y = g i y') (co : Nat × Nat → Nat → F) :
    (∀ i, i < m → isPiv i = false → forN m (fun i co => if isPiv i then co else write (e, i) (g i co) co) co (e, i) = g i co) ∧
    ∀ d i, (d ≠ e ∨ m ≤ i ∨ isPiv i = true) → forN m (fun i co => if isPiv i then co else write (e, i) (g i co) co) co (d, i) = co (d, i) := by
  have key := forN_inv (P := fun (t : Nat) (y : Nat × Nat → Nat → F) =>
      (∀ i, i < t → isPiv i = false → y (e, i) = g i co) ∧ ∀ d i, (d ≠ e ∨ t ≤ i ∨ isPiv i = true) → y (d, i) = co (d, i))
    (f := fun i co => if isPiv i then co else write (e, i) (g i co) co) (s := co) (n := m)
    ⟨fun i hi => by omega, fun _ _ _ => rfl⟩ (by
      rintro t y ht ⟨q1, q2⟩
      by_cases hp : isPiv t = true
      · rw [if_pos hp]
        refine ⟨fun i hi hpi => ?_, fun d i h => ?_⟩
        · have : i ≠ t := by rintro rfl; rw [hp] at hpi; exact absurd hpi (by simp)
          exact q1 i (by omega) hpi
        · rcases h with h | h | h
          · exact q2 d i (Or.inl h)
          · exact q2 d i (Or.inr (Or.inl (by omega)))
          · exact q2 d i (Or.inr (Or.inr h))
      · rw [if_neg hp]
        have hp' : isPiv t = false := by simpa using hp
        have hgt : g t y = g t co := hg t y co fun d => q2 d t (Or.inr (Or.inl (le_refl t)))
        refine ⟨fun i hi hpi => ?_, fun d i h => ?_⟩
        · by_cases h4 : i = t
          · subst h4; rw [wr_eq, hgt]
          · rw [wr_ne _ _ (fun h => h4 (Prod.mk.inj h).2)]; exact q1 i (by omega) hpi
        · rw [wr_ne]
          · rcases h with h | h | h
            · exact q2 d i (Or.inl h)
            · exact q2 d i (Or.inr (Or.inl (by omega)))
            · exact q2 d i (Or.inr (Or.inr h))
          · intro h'
            obtain ⟨h5, h6⟩ := Prod.mk.inj h'
            rcases h with h | h | h
            · exact h h5
            · omega
            · rw [h6, hp'] at h; exact absurd h (by simp))
  exact key

theorem mulLin_spec (m deg : Nat) (isPiv : Nat → Bool) (c : F) (co : Nat × Nat → Nat → F) (hdeg : 1 ≤ deg) :
    (∀ i, i < m → isPiv i = false → mulLin m deg isPiv c co (deg, i) = co (deg - 1, i)) ∧
    (∀ d i j, 0 < d → d < deg → i < m → isPiv i = false → mulLin m deg isPiv c co (d, i) j = co (d, i) j * c + co (d - 1, i) j) ∧
    (∀ i j, i < m → isPiv i = false → mulLin m deg isPiv c co (0, i) j = co (0, i) j * c) ∧
    (∀ d i, (deg < d ∨ m ≤ i ∨ isPiv i = true) → mulLin m deg isPiv c co (d, i) = co (d, i)) := by
  unfold mulLin
  dsimp only
  obtain ⟨a1, a2⟩ := row_loop m deg isPiv (fun i co => co (deg - 1, i)) (fun i y y' h => h _) co
  generalize forN m (fun i co => if isPiv i then co else write (deg, i) (co (deg - 1, i)) co) co = co1 at a1 a2 ⊢
  have key := forN_inv (P := fun (t : Nat) (y : Nat × Nat → Nat → F) =>
      (∀ d i j, deg - 1 - t < d → d < deg → i < m → isPiv i = false → y (d, i) j = co1 (d, i) j * c + co1 (d - 1, i) j) ∧
      (∀ d i, (d ≤ deg - 1 - t ∨ deg ≤ d ∨ m ≤ i ∨ isPiv i = true) → y (d, i) = co1 (d, i)))
    (f := fun t => forN m fun i (co : Nat × Nat → Nat → F) =>
      let d := deg - 1 - t
      if isPiv i then co else write (d, i) (fun j => co (d, i) j * c + co (d - 1, i) j) co) (s := co1) (n := deg - 1)
    ⟨fun d i j h1 h2 => by omega, fun _ _ _ => rfl⟩ (by
      rintro t y ht ⟨q1, q2⟩
      dsimp only
      obtain ⟨b1, b2⟩ := row_loop m (deg - 1 - t) isPiv (fun i co j => co (deg - 1 - t, i) j * c + co (deg - 1 - t - 1, i) j)
        (fun i y y' h => by rw [h, h]) y
      have e0 : deg - 1 - (t + 1) = deg - 1 - t - 1 := by omega
      rw [e0]
      refine ⟨fun d i j h1 h2 hm hp => ?_, fun d i h => ?_⟩
      · by_cases h3 : d = deg - 1 - t
        · rw [h3, b1 i hm hp, q2 _ _ (Or.inl (le_refl _)), q2 _ _ (Or.inl (by omega))]
        · rw [b2 _ _ (Or.inl h3)]
          exact q1 d i j (by omega) h2 hm hp
      · rcases h with h | h | h
        · rw [b2 _ _ (Or.inl (by omega))]; exact q2 d i (Or.inl (by omega))
        · rw [b2 _ _ (Or.inl (by omega))]; exact q2 d i (Or.inr (Or.inl h))
        · rw [b2 _ _ (Or.inr h)]; exact q2 d i (Or.inr (Or.inr h)))
  obtain ⟨q1, q2⟩ := key
  generalize forN (deg - 1) (fun t => forN m fun i (co : Nat × Nat → Nat → F) =>
      if isPiv i then co else write (deg - 1 - t, i) (fun j => co (deg - 1 - t, i) j * c + co (deg - 1 - t - 1, i) j) co) co1 = co2 at q1 q2 ⊢
  rw [show deg - 1 - (deg - 1) = 0 by omega] at q1 q2
  obtain ⟨b1, b2⟩ := row_loop m 0 isPiv (fun i co j => co (0, i) j * c) (fun i y y' h => by rw [h]) co2
  refine ⟨fun i hi hp => ?_, fun d i j h1 h2 hi hp => ?_, fun i j hi hp => ?_, fun d i h => ?_⟩
  · rw [b2 _ _ (Or.inl (by omega)), q2 _ _ (Or.inr (Or.inl (le_refl _))), a1 i hi hp]
  · rw [b2 _ _ (Or.inl (by omega)), q1 d i j h1 h2 hi hp, a2 _ _ (Or.inl (by omega)), a2 _ _ (Or.inl (by omega))]
  · rw [b1 i hi hp, q2 _ _ (Or.inl (le_refl _)), a2 _ _ (Or.inl (by omega))]
  · by_cases h0 : m ≤ i ∨ isPiv i = true
    · rw [b2 _ _ (Or.inr h0), q2 _ _ (Or.inr (Or.inr h0)), a2 _ _ (Or.inr h0)]
    · have hd : deg < d := h.resolve_right h0
      rw [b2 _ _ (Or.inl (by omega)), q2 _ _ (Or.inr (Or.inl (by omega))), a2 _ _ (Or.inl (by omega))]

/-- The polynomials of `mulLin`, for a row whose coefficient of degree `deg` is zero. -/
theorem mulLin_poly (m deg : Nat) (isPiv : Nat → Bool) (a : F) (co : Nat × Nat → Nat → F) (hdeg : 1 ≤ deg) (i l : Nat) (hi : i < m)
    (hp : isPiv i = false) (p : F[X]) (hc : ∀ d, d < deg → co (d, i) l = p.coeff d) (hz : ∀ d, deg ≤ d → p.coeff d = 0) :
    ofCoeffs (deg + 1) (fun d => mulLin m deg isPiv (-a) co (d, i) l) = (X - C a) * p := by
  obtain ⟨v1, v2, v3, -⟩ := mulLin_spec m deg isPiv (-a) co hdeg
  ext d
  rw [ofCoeffs_coeff, sub_mul, coeff_sub, coeff_C_mul]
  cases d with
  | zero => rw [if_pos (by omega), v3 i l hi hp, hc 0 (by omega), coeff_X_mul_zero]; ring
  | succ d =>
    rw [coeff_X_mul]
    by_cases hd : d + 1 < deg + 1
    · rw [if_pos hd]
      by_cases he : d + 1 = deg
      · rw [he, v1 i hi hp, hz deg (le_refl _), ← he, Nat.add_sub_cancel, hc d (by omega)]; ring
      · rw [v2 _ i l (by omega) (by omega) hi hp, hc _ (by omega), Nat.add_sub_cancel, hc d (by omega)]; ring
    · rw [if_neg hd, hz d (by omega), hz (d + 1) (by omega)]; ring

variable {m n ord k : Nat} {A : Nat → Nat → Nat → F} {x : Nat → F} {s0 : Nat → Int}

/-- The invariant on the state. -/
structure SOkI (m n : Nat) (A : Nat → Nat → Nat → F) (x : Nat → F) (s0 : Nat → Int) (ord : Nat) (s : State F) : Prop where
  len : s.len = s.degA + 1
  deg : s.degA ≤ ord
  good : GoodI m n A x s0 ord s.shift s.poly

theorem startI_ok (m n : Nat) (A : Nat → Nat → Nat → F) (x : Nat → F) (s0 : Nat → Int) : SOkI m n A x s0 0 (start m s0) := by
  refine ⟨rfl, le_refl _, GoodI.one m n A x s0 fun i l _ _ => ?_⟩
  ext k
  unfold State.poly start
  dsimp only
  rw [ofCoeffs_coeff]
  by_cases hk : k < 1
  · have : k = 0 := by omega
    subst this
    rw [if_pos hk]
    split_ifs with h1 h2 h2
    · rw [coeff_one, if_pos rfl]
    · exact absurd h1.2 h2
    · exact absurd ⟨rfl, h2⟩ h1
    · rw [coeff_zero]
  · rw [if_neg hk]
    split_ifs
    · rw [coeff_one, if_neg (by omega)]
    · rw [coeff_zero]

theorem SOkI.restore {s : State F} {b : Base F} (h : SOkI m n A x s0 ord s) : SOkI m n A x s0 ord (restore k b s) :=
  ⟨h.len, h.deg, h.good⟩

theorem SOkI.full {s : State F} (h : SOkI m n A x s0 ord s) (hR : ∀ i j, i < m → j < n → residI m s.poly A x ord i j = 0) :
    SOkI m n A x s0 (ord + 1) s := ⟨h.len, Nat.le_succ_of_le h.deg, h.good.full hR⟩

theorem toPolyI_spec {s : State F} (h : SOkI m n A x s0 ord s) (int0 : PMat F[X]) :
    (toPoly m int0 s).rows = m ∧ (toPoly m int0 s).cols = m ∧ ∀ i l, i < m → l < m → (toPoly m int0 s).e (i, l) = s.poly i l := by
  obtain ⟨h1, h2, h3⟩ := (C65_conv_from_coeffs int0 s.len m m fun d ij => s.co (d, ij.1) ij.2).2 (by rw [h.len]; omega)
  refine ⟨h1, h2, fun i l hi hl => ?_⟩
  ext k
  unfold State.poly
  rw [ofCoeffs_coeff]
  exact h3 i l hi hl k

/-- The kernel is zero. -/
theorem zeroStep_ok {s : State F} {R X' : Nat → Nat → F} (h : SOkI m n A x s0 ord s)
    (hR : ∀ i j, i < m → j < n → R i j = residI m s.poly A x ord i j) (hs : Spans m n R 0 X') :
    SOkI m n A x s0 (ord + 1) (zeroStep m (x ord) s) ∧
      ∀ i l, i < m → (zeroStep m (x ord) s).poly i l = (X - C (x ord)) * s.poly i l := by
  have hpoly : ∀ i l, i < m → (zeroStep m (x ord) s).poly i l = (X - C (x ord)) * s.poly i l := by
    intro i l hi
    refine mulLin_poly m (s.degA + 1) _ (x ord) s.co (by omega) i l hi rfl _ (fun d hd => ?_) fun d hd => ?_
    · unfold State.poly; rw [ofCoeffs_coeff, h.len, if_pos hd]
    · unfold State.poly; rw [ofCoeffs_coeff, h.len, if_neg (by omega)]
  refine ⟨⟨rfl, Nat.succ_le_succ h.deg, h.good.zero hR hs (fun i hi => ?_) fun i l hi _ => hpoly i l hi⟩, hpoly⟩
  unfold zeroStep
  dsimp only
  have := add_loop m (fun _ => 1) s.shift i
  rw [this, if_pos hi]

/-- The next residual. -/
theorem nextRes_spec {s : State F} (h : SOkI m n A x s0 ord s) (k : Nat) (ev : Nat → Nat → F) (hev : ∀ l j, l < m → j < n → ev l j = A k l j)
    (i j : Nat) (hi : i < m) (hj : j < n) : nextRes m s (x k) ev i j = residI m s.poly A x k i j := by
  obtain ⟨-, -, e3⟩ := C65_eval_coeffs s.len m m (fun d => (⟨m, m, fun ij => s.co (d, ij.1) ij.2⟩ : PMat F)) (x k)
    (fun _ _ => ⟨rfl, rfl⟩) (by rw [h.len]; omega)
  unfold nextRes residI
  refine Finset.sum_congr rfl fun l hl => ?_
  have hl := Finset.mem_range.1 hl
  rw [hev l j hl hj, e3 i l]
  congr 1
  unfold State.poly ofCoeffs
  rw [eval_finsetSum]
  exact Finset.sum_congr rfl fun d _ => by rw [eval_mul, eval_C, eval_pow, eval_X]

/-- The usual case. -/
theorem usualI_ok {s : State F} {R : Nat → Nat → F} {b : Base F}
    (h : SOkI m n A x s0 ord s) (hR : ∀ i j, i < m → j < n → R i j = residI m s.poly A x ord i j) (hb : BaseOk m n R s.shift k b)
    (hip : ∀ i, s.isPiv i = false) :
    ∃ s', usualI m k (x ord) b s = .ok s' ∧ SOkI m n A x s0 (ord + 1) s' ∧
    (∀ t, s'.isPiv t = false ↔ ∀ i, i < k → b.pos i ≠ t) ∧
    (∀ t, (restore k b s').isPiv t = false) ∧
    (∀ i l, i < k → l < m → s'.poly (b.pos i) l = ∑ t ∈ Finset.range m, C (b.kerbas.e (i, t)) * s.poly t l) ∧
    (∀ t l, t < m → l < m → (∀ i, i < k → b.pos i ≠ t) → s'.poly t l = (X - C (x ord)) * s.poly t l) := by
  have hmark : ∀ t, (forN k (fun i => write (b.piv.getD i 0) true) s.isPiv t = false ↔ ∀ i, i < k → b.pos i ≠ t) := by
    intro t
    obtain ⟨m1, m2⟩ := marks k (fun a => b.piv.getD a 0) true s.isPiv t
    constructor
    · intro hf i hi e
      rw [m1 _ (hb.rows i hi) e] at hf
      exact absurd hf (by simp)
    · intro hf
      rw [m2 ((hb.is_piv t).2 hf), hip t]
  have hrest : ∀ t, forN k (fun i => write (b.piv.getD i 0) false) (forN k (fun i => write (b.piv.getD i 0) true) s.isPiv) t = false := by
    intro t
    obtain ⟨m1, m2⟩ := marks k (fun a => b.piv.getD a 0) false (forN k (fun i => write (b.piv.getD i 0) true) s.isPiv) t
    by_cases hex : ∃ a, a < k ∧ b.piv.getD a 0 = t
    · obtain ⟨a, ha, e⟩ := hex
      exact m1 a ha e
    · rw [m2 fun a ha e => hex ⟨a, ha, e⟩]
      exact (hmark t).2 ((hb.is_piv t).1 fun a ha e => hex ⟨a, ha, e⟩)
  generalize hIP : forN k (fun i => write (b.piv.getD i 0) true) s.isPiv = isPiv at hmark hrest
  obtain ⟨b1, b2⟩ := bump_spec m isPiv s.co s.degA s.shift
  generalize hU : bump m isPiv s.co s.degA s.shift = u at b1 b2
  have hlen := h.len
  let co0 : Nat × Nat → Nat → F := if u.2.1 = s.len then fun di => if di.1 = u.2.1 then fun _ => 0 else s.co di else s.co
  have hco0 : ∀ d i l, d ≤ u.2.1 → co0 (d, i) l = (s.poly i l).coeff d := by
    intro d i l hd
    unfold State.poly
    rw [ofCoeffs_coeff]
    show (if u.2.1 = s.len then fun di : Nat × Nat => if di.1 = u.2.1 then fun _ => 0 else s.co di else s.co) (d, i) l = _
    by_cases hu : u.2.1 = s.len
    · rw [if_pos hu]
      by_cases hd' : d = u.2.1
      · dsimp only; rw [if_pos hd', if_neg (by omega)]
      · dsimp only; rw [if_neg hd', if_pos (by omega)]
    · rw [if_neg hu, if_pos]
      rcases b2 with b2 | b2
      · omega
      · omega
  have htop : ∀ t l, t < m → l < m → isPiv t = false → co0 (u.2.1, t) l = 0 := by
    intro t l ht hl hp
    rcases b2 with b2 | ⟨b2, b3⟩
    · show (if u.2.1 = s.len then fun di : Nat × Nat => if di.1 = u.2.1 then fun _ => 0 else s.co di else s.co) (u.2.1, t) l = _
      rw [if_pos (by omega)]
      dsimp only
      rw [if_pos rfl]
    · rw [hco0 _ _ _ (le_refl _)]
      unfold State.poly
      rw [ofCoeffs_coeff, if_pos (by omega), b2]
      exact b3 t ht hp l hl
  have hcoeff0 : ∀ i l d, u.2.1 < d → (s.poly i l).coeff d = 0 := by
    intro i l d hd
    unfold State.poly
    rw [ofCoeffs_coeff, if_neg]
    rcases b2 with b2 | b2 <;> omega
  -- a row that is not a pivot is not zero: the degree is positive
  have hpos : ∀ t, t < m → isPiv t = false → 1 ≤ u.2.1 := by
    intro t ht hp
    by_contra h0
    have hu0 : u.2.1 = 0 := by omega
    have hne := (h.good.piv.row ⟨t, ht⟩).entry_ne
    apply hne
    show s.poly t t = 0
    ext d
    rw [coeff_zero]
    by_cases hd : d = 0
    · have := htop t t ht ht hp
      rw [hco0 _ _ _ (le_refl _), hu0] at this
      rw [hd]; exact this
    · exact hcoeff0 t t d (by omega)
  obtain ⟨r1, r2⟩ := replaceRows_spec (m := m) b.kerbas b.piv b.rows b.pos (fun i _ => rfl) hb.inj 0 (u.2.1 + 1) co0
  generalize hC1 : replaceRows m k b.kerbas b.piv b.rows 0 (u.2.1 + 1) co0 = co1 at r1 r2
  have hlen' : (if u.2.1 = s.len then u.2.1 + 1 else s.len) = u.2.1 + 1 := by
    split_ifs with hu
    · rfl
    · rcases b2 with b2 | b2 <;> omega
  have hdef : usualI m k (x ord) b s = .ok ⟨mulLin m u.2.1 isPiv (-x ord) co1, if u.2.1 = s.len then u.2.1 + 1 else s.len, u.2.1, u.1,
      b.pPiv ++ s.pPiv.drop k, isPiv, b.kerbas⟩ := by
    unfold usualI
    dsimp only
    rw [hIP, hU, if_neg, hC1]
    rintro ⟨h1, h2⟩
    rw [List.any_eq_true] at h2
    obtain ⟨t, h3, h4⟩ := h2
    have := hpos t (List.mem_range.1 h3) (by simpa using h4)
    omega
  refine ⟨_, hdef, ?_⟩
  generalize hS : (⟨mulLin m u.2.1 isPiv (-x ord) co1, if u.2.1 = s.len then u.2.1 + 1 else s.len, u.2.1, u.1,
      b.pPiv ++ s.pPiv.drop k, isPiv, b.kerbas⟩ : State F) = s'
  have hpoly : ∀ i l, s'.poly i l = ofCoeffs (u.2.1 + 1) fun d => mulLin m u.2.1 isPiv (-x ord) co1 (d, i) l := by
    intro i l
    rw [← hS]
    unfold State.poly
    dsimp only
    rw [hlen']
  have hpiv : ∀ i l, i < k → l < m → s'.poly (b.pos i) l = ∑ t ∈ Finset.range m, C (b.kerbas.e (i, t)) * s.poly t l := by
    intro i l hi hl
    ext d
    rw [hpoly, ofCoeffs_coeff, finsetSum_coeff]
    have hp : isPiv (b.pos i) = true := by
      by_contra hf
      exact (hmark (b.pos i)).1 (by simpa using hf) i hi rfl
    simp only [coeff_C_mul]
    by_cases hd : d < u.2.1 + 1
    · have hun : mulLin m u.2.1 isPiv (-x ord) co1 (d, b.pos i) = co1 (d, b.pos i) := by
        by_cases hu1 : 1 ≤ u.2.1
        · exact (mulLin_spec m u.2.1 isPiv (-x ord) co1 hu1).2.2.2 d _ (Or.inr (Or.inr hp))
        · -- all rows are pivots
          obtain ⟨-, a2⟩ := row_loop m u.2.1 isPiv (fun i co => co (u.2.1 - 1, i)) (fun i y y' h => h _) co1
          unfold mulLin
          dsimp only
          generalize forN m (fun i co => if isPiv i then co else write (u.2.1, i) (co (u.2.1 - 1, i)) co) co1 = co2 at a2 ⊢
          rw [show u.2.1 - 1 = 0 by omega]
          obtain ⟨-, b2⟩ := row_loop m 0 isPiv (fun i co j => co (0, i) j * -x ord) (fun i y y' h => by rw [h]) co2
          exact (b2 d _ (Or.inr (Or.inr hp))).trans (a2 d _ (Or.inr (Or.inr hp)))
      rw [if_pos hd, hun, r1 d i l (Nat.zero_le _) (by omega) hi]
      exact Finset.sum_congr rfl fun t _ => by rw [hco0 d t l (by omega)]
    · rw [if_neg hd]
      exact (Finset.sum_eq_zero fun t _ => by rw [hcoeff0 t l d (by omega), mul_zero]).symm
  have hnp : ∀ t l, t < m → l < m → (∀ i, i < k → b.pos i ≠ t) → s'.poly t l = (X - C (x ord)) * s.poly t l := by
    intro t l ht hl hn
    have hp := (hmark t).2 hn
    rw [hpoly]
    refine mulLin_poly m u.2.1 isPiv (x ord) co1 (hpos t ht hp) t l ht hp _ (fun d hd => ?_) fun d hd => ?_
    · rw [r2 _ _ (Or.inr (Or.inr hn)), hco0 d t l (by omega)]
    · by_cases hd2 : d = u.2.1
      · rw [hd2, ← hco0 _ _ _ (le_refl _), htop t l ht hl hp]
      · exact hcoeff0 t l d (by omega)
  have hdeg := h.deg
  have hsp : s'.isPiv = isPiv := by rw [← hS]
  have hsd : s'.degA = u.2.1 := by rw [← hS]
  have hss : s'.shift = u.1 := by rw [← hS]
  have hsl : s'.len = u.2.1 + 1 := by rw [← hS]; exact hlen'
  refine ⟨⟨by rw [hsl, hsd], by rw [hsd]; rcases b2 with b2 | b2 <;> omega, ?_⟩, fun t => by rw [hsp]; exact hmark t,
    fun t => by unfold PML.Ntl.Mbasis.restore; dsimp only; rw [hsp]; exact hrest t, hpiv, hnp⟩
  refine h.good.step hR hb (fun i hi => ⟨?_, fun l hl => hpiv i l hi hl⟩) fun t ht hn => ⟨?_, fun l hl => hnp t l ht hl hn⟩
  · have hp : isPiv (b.piv.getD (b.rows.getD i 0) 0) ≠ false := fun hf => (hmark _).1 hf i hi rfl
    rw [hss, b1, if_neg (fun h => hp h.2)]
  · rw [hss, b1, if_pos ⟨ht, (hmark t).2 hn⟩]

end PML.Ntl.Intbas
