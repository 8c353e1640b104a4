import Verif.Ntl.SeqLoop

/-!
# C97: generators of the annihilator of a sequence
-/

namespace PML.Ntl.Seq

open Polynomial PML.Ntl.Utils PML.Ntl.Inv PML.Ntl.Solve

open PML.Ntl.Struct (loopOut)

variable {F : Type} [Field F]

/-- The state after the step `s`. -/
structure Good (d n s : Nat) (σ : Nat → F[X]) (x : St F) : Prop where
  tab : Tab d n s σ x
  gen : ∀ t, t < d → ∃ c, c ≤ s ∧ Shape d c t (x.gens t) ∧ x.us t = pre d σ (n - c) (x.gens t) ∧ (c = s ∨ ∀ i, i < n - c → X ^ d ∣ act σ i (x.gens t))
  std : Std d n s σ x.iFs
  least : ∀ t, t < d → ∀ (h : Polynomial F[X]) (w : F[X]), w.coeff 0 ≠ 0 → h.leadingCoeff = X ^ t * w → h.natDegree ≤ s →
    (∀ i, i < n - h.natDegree → X ^ d ∣ act σ i h) →
    (x.gens t).natDegree ≤ h.natDegree ∧ ∀ i, i < n - (x.gens t).natDegree → X ^ d ∣ act σ i (x.gens t)

theorem stage_step {d n s : Nat} {σ : Nat → F[X]} {x : St F} (hG : Good d n s σ x) (hs : s + 1 < n) :
    ∃ y, stage d n x = .ok y ∧ Good d n (s + 1) σ y := by
  obtain ⟨y, e1, hy1, hy2, hy3, hy4⟩ := advance_loop hG.tab hs hG.gen
  have hT : Tab d n (s + 1) σ y := by
    refine ⟨fun k hk v hv => ?_, fun k hk hv => ?_⟩
    · rw [hy1] at hv; rw [hy2]
      obtain ⟨g, h1, h2, h3⟩ := hG.tab.some k hk v hv
      exact ⟨g, h1, by omega, h3⟩
    · rw [hy1] at hv; rw [hy2]; exact hG.tab.none k hk hv
  obtain ⟨z, e2, hz1, hz2, hz3, hz4, hz5⟩ := update_loop (x := y) hT (fun t ht => by
    obtain ⟨c, h1, h2, h3, -⟩ := hy3 t ht
    exact ⟨c, h1, h2, h3⟩)
  have hfam : ∀ t, t < d → Fam d n (s + 1) t σ x.iFs (y.gens t) := by
    intro t ht
    obtain ⟨c, h1, h2, -, h4⟩ := hy3 t ht
    refine ⟨by rw [h2.natDegree]; exact h1, h2.lc, ?_⟩
    rw [h2.natDegree]
    exact h4
  refine ⟨z, ?_, hz3, fun t ht => ?_, fun h hh k hk hl => ?_, fun t ht h w hw hc hn hzero => ?_⟩
  · unfold stage
    rw [e1]
    exact e2
  · obtain ⟨c, h1, h2, h3, h4⟩ := hy3 t ht
    rw [hz1, hz2]
    exact ⟨c, h1, h2, h3, h4.symm.imp (fun h => h.1) id⟩
  · rcases std_step hG.tab.ent hG.std hfam h hh k hk hl with h1 | ⟨t, ht, h1, h2, h3⟩
    · refine hz4 k h (by omega) hl ?_
      rw [hy2]; exact h1
    · exact (hz5 t ht k h1 h2).trans h2 h3
  · rw [hz2]
    rcases Nat.lt_or_ge h.natDegree (s + 1) with h1 | h1
    · obtain ⟨h2, h3⟩ := hG.least t ht h w hw hc (by omega) hzero
      rw [hy4 t ht h3]
      exact ⟨h2, h3⟩
    · have h2 := min_step hG.tab.ent hG.std (hfam t ht) h w hw (by omega) hc hzero
      exact ⟨by have := (hfam t ht).deg; omega, h2⟩

theorem first_pre (d n t : Nat) (σ : Nat → F[X]) : mulTrunc (firstTerms n σ) (X ^ t) d = pre d σ n (C (X ^ t)) := by
  unfold mulTrunc firstTerms pre
  rw [List.map_map]
  refine List.map_congr_left fun i _ => ?_
  show ptrunc (σ i * X ^ t) d = _
  rw [act_C, mul_comm]

theorem phase1_loop (d n : Nat) (σ : Nat → F[X]) :
    Good d n 0 σ (forN d (phase1 d (firstTerms n σ)) (⟨fun _ => [], fun _ => 0, fun _ => none, fun _ => none⟩, 1)).1 := by
  have key := forN_inv (n := d) (f := phase1 d (firstTerms n σ))
    (s := ((⟨fun _ => [], fun _ => 0, fun _ => none, fun _ => none⟩, 1) : St F × F[X])) (P := fun T x => x.2 = X ^ T ∧ Tab d n 0 σ x.1 ∧
      (∀ t, t < T → x.1.gens t = C (X ^ t) ∧ x.1.us t = pre d σ n (C (X ^ t))) ∧
      (∀ k : Nat, k < n → ∀ g, x.1.iFs k = some g → ∃ t, t < T ∧ g = C (X ^ t)) ∧
      ∀ t, t < T → ∀ k, k < n → Lead d σ (C (X ^ t)) k → Red x.1.iFs σ (C (X ^ t)) k)
    ⟨by simp, ⟨fun k hk v hv => by simp at hv, fun k hk _ => rfl⟩, fun t ht => by omega, fun k hk g hg => by simp at hg, fun t ht => by omega⟩ ?_
  · obtain ⟨-, h1, h2, -, h4⟩ := key
    set x := (forN d (phase1 d (firstTerms n σ)) ((⟨fun _ => [], fun _ => 0, fun _ => none, fun _ => none⟩, 1) : St F × F[X])).1
    have hn : ∀ t, (C (X ^ t) : Polynomial F[X]).natDegree = 0 := fun t => natDegree_C _
    refine ⟨h1, fun t ht => ⟨0, le_rfl, ?_, ?_, .inl rfl⟩, fun h hh k hk hl => ?_, fun t ht h w hw hc hd hz => ?_⟩
    · rw [(h2 t ht).1]
      refine ⟨by rw [coeff_C_zero], fun j hj => by rw [coeff_C, if_neg (by omega)], fun j k hk => ?_⟩
      rw [coeff_C]
      split_ifs
      · rw [coeff_X_pow, if_neg (by omega)]
      · rw [coeff_zero]
    · rw [(h2 t ht).1, (h2 t ht).2]; rfl
    · have eh : h = C (h.coeff 0) := by
        ext j : 1
        rw [coeff_C]
        split_ifs with e
        · rw [e]
        · exact hh j (by omega)
      have ha : ∀ j, act σ j h = h.coeff 0 * σ j := fun j => by rw [eh, act_C, coeff_C_zero]
      have hnd : ¬X ^ d ∣ h.coeff 0 := by
        intro hd
        apply hl.2
        rw [ha]
        exact hd.mul_right _
      obtain ⟨t, w, ht, hw, hc⟩ := split_unit hnd
      have hb : ∀ j u, X ^ u ∣ act σ j h ↔ X ^ u ∣ act σ j (C (X ^ t)) := by
        intro j u
        rw [ha, hc, act_C, mul_comm (X ^ t) w, mul_assoc, dvd_unit hw]
      have hl' : Lead d σ (C (X ^ t)) k := ⟨fun j hj => (hb j d).1 (hl.1 j hj), fun h3 => hl.2 ((hb k d).2 h3)⟩
      exact (h4 t ht k (by omega) hl').trans hl' fun v hv => (hb k v).2 hv.1
    · rw [(h2 t ht).1, hn]
      refine ⟨by omega, fun i hi => ?_⟩
      have eh : h = C (h.coeff 0) := eq_C_of_natDegree_eq_zero (by omega)
      have h0 : h.natDegree = 0 := by omega
      rw [Polynomial.leadingCoeff, h0] at hc
      have := hz i (by omega)
      rw [eh, act_C, hc, mul_comm (X ^ t) w, mul_assoc, dvd_unit hw] at this
      rw [act_C]; exact this
  · rintro T ⟨x, r⟩ hT ⟨hr, h1, h2, h3, h4⟩
    dsimp only at hr h1 h2 h3 h4
    unfold phase1
    subst hr
    dsimp only
    rw [first_pre]
    set u := pre d σ n (C (X ^ T) : Polynomial F[X]) with hu
    refine ⟨by rw [pshift, if_pos (by decide)]; simp [pow_succ], ?_⟩
    -- the part on `us` and `gens` does not depend on the tables
    have hgu : ∀ t, t < T + 1 → (write T (C (X ^ T)) x.gens : Nat → Polynomial F[X]) t = C (X ^ t) ∧ (write T u x.us : Nat → List F[X]) t = pre d σ n (C (X ^ t)) := by
      intro t ht
      by_cases e : t = T
      · subst e
        simp [write, hu]
      · rw [write, Function.update_of_ne e, write, Function.update_of_ne e]
        exact h2 t (by omega)
    by_cases hz : ∀ i, i < n → X ^ d ∣ act σ i (C (X ^ T))
    · -- the sequence is zero: at most the entry `n` of the tables changes
      have hnew : ∀ t, t < T + 1 → ∀ (I : Int → Option (Polynomial F[X])), (∀ k : Nat, k < n → I k = x.iFs k) → ∀ k, k < n → Lead d σ (C (X ^ t)) k → Red I σ (C (X ^ t)) k := by
        intro t ht I hI k hk hl
        by_cases e : t = T
        · subst e
          exact (hl.2 (hz k hk)).elim
        · obtain ⟨g, hg, hv⟩ := h4 t (by omega) k hk hl
          exact ⟨g, by rw [hI k hk]; exact hg, hv⟩
      rw [pre_index_zero hz]
      split_ifs with e1 e2 e2
      · omega
      · refine ⟨⟨h1.some, h1.none⟩, hgu, fun k hk g hg => ?_, fun t ht => hnew t ht _ fun _ _ => rfl⟩
        obtain ⟨t, ht, e⟩ := h3 k hk g hg
        exact ⟨t, by omega, e⟩
      · have hk' : ∀ k : Nat, k < n → (k : Int) ≠ (n : Int) := fun k hk => by omega
        refine ⟨⟨fun k hk v hv => ?_, fun k hk hv => ?_⟩, hgu, fun k hk g hg => ?_, fun t ht => hnew t ht _ fun k hk => ?_⟩
        · simp only [St.record, write, Function.update_of_ne (hk' k hk)] at hv ⊢
          exact h1.some k hk v hv
        · simp only [St.record, write, Function.update_of_ne (hk' k hk)] at hv ⊢
          exact h1.none k hk hv
        · simp only [St.record, write, Function.update_of_ne (hk' k hk)] at hg
          obtain ⟨t, ht, e⟩ := h3 k hk g hg
          exact ⟨t, by omega, e⟩
        · simp only [St.record, write, Function.update_of_ne (hk' k hk)]
      · refine ⟨⟨h1.some, h1.none⟩, hgu, fun k hk g hg => ?_, fun t ht => hnew t ht _ fun _ _ => rfl⟩
        obtain ⟨t, ht, e⟩ := h3 k hk g hg
        exact ⟨t, by omega, e⟩
    · obtain ⟨k0, hk0, hl0⟩ := lead_exists hz
      have hL : ∀ k', Lead d σ (C (X ^ T)) k' → k' = k0 := by
        intro k' hl'
        rcases Nat.lt_trichotomy k' k0 with h | h | h
        · exact (hl'.2 (hl0.1 _ h)).elim
        · exact h
        · exact (hl0.2 (hl'.1 _ h)).elim
      rw [hu, pre_index hk0 hl0, ← hu]
      rcases e : x.iSeq k0 with _ | v
      · rw [if_pos ⟨rfl, by omega⟩]
        have hfs := h1.none k0 hk0 e
        refine ⟨⟨fun k hk v hv => ?_, fun k hk hv => ?_⟩, hgu, fun k hk g hg => ?_, fun t ht k hk hl => ?_⟩
        · by_cases e' : k = k0
          · subst e'
            simp only [St.record, write, Function.update_self, Option.some.injEq] at hv ⊢
            exact ⟨_, rfl, by rw [natDegree_C], by rw [natDegree_C, ← hv]; rfl, by rw [natDegree_C]; exact hk, hl0⟩
          · have e2 : (k : Int) ≠ k0 := by omega
            simp only [St.record, write, Function.update_of_ne e2] at hv ⊢
            exact h1.some k hk v hv
        · by_cases e' : k = k0
          · subst e'
            simp [St.record, write] at hv
          · have e2 : (k : Int) ≠ k0 := by omega
            simp only [St.record, write, Function.update_of_ne e2] at hv ⊢
            exact h1.none k hk hv
        · by_cases e' : k = k0
          · subst e'
            simp only [St.record, write, Function.update_self, Option.some.injEq] at hg
            exact ⟨T, by omega, hg.symm⟩
          · have e2 : (k : Int) ≠ k0 := by omega
            simp only [St.record, write, Function.update_of_ne e2] at hg
            obtain ⟨t, ht, e⟩ := h3 k hk g hg
            exact ⟨t, by omega, e⟩
        · by_cases et : t = T
          · subst et
            rw [hL k hl]
            exact ⟨C (X ^ t), by simp [St.record, write], fun v hv => hv.1⟩
          · obtain ⟨g, hg, hv⟩ := h4 t (by omega) k hk hl
            have e2 : (k : Int) ≠ k0 := by
              intro e3
              rw [e3, hfs] at hg
              cases hg
            exact ⟨g, by simp only [St.record, write, Function.update_of_ne e2]; exact hg, hv⟩
      · rw [if_neg (by simp)]
        refine ⟨⟨h1.some, h1.none⟩, hgu, fun k hk g hg => ?_, fun t ht k hk hl => ?_⟩
        · obtain ⟨t, ht, e⟩ := h3 k hk g hg
          exact ⟨t, by omega, e⟩
        · by_cases et : t = T
          · subst et
            rw [hL k hl]
            obtain ⟨g, hg, -⟩ := h1.some k0 hk0 v e
            obtain ⟨t', ht', rfl⟩ := h3 k0 hk0 g hg
            refine ⟨_, hg, fun v hv => hv.1.trans ?_⟩
            rw [act_C, act_C]
            exact mul_dvd_mul_right (pow_dvd_pow X (by omega)) _
          · exact h4 t (by omega) k hk hl

theorem kurakin_good (d n : Nat) (σ : Nat → F[X]) :
    ∃ x : St F, kurakin (d : Int) (firstTerms n σ) = .ok ((List.range d).map x.gens) ∧ Good d n (n - 1) σ x := by
  have hlen : (firstTerms n σ).length = n := by simp [firstTerms]
  have hloop := Struct.loopOut_inv (k := n - 1) (f := fun _ => stage d n)
    (s := (forN d (phase1 d (firstTerms n σ)) (⟨fun _ => [], fun _ => 0, fun _ => none, fun _ => none⟩, 1)).1)
    (P := fun s x => Good d n s σ x) (phase1_loop d n σ) fun s x hs hG => stage_step hG (by omega)
  obtain ⟨x, e, hx⟩ := hloop
  refine ⟨x, ?_, hx⟩
  unfold kurakin
  rw [if_neg (by omega)]
  dsimp only
  rw [show ((d : Int)).toNat = d by omega, hlen, e]
  rfl

theorem firstTerms_list (S : List F[X]) : firstTerms S.length (fun i => S.getD i 0) = S := by
  refine List.ext_getElem? fun i => ?_
  unfold firstTerms
  by_cases hi : i < S.length
  · simp [hi]
  · rw [List.getElem?_eq_none (by simp; omega), List.getElem?_eq_none (by omega)]

theorem getD_gens (d : Nat) (g : Nat → Polynomial F[X]) {t : Nat} (ht : t < d) : ((List.range d).map g).getD t 0 = g t := by simp [ht]

/-- `kurakin(d, S, gens)` ends without an error for every sequence `S` and every `d ≥ 0`.  It returns `d` polynomials, reduced
    modulo `x^d`, and the leading coefficient in `y` of the one of index `t` is `x^t`.  Its degree is smaller than the length of
    `S`, and unless it is the largest possible, the polynomial cancels `S`. -/
theorem C97_kurakin (d : Nat) (S : List F[X]) :
    ∃ gens, kurakin (d : Int) S = .ok gens ∧ gens.length = d ∧ ∀ t, t < d →
      (gens.getD t 0).leadingCoeff = X ^ t ∧ (∀ j, ((gens.getD t 0).coeff j).degree < (d : WithBot Nat)) ∧ (gens.getD t 0).natDegree ≤ S.length - 1 ∧
      ((gens.getD t 0).natDegree + 1 < S.length → CancelsFirst d S.length (fun i => S.getD i 0) (gens.getD t 0)) := by
  obtain ⟨x, e, hx⟩ := kurakin_good d S.length fun i => S.getD i 0
  rw [firstTerms_list] at e
  refine ⟨_, e, by simp, fun t ht => ?_⟩
  rw [getD_gens d x.gens ht]
  obtain ⟨c, hc, hsh, -, halt⟩ := hx.gen t ht
  refine ⟨hsh.lc, fun j => (degree_lt_iff_coeff_zero _ _).2 fun k hk => hsh.low j k hk, by rw [hsh.natDegree]; exact hc, fun h i hi => ?_⟩
  rw [hsh.natDegree] at h hi
  rw [← act_entry]
  exact halt.resolve_left (by omega) i (by omega)

/-- The polynomials have the smallest possible degrees: a polynomial `h` with leading coefficient `x^t w`, `w` invertible modulo
    `x^d`, that cancels the sequence `S` and has a smaller degree than the length of `S`, has at least the degree of the polynomial
    of index `t`; and this one then cancels `S`. -/
theorem C97_minimal (d : Nat) (S : List F[X]) (gens : List (Polynomial F[X])) (hk : kurakin (d : Int) S = .ok gens) (t : Nat) (ht : t < d)
    (h : Polynomial F[X]) (w : F[X]) (hw : w.coeff 0 ≠ 0) (hlc : h.leadingCoeff = X ^ t * w) (hdeg : h.natDegree ≤ S.length - 1)
    (hc : CancelsFirst d S.length (fun i => S.getD i 0) h) :
    (gens.getD t 0).natDegree ≤ h.natDegree ∧ CancelsFirst d S.length (fun i => S.getD i 0) (gens.getD t 0) := by
  obtain ⟨x, e, hx⟩ := kurakin_good d S.length fun i => S.getD i 0
  rw [firstTerms_list, hk] at e
  cases e
  rw [getD_gens d x.gens ht]
  obtain ⟨h1, h2⟩ := hx.least t ht h w hw hlc hdeg fun i hi => by rw [act_entry]; exact hc i (by omega)
  exact ⟨h1, fun i hi => by rw [← act_entry]; exact h2 i (by omega)⟩

/-- With a monic polynomial that cancels all of `σ`, a polynomial is zero on `σ` if it is on the first entries. -/
theorem extend {d m : Nat} {σ : Nat → F[X]} {P h : Polynomial F[X]} (hP : P.Monic) (hm : P.natDegree = m) (hc : Cancels d σ P)
    (hz : ∀ i, i < m → X ^ d ∣ act σ i h) : ∀ i, X ^ d ∣ act σ i h := by
  have hcomm : ∀ i, X ^ d ∣ ∑ j ∈ Finset.range (m + 1), P.coeff j * act σ (i + j) h := by
    intro i
    have e : ∑ j ∈ Finset.range (m + 1), P.coeff j * act σ (i + j) h = ∑ l ∈ Finset.range (h.natDegree + 1), h.coeff l * entry P σ (i + l) := by
      simp only [act_entry, entry, hm, Finset.mul_sum]
      rw [Finset.sum_comm]
      refine Finset.sum_congr rfl fun l _ => Finset.sum_congr rfl fun j _ => ?_
      rw [show i + l + j = i + j + l by omega]; ring
    rw [e]
    exact Finset.dvd_sum fun l _ => (hc _).mul_left _
  intro i
  induction i using Nat.strong_induction_on with
  | _ i ih =>
    rcases Nat.lt_or_ge i m with h1 | h1
    · exact hz i h1
    · have := hcomm (i - m)
      rw [Finset.sum_range_succ, show P.coeff m = 1 by rw [← hm]; exact hP, one_mul, show i - m + m = i by omega] at this
      refine (dvd_add_right (Finset.dvd_sum fun j hj => ?_)).1 this
      have := Finset.mem_range.1 hj
      exact (ih _ (by omega)).mul_left _

/-- A polynomial that cancels `σ` is a combination of the polynomials `g t`, if these cancel `σ` and have the smallest degrees. -/
theorem generated {d : Nat} {σ : Nat → F[X]} {g : Nat → Polynomial F[X]} (hg : ∀ t, t < d → (g t).leadingCoeff = X ^ t ∧ ∀ i, X ^ d ∣ act σ i (g t))
    (hmin : ∀ t, t < d → ∀ (h : Polynomial F[X]) (w : F[X]), w.coeff 0 ≠ 0 → h.leadingCoeff = X ^ t * w → (∀ i, X ^ d ∣ act σ i h) → (g t).natDegree ≤ h.natDegree) :
    ∀ (s : Nat) (h : Polynomial F[X]), (∀ j, s ≤ j → h.coeff j = 0) → (∀ i, X ^ d ∣ act σ i h) →
      ∃ c : Nat → Polynomial F[X], C (X ^ d) ∣ h - ∑ t ∈ Finset.range d, c t * g t
  | 0, h, hs, _ => by
    have : h = 0 := by ext j : 1; rw [hs j (by omega), coeff_zero]
    exact ⟨fun _ => 0, by simp [this]⟩
  | s + 1, h, hs, hz => by
    by_cases hd : X ^ d ∣ h.coeff s
    · obtain ⟨c, q, hq⟩ := generated hg hmin s (h - monomial s (h.coeff s)) (fun j hj => by
        rw [coeff_sub, coeff_monomial]
        split_ifs with e
        · rw [e, sub_self]
        · rw [hs j (by omega), sub_zero]) (fun i => by
        rw [map_sub, act_monomial]
        exact dvd_sub (hz i) (hd.mul_right _))
      obtain ⟨r, hr⟩ := hd
      refine ⟨c, q + monomial s r, ?_⟩
      have : monomial s (h.coeff s) = C (X ^ d) * monomial s r := by rw [hr, C_mul_monomial]
      rw [mul_add, ← hq, ← this]; ring
    · obtain ⟨t, w, ht, hw, hc⟩ := split_unit hd
      have hne : h.coeff s ≠ 0 := fun e => hd (by rw [e]; exact dvd_zero _)
      have hdeg : h.natDegree = s := le_antisymm (natDegree_le_iff_coeff_eq_zero.2 fun j hj => hs j hj) (le_natDegree_of_ne_zero hne)
      have hle : (g t).natDegree ≤ s := by
        rw [← hdeg]
        exact hmin t ht h w hw (by rw [Polynomial.leadingCoeff, hdeg, hc]) hz
      obtain ⟨c, q, hq⟩ := generated hg hmin s _ (top_cancel (hg t ht).1 hle (fun j hj => hs j hj) hc) (fun i => by
        rw [map_sub, act_C_mul, act_mul_X_pow]
        exact dvd_sub (hz i) (((hg t ht).2 _).mul_left _))
      refine ⟨fun u => c u + if u = t then C w * X ^ (s - (g t).natDegree) else 0, q, ?_⟩
      rw [← hq]
      have : ∑ u ∈ Finset.range d, (c u + if u = t then C w * X ^ (s - (g t).natDegree) else 0) * g u =
          ∑ u ∈ Finset.range d, c u * g u + C w * X ^ (s - (g t).natDegree) * g t := by
        simp only [add_mul, Finset.sum_add_distrib, ite_mul, zero_mul]
        rw [Finset.sum_ite_eq' (Finset.range d) t, if_pos (Finset.mem_range.2 ht)]
      rw [this]; ring

/-- `kurakin(d, S, gens)` when `S` holds at least `2 m` terms of a sequence `σ` that is cancelled, modulo `x^d`, by some monic
    polynomial of degree `m` in `y`.  All polynomials returned cancel the whole of `σ`, have degree at most `m`, and every polynomial
    that cancels `σ` is a combination of them. -/
theorem C97_annihilator (d m n : Nat) (σ : Nat → F[X]) (P : Polynomial F[X]) (hP : P.Monic) (hm : P.natDegree = m) (hc : Cancels d σ P) (hn : 2 * m ≤ n) :
    ∃ gens, kurakin (d : Int) (firstTerms n σ) = .ok gens ∧ gens.length = d ∧
      (∀ t, t < d → Cancels d σ (gens.getD t 0) ∧ (gens.getD t 0).natDegree ≤ m) ∧
      ∀ h, Cancels d σ h → Generated d gens h := by
  obtain ⟨x, e, hx⟩ := kurakin_good d n σ
  have hPn : P ≠ 0 := hP.ne_zero
  have hall : ∀ t, t < d → (x.gens t).natDegree ≤ m ∧ ∀ i, X ^ d ∣ act σ i (x.gens t) := by
    intro t ht
    have hnd : (C (X ^ t) * P).natDegree = m := by
      rw [← hm]
      exact natDegree_C_mul (pow_ne_zero _ X_ne_zero)
    have hlc : (C (X ^ t) * P).leadingCoeff = X ^ t * 1 := by rw [leadingCoeff_mul, leadingCoeff_C, hP.leadingCoeff]
    obtain ⟨h1, h2⟩ := hx.least t ht (C (X ^ t) * P) 1 (by simp) hlc (by omega) fun i _ => by
      rw [act_C_mul, act_entry]; exact (hc i).mul_left _
    rw [hnd] at h1
    exact ⟨h1, extend hP hm hc fun i hi => h2 i (by omega)⟩
  have hg : ∀ t, t < d → ((List.range d).map x.gens).getD t 0 = x.gens t := fun t ht => getD_gens d x.gens ht
  refine ⟨_, e, by simp, fun t ht => ?_, fun h hh => ?_⟩
  · rw [hg t ht]
    exact ⟨fun i => by rw [← act_entry]; exact (hall t ht).2 i, (hall t ht).1⟩
  · obtain ⟨c, hcd⟩ := generated (d := d) (σ := σ) (g := x.gens) (fun t ht => ⟨by
        obtain ⟨_, _, hsh, _⟩ := hx.gen t ht
        exact hsh.lc, (hall t ht).2⟩) (fun t ht h w hw hlc hz => by
        rcases Nat.lt_or_ge (n - 1) h.natDegree with h1 | h1
        · have := (hall t ht).1
          omega
        · exact (hx.least t ht h w hw hlc h1 fun i _ => hz i).1) (h.natDegree + 1) h (fun j hj => coeff_eq_zero_of_natDegree_lt (by omega))
      fun i => by rw [act_entry]; exact hh i
    refine ⟨c, ?_⟩
    rw [List.length_map, List.length_range]
    rw [Finset.sum_congr rfl fun t ht => by rw [hg t (Finset.mem_range.1 ht)]]
    exact hcd

/-- The degree condition of `C97_kurakin` is needed: with too few terms a polynomial of the largest degree need not cancel `S`. -/
theorem C97_short_fails : ∃ (S : List (ZMod 2)[X]) (gens : List (Polynomial (ZMod 2)[X])), kurakin 1 S = .ok gens ∧
    ¬CancelsFirst 1 S.length (fun i => S.getD i 0) (gens.getD 0 0) := by
  haveI : Fact (Nat.Prime 2) := ⟨Nat.prime_two⟩
  obtain ⟨gens, e, hl, h⟩ := C97_kurakin 1 ([1] : List (ZMod 2)[X])
  refine ⟨[1], gens, e, fun hc => ?_⟩
  obtain ⟨h1, -, h2, -⟩ := h 0 (by omega)
  have h0 : (gens.getD 0 0).natDegree = 0 := by simpa using h2
  have h3 := hc 0 (by rw [h0]; decide)
  rw [entry, h0] at h3
  have h4 : (gens.getD 0 0).coeff 0 = 1 := by
    have := h1
    rw [Polynomial.leadingCoeff, h0] at this
    simpa using this
  simp only [zero_add, Finset.sum_range_one, h4, one_mul] at h3
  have h5 : (X : (ZMod 2)[X]) ∣ 1 := by simpa using h3
  rw [X_dvd_iff] at h5
  simp at h5

end PML.Ntl.Seq
