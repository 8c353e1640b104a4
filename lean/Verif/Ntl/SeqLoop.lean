import Verif.Ntl.SeqLemmas
import Verif.Ntl.StructLemmas

/-!
# Lemmas for C97: the loops
-/

namespace PML.Ntl.Seq

open Polynomial PML.Ntl.Utils PML.Ntl.Inv PML.Ntl.Solve

open PML.Ntl.Struct (loopOut)

variable {F : Type} [Field F]

/-- `f` is `x^t y^s` plus terms of smaller degree in `y`, reduced modulo `x^d`. -/
structure Shape (d s t : Nat) (f : Polynomial F[X]) : Prop where
  top : f.coeff s = X ^ t
  high : ∀ j, s < j → f.coeff j = 0
  low : ∀ j k, d ≤ k → (f.coeff j).coeff k = 0

theorem Shape.natDegree {d s t : Nat} {f : Polynomial F[X]} (h : Shape d s t f) : f.natDegree = s := by
  refine le_antisymm (natDegree_le_iff_coeff_eq_zero.2 h.high) (le_natDegree_of_ne_zero ?_)
  rw [h.top]
  exact pow_ne_zero _ X_ne_zero

theorem Shape.lc {d s t : Nat} {f : Polynomial F[X]} (h : Shape d s t f) : f.leadingCoeff = X ^ t := by
  rw [Polynomial.leadingCoeff, h.natDegree, h.top]

/-- The tables of the state, at indices smaller than `n`, hold sequences obtained from `σ`. -/
structure Tab (d n s : Nat) (σ : Nat → F[X]) (x : St F) : Prop where
  some : ∀ k : Nat, k < n → ∀ v, x.iSeq k = some v →
    ∃ g, x.iFs k = some g ∧ g.natDegree ≤ s ∧ v = pre d σ (n - g.natDegree) g ∧ k < n - g.natDegree ∧ Lead d σ g k
  none : ∀ k : Nat, k < n → x.iSeq k = none → x.iFs k = none

theorem Tab.ent {d n s : Nat} {σ : Nat → F[X]} {x : St F} (h : Tab d n s σ x) : Ent d n σ x.iFs := by
  intro k hk g hg
  rcases e : x.iSeq k with _ | v
  · rw [h.none k hk e] at hg; cases hg
  · obtain ⟨g', hg', -, -, -, hl⟩ := h.some k hk v e
    rw [hg'] at hg
    cases hg
    exact hl

theorem reduce_spec {d n s t : Nat} {σ : Nat → F[X]} {x : St F} (hT : Tab d n s σ x) (ht : t < d) :
    ∀ (fuel k0 : Nat) (f : Polynomial F[X]), Shape d (s + 1) t f → k0 ≤ n - (s + 1) → n - (s + 1) < fuel + k0 → (∀ j, j < k0 → X ^ d ∣ act σ j f) →
      ∃ f', reduce d x fuel (pre d σ (n - (s + 1)) f, f) = .ok (pre d σ (n - (s + 1)) f', f') ∧ Shape d (s + 1) t f' ∧
        ∀ k, k < n - (s + 1) → Lead d σ f' k → ¬Red x.iFs σ f' k := by
  intro fuel
  induction fuel with
  | zero => intro k0 f _ h1 h2; omega
  | succ fuel ih =>
    intro k0 f hf h1 h2 hk0
    by_cases hz : ∀ i, i < n - (s + 1) → X ^ d ∣ act σ i f
    · refine ⟨f, ?_, hf, fun k hk hl => (hl.2 (hz k hk)).elim⟩
      unfold reduce
      split_ifs with e1 e2
      · rfl
      · rfl
      · exact absurd ((pre_isZero d _ σ f).2 hz) e2
    · obtain ⟨k, hk, hl⟩ := lead_exists hz
      have hkk : k0 ≤ k := by
        by_contra hc
        exact hl.2 (hk0 k (by omega))
      have hL : ∀ k', Lead d σ f k' → k' = k := by
        intro k' hl'
        rcases Nat.lt_trichotomy k' k with h | h | h
        · exact (hl'.2 (hl.1 _ h)).elim
        · exact h
        · exact (hl.2 (hl'.1 _ h)).elim
      unfold reduce
      rw [if_neg (by rw [pre_length]; omega), if_neg (fun e => hz ((pre_isZero d _ σ f).1 e))]
      dsimp only
      rw [pre_index hk hl, if_neg (by rw [pre_length]; omega)]
      rcases e : x.iSeq k with _ | v
      · refine ⟨f, rfl, hf, fun k' _ hl' => ?_⟩
        rw [hL k' hl']
        rintro ⟨g, hg, -⟩
        rw [hT.none k (by omega) e] at hg
        cases hg
      · obtain ⟨g, hg, hgs, rfl, hkg, hlg⟩ := hT.some k (by omega) v e
        dsimp only
        rw [if_neg (by omega), pre_rd σ f hk, pre_rd σ g hkg]
        obtain ⟨vl, hvl⟩ := exists_V hl.2
        obtain ⟨vr, hvr⟩ := exists_V hlg.2
        have hld := hvl.lt hl.2
        have hrd := hvr.lt hlg.2
        simp only [andThen]
        rw [valuation_eq (hvl.trunc hld), valuation_eq (hvr.trunc hrd)]
        by_cases hlt : (vl : Int) < vr
        · rw [if_pos hlt]
          refine ⟨f, rfl, hf, fun k' _ hl' => ?_⟩
          rw [hL k' hl']
          rintro ⟨g', hg', hv'⟩
          rw [hg] at hg'
          cases hg'
          have := hvl.le (hv' vr hvr)
          omega
        · rw [if_neg hlt]
          obtain ⟨a, ha, hda⟩ := solve_spec (l := ptrunc (act σ k f) d) (r := ptrunc (act σ k g) d) (hvr.trunc hrd) hrd
            ((trunc_pow_dvd (by omega)).2 ((pow_dvd_pow X (by omega)).trans hvl.1)) (trunc_high _ _) (trunc_high _ _)
          rw [ha]
          simp only [mapGet, hg, Option.getD_some]
          rw [pre_mul, pre_add σ f _ (by omega)]
          set f1 := truncX (f - C a * g) d with hf1
          have hact : ∀ i, X ^ d ∣ act σ i (f + C (-a) * g) - act σ i f1 := by
            intro i
            have : f + C (-a) * g = f - C a * g := by rw [C_neg]; ring
            rw [this]
            exact act_truncX σ i d _
          have hsh : Shape d (s + 1) t f1 := by
            refine ⟨?_, fun j hj => ?_, fun j i hi => ?_⟩
            · rw [hf1, truncX_coeff, coeff_sub, coeff_C_mul, coeff_eq_zero_of_natDegree_lt (p := g) (by omega), mul_zero, sub_zero, hf.top]
              refine trunc_self fun i hi => ?_
              rw [coeff_X_pow, if_neg (by omega)]
            · rw [hf1, truncX_coeff, coeff_sub, coeff_C_mul, coeff_eq_zero_of_natDegree_lt (p := g) (by omega), hf.high j hj, mul_zero, sub_zero, trunc_of_zero]
            · rw [hf1, truncX_coeff]
              exact trunc_high _ _ i hi
          have hz1 : ∀ j, j < k + 1 → X ^ d ∣ act σ j f1 := by
            intro j hj
            have h3 : X ^ d ∣ act σ j (f + C (-a) * g) := by
              rw [map_add, act_C_mul]
              rcases Nat.lt_or_ge j k with h | h
              · exact dvd_add (hl.1 j h) ((hlg.1 j h).mul_left _)
              · obtain rfl : j = k := by omega
                obtain ⟨q1, h1⟩ := trunc_dvd (act σ j f) d
                obtain ⟨q2, h2⟩ := trunc_dvd (act σ j g) d
                obtain ⟨q3, h3⟩ := hda
                exact ⟨q1 - a * q2 + q3, by linear_combination h1 - a * h2 + h3⟩
            exact (dvd_sub_right h3).1 (hact j)
          rw [pre_congr (g := f1) fun i _ => hact i]
          exact ih (k + 1) f1 hsh (by omega) (by omega) hz1

/-- What is known on `x^t` after the loop of lines 276-357. -/
def AdvOk (d n s t : Nat) (σ : Nat → F[X]) (I : Int → Option (Polynomial F[X])) (u : List F[X]) (f : Polynomial F[X]) : Prop :=
  ∃ c, c ≤ s ∧ Shape d c t f ∧ u = pre d σ (n - c) f ∧
    ((∀ i, i < n - c → X ^ d ∣ act σ i f) ∨ (c = s ∧ ∀ k, k < n - s → Lead d σ f k → ¬Red I σ f k))

theorem advance_loop {d n s : Nat} {σ : Nat → F[X]} {x : St F} (hT : Tab d n s σ x) (hs : s + 1 < n)
    (hg : ∀ t, t < d → ∃ c, c ≤ s ∧ Shape d c t (x.gens t) ∧ x.us t = pre d σ (n - c) (x.gens t) ∧ (c = s ∨ ∀ i, i < n - c → X ^ d ∣ act σ i (x.gens t))) :
    ∃ y, loopOut d (advance d n) x = .ok y ∧ y.iSeq = x.iSeq ∧ y.iFs = x.iFs ∧
      (∀ t, t < d → AdvOk d n (s + 1) t σ x.iFs (y.us t) (y.gens t)) ∧
      ∀ t, t < d → (∀ i, i < n - (x.gens t).natDegree → X ^ d ∣ act σ i (x.gens t)) → y.gens t = x.gens t := by
  have key : ∃ y, loopOut d (advance d n) x = .ok y ∧ y.iSeq = x.iSeq ∧ y.iFs = x.iFs ∧
      (∀ t, t < d → AdvOk d n (s + 1) t σ x.iFs (y.us t) (y.gens t)) ∧
      (∀ t, t < d → (∀ i, i < n - (x.gens t).natDegree → X ^ d ∣ act σ i (x.gens t)) → y.gens t = x.gens t) ∧
      ∀ t, d ≤ t → y.us t = x.us t ∧ y.gens t = x.gens t := by
    refine Struct.loopOut_inv (k := d) (f := advance d n) (s := x) (P := fun T y => y.iSeq = x.iSeq ∧ y.iFs = x.iFs ∧
      (∀ t, t < T → AdvOk d n (s + 1) t σ x.iFs (y.us t) (y.gens t)) ∧
      (∀ t, t < d → (∀ i, i < n - (x.gens t).natDegree → X ^ d ∣ act σ i (x.gens t)) → y.gens t = x.gens t) ∧
      ∀ t, T ≤ t → y.us t = x.us t ∧ y.gens t = x.gens t)
      ⟨rfl, rfl, fun t ht => by omega, fun _ _ _ => rfl, fun t _ => ⟨rfl, rfl⟩⟩ ?_
    rintro T y hTd ⟨h1, h2, h3, h4, h5⟩
    obtain ⟨c, hc, hsh, hu, halt⟩ := hg T hTd
    obtain ⟨e1, e2⟩ := h5 T le_rfl
    unfold advance
    dsimp only
    rw [e1, e2]
    rw [if_neg (by rw [hu, pre_length]; omega)]
    by_cases hz : ∀ i, i < n - c → X ^ d ∣ act σ i (x.gens T)
    · rw [if_pos (by rw [hu]; exact (pre_isZero d _ σ _).2 hz)]
      refine ⟨y, rfl, h1, h2, fun t ht => ?_, h4, fun t ht => h5 t (by omega)⟩
      rcases Nat.lt_or_ge t T with h | h
      · exact h3 t h
      · obtain rfl : t = T := by omega
        rw [e1, e2]
        exact ⟨c, by omega, hsh, hu, .inl hz⟩
    · rw [if_neg (by rw [hu]; exact fun e => hz ((pre_isZero d _ σ _).1 e))]
      obtain rfl : c = s := halt.resolve_right hz
      have hT' : Tab d n c σ y := by
        refine ⟨fun k hk v hv => ?_, fun k hk hv => ?_⟩
        · rw [h1] at hv; rw [h2]; exact hT.some k hk v hv
        · rw [h1] at hv; rw [h2]; exact hT.none k hk hv
      have hsh' : Shape d (c + 1) T (x.gens T * X) := by
        refine ⟨by rw [coeff_mul_X]; exact hsh.top, fun j hj => ?_, fun j k hk => ?_⟩
        · obtain ⟨i, rfl⟩ : ∃ i, j = i + 1 := ⟨j - 1, by omega⟩
          rw [coeff_mul_X]; exact hsh.high i (by omega)
        · cases j with
          | zero => rw [coeff_mul_X_zero, coeff_zero]
          | succ i => rw [coeff_mul_X]; exact hsh.low i k hk
      obtain ⟨f', e', hs', hirr⟩ := reduce_spec hT' hTd (n + 1) 0 _ hsh' (by omega) (by omega) (fun j hj => by omega)
      rw [hu, show n - c = n - (c + 1) + 1 by omega, pre_shift, e']
      refine ⟨_, rfl, h1, h2, fun t ht => ?_, fun t ht hzt => ?_, fun t ht => ?_⟩
      · dsimp only
        rcases Nat.lt_or_ge t T with h | h
        · rw [write, Function.update_of_ne (by omega), write, Function.update_of_ne (by omega)]
          exact h3 t h
        · obtain rfl : t = T := by omega
          rw [write, Function.update_self, write, Function.update_self]
          refine ⟨c + 1, le_rfl, hs', rfl, .inr ⟨rfl, fun k hk hl => ?_⟩⟩
          rw [← h2]
          exact hirr k hk hl
      · dsimp only
        by_cases h : t = T
        · rw [h] at hzt
          rw [hsh.natDegree] at hzt
          exact (hz hzt).elim
        · rw [write, Function.update_of_ne h]
          exact h4 t ht hzt
      · dsimp only
        rw [write, Function.update_of_ne (by omega), write, Function.update_of_ne (by omega)]
        exact h5 t (by omega)
  obtain ⟨y, e, h1, h2, h3, h4, -⟩ := key
  exact ⟨y, e, h1, h2, h3, h4⟩

theorem Red.trans {d k : Nat} {σ : Nat → F[X]} {I : Int → Option (Polynomial F[X])} {f h : Polynomial F[X]} (hl : Lead d σ f k) (hr : Red I σ f k)
    (hv : ∀ v, V v (act σ k f) → X ^ v ∣ act σ k h) : Red I σ h k := by
  obtain ⟨g, hg, hgv⟩ := hr
  obtain ⟨v, hv'⟩ := exists_V hl.2
  exact ⟨g, hg, fun u hu => (pow_dvd_pow X (hv'.le (hgv u hu))).trans (hv v hv')⟩

theorem update_loop {d n s : Nat} {σ : Nat → F[X]} {x : St F} (hT : Tab d n s σ x)
    (hg : ∀ t, t < d → ∃ c, c ≤ s ∧ Shape d c t (x.gens t) ∧ x.us t = pre d σ (n - c) (x.gens t)) :
    ∃ y, loopOut d update x = .ok y ∧ y.us = x.us ∧ y.gens = x.gens ∧ Tab d n s σ y ∧
      (∀ k h, k < n → Lead d σ h k → Red x.iFs σ h k → Red y.iFs σ h k) ∧
      ∀ t, t < d → ∀ k, k < n - (x.gens t).natDegree → Lead d σ (x.gens t) k → Red y.iFs σ (x.gens t) k := by
  refine Struct.loopOut_inv (k := d) (f := update) (s := x) (P := fun T y => y.us = x.us ∧ y.gens = x.gens ∧ Tab d n s σ y ∧
      (∀ k h, k < n → Lead d σ h k → Red x.iFs σ h k → Red y.iFs σ h k) ∧
      ∀ t, t < T → ∀ k, k < n - (x.gens t).natDegree → Lead d σ (x.gens t) k → Red y.iFs σ (x.gens t) k)
    ⟨rfl, rfl, hT, fun _ _ _ _ h => h, fun t ht => by omega⟩ ?_
  rintro T y hTd ⟨h1, h2, h3, h4, h5⟩
  obtain ⟨c, hc, hsh, hu⟩ := hg T hTd
  have hn := hsh.natDegree
  unfold update
  dsimp only
  rw [h1, h2, hu]
  by_cases hz : ∀ i, i < n - c → X ^ d ∣ act σ i (x.gens T)
  · rw [pre_index_zero hz, pre_length, if_neg (by split_ifs <;> omega)]
    refine ⟨y, rfl, h1, h2, h3, h4, fun t ht k hk hl => ?_⟩
    rcases Nat.lt_or_ge t T with h | h
    · exact h5 t h k hk hl
    · obtain rfl : t = T := by omega
      rw [hn] at hk
      exact (hl.2 (hz k hk)).elim
  · obtain ⟨k0, hk0, hl0⟩ := lead_exists hz
    have hL : ∀ k', Lead d σ (x.gens T) k' → k' = k0 := by
      intro k' hl'
      rcases Nat.lt_trichotomy k' k0 with h | h | h
      · exact (hl'.2 (hl0.1 _ h)).elim
      · exact h
      · exact (hl0.2 (hl'.1 _ h)).elim
    rw [pre_index hk0 hl0, pre_length, if_pos (by omega)]
    -- recording the new sequence, when the table has nothing better at `k0`
    have recd : (∀ g, y.iFs k0 = some g → ∀ v, V v (act σ k0 (x.gens T)) → X ^ v ∣ act σ k0 g) →
        (fun T y => y.us = x.us ∧ y.gens = x.gens ∧ Tab d n s σ y ∧
          (∀ k h, k < n → Lead d σ h k → Red x.iFs σ h k → Red y.iFs σ h k) ∧
          ∀ t, t < T → ∀ k, k < n - (x.gens t).natDegree → Lead d σ (x.gens t) k → Red y.iFs σ (x.gens t) k) (T + 1)
          (y.record k0 (pre d σ (n - c) (x.gens T)) (x.gens T)) := by
      intro hbetter
      have mono : ∀ k h, k < n → Lead d σ h k → Red y.iFs σ h k → Red (y.record k0 (pre d σ (n - c) (x.gens T)) (x.gens T)).iFs σ h k := by
        intro k h hk hl hr
        by_cases e : k = k0
        · subst e
          obtain ⟨g, hg, hgv⟩ := hr
          refine ⟨x.gens T, by simp [St.record, write], fun v hv => ?_⟩
          obtain ⟨vg, hvg⟩ := exists_V (h3.ent k hk g hg).2
          exact (pow_dvd_pow X (hvg.le (hbetter g hg v hv))).trans (hgv vg hvg)
        · obtain ⟨g, hg, hgv⟩ := hr
          exact ⟨g, by simpa [St.record, write, Function.update, e] using hg, hgv⟩
      refine ⟨h1, h2, ⟨fun k hk v hv => ?_, fun k hk hv => ?_⟩, fun k h hk hl hr => mono k h hk hl (h4 k h hk hl hr), fun t ht k hk hl => ?_⟩
      · by_cases e : k = k0
        · subst e
          refine ⟨x.gens T, by simp [St.record, write], by omega, ?_, by omega, hl0⟩
          simp only [St.record, write, Function.update_self, Option.some.injEq] at hv
          rw [← hv, hn]
        · have e' : (k : Int) ≠ k0 := by omega
          simp only [St.record, write, Function.update_of_ne e'] at hv ⊢
          exact h3.some k hk v hv
      · by_cases e : k = k0
        · subst e
          simp [St.record, write] at hv
        · have e' : (k : Int) ≠ k0 := by omega
          simp only [St.record, write, Function.update_of_ne e'] at hv ⊢
          exact h3.none k hk hv
      · rcases Nat.lt_or_ge t T with h | h
        · exact mono k _ (by omega) hl (h5 t h k hk hl)
        · obtain rfl : t = T := by omega
          rw [hL k hl]
          exact ⟨x.gens t, by simp [St.record, write], fun v hv => hv.1⟩
    rcases e : y.iSeq k0 with _ | v
    · refine ⟨_, rfl, recd fun g hg => ?_⟩
      rw [h3.none k0 (by omega) e] at hg
      cases hg
    · obtain ⟨g, hg, hgs, rfl, hkg, hlg⟩ := h3.some k0 (by omega) v e
      dsimp only
      rw [pre_rd σ _ hk0, pre_rd σ g hkg]
      obtain ⟨vl, hvl⟩ := exists_V hl0.2
      obtain ⟨vr, hvr⟩ := exists_V hlg.2
      simp only [andThen]
      rw [valuation_eq (hvl.trunc (hvl.lt hl0.2)), valuation_eq (hvr.trunc (hvr.lt hlg.2))]
      refine ⟨_, rfl, ?_⟩
      split_ifs with hlt
      · refine recd fun g' hg' v hv => ?_
        rw [hg] at hg'
        cases hg'
        exact (pow_dvd_pow X (by have := hvl.le hv.1; omega)).trans hvr.1
      · refine ⟨h1, h2, h3, h4, fun t ht k hk hl => ?_⟩
        rcases Nat.lt_or_ge t T with h | h
        · exact h5 t h k hk hl
        · obtain rfl : t = T := by omega
          rw [hL k hl]
          exact ⟨g, hg, fun v hv => (pow_dvd_pow X (by have := hvr.le hv.1; omega)).trans hvl.1⟩

end PML.Ntl.Seq
