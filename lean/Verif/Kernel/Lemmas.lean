import Verif.Kernel.Model
import Verif.Kernel.Steps
import Verif.Pmbasis.Props
import Verif.Forms.Props

/-!
# Lemmas: the loops of the kernel computations
-/

namespace PML.Kernel

open PML.MatOps PML.MatPoly PML.PolyMul PML.Forms PML.Pmbasis Polynomial

set_option linter.unusedSectionVars false

variable {q : Nat} [Fact q.Prime]

/-- The first `c` entries of `f` are the indices below `k` satisfying `D`, in
    increasing order. -/
structure Enum (D : Nat → Prop) (k c : Nat) (f : Nat → Int) : Prop where
  mem : ∀ a, a < c → ∃ i, i < k ∧ D i ∧ f a = (i : Int)
  mono : ∀ a b, a < b → b < c → f a < f b
  surj : ∀ i, i < k → D i → ∃ a, a < c ∧ f a = (i : Int)

theorem Enum.zero (D : Nat → Prop) (f : Nat → Int) : Enum D 0 0 f :=
  ⟨fun _ h => by omega, fun _ _ _ h => by omega, fun _ h => by omega⟩

theorem Enum.congr {D : Nat → Prop} {k c : Nat} {f g : Nat → Int} (h : Enum D k c f)
    (hg : ∀ a, a < c → g a = f a) : Enum D k c g := by
  refine ⟨fun a ha => ?_, fun a b hab hb => ?_, fun i hi hD => ?_⟩
  · rw [hg a ha]; exact h.mem a ha
  · rw [hg a (by omega), hg b hb]; exact h.mono a b hab hb
  · obtain ⟨a, ha, e⟩ := h.surj i hi hD
    exact ⟨a, ha, by rw [hg a ha, e]⟩

theorem Enum.skip {D : Nat → Prop} {k c : Nat} {f : Nat → Int} (h : Enum D k c f) (hk : ¬ D k) :
    Enum D (k + 1) c f := by
  refine ⟨fun a ha => ?_, h.mono, fun i hi hD => ?_⟩
  · obtain ⟨i, h1, h2, h3⟩ := h.mem a ha
    exact ⟨i, by omega, h2, h3⟩
  · have : i ≠ k := fun e => hk (e ▸ hD)
    exact h.surj i (by omega) hD

theorem Enum.snoc {D : Nat → Prop} {k c : Nat} {f : Nat → Int} (h : Enum D k c f) (hk : D k) :
    Enum D (k + 1) (c + 1) (Function.update f c (k : Int)) := by
  have hne : ∀ a, a < c → Function.update f c (k : Int) a = f a := fun a ha =>
    Function.update_of_ne (by omega) _ _
  refine ⟨fun a ha => ?_, fun a b hab hb => ?_, fun i hi hD => ?_⟩
  · by_cases hac : a = c
    · exact ⟨k, by omega, hk, by rw [hac, Function.update_self]⟩
    · rw [hne a (by omega)]
      obtain ⟨i, h1, h2, h3⟩ := h.mem a (by omega)
      exact ⟨i, by omega, h2, h3⟩
  · rw [hne a (by omega)]
    by_cases hbc : b = c
    · rw [hbc, Function.update_self]
      obtain ⟨i, h1, _, h3⟩ := h.mem a (by omega)
      rw [h3]; omega
    · rw [hne b (by omega)]
      exact h.mono a b hab (by omega)
  · by_cases hik : i = k
    · exact ⟨c, by omega, by rw [Function.update_self, hik]⟩
    · obtain ⟨a, h1, h2⟩ := h.surj i (by omega) hD
      exact ⟨a, by omega, by rw [hne a h1, h2]⟩

/-- An enumeration as a strictly increasing map. -/
theorem Enum.map {D : Nat → Prop} {m c : Nat} {f : Nat → Int} (h : Enum D m c f) :
    ∃ σ : Fin c → Fin m, StrictMono σ ∧ (∀ a : Fin c, f a = ((σ a : Nat) : Int)) ∧ (∀ a, D (σ a)) ∧
      ∀ j : Fin m, D j → ∃ a, σ a = j := by
  have : ∀ a : Fin c, ∃ i : Fin m, D i ∧ f a = ((i : Nat) : Int) := fun a => by
    obtain ⟨i, h1, h2, h3⟩ := h.mem a a.2
    exact ⟨⟨i, h1⟩, h2, h3⟩
  choose σ h1 h2 using this
  refine ⟨σ, fun a b hab => ?_, h2, h1, fun j hj => ?_⟩
  · have := h.mono a b hab b.2
    rw [h2, h2] at this
    exact Fin.lt_def.2 (by omega)
  · obtain ⟨a, ha, e⟩ := h.surj j j.2 hj
    refine ⟨⟨a, ha⟩, Fin.ext ?_⟩
    have := h2 ⟨a, ha⟩
    simp only at this
    omega

/-- Strictly increasing enumerations are at least the identity. -/
theorem mono_ge {c : Nat} {f : Nat → Int} (h0 : ∀ a, a < c → 0 ≤ f a)
    (hm : ∀ a b, a < b → b < c → f a < f b) : ∀ a, a < c → (a : Int) ≤ f a := by
  intro a
  induction a with
  | zero => intro ha; exact h0 0 ha
  | succ a ih =>
    intro ha
    have h1 := ih (by omega)
    have h2 := hm a (a + 1) (by omega) ha
    push_cast
    omega

/-! ### Amplitude -/

theorem ampLoop_spec (s : Nat → Int) (k : Nat) :
    (ampLoop s k).1 ≤ s 0 ∧ s 0 ≤ (ampLoop s k).2 ∧
      ∀ i, i < k → (ampLoop s k).1 ≤ s i ∧ s i ≤ (ampLoop s k).2 := by
  induction k with
  | zero => exact ⟨le_refl _, le_refl _, fun i h => by omega⟩
  | succ k ih =>
    obtain ⟨h1, h2, h3⟩ := ih
    simp only [ampLoop]
    generalize ampLoop s k = st at *
    have key : ∀ i, i < k + 1 → i = k ∨ i < k := fun i _ => by omega
    split_ifs with c1 c2
    · refine ⟨by show s k ≤ s 0; omega, h2, fun i hi => ?_⟩
      rcases key i hi with rfl | h
      · exact ⟨le_refl _, by show s i ≤ st.2; omega⟩
      · have := h3 i h
        exact ⟨by show s k ≤ s i; omega, this.2⟩
    · refine ⟨h1, by show s 0 ≤ s k; omega, fun i hi => ?_⟩
      rcases key i hi with rfl | h
      · exact ⟨by show st.1 ≤ s i; omega, le_refl _⟩
      · have := h3 i h
        exact ⟨this.1, by show s i ≤ s k; omega⟩
    · refine ⟨h1, h2, fun i hi => ?_⟩
      rcases key i hi with rfl | h
      · exact ⟨by omega, by omega⟩
      · exact h3 i h

/-! ### Keeping rows -/

theorem keepLoop_spec (m : Nat) (amp order d : Int) (ker : Mat (ZMod q)[X]) (rdeg shift : Nat → Int)
    (k : Nat) :
    let st := keepLoop m amp order d ⟨ker, rdeg, shift, 0⟩ k
    let D := fun i => rdeg i - shift i + amp < order - d
    st.nullity ≤ k ∧ Enum D k st.nullity st.piv ∧
      (∀ i, k ≤ i → st.piv i = rdeg i ∧ st.shift i = shift i ∧ ∀ j, j < m → st.ker i j = ker i j) ∧
      ∀ a, a < st.nullity → st.shift a = rdeg (st.piv a).toNat ∧
        ∀ j, j < m → st.ker a j = ker (st.piv a).toNat j := by
  induction k with
  | zero =>
    exact ⟨le_refl _, Enum.zero _ _, fun i _ => ⟨rfl, rfl, fun _ _ => rfl⟩, fun a h => absurd h (Nat.not_lt_zero _)⟩
  | succ k ih =>
    intro st D
    have hst : st = keepStep m amp order d k (keepLoop m amp order d ⟨ker, rdeg, shift, 0⟩ k) := rfl
    generalize keepLoop m amp order d ⟨ker, rdeg, shift, 0⟩ k = s0 at *
    obtain ⟨h1, h2, h3, h4⟩ := ih
    clear_value st
    obtain ⟨h3a, h3b, h3c⟩ := h3 k (le_refl _)
    unfold keepStep at hst
    rw [h3a, h3b] at hst
    by_cases hD : rdeg k - shift k + amp < order - d
    · rw [if_pos hD] at hst
      subst hst
      have hp : ∀ a, a < s0.nullity → Function.update s0.piv s0.nullity (k : Int) a = s0.piv a :=
        fun a ha => Function.update_of_ne (by omega) _ _
      refine ⟨by show s0.nullity + 1 ≤ k + 1; omega, h2.snoc hD, fun i hi => ?_, fun a ha => ?_⟩
      · obtain ⟨g1, g2, g3⟩ := h3 i (by omega)
        refine ⟨?_, ?_, fun j hj => ?_⟩
        · show Function.update s0.piv s0.nullity (k : Int) i = _
          rw [Function.update_of_ne (by omega), g1]
        · show Function.update s0.shift s0.nullity _ i = _
          rw [Function.update_of_ne (by omega), g2]
        · show (if j < m then (if i = s0.nullity then s0.ker k j else if i = k then s0.ker s0.nullity j
            else s0.ker i j) else s0.ker i j) = _
          rw [if_pos hj, if_neg (by omega), if_neg (by omega), g3 j hj]
      · replace ha : a < s0.nullity + 1 := ha
        show Function.update s0.shift s0.nullity (rdeg k) a =
            rdeg (Function.update s0.piv s0.nullity (k : Int) a).toNat ∧
          ∀ j, j < m → (if j < m then (if a = s0.nullity then s0.ker k j else if a = k then
              s0.ker s0.nullity j else s0.ker a j) else s0.ker a j) =
            ker (Function.update s0.piv s0.nullity (k : Int) a).toNat j
        by_cases hac : a = s0.nullity
        · subst hac
          rw [Function.update_self, Function.update_self]
          refine ⟨by rw [Int.toNat_natCast], fun j hj => ?_⟩
          rw [if_pos hj, if_pos rfl, h3c j hj, Int.toNat_natCast]
        · rw [Function.update_of_ne hac, Function.update_of_ne hac]
          obtain ⟨g1, g2⟩ := h4 a (by omega)
          refine ⟨g1, fun j hj => ?_⟩
          rw [if_pos hj, if_neg hac, if_neg (by omega), g2 j hj]
    · rw [if_neg hD] at hst
      subst hst
      exact ⟨by omega, h2.skip hD, fun i hi => h3 i (by omega), h4⟩

/-! ### Composition in place -/

theorem composeLoop_spec (off : Nat) (piv2 piv : Nat → Int) (c : Nat)
    (hge : ∀ a, a < c → (a : Int) ≤ piv2 a) : ∀ k, k ≤ c →
    (∀ a, a < k → composeLoop off piv2 piv k (off + a) = piv (off + (piv2 a).toNat)) ∧
      ∀ i, (i < off ∨ off + k ≤ i) → composeLoop off piv2 piv k i = piv i := by
  intro k
  induction k with
  | zero => exact fun _ => ⟨fun a h => by omega, fun i _ => rfl⟩
  | succ k ih =>
    intro hk
    obtain ⟨h1, h2⟩ := ih (by omega)
    have hg := hge k (by omega)
    simp only [composeLoop]
    refine ⟨fun a ha => ?_, fun i hi => ?_⟩
    · by_cases hak : a = k
      · rw [hak, Function.update_self]
        exact h2 _ (by omega)
      · rw [Function.update_of_ne (by omega)]
        exact h1 a (by omega)
    · rw [Function.update_of_ne (by omega)]
      exact h2 i (by omega)

/-! ### Degrees and order -/

theorem degShiftLoop_spec (buf shift : Nat → Int) (k : Nat) :
    (∀ i, i ≤ k → buf i ≤ (degShiftLoop buf shift k).1 ∧
      buf i + (degShiftLoop buf shift k).2 ≤ shift i) := by
  induction k with
  | zero =>
    intro i hi
    obtain rfl : i = 0 := by omega
    exact ⟨le_refl _, by show buf 0 + (shift 0 - buf 0) ≤ shift 0; omega⟩
  | succ k ih =>
    intro i hi
    simp only [degShiftLoop]
    generalize degShiftLoop buf shift k = st at *
    by_cases hik : i = k + 1
    · subst hik
      constructor
      · split_ifs <;> omega
      · split_ifs <;> omega
    · obtain ⟨h1, h2⟩ := ih i (by omega)
      constructor
      · split_ifs <;> omega
      · split_ifs <;> omega

theorem sumLoop_eq (f : Nat → Int) (init : Int) (k : Nat) :
    sumLoop f init k = init + ∑ i ∈ Finset.range k, f i := by
  induction k with
  | zero => simp [sumLoop]
  | succ k ih => rw [sumLoop, ih, Finset.sum_range_succ]; ring

theorem zlsOrder_spec (m n : Nat) (shift : Nat → Int) (maxdeg diff : Int) (hnm : n < m)
    (hmax : 0 ≤ maxdeg) (hdiff : ∀ i, i < m → diff ≤ shift i) :
    maxdeg + 1 ≤ zlsOrder m n shift maxdeg diff ∧
      ∑ j : Fin m, (shift j - diff) < zlsOrder m n shift maxdeg diff * ((m : Int) - n) := by
  unfold zlsOrder
  simp only
  have hS : sumLoop shift (-(m : Int) * diff - 1) m = ∑ j : Fin m, (shift j - diff) - 1 := by
    rw [sumLoop_eq, Finset.sum_sub_distrib, Finset.sum_const, Finset.card_univ, Fintype.card_fin,
      Finset.sum_range (fun i => shift i), nsmul_eq_mul]
    ring
  rw [hS]
  have hS0 : 0 ≤ ∑ j : Fin m, (shift j - diff) :=
    Finset.sum_nonneg fun j _ => by have := hdiff j j.2; omega
  generalize ∑ j : Fin m, (shift j - diff) = S at *
  obtain ⟨b, hb⟩ : ∃ b : Int, (m : Int) - n = b := ⟨_, rfl⟩
  have hb1 : 1 ≤ b := by omega
  rw [hb]
  refine ⟨by have := le_max_left maxdeg (1 + (S - 1).tdiv b); omega, ?_⟩
  by_cases h0 : S = 0
  · rw [h0]
    have := le_max_left maxdeg (1 + ((0 : Int) - 1).tdiv b)
    exact mul_pos (by omega) (by omega)
  · rw [Int.tdiv_eq_ediv_of_nonneg (by omega)]
    have h1 := le_max_right maxdeg (1 + (S - 1) / b)
    have h2 := Int.lt_ediv_add_one_mul_self (S - 1) (by omega : 0 < b)
    have h3 : (2 + (S - 1) / b) * b ≤ (1 + max maxdeg (1 + (S - 1) / b)) * b :=
      mul_le_mul_of_nonneg_right (by omega) (by omega)
    have h4 : (2 + (S - 1) / b) * b = ((S - 1) / b + 1) * b + b := by ring
    omega

/-! ### Detection -/

theorem detectLoop_spec (order diff : Int) (ker : Mat (ZMod q)[X]) (shift piv rd : Nat → Int) (k : Nat) :
    let st := detectLoop order diff ker shift piv rd k
    let D := fun i => shift i < order + diff
    st.nullity ≤ k ∧ Enum D k st.nullity st.piv ∧ Enum (fun i => ¬ D i) k (k - st.nullity) st.buf ∧
      (∀ i, k ≤ i → st.buf i = rd i) ∧
      st.sum = ∑ i ∈ (Finset.range k).filter (fun i => ¬ D i), rd i ∧
      (st.flag = true → ∀ i, i < k → ¬ D i → ¬ (rd i = 0 ∧ pdeg (ker i i) ≤ 0)) := by
  induction k with
  | zero =>
    exact ⟨le_refl _, Enum.zero _ _, Enum.zero _ _, fun _ _ => rfl, rfl, fun _ i h => by omega⟩
  | succ k ih =>
    intro st D
    have hst : st = detectStep order diff ker shift k (detectLoop order diff ker shift piv rd k) := rfl
    generalize detectLoop order diff ker shift piv rd k = s0 at *
    obtain ⟨h1, h2, h3, h4, h5, h6⟩ := ih
    clear_value st
    unfold detectStep at hst
    by_cases hD : shift k < order + diff
    · rw [if_pos hD] at hst
      subst hst
      refine ⟨by show s0.nullity + 1 ≤ k + 1; omega, h2.snoc hD, ?_, fun i hi => h4 i (by omega), ?_, ?_⟩
      · show Enum _ (k + 1) (k + 1 - (s0.nullity + 1)) s0.buf
        rw [show k + 1 - (s0.nullity + 1) = k - s0.nullity by omega]
        exact h3.skip (fun h => h hD)
      · rw [Finset.range_add_one, Finset.filter_insert, if_neg (fun h => h hD)]
        exact h5
      · intro hf i hi hnD
        have : i ≠ k := fun e => hnD (e ▸ hD)
        exact h6 hf i (by omega) hnD
    · rw [if_neg hD] at hst
      subst hst
      have hbk := h4 k (le_refl _)
      refine ⟨by show s0.nullity ≤ k + 1; omega, h2.skip hD, ?_, fun i hi => ?_, ?_, ?_⟩
      · show Enum _ (k + 1) (k + 1 - s0.nullity) (Function.update s0.buf (k - s0.nullity) (k : Int))
        rw [show k + 1 - s0.nullity = (k - s0.nullity) + 1 by omega]
        exact h3.snoc hD
      · show Function.update s0.buf (k - s0.nullity) (k : Int) i = rd i
        rw [Function.update_of_ne (by omega)]
        exact h4 i (by omega)
      · rw [Finset.range_add_one, Finset.filter_insert, if_pos hD, Finset.sum_insert (by simp)]
        show s0.sum + s0.buf k = _
        rw [h5, hbk]; ring
      · show (if s0.buf k = 0 ∧ pdeg (ker k k) ≤ 0 then false else s0.flag) = true → _
        intro hf i hi hnD
        rw [hbk] at hf
        by_cases hc : rd k = 0 ∧ pdeg (ker k k) ≤ 0
        · rw [if_pos hc] at hf; exact absurd hf (by simp)
        · rw [if_neg hc] at hf
          by_cases hik : i = k
          · rw [hik]; exact hc
          · exact h6 hf i (by omega) hnD

/-! ### Merge -/

theorem mergeLoop_spec (c1 c2 : Nat) (piv buf : Nat → Int)
    (hm1 : ∀ a b, a < b → b < c1 → piv a < piv b)
    (hm2 : ∀ a b, a < b → b < c2 → piv (c1 + a) < piv (c1 + b))
    (hne : ∀ a b, a < c1 → b < c2 → piv a ≠ piv (c1 + b)) : ∀ k, k ≤ c1 + c2 →
    let st := mergeLoop c1 c2 piv buf k
    st.1 + st.2.1 = k ∧ st.1 ≤ c1 ∧ st.2.1 ≤ c2 ∧
      (∀ a, a < k → ∃ i, st.2.2 a = ((i : Nat) : Int) ∧ (i < st.1 ∨ (c1 ≤ i ∧ i < c1 + st.2.1))) ∧
      (∀ i, (i < st.1 ∨ (c1 ≤ i ∧ i < c1 + st.2.1)) → ∃ a, a < k ∧ st.2.2 a = (i : Int)) ∧
      (∀ a b, a < b → b < k → piv (st.2.2 a).toNat < piv (st.2.2 b).toNat) ∧
      (∀ a, a < k → (st.1 < c1 → piv (st.2.2 a).toNat < piv st.1) ∧
        (st.2.1 < c2 → piv (st.2.2 a).toNat < piv (c1 + st.2.1))) := by
  intro k
  induction k with
  | zero =>
    intro _ st
    refine ⟨rfl, Nat.zero_le _, Nat.zero_le _, fun a h => by omega, fun i hi => ?_, fun a b _ h => by omega,
      fun a h => by omega⟩
    exfalso
    have e1 : st.1 = 0 := rfl
    have e2 : st.2.1 = 0 := rfl
    omega
  | succ k ih =>
    intro hk st
    have ih := ih (by omega)
    have hst : st = (if (mergeLoop c1 c2 piv buf k).2.1 = c2 ∨ ((mergeLoop c1 c2 piv buf k).1 < c1 ∧
        piv (mergeLoop c1 c2 piv buf k).1 < piv (c1 + (mergeLoop c1 c2 piv buf k).2.1)) then
      ((mergeLoop c1 c2 piv buf k).1 + 1, (mergeLoop c1 c2 piv buf k).2.1,
        Function.update (mergeLoop c1 c2 piv buf k).2.2 k ((mergeLoop c1 c2 piv buf k).1 : Int))
      else ((mergeLoop c1 c2 piv buf k).1, (mergeLoop c1 c2 piv buf k).2.1 + 1,
        Function.update (mergeLoop c1 c2 piv buf k).2.2 k
          ((c1 + (mergeLoop c1 c2 piv buf k).2.1 : Nat) : Int))) := rfl
    clear_value st
    generalize mergeLoop c1 c2 piv buf k = s0 at *
    obtain ⟨i1, i2, b⟩ := s0
    simp only at ih hst
    obtain ⟨g1, g2, g3, g4, g5, g6, g7⟩ := ih
    have hu : ∀ (x : Int) a, a < k → Function.update b k x a = b a := fun x a ha =>
      Function.update_of_ne (by omega) _ _
    by_cases hc : i2 = c2 ∨ (i1 < c1 ∧ piv i1 < piv (c1 + i2))
    · rw [if_pos hc] at hst
      subst hst
      simp only
      have hi1 : i1 < c1 := by omega
      refine ⟨by omega, by omega, g3, fun a ha => ?_, fun i hi => ?_, fun a a' haa ha' => ?_, fun a ha => ?_⟩
      · by_cases hak : a = k
        · exact ⟨i1, by rw [hak, Function.update_self], Or.inl (by omega)⟩
        · obtain ⟨i, h1, h2⟩ := g4 a (by omega)
          exact ⟨i, by rw [hu _ a (by omega), h1], by omega⟩
      · by_cases hii : i = i1
        · exact ⟨k, by omega, by rw [Function.update_self, hii]⟩
        · obtain ⟨a, h1, h2⟩ := g5 i (by omega)
          exact ⟨a, by omega, by rw [hu _ a h1, h2]⟩
      · rw [hu _ a (by omega)]
        by_cases hak : a' = k
        · rw [hak, Function.update_self, Int.toNat_natCast]
          exact (g7 a (by omega)).1 hi1
        · rw [hu _ a' (by omega)]
          exact g6 a a' haa (by omega)
      · by_cases hak : a = k
        · rw [hak, Function.update_self, Int.toNat_natCast]
          refine ⟨fun h => hm1 _ _ (by omega) h, fun h => ?_⟩
          rcases hc with hc | hc
          · omega
          · exact hc.2
        · rw [hu _ a (by omega)]
          obtain ⟨h1, h2⟩ := g7 a (by omega)
          exact ⟨fun h => lt_trans (h1 hi1) (hm1 _ _ (by omega) h), h2⟩
    · rw [if_neg hc] at hst
      subst hst
      simp only
      have hi2 : i2 < c2 := by omega
      refine ⟨by omega, g2, by omega, fun a ha => ?_, fun i hi => ?_, fun a a' haa ha' => ?_, fun a ha => ?_⟩
      · by_cases hak : a = k
        · exact ⟨c1 + i2, by rw [hak, Function.update_self], Or.inr (by omega)⟩
        · obtain ⟨i, h1, h2⟩ := g4 a (by omega)
          exact ⟨i, by rw [hu _ a (by omega), h1], by omega⟩
      · by_cases hii : i = c1 + i2
        · exact ⟨k, by omega, by rw [Function.update_self, hii]⟩
        · obtain ⟨a, h1, h2⟩ := g5 i (by omega)
          exact ⟨a, by omega, by rw [hu _ a h1, h2]⟩
      · rw [hu _ a (by omega)]
        by_cases hak : a' = k
        · rw [hak, Function.update_self, Int.toNat_natCast]
          exact (g7 a (by omega)).2 hi2
        · rw [hu _ a' (by omega)]
          exact g6 a a' haa (by omega)
      · by_cases hak : a = k
        · rw [hak, Function.update_self, Int.toNat_natCast]
          refine ⟨fun h => ?_, fun h => hm2 _ _ (by omega) h⟩
          have h1 := hne i1 i2 h hi2
          have h2 : ¬ piv i1 < piv (c1 + i2) := fun h2 => hc (Or.inr ⟨h, h2⟩)
          omega
        · rw [hu _ a (by omega)]
          obtain ⟨h1, h2⟩ := g7 a (by omega)
          exact ⟨h1, fun h => lt_trans (h2 hi2) (hm2 _ _ (by omega) h)⟩

end PML.Kernel
