import Verif.Forms.Model
import Verif.Forms.Spec
import Verif.MatPoly.Lemmas

/-! # Loops of the degree, pivot and form functions -/

namespace PML.Forms

open PML.MatOps PML.MatPoly PML.Forms.Spec Polynomial

set_option linter.unusedSectionVars false

variable {K : Type} [Field K] [DecidableEq K]

theorem pdeg_zero : pdeg (0 : K[X]) = -1 := by simp [pdeg, polyLength]

theorem pdeg_of_ne {p : K[X]} (h : p ≠ 0) : pdeg p = p.natDegree := by
  simp [pdeg, polyLength, h]

theorem pdeg_nonneg_iff {p : K[X]} : 0 ≤ pdeg p ↔ p ≠ 0 := by
  by_cases h : p = 0
  · subst h; simp [pdeg_zero]
  · rw [pdeg_of_ne h]; simp [h]

theorem pdeg_eq_degreeZ (p : K[X]) : pdeg p = degreeZ p := by
  unfold degreeZ
  by_cases h : p = 0
  · rw [if_pos h, h, pdeg_zero]
  · rw [if_neg h, pdeg_of_ne h]

/-! ### Degrees -/

theorem minShiftLoop_spec (s : Nat → Int) (init : Int) (n : Nat) :
    minShiftLoop s init n ≤ init ∧ (∀ j, j < n → minShiftLoop s init n ≤ s j) ∧
    (minShiftLoop s init n = init ∨ ∃ j, j < n ∧ s j = minShiftLoop s init n) := by
  induction n with
  | zero => exact ⟨le_refl _, fun j hj => by omega, Or.inl rfl⟩
  | succ n ih =>
    obtain ⟨h1, h2, h3⟩ := ih
    simp only [minShiftLoop]
    by_cases h : s n < minShiftLoop s init n
    · rw [if_pos h]
      refine ⟨by omega, fun j hj => ?_, Or.inr ⟨n, by omega, rfl⟩⟩
      by_cases hjn : j = n
      · subst hjn; exact le_refl _
      · have := h2 j (by omega); omega
    · rw [if_neg h]
      refine ⟨h1, fun j hj => ?_, ?_⟩
      · by_cases hjn : j = n
        · subst hjn; omega
        · exact h2 j (by omega)
      · rcases h3 with h3 | ⟨j, hj, e⟩
        · exact Or.inl h3
        · exact Or.inr ⟨j, by omega, e⟩

theorem minShift_spec (s : Nat → Int) (n : Nat) : IsMin n s (minShift s n) := by
  unfold minShift
  by_cases hn : n > 0
  · rw [if_pos hn]
    obtain ⟨h1, h2, h3⟩ := minShiftLoop_spec s (s 0) n
    right
    refine ⟨h2, ?_⟩
    rcases h3 with h3 | h3
    · exact ⟨0, hn, h3.symm⟩
    · exact h3
  · rw [if_neg hn]
    have : n = 0 := by omega
    subst this
    exact Or.inl ⟨rfl, rfl⟩

/-- Both degree loops: `z` is the starting value, below every shift entry. -/
theorem degLoop_inv (p : Nat → K[X]) (s : Nat → Int) (z : Int) (f : Nat → Int) (n : Nat)
    (h0 : f 0 = z) (hz : ∀ j, j < n → z < s j)
    (hstep : ∀ j, j < n → f (j + 1) =
      if p j ≠ 0 ∧ f j < (p j).natDegree + s j then (p j).natDegree + s j else f j) :
    (ZeroVec n p ∧ f n = z) ∨ (¬ ZeroVec n p ∧ z < f n ∧ ShiftedDegree n s p (f n)) := by
  induction n with
  | zero => left; exact ⟨fun j hj => by omega, h0⟩
  | succ n ih =>
    have ih := ih (fun j hj => hz j (by omega)) (fun j hj => hstep j (by omega))
    have hs := hstep n (by omega)
    have hzn := hz n (by omega)
    by_cases hpn : p n = 0
    · rw [if_neg (by simp [hpn])] at hs
      rcases ih with ⟨h1, h2⟩ | ⟨h1, h2, h3⟩
      · left
        refine ⟨fun j hj => ?_, by rw [hs, h2]⟩
        by_cases hjn : j = n
        · rw [hjn, hpn]
        · exact h1 j (by omega)
      · right
        refine ⟨fun hc => h1 fun j hj => hc j (by omega), by rw [hs]; exact h2, ?_⟩
        rw [hs]
        refine ⟨fun j hj hne => ?_, ?_⟩
        · by_cases hjn : j = n
          · rw [hjn] at hne; exact absurd hpn hne
          · exact h3.le j (by omega) hne
        · obtain ⟨j, hj, e⟩ := h3.attained
          exact ⟨j, by omega, e⟩
    · right
      refine ⟨fun hc => hpn (hc n (by omega)), ?_⟩
      rcases ih with ⟨h1, h2⟩ | ⟨h1, h2, h3⟩
      · have hc : p n ≠ 0 ∧ f n < (p n).natDegree + s n := ⟨hpn, by omega⟩
        rw [if_pos hc] at hs
        refine ⟨by omega, fun j hj hne => ?_, n, by omega, hpn, hs.symm⟩
        by_cases hjn : j = n
        · rw [hjn]; omega
        · exact absurd (h1 j (by omega)) hne
      · by_cases hlt : f n < (p n).natDegree + s n
        · rw [if_pos ⟨hpn, hlt⟩] at hs
          refine ⟨by omega, fun j hj hne => ?_, n, by omega, hpn, hs.symm⟩
          by_cases hjn : j = n
          · rw [hjn]; omega
          · have := h3.le j (by omega) hne; omega
        · rw [if_neg (by tauto)] at hs
          refine ⟨by omega, fun j hj hne => ?_, ?_⟩
          · by_cases hjn : j = n
            · rw [hjn]; omega
            · have := h3.le j (by omega) hne; omega
          · obtain ⟨j, hj, e1, e2⟩ := h3.attained
            exact ⟨j, by omega, e1, by omega⟩

/-- The shift described by the argument: `NULL` is the zero shift. -/
def shiftOf (shift : Option (Nat → Int)) : Nat → Int := shift.getD fun _ => 0

theorem vecDegree_spec (shift : Option (Nat → Int)) (n : Nat) (p : Nat → K[X]) :
    ∃ m, IsMin n (shiftOf shift) m ∧ IsVecDegree n (shiftOf shift) p (m - 1) (vecDegree shift n p).1 ∧
      ((vecDegree shift n p).2 = true ↔ ¬ ZeroVec n p) ∧
      (∀ s, shift = some s → m = minShift s n) ∧ (shift = none → m = 0) := by
  cases shift with
  | none =>
    have h := degLoop_inv p (fun _ => 0) (-1) (degLoopNull p) n rfl (fun j _ => by simp) (fun j _ => by
      simp only [degLoopNull]
      have hge : -1 ≤ degLoopNull p j := by
        clear * -
        induction j with
        | zero => simp [degLoopNull]
        | succ j ih => simp only [degLoopNull]; split_ifs <;> omega
      by_cases hp : p j = 0
      · rw [hp, pdeg_zero, if_neg (by omega), if_neg (by simp)]
      · rw [pdeg_of_ne hp]
        by_cases hlt : degLoopNull p j < (p j).natDegree
        · rw [if_pos hlt, if_pos ⟨hp, by omega⟩]; omega
        · rw [if_neg hlt, if_neg (by omega)])
    refine ⟨0, ?_, ?_, ?_, by simp, by simp⟩
    · by_cases hn : n = 0
      · exact Or.inl ⟨hn, rfl⟩
      · exact Or.inr ⟨fun j _ => le_refl _, 0, by omega, rfl⟩
    · refine ⟨fun hz => ?_, fun hz => ?_⟩
      · rcases h with ⟨_, h⟩ | ⟨h, _⟩
        · simpa [vecDegree] using h
        · exact absurd hz h
      · rcases h with ⟨h, _⟩ | ⟨_, _, h⟩
        · exact absurd h hz
        · exact h
    · simp only [vecDegree, decide_eq_true_eq]
      rcases h with ⟨h1, h2⟩ | ⟨h1, h2, _⟩
      · exact ⟨fun h => by omega, fun h => absurd h1 h⟩
      · exact ⟨fun _ => h1, fun _ => by omega⟩
  | some s =>
    have hm := minShift_spec s n
    have hlow : ∀ j, j < n → minShift s n - 1 < s j := by
      intro j hj
      rcases hm with ⟨h, _⟩ | ⟨h, _⟩
      · omega
      · have := h j hj; omega
    have h := degLoop_inv p s (minShift s n - 1) (degLoopShift p s (minShift s n - 1)) n rfl hlow
      (fun j _ => by
        simp only [degLoopShift]
        by_cases hp : p j = 0
        · rw [hp, pdeg_zero, if_neg (by omega), if_neg (by simp)]
        · rw [pdeg_of_ne hp]
          by_cases hlt : degLoopShift p s (minShift s n - 1) j < (p j).natDegree + s j
          · rw [if_pos ⟨by omega, hlt⟩, if_pos ⟨hp, hlt⟩]
          · rw [if_neg (by omega), if_neg (by omega)])
    refine ⟨minShift s n, hm, ?_, ?_, by simp, by simp⟩
    · refine ⟨fun hz => ?_, fun hz => ?_⟩
      · rcases h with ⟨_, h⟩ | ⟨h, _⟩
        · exact h
        · exact absurd hz h
      · rcases h with ⟨h, _⟩ | ⟨_, _, h⟩
        · exact absurd h hz
        · exact h
    · simp only [vecDegree, decide_eq_true_eq]
      rcases h with ⟨h1, h2⟩ | ⟨h1, h2, _⟩
      · exact ⟨fun h => by omega, fun h => absurd h1 h⟩
      · exact ⟨fun _ => h1, fun _ => by omega⟩

theorem countLoop_eq (f : Nat → Bool) (n : Nat) :
    countLoop f n = ((Finset.range n).filter fun k => f k = true).card := by
  induction n with
  | zero => rfl
  | succ n ih =>
    rw [countLoop, ih, Finset.range_add_one, Finset.filter_insert]
    by_cases h : f n = true
    · rw [if_pos h, if_pos h, Finset.card_insert_of_notMem (by simp)]
    · rw [if_neg h, if_neg h, Nat.add_zero]

/-! ### Pivots -/

/-- Pivot of either kind. -/
def Pivot (right : Bool) (n : Nat) (s : Nat → Int) (p : Nat → K[X]) (π δ : Nat) : Prop :=
  if right then PivotLower n s p π δ else PivotUpper n s p π δ

theorem Pivot.core {right : Bool} {n : Nat} {s : Nat → Int} {p : Nat → K[X]} {π δ : Nat}
    (h : Pivot right n s p π δ) : π < n ∧ p π ≠ 0 ∧ (p π).natDegree = δ ∧
      ∀ j, j < n → p j ≠ 0 → ((p j).natDegree : Int) + s j ≤ δ + s π := by
  cases right <;> exact ⟨h.lt, h.nonzero, h.degree, h.le⟩

/-- Both pivot loops. -/
theorem pivLoop_inv (right : Bool) (p : Nat → K[X]) (s : Nat → Int) (f : Nat → Int × Int) (n : Nat)
    (h0 : (f 0).2 = -1)
    (hstep : ∀ j, j < n → f (j + 1) =
      if p j ≠ 0 ∧ ((f j).2 = -1 ∨ better right (f j).1 ((p j).natDegree + s j))
      then ((p j).natDegree + s j, (j : Int)) else f j) :
    (ZeroVec n p ∧ f n = f 0) ∨
    (¬ ZeroVec n p ∧ ∃ π δ : Nat, f n = ((δ : Int) + s π, (π : Int)) ∧ Pivot right n s p π δ) := by
  induction n with
  | zero => left; exact ⟨fun j hj => by omega, rfl⟩
  | succ n ih =>
    have ih := ih (fun j hj => hstep j (by omega))
    have hs := hstep n (by omega)
    by_cases hpn : p n = 0
    · rw [if_neg (by simp [hpn])] at hs
      rcases ih with ⟨h1, h2⟩ | ⟨h1, π, δ, h2, h3⟩
      · left
        refine ⟨fun j hj => ?_, by rw [hs, h2]⟩
        by_cases hjn : j = n
        · rw [hjn, hpn]
        · exact h1 j (by omega)
      · right
        refine ⟨fun hc => h1 fun j hj => hc j (by omega), π, δ, by rw [hs, h2], ?_⟩
        have hne : ∀ j, j < n + 1 → p j ≠ 0 → j < n := by
          intro j hj hne
          by_contra hc
          rw [show j = n by omega] at hne
          exact hne hpn
        cases right
        · exact ⟨by have := h3.lt; omega, h3.nonzero, h3.degree,
            fun j hj hn => h3.le j (hne j hj hn) hn,
            fun j hj hlt hn => h3.before j (hne j hj hn) hlt hn⟩
        · exact ⟨by have := h3.lt; omega, h3.nonzero, h3.degree,
            fun j hj hn => h3.le j (hne j hj hn) hn,
            fun j hj hlt hn => h3.after j (hne j hj hn) hlt hn⟩
    · right
      refine ⟨fun hc => hpn (hc n (by omega)), ?_⟩
      rcases ih with ⟨h1, h2⟩ | ⟨h1, π, δ, h2, h3⟩
      · have hc : p n ≠ 0 ∧ ((f n).2 = -1 ∨ better right (f n).1 ((p n).natDegree + s n)) :=
          ⟨hpn, Or.inl (by rw [h2, h0])⟩
        rw [if_pos hc] at hs
        refine ⟨n, (p n).natDegree, hs, ?_⟩
        have honly : ∀ j, j < n + 1 → p j ≠ 0 → j = n := by
          intro j hj hne
          by_contra hc
          exact hne (h1 j (by omega))
        cases right
        · exact ⟨by omega, hpn, rfl, fun j hj hn => by rw [honly j hj hn],
            fun j hj hlt hn => by have := honly j hj hn; omega⟩
        · exact ⟨by omega, hpn, rfl, fun j hj hn => by rw [honly j hj hn],
            fun j hj hlt hn => by have := honly j hj hn; omega⟩
      · have hcore := h3.core
        have hne1 : ¬ (f n).2 = -1 := by rw [h2]; simp only; omega
        have hf1 : (f n).1 = (δ : Int) + s π := by rw [h2]
        by_cases hb : better right (f n).1 ((p n).natDegree + s n)
        · rw [if_pos ⟨hpn, Or.inr hb⟩] at hs
          refine ⟨n, (p n).natDegree, hs, ?_⟩
          rw [hf1] at hb
          cases right
          · simp only [better, Bool.false_eq_true, if_false] at hb
            refine ⟨by omega, hpn, rfl, fun j hj hn => ?_, fun j hj hlt hn => ?_⟩
            · by_cases hjn : j = n
              · rw [hjn]
              · have := hcore.2.2.2 j (by omega) hn; omega
            · have := hcore.2.2.2 j hlt hn; omega
          · simp only [better, if_true] at hb
            refine ⟨by omega, hpn, rfl, fun j hj hn => ?_, fun j hj hlt hn => by omega⟩
            by_cases hjn : j = n
            · rw [hjn]
            · have := hcore.2.2.2 j (by omega) hn; omega
        · rw [if_neg (by tauto)] at hs
          refine ⟨π, δ, by rw [hs, h2], ?_⟩
          rw [hf1] at hb
          cases right
          · simp only [better, Bool.false_eq_true, if_false] at hb
            refine ⟨by omega, hcore.2.1, hcore.2.2.1, fun j hj hn => ?_, fun j hj hlt hn => ?_⟩
            · by_cases hjn : j = n
              · rw [hjn]; omega
              · exact hcore.2.2.2 j (by omega) hn
            · exact PivotUpper.before h3 j (by omega) hlt hn
          · simp only [better, if_true] at hb
            refine ⟨by omega, hcore.2.1, hcore.2.2.1, fun j hj hn => ?_, fun j hj hlt hn => ?_⟩
            · by_cases hjn : j = n
              · rw [hjn]; omega
              · exact hcore.2.2.2 j (by omega) hn
            · by_cases hjn : j = n
              · rw [hjn]; omega
              · exact PivotLower.after h3 j (by omega) hlt hn

theorem pivLoopShift_spec (right : Bool) (p : Nat → K[X]) (s : Nat → Int) (n : Nat) :
    (ZeroVec n p ∧ pivLoopShift right p s n = (0, -1)) ∨
    (¬ ZeroVec n p ∧ ∃ π δ : Nat, pivLoopShift right p s n = ((δ : Int) + s π, (π : Int)) ∧
      Pivot right n s p π δ) := by
  refine pivLoop_inv right p s (pivLoopShift right p s) n rfl fun j _ => ?_
  simp only [pivLoopShift]
  by_cases hp : p j = 0
  · rw [hp, pdeg_zero, if_neg (by omega), if_neg (by simp)]
  · rw [pdeg_of_ne hp]
    by_cases hc : (pivLoopShift right p s j).2 = -1 ∨
        better right (pivLoopShift right p s j).1 ((p j).natDegree + s j)
    · rw [if_pos ⟨by omega, hc⟩, if_pos ⟨hp, hc⟩]
    · rw [if_neg (by tauto), if_neg (by tauto)]

theorem pivLoopNull_spec (right : Bool) (p : Nat → K[X]) (n : Nat) :
    (ZeroVec n p ∧ pivLoopNull right p n = (-1, -1)) ∨
    (¬ ZeroVec n p ∧ ∃ π δ : Nat, pivLoopNull right p n = ((δ : Int), (π : Int)) ∧
      Pivot right n (fun _ => 0) p π δ) := by
  have hm : ∀ j, (pivLoopNull right p j).2 = -1 → (pivLoopNull right p j).1 = -1 := by
    intro j
    induction j with
    | zero => intro _; rfl
    | succ j ih =>
      simp only [pivLoopNull]
      split_ifs
      · intro h; simp only at h
        all_goals omega
      · exact ih
  have h := pivLoop_inv right p (fun _ => 0) (pivLoopNull right p) n rfl fun j _ => ?_
  · rcases h with h | ⟨h1, π, δ, h2, h3⟩
    · exact Or.inl h
    · exact Or.inr ⟨h1, π, δ, by rw [h2, Int.add_zero], h3⟩
  · simp only [pivLoopNull, Int.add_zero]
    by_cases hp : p j = 0
    · rw [hp, pdeg_zero, if_neg (by omega), if_neg (by simp)]
    · rw [pdeg_of_ne hp]
      by_cases hc : better right (pivLoopNull right p j).1 ((p j).natDegree)
      · rw [if_pos ⟨by omega, hc⟩, if_pos ⟨hp, Or.inr hc⟩]
      · rw [if_neg (by tauto), if_neg]
        rintro ⟨_, h | h⟩
        · apply hc
          rw [hm j h]
          unfold better
          split_ifs <;> omega
        · exact hc h

theorem Pivot.unique {right : Bool} {n : Nat} {s : Nat → Int} {p : Nat → K[X]} {π δ π' δ' : Nat}
    (h : Pivot right n s p π δ) (h' : Pivot right n s p π' δ') : π = π' ∧ δ = δ' := by
  have a := h.core
  have b := h'.core
  have e : π = π' := by
    have h1 := a.2.2.2 π' b.1 b.2.1
    have h2 := b.2.2.2 π a.1 a.2.1
    rw [a.2.2.1] at h2
    rw [b.2.2.1] at h1
    rcases lt_trichotomy π π' with hlt | heq | hgt
    · exfalso
      cases right
      · have := PivotUpper.before h' π a.1 hlt a.2.1
        rw [a.2.2.1] at this
        omega
      · have := PivotLower.after h π' b.1 hlt b.2.1
        rw [b.2.2.1] at this
        omega
    · exact heq
    · exfalso
      cases right
      · have := PivotUpper.before h π' b.1 hgt b.2.1
        rw [b.2.2.1] at this
        omega
      · have := PivotLower.after h' π a.1 hgt a.2.1
        rw [a.2.2.1] at this
        omega
  subst e
  exact ⟨rfl, by rw [← a.2.2.1, ← b.2.2.1]⟩

theorem Pivot.not_zero {right : Bool} {n : Nat} {s : Nat → Int} {p : Nat → K[X]} {π δ : Nat}
    (h : Pivot right n s p π δ) : ¬ ZeroVec n p := fun hz => h.core.2.1 (hz _ h.core.1)

/-- The pivot of a nonzero vector. -/
theorem vecPivot_nonzero (o : Orient) (shift : Option (Nat → Int)) (len : Nat) (p : Nat → K[X])
    (hp : ¬ ZeroVec len p) :
    ∃ π δ : Nat, vecPivotProfile o shift len p = ((π : Int), (δ : Int), 1) ∧
      Pivot o.isRight len (shiftOf shift) p π δ := by
  unfold vecPivotProfile
  cases shift with
  | none =>
    cases hr : o.isRight
    · rcases pivLoopNull_spec false p len with ⟨h, _⟩ | ⟨_, π, δ, h, hpv⟩
      · exact absurd h hp
      · refine ⟨π, δ, ?_, hpv⟩
        simp only [h, Bool.false_eq_true, if_false]
        rw [if_neg (by omega), if_pos (by omega)]
    · rcases pivLoopNull_spec true p len with ⟨h, _⟩ | ⟨_, π, δ, h, hpv⟩
      · exact absurd h hp
      · refine ⟨π, δ, ?_, hpv⟩
        simp only [h, if_true]
        rw [if_pos (by omega)]
  | some s =>
    cases hr : o.isRight
    · rcases pivLoopShift_spec false p s len with ⟨h, _⟩ | ⟨_, π, δ, h, hpv⟩
      · exact absurd h hp
      · refine ⟨π, δ, ?_, hpv⟩
        simp only [h, Bool.false_eq_true, if_false, Int.toNat_natCast]
        rw [if_neg (by omega), if_pos (by omega)]
        simp
    · rcases pivLoopShift_spec true p s len with ⟨h, _⟩ | ⟨_, π, δ, h, hpv⟩
      · exact absurd h hp
      · refine ⟨π, δ, ?_, hpv⟩
        simp only [h, if_true, Int.toNat_natCast]
        rw [if_neg (by omega), if_pos (by omega)]
        simp

/-- The values for the zero vector. -/
theorem vecPivot_zero (o : Orient) (shift : Option (Nat → Int)) (len : Nat) (p : Nat → K[X])
    (hp : ZeroVec len p) :
    vecPivotProfile o shift len p =
      if o.isRight then (-1, -1, 0)
      else if shift = none then ((len : Int), -1, 0) else (-1, (len : Int), 0) := by
  unfold vecPivotProfile
  cases shift with
  | none =>
    cases hr : o.isRight
    · rcases pivLoopNull_spec false p len with ⟨_, h⟩ | ⟨h, _⟩
      · simp [h]
      · exact absurd hp h
    · rcases pivLoopNull_spec true p len with ⟨_, h⟩ | ⟨h, _⟩
      · simp [h]
      · exact absurd hp h
  | some s =>
    cases hr : o.isRight
    · rcases pivLoopShift_spec false p s len with ⟨_, h⟩ | ⟨h, _⟩
      · simp [h]
      · exact absurd hp h
    · rcases pivLoopShift_spec true p s len with ⟨_, h⟩ | ⟨h, _⟩
      · simp [h]
      · exact absurd hp h

/-! ### Weak Popov tests -/

theorem increasingLoop_iff (f : Nat → Int) (n : Nat) :
    increasingLoop f n = true ↔ ∀ i, i < n → f i < f (i + 1) := by
  induction n with
  | zero => simp [increasingLoop]
  | succ n ih =>
    simp only [increasingLoop, Bool.and_eq_true, ih, decide_eq_true_eq]
    constructor
    · rintro ⟨h1, h2⟩ i hi
      by_cases h : i = n
      · rw [h]; exact h2
      · exact h1 i (by omega)
    · exact fun h => ⟨fun i hi => h i (by omega), h n (by omega)⟩

theorem strict_of_step (f : Nat → Int) (lo hi : Nat) (h : ∀ i, lo ≤ i → i + 1 < hi → f i < f (i + 1)) :
    ∀ i j, lo ≤ i → i < j → j < hi → f i < f j := by
  intro i j hi0 hij hj
  induction j with
  | zero => omega
  | succ j ih =>
    by_cases e : i = j
    · rw [e]; exact h j (by omega) hj
    · exact lt_trans (ih (by omega) (by omega)) (h j (by omega) hj)

/-- The three tests, on an array of values between -1 and `z`. -/
theorem pivotTests_iff (dim z : Nat) (f : Nat → Int) (hf : ∀ i, i < dim → -1 ≤ f i ∧ f i ≤ z) :
    pivotTests dim z f = true ↔ (∀ i, i < dim → 0 ≤ f i ∧ f i < z) ∧
      ∀ i j, i < j → j < dim → f i < f j := by
  unfold pivotTests
  constructor
  · intro h
    by_cases h1 : dim > 0 ∧ f 0 = -1
    · rw [if_pos h1] at h; simp at h
    rw [if_neg h1] at h
    by_cases h2 : increasingLoop f (dim - 1) = false
    · rw [if_pos h2] at h; simp at h
    rw [if_neg h2] at h
    by_cases h3 : dim > 0 ∧ f (dim - 1) = (z : Int)
    · rw [if_pos h3] at h; simp at h
    have hinc := (increasingLoop_iff f (dim - 1)).1 (by simpa using h2)
    have hs := strict_of_step f 0 dim (fun i _ hi => hinc i (by omega))
    refine ⟨fun i hi => ?_, fun i j hij hj => hs i j (by omega) hij hj⟩
    have b0 := hf 0 (by omega)
    have bl := hf (dim - 1) (by omega)
    have e0 : f 0 ≠ -1 := fun e => h1 ⟨by omega, e⟩
    have e1 : f (dim - 1) ≠ z := fun e => h3 ⟨by omega, e⟩
    constructor
    · by_cases hi0 : i = 0
      · rw [hi0]; omega
      · have := hs 0 i (by omega) (by omega) hi; omega
    · by_cases hi0 : i = dim - 1
      · rw [hi0]; omega
      · have := hs i (dim - 1) (by omega) (by omega) (by omega); omega
  · rintro ⟨h1, h2⟩
    have a1 : ¬ (dim > 0 ∧ f 0 = -1) := by
      rintro ⟨hd, e⟩
      have := h1 0 hd; omega
    have a2 : ¬ increasingLoop f (dim - 1) = false := by
      rw [Bool.not_eq_false, increasingLoop_iff]
      exact fun i hi => h2 i (i + 1) (by omega) (by omega)
    have a3 : ¬ (dim > 0 ∧ f (dim - 1) = (z : Int)) := by
      rintro ⟨hd, e⟩
      have := h1 (dim - 1) (by omega); omega
    rw [if_neg a1, if_neg a2, if_neg a3]

/-- The pivot index array: bounds, and a valid index exactly for nonzero lines. -/
theorem pivotIndex_cases (o : Orient) (r c : Nat) (M : Mat K[X]) (shift : Option (Nat → Int)) (k : Nat) :
    (∃ π δ : Nat, (pivotProfile o r c M shift).1 k = π ∧ (pivotProfile o r c M shift).2.1 k = δ ∧
      Pivot o.isRight (lineLen o.isRow r c) (shiftOf shift) (line o.isRow M k) π δ) ∨
    (ZeroVec (lineLen o.isRow r c) (line o.isRow M k) ∧
      ((pivotProfile o r c M shift).1 k = -1 ∨
       (pivotProfile o r c M shift).1 k = (lineLen o.isRow r c : Int))) := by
  by_cases hz : ZeroVec (lineLen o.isRow r c) (line o.isRow M k)
  · right
    refine ⟨hz, ?_⟩
    simp only [pivotProfile, vecPivot_zero o shift _ _ hz]
    split_ifs <;> simp
  · left
    obtain ⟨π, δ, h, hp⟩ := vecPivot_nonzero o shift _ _ hz
    exact ⟨π, δ, by simp [pivotProfile, h], by simp [pivotProfile, h], hp⟩

theorem pivotIndex_bounds (o : Orient) (r c : Nat) (M : Mat K[X]) (shift : Option (Nat → Int)) (k : Nat) :
    -1 ≤ (pivotProfile o r c M shift).1 k ∧
      (pivotProfile o r c M shift).1 k ≤ (lineLen o.isRow r c : Int) := by
  rcases pivotIndex_cases o r c M shift k with ⟨π, δ, h, _, hp⟩ | ⟨_, h | h⟩
  · have := hp.core.1; omega
  · omega
  · omega

theorem pivotIndex_valid (o : Orient) (r c : Nat) (M : Mat K[X]) (shift : Option (Nat → Int)) (k : Nat) :
    (0 ≤ (pivotProfile o r c M shift).1 k ∧
      (pivotProfile o r c M shift).1 k < (lineLen o.isRow r c : Int)) ↔
    ∃ π δ : Nat, (pivotProfile o r c M shift).1 k = π ∧ (pivotProfile o r c M shift).2.1 k = δ ∧
      Pivot o.isRight (lineLen o.isRow r c) (shiftOf shift) (line o.isRow M k) π δ := by
  constructor
  · intro h
    rcases pivotIndex_cases o r c M shift k with hh | ⟨_, h1 | h1⟩
    · exact hh
    · omega
    · omega
  · rintro ⟨π, δ, h, _, hp⟩
    have := hp.core.1; omega

theorem pivotIndex_eq (o : Orient) (r c : Nat) (M : Mat K[X]) (shift : Option (Nat → Int)) (k π δ : Nat)
    (hp : Pivot o.isRight (lineLen o.isRow r c) (shiftOf shift) (line o.isRow M k) π δ) :
    (pivotProfile o r c M shift).1 k = π ∧ (pivotProfile o r c M shift).2.1 k = δ := by
  obtain ⟨π', δ', h, hp'⟩ := vecPivot_nonzero o shift _ _ hp.not_zero
  obtain ⟨e1, e2⟩ := hp.unique hp'
  subst e1; subst e2
  exact ⟨by simp [pivotProfile, h], by simp [pivotProfile, h]⟩

/-- Ordered weak Popov form of a family of lines. -/
def OrdWeakPopov (right : Bool) (dim n : Nat) (s : Nat → Int) (L : Nat → Nat → K[X]) : Prop :=
  ∃ piv δ : Nat → Nat, (∀ i, i < dim → Pivot right n s (L i) (piv i) (δ i)) ∧
    ∀ i j, i < j → j < dim → piv i < piv j

/-- Weak Popov form of a family of lines. -/
def WeakPopov (right : Bool) (dim n : Nat) (s : Nat → Int) (L : Nat → Nat → K[X]) : Prop :=
  ∃ piv δ : Nat → Nat, (∀ i, i < dim → Pivot right n s (L i) (piv i) (δ i)) ∧
    ∀ i j, i < dim → j < dim → piv i = piv j → i = j

theorem isOrderedWeakPopov_iff (o : Orient) (r c : Nat) (M : Mat K[X]) (shift : Option (Nat → Int)) :
    isOrderedWeakPopov o r c M shift = true ↔
      OrdWeakPopov o.isRight (lineNum o.isRow r c) (lineLen o.isRow r c) (shiftOf shift)
        (line o.isRow M) := by
  unfold isOrderedWeakPopov
  rw [pivotTests_iff _ _ _ (fun i _ => pivotIndex_bounds o r c M shift i)]
  constructor
  · rintro ⟨h1, h2⟩
    choose piv δ hp using fun i : {i : Nat // i < lineNum o.isRow r c} =>
      (pivotIndex_valid o r c M shift i.1).1 (h1 i.1 i.2)
    refine ⟨fun i => if hi : i < lineNum o.isRow r c then piv ⟨i, hi⟩ else 0,
      fun i => if hi : i < lineNum o.isRow r c then δ ⟨i, hi⟩ else 0, fun i hi => ?_, fun i j hij hj => ?_⟩
    · simp only [dif_pos hi]
      exact (hp ⟨i, hi⟩).2.2
    · have hi : i < lineNum o.isRow r c := by omega
      simp only [dif_pos hi, dif_pos hj]
      have a := (hp ⟨i, hi⟩).1
      have b := (hp ⟨j, hj⟩).1
      have := h2 i j hij hj
      simp only at a b
      omega
  · rintro ⟨piv, δ, h1, h2⟩
    refine ⟨fun i hi => ?_, fun i j hij hj => ?_⟩
    · rw [pivotIndex_valid]
      obtain ⟨e1, e2⟩ := pivotIndex_eq o r c M shift i _ _ (h1 i hi)
      exact ⟨_, _, e1, e2, h1 i hi⟩
    · rw [(pivotIndex_eq o r c M shift i _ _ (h1 i (by omega))).1,
        (pivotIndex_eq o r c M shift j _ _ (h1 j hj)).1]
      have := h2 i j hij hj
      omega

theorem isWeakPopov_iff (qs : QsortIntFn) (hqs : QsortIntContract qs) (o : Orient) (r c : Nat)
    (M : Mat K[X]) (shift : Option (Nat → Int)) :
    isWeakPopov qs o r c M shift = true ↔
      WeakPopov o.isRight (lineNum o.isRow r c) (lineLen o.isRow r c) (shiftOf shift)
        (line o.isRow M) := by
  unfold isWeakPopov
  generalize hl : (List.range (lineNum o.isRow r c)).map (pivotProfile o r c M shift).1 = l
  obtain ⟨hperm, hsort⟩ := hqs l
  have hlen : (qs l).length = lineNum o.isRow r c := by
    rw [hperm.length_eq, ← hl]; simp
  have hmem : ∀ x, x ∈ qs l ↔ ∃ k, k < lineNum o.isRow r c ∧ (pivotProfile o r c M shift).1 k = x := by
    intro x
    rw [hperm.mem_iff, ← hl]
    simp
  have hgd : ∀ i (hi : i < lineNum o.isRow r c), (qs l).getD i 0 = (qs l)[i]'(by omega) := by
    intro i hi
    rw [List.getD_eq_getElem?_getD, List.getElem?_eq_getElem (by omega), Option.getD_some]
  have hnd : (∀ i j, i < j → j < lineNum o.isRow r c → (qs l).getD i 0 < (qs l).getD j 0) ↔
      (qs l).Nodup := by
    constructor
    · intro h
      rw [List.nodup_iff_pairwise_ne, List.pairwise_iff_getElem]
      intro i j hi hj hij
      have := h i j hij (by omega)
      rw [hgd i (by omega), hgd j (by omega)] at this
      exact ne_of_lt this
    · intro h i j hij hj
      rw [hgd i (by omega), hgd j hj]
      have h1 := (List.pairwise_iff_getElem.1 hsort) i j (by omega) (by omega) hij
      have h2 := (List.pairwise_iff_getElem.1 (List.nodup_iff_pairwise_ne.1 h)) i j (by omega) (by omega) hij
      exact lt_of_le_of_ne h1 h2
  have hnd2 : (qs l).Nodup ↔ ∀ i j, i < lineNum o.isRow r c → j < lineNum o.isRow r c →
      (pivotProfile o r c M shift).1 i = (pivotProfile o r c M shift).1 j → i = j := by
    rw [hperm.nodup_iff, ← hl]
    constructor
    · intro h i j hi hj e
      have := List.inj_on_of_nodup_map h (x := i) (by simpa using hi) (y := j) (by simpa using hj) e
      exact this
    · intro h
      refine List.Nodup.map_on ?_ List.nodup_range
      intro x hx y hy e
      exact h x y (by simpa using hx) (by simpa using hy) e
  simp only [hl]
  rw [pivotTests_iff]
  · rw [hnd, hnd2]
    constructor
    · rintro ⟨h1, h2⟩
      have h1' : ∀ i, i < lineNum o.isRow r c → 0 ≤ (pivotProfile o r c M shift).1 i ∧
          (pivotProfile o r c M shift).1 i < (lineLen o.isRow r c : Int) := by
        intro i hi
        have := (hmem ((pivotProfile o r c M shift).1 i)).2 ⟨i, hi, rfl⟩
        obtain ⟨k, hk, e⟩ := List.getElem_of_mem this
        have hb := h1 k (by omega)
        rw [hgd k (by omega), e] at hb
        exact hb
      choose piv δ hp using fun i : {i : Nat // i < lineNum o.isRow r c} =>
        (pivotIndex_valid o r c M shift i.1).1 (h1' i.1 i.2)
      refine ⟨fun i => if hi : i < lineNum o.isRow r c then piv ⟨i, hi⟩ else 0,
        fun i => if hi : i < lineNum o.isRow r c then δ ⟨i, hi⟩ else 0, fun i hi => ?_,
        fun i j hi hj e => ?_⟩
      · simp only [dif_pos hi]
        exact (hp ⟨i, hi⟩).2.2
      · simp only [dif_pos hi, dif_pos hj] at e
        have a := (hp ⟨i, hi⟩).1
        have b := (hp ⟨j, hj⟩).1
        simp only at a b
        exact h2 i j hi hj (by rw [a, b, e])
    · rintro ⟨piv, δ, h1, h2⟩
      refine ⟨fun i hi => ?_, fun i j hi hj e => ?_⟩
      · rw [hgd i hi]
        obtain ⟨k, hk, e⟩ := (hmem _).1 (List.getElem_mem (l := qs l) (by omega : i < (qs l).length))
        rw [← e, pivotIndex_valid]
        obtain ⟨e1, e2⟩ := pivotIndex_eq o r c M shift k _ _ (h1 k hk)
        exact ⟨_, _, e1, e2, h1 k hk⟩
      · rw [(pivotIndex_eq o r c M shift i _ _ (h1 i hi)).1,
          (pivotIndex_eq o r c M shift j _ _ (h1 j hj)).1] at e
        exact h2 i j hi hj (by exact_mod_cast e)
  · intro i hi
    rw [hgd i hi]
    obtain ⟨k, hk, e⟩ := (hmem _).1 (List.getElem_mem (l := qs l) (by omega : i < (qs l).length))
    rw [← e]
    exact pivotIndex_bounds o r c M shift k

/-! ### Popov test -/

theorem allLoop_iff (t : Nat → Option Bool) (n : Nat) (ht : ∀ i, i < n → (t i).isSome) :
    ∃ b, allLoop t n = some b ∧ (b = true ↔ ∀ i, i < n → t i = some true) := by
  induction n with
  | zero => exact ⟨true, rfl, by simp⟩
  | succ n ih =>
    obtain ⟨b, h1, h2⟩ := ih fun i hi => ht i (by omega)
    simp only [allLoop, h1]
    cases b
    · refine ⟨false, rfl, ?_⟩
      simp only [Bool.false_eq_true, false_iff, not_forall] at h2 ⊢
      obtain ⟨i, hi, h⟩ := h2
      exact ⟨i, by omega, h⟩
    · obtain ⟨b', hb'⟩ := Option.isSome_iff_exists.1 (ht n (by omega))
      refine ⟨b', hb', ?_⟩
      constructor
      · intro e i hi
        by_cases h : i = n
        · rw [h, hb', e]
        · exact h2.1 rfl i (by omega)
      · intro h
        have := h n (by omega)
        rw [hb'] at this
        simpa using this

theorem pdeg_lt_iff {p q : K[X]} (hq : q ≠ 0) : ¬ pdeg p ≥ (q.natDegree : Int) ↔ p.degree < q.degree := by
  by_cases hp : p = 0
  · subst hp
    rw [pdeg_zero, degree_zero, degree_eq_natDegree hq]
    simp only [WithBot.bot_lt_natCast, iff_true]
    omega
  · rw [pdeg_of_ne hp, degree_eq_natDegree hp, degree_eq_natDegree hq, Nat.cast_lt]
    omega

/-- Popov form of a family of lines. -/
def Popov (right : Bool) (dim n : Nat) (s : Nat → Int) (L : Nat → Nat → K[X]) : Prop :=
  ∃ piv δ : Nat → Nat, (∀ i, i < dim → Pivot right n s (L i) (piv i) (δ i)) ∧
    (∀ i j, i < j → j < dim → piv i < piv j) ∧
    (∀ i, i < dim → (L i (piv i)).Monic) ∧
    ∀ i k, i < dim → k < dim → k ≠ i → (L k (piv i)).degree < (L i (piv i)).degree

/-- The tests after the form test, when all accesses are inside the matrix. -/
theorem popovTests_iff (get : Int → Int → Option K[X]) (dim n : Nat) (s : Nat → Int) (right : Bool)
    (L : Nat → Nat → K[X]) (pivind pivdeg : Nat → Int) (piv δ : Nat → Nat)
    (hget : ∀ k x : Nat, k < dim → x < n → get k x = some (L k x))
    (hp : ∀ i, i < dim → Pivot right n s (L i) (piv i) (δ i))
    (he : ∀ i, i < dim → pivind i = piv i ∧ pivdeg i = δ i) :
    ∃ b, popovTests get dim pivind pivdeg = some b ∧
      (b = true ↔ (∀ i, i < dim → (L i (piv i)).Monic) ∧
        ∀ i k, i < dim → k < dim → k ≠ i → (L k (piv i)).degree < (L i (piv i)).degree) := by
  have hA : ∀ i, i < dim → (get i (pivind i)).map (fun e : K[X] => decide (e.leadingCoeff = 1)) =
      some (decide ((L i (piv i)).leadingCoeff = 1)) := by
    intro i hi
    rw [(he i hi).1, hget i (piv i) hi (hp i hi).core.1]
    rfl
  obtain ⟨b1, h1, h1'⟩ := allLoop_iff
    (fun i : Nat => (get i (pivind i)).map fun e : K[X] => decide (e.leadingCoeff = 1)) dim
    (fun i hi => by simp only [hA i hi]; rfl)
  have hm : b1 = true ↔ ∀ i, i < dim → (L i (piv i)).Monic := by
    rw [h1']
    refine forall_congr' fun i => forall_congr' fun hi => ?_
    simp only [hA i hi, Option.some.injEq, decide_eq_true_eq]
    rfl
  have hB : ∀ i, i < dim → ∀ k, k < dim →
      (if i ≠ k then (get k (pivind i)).map fun e : K[X] => decide (¬ pdeg e ≥ pivdeg i) else some true) =
      some (decide (k ≠ i → (L k (piv i)).degree < (L i (piv i)).degree)) := by
    intro i hi k hk
    by_cases hik : i = k
    · rw [if_neg (by simp [hik])]; simp [hik]
    · rw [if_pos hik, (he i hi).1, hget k (piv i) hk (hp i hi).core.1, Option.map_some]
      congr 1
      rw [decide_eq_decide, (he i hi).2, ← (hp i hi).core.2.2.1, pdeg_lt_iff (hp i hi).core.2.1]
      exact ⟨fun h _ => h, fun h => h (Ne.symm hik)⟩
  have hC : ∀ i, i < dim → ∃ b, allLoop (fun ii : Nat =>
      if i ≠ ii then (get ii (pivind i)).map fun e : K[X] => decide (¬ pdeg e ≥ pivdeg i)
      else some true) dim = some b ∧
      (b = true ↔ ∀ k, k < dim → k ≠ i → (L k (piv i)).degree < (L i (piv i)).degree) := by
    intro i hi
    obtain ⟨b, hb, hb'⟩ := allLoop_iff (fun ii : Nat =>
      if i ≠ ii then (get ii (pivind i)).map fun e : K[X] => decide (¬ pdeg e ≥ pivdeg i)
      else some true) dim (fun k hk => by simp only [hB i hi k hk]; rfl)
    refine ⟨b, hb, ?_⟩
    rw [hb']
    refine forall_congr' fun k => forall_congr' fun hk => ?_
    simp only [hB i hi k hk, Option.some.injEq, decide_eq_true_eq]
  obtain ⟨b2, h2, h2'⟩ := allLoop_iff (fun i : Nat => allLoop (fun ii : Nat =>
      if i ≠ ii then (get ii (pivind i)).map fun e : K[X] => decide (¬ pdeg e ≥ pivdeg i)
      else some true) dim) dim (fun i hi => by
        obtain ⟨b, hb, _⟩ := hC i hi
        simp only [hb]; rfl)
  have hn : b2 = true ↔ ∀ i, i < dim → ∀ k, k < dim → k ≠ i →
      (L k (piv i)).degree < (L i (piv i)).degree := by
    rw [h2']
    refine forall_congr' fun i => forall_congr' fun hi => ?_
    obtain ⟨b, hb, hb'⟩ := hC i hi
    simp only [hb, Option.some.injEq]
    exact hb'
  unfold popovTests
  rw [h1]
  cases b1
  · refine ⟨false, rfl, ?_⟩
    simp only [Bool.false_eq_true, false_iff] at hm ⊢
    exact fun h => hm h.1
  · refine ⟨b2, h2, ?_⟩
    rw [hn]
    exact ⟨fun h => ⟨hm.1 rfl, fun i k hi hk hne => h i hi k hk hne⟩,
      fun h i hi k hk hne => h.2 i k hi hk hne⟩

theorem entryAt_some (r c : Nat) (M : Mat K[X]) (i j : Nat) (hi : i < r) (hj : j < c) :
    entryAt r c M (i : Int) (j : Int) = some (M i j) := by
  unfold entryAt
  rw [if_pos (by omega), Int.toNat_natCast, Int.toNat_natCast]

theorem isPopov_iff (o : Orient) (ho : o ≠ .rowUpper) (r c : Nat) (M : Mat K[X])
    (shift : Option (Nat → Int)) :
    ∃ b, isPopov o r c M shift = some b ∧ (b = true ↔
      Popov o.isRight (lineNum o.isRow r c) (lineLen o.isRow r c) (shiftOf shift) (line o.isRow M)) := by
  unfold isPopov
  have hiff := isOrderedWeakPopov_iff o r c M shift
  by_cases hf : isOrderedWeakPopov o r c M shift = false
  · simp only [if_pos hf]
    refine ⟨false, rfl, ?_⟩
    simp only [Bool.false_eq_true, false_iff]
    rintro ⟨piv, δ, h1, h2, _⟩
    rw [hf] at hiff
    exact absurd (hiff.2 ⟨piv, δ, h1, h2⟩) (by simp)
  · simp only [if_neg hf]
    obtain ⟨piv, δ, h1, h2⟩ := hiff.1 (by simpa using hf)
    have huniq : ∀ piv' δ' : Nat → Nat, (∀ i, i < lineNum o.isRow r c →
        Pivot o.isRight (lineLen o.isRow r c) (shiftOf shift) (line o.isRow M i) (piv' i) (δ' i)) →
        ∀ i, i < lineNum o.isRow r c → piv' i = piv i :=
      fun piv' δ' h i hi => ((h i hi).unique (h1 i hi)).1
    have key : ∀ get : Int → Int → Option K[X],
        (∀ k x : Nat, k < lineNum o.isRow r c → x < lineLen o.isRow r c →
          get k x = some (line o.isRow M k x)) →
        ∃ b, popovTests get (lineNum o.isRow r c) (pivotProfile o r c M shift).1
          (pivotProfile o r c M shift).2.1 = some b ∧ (b = true ↔
          Popov o.isRight (lineNum o.isRow r c) (lineLen o.isRow r c) (shiftOf shift)
            (line o.isRow M)) := by
      intro get hget
      obtain ⟨b, hb, hb'⟩ := popovTests_iff get _ _ _ _ (line o.isRow M) _ _ piv δ hget h1
        (fun i hi => pivotIndex_eq o r c M shift i _ _ (h1 i hi))
      refine ⟨b, hb, ?_⟩
      rw [hb']
      constructor
      · rintro ⟨h3, h4⟩
        exact ⟨piv, δ, h1, h2, h3, h4⟩
      · rintro ⟨piv', δ', h1', _, h3, h4⟩
        have hu := huniq piv' δ' h1'
        refine ⟨fun i hi => by rw [← hu i hi]; exact h3 i hi, fun i k hi hk hne => ?_⟩
        rw [← hu i hi]
        exact h4 i k hi hk hne
    cases o with
    | rowUpper => exact absurd rfl ho
    | rowLower =>
      rw [if_pos (Or.inl rfl)]
      exact key _ fun k x hk hx => entryAt_some r c M k x hk hx
    | colUpper =>
      rw [if_neg (by simp)]
      exact key _ fun k x hk hx => entryAt_some r c M x k hx hk
    | colLower =>
      rw [if_neg (by simp)]
      exact key _ fun k x hk hx => entryAt_some r c M x k hx hk

/-! ### Echelon and Hermite tests -/

/-- Echelon pivot of either kind. -/
def EchPivot (right : Bool) (n : Nat) (p : Nat → K[X]) (π : Nat) : Prop :=
  if right then LastNonzero n p π else FirstNonzero n p π

theorem EchPivot.core {right : Bool} {n : Nat} {p : Nat → K[X]} {π : Nat}
    (h : EchPivot right n p π) : π < n ∧ p π ≠ 0 := by
  cases right <;> exact ⟨h.lt, h.nonzero⟩

theorem EchPivot.unique {right : Bool} {n : Nat} {p : Nat → K[X]} {π π' : Nat}
    (h : EchPivot right n p π) (h' : EchPivot right n p π') : π = π' := by
  rcases lt_trichotomy π π' with hlt | heq | hgt
  · exfalso
    cases right
    · exact h.core.2 (FirstNonzero.before h' π h.core.1 hlt)
    · exact h'.core.2 (LastNonzero.after h π' h'.core.1 hlt)
  · exact heq
  · exfalso
    cases right
    · exact h'.core.2 (FirstNonzero.before h π' h'.core.1 hgt)
    · exact h.core.2 (LastNonzero.after h' π h.core.1 hgt)

theorem searchLast_spec (p : Nat → K[X]) (n : Nat) :
    (ZeroVec n p ∧ searchLast p n = -1) ∨ ∃ π : Nat, searchLast p n = π ∧ LastNonzero n p π := by
  induction n with
  | zero => left; exact ⟨fun j hj => by omega, rfl⟩
  | succ n ih =>
    simp only [searchLast]
    by_cases h : p n = 0
    · rw [if_pos h]
      rcases ih with ⟨h1, h2⟩ | ⟨π, h1, h2⟩
      · left
        refine ⟨fun j hj => ?_, h2⟩
        by_cases e : j = n
        · rw [e, h]
        · exact h1 j (by omega)
      · right
        refine ⟨π, h1, by have := h2.lt; omega, h2.nonzero, fun j hj hlt => ?_⟩
        by_cases e : j = n
        · rw [e, h]
        · exact h2.after j (by omega) hlt
    · rw [if_neg h]
      exact Or.inr ⟨n, rfl, by omega, h, fun j hj hlt => by omega⟩

theorem searchFirst_spec (p : Nat → K[X]) (k piv : Nat) (h0 : ∀ j, j < piv → p j = 0) :
    (ZeroVec (piv + k) p ∧ searchFirst p k piv = piv + k) ∨
    FirstNonzero (piv + k) p (searchFirst p k piv) := by
  induction k generalizing piv with
  | zero => left; exact ⟨fun j hj => h0 j (by omega), rfl⟩
  | succ k ih =>
    simp only [searchFirst]
    by_cases h : p piv = 0
    · rw [if_pos h, show piv + (k + 1) = piv + 1 + k by omega]
      refine ih (piv + 1) fun j hj => ?_
      by_cases e : j = piv
      · rw [e, h]
      · exact h0 j (by omega)
    · rw [if_neg h]
      exact Or.inr ⟨by omega, h, fun j _ hlt => h0 j hlt⟩

/-- The echelon pivot of one line. -/
theorem echelonPivot_spec (o : Orient) (n : Nat) (p : Nat → K[X]) :
    (ZeroVec n p ∧ echelonPivot o n p = ((if o.isRight then -1 else (n : Int)), -1)) ∨
    ∃ π : Nat, echelonPivot o n p = ((π : Int), ((p π).natDegree : Int)) ∧ EchPivot o.isRight n p π := by
  unfold echelonPivot
  cases hr : o.isRight
  · simp only [Bool.false_eq_true, if_false]
    rcases searchFirst_spec p n 0 (fun j hj => by omega) with ⟨h1, h2⟩ | h
    · left
      simp only [Nat.zero_add] at h1 h2
      exact ⟨h1, by rw [h2, if_pos rfl]⟩
    · right
      simp only [Nat.zero_add] at h
      refine ⟨searchFirst p n 0, ?_, h⟩
      have := h.lt
      rw [if_neg (by omega), pdeg_of_ne h.nonzero]
  · simp only [if_true]
    rcases searchLast_spec p n with ⟨h1, h2⟩ | ⟨π, h1, h2⟩
    · left
      exact ⟨h1, by rw [h2, if_pos rfl]⟩
    · right
      refine ⟨π, ?_, h2⟩
      rw [h1, if_neg (by omega), Int.toNat_natCast, pdeg_of_ne h2.nonzero]

theorem skipUp_spec (f : Nat → Int) (n i : Nat) (h0 : ∀ j, j < i → f j = -1) :
    i ≤ skipUp f n i ∧ skipUp f n i ≤ i + n ∧ (∀ j, j < skipUp f n i → f j = -1) ∧
    (skipUp f n i < i + n → f (skipUp f n i) ≠ -1) := by
  induction n generalizing i with
  | zero => exact ⟨le_refl _, le_refl _, h0, fun h => absurd h (lt_irrefl _)⟩
  | succ n ih =>
    simp only [skipUp]
    by_cases h : f i = -1
    · rw [if_pos h]
      obtain ⟨a, b, c, d⟩ := ih (i + 1) fun j hj => by
        by_cases e : j = i
        · rw [e, h]
        · exact h0 j (by omega)
      exact ⟨by omega, by omega, c, fun hh => d (by omega)⟩
    · rw [if_neg h]
      exact ⟨le_refl _, by omega, h0, fun _ => h⟩

theorem checkUp_iff (f : Nat → Int) (n i : Nat) :
    checkUp f n i = true ↔ ∀ k, i ≤ k → k < i + n → f k < f (k + 1) := by
  induction n generalizing i with
  | zero => simp only [checkUp, true_iff]; intro k h1 h2; omega
  | succ n ih =>
    simp only [checkUp]
    by_cases h : f i ≥ f (i + 1)
    · rw [if_pos h]
      simp only [Bool.false_eq_true, false_iff]
      intro hc
      have := hc i (le_refl _) (by omega)
      omega
    · rw [if_neg h, ih]
      constructor
      · intro hc k h1 h2
        by_cases e : k = i
        · rw [e]; omega
        · exact hc k (by omega) (by omega)
      · exact fun hc k h1 h2 => hc k (by omega) (by omega)

theorem skipDown_spec (f : Nat → Int) (z : Int) (n : Nat) :
    skipDown f z n ≤ n ∧ (∀ j, skipDown f z n ≤ j → j < n → f j = z) ∧
    (0 < skipDown f z n → f (skipDown f z n - 1) ≠ z) := by
  induction n with
  | zero => exact ⟨le_refl _, fun j _ h => by omega, fun h => absurd h (lt_irrefl _)⟩
  | succ n ih =>
    simp only [skipDown]
    by_cases h : f n = z
    · rw [if_pos h]
      obtain ⟨a, b, c⟩ := ih
      refine ⟨by omega, fun j h1 h2 => ?_, c⟩
      by_cases e : j = n
      · rw [e, h]
      · exact b j h1 (by omega)
    · rw [if_neg h]
      exact ⟨le_refl _, fun j h1 h2 => by omega, fun _ => by simpa using h⟩

theorem checkDown_iff (f : Nat → Int) (n : Nat) :
    checkDown f n = true ↔ ∀ k, k < n → f k < f (k + 1) := by
  induction n with
  | zero => simp [checkDown]
  | succ n ih =>
    simp only [checkDown]
    by_cases h : f n ≥ f (n + 1)
    · rw [if_pos h]
      simp only [Bool.false_eq_true, false_iff]
      intro hc
      have := hc n (by omega)
      omega
    · rw [if_neg h, ih]
      constructor
      · intro hc k h1
        by_cases e : k = n
        · rw [e]; omega
        · exact hc k (by omega)
      · exact fun hc k h1 => hc k (by omega)

/-- Echelon form of a family of lines: `Z k` says where the zero lines are. -/
def Ech (right : Bool) (dim n : Nat) (L : Nat → Nat → K[X]) : Prop :=
  if right then EchelonLower dim n L else EchelonUpper dim n L

theorem echelonIndex_cases (o : Orient) (r c : Nat) (M : Mat K[X]) (k : Nat) :
    (ZeroVec (lineLen o.isRow r c) (line o.isRow M k) ∧
      echelonIndex o r c M k = (if o.isRight then -1 else (lineLen o.isRow r c : Int))) ∨
    ∃ π : Nat, echelonIndex o r c M k = π ∧
      echelonDegree o r c M k = ((line o.isRow M k π).natDegree : Int) ∧
      EchPivot o.isRight (lineLen o.isRow r c) (line o.isRow M k) π := by
  unfold echelonIndex echelonDegree
  rcases echelonPivot_spec o (lineLen o.isRow r c) (line o.isRow M k) with ⟨h1, h2⟩ | ⟨π, h1, h2⟩
  · left; exact ⟨h1, by rw [h2]⟩
  · right; exact ⟨π, by rw [h1], by rw [h1], h2⟩

theorem echelonIndex_eq (o : Orient) (r c : Nat) (M : Mat K[X]) (k π : Nat)
    (h : EchPivot o.isRight (lineLen o.isRow r c) (line o.isRow M k) π) :
    echelonIndex o r c M k = π ∧
      echelonDegree o r c M k = ((line o.isRow M k π).natDegree : Int) := by
  rcases echelonIndex_cases o r c M k with ⟨h1, _⟩ | ⟨π', h1, h1', h2⟩
  · exact absurd (h1 π h.core.1) h.core.2
  · rw [h.unique h2]; exact ⟨h1, h1'⟩

theorem isEchelon_iff (o : Orient) (r c : Nat) (M : Mat K[X]) :
    isEchelon o r c M = true ↔
      Ech o.isRight (lineNum o.isRow r c) (lineLen o.isRow r c) (line o.isRow M) := by
  have hcases := echelonIndex_cases o r c M
  have heq := echelonIndex_eq o r c M
  unfold isEchelon Ech
  generalize lineNum o.isRow r c = dim at *
  generalize lineLen o.isRow r c = n at *
  generalize line o.isRow M = L at *
  generalize echelonIndex o r c M = f at *
  generalize echelonDegree o r c M = g at *
  cases hr : o.isRight
  · simp only [hr, Bool.false_eq_true, if_false] at hcases heq ⊢
    obtain ⟨a, b, d⟩ := skipDown_spec f n dim
    generalize skipDown f n dim = z at *
    rw [checkDown_iff]
    constructor
    · intro h
      have hs := strict_of_step f 0 z (fun i _ hi => h i (by omega))
      have hval : ∀ i, i < z → ∃ π : Nat, f i = π ∧ FirstNonzero n (L i) π := by
        intro i hi
        rcases hcases i with ⟨_, h1⟩ | ⟨π, h1, _, h2⟩
        · exfalso
          have hlast := d (by omega)
          have hle : f (z - 1) ≤ n := by
            rcases hcases (z - 1) with ⟨_, h1⟩ | ⟨π, h1, _, h2⟩
            · omega
            · have := h2.core.1; omega
          by_cases e : i = z - 1
          · rw [e] at h1; exact hlast h1
          · have := hs i (z - 1) (by omega) (by omega) (by omega); omega
        · exact ⟨π, h1, h2⟩
      refine ⟨z, a, fun i h1 h2 => ?_, ?_⟩
      · rcases hcases i with ⟨h3, _⟩ | ⟨π, h3, _, h4⟩
        · exact h3
        · exfalso
          have := b i h1 h2
          have := h4.core.1
          omega
      · choose piv hp using fun i : {i : Nat // i < z} => hval i.1 i.2
        refine ⟨fun i => if hi : i < z then piv ⟨i, hi⟩ else 0, fun i hi => ?_, fun i j hij hj => ?_⟩
        · simp only [dif_pos hi]; exact (hp ⟨i, hi⟩).2
        · have hi : i < z := by omega
          simp only [dif_pos hi, dif_pos hj]
          have e1 := (hp ⟨i, hi⟩).1
          have e2 := (hp ⟨j, hj⟩).1
          have := hs i j (by omega) hij hj
          simp only at e1 e2
          omega
    · rintro ⟨z', hz', hzero, piv, hp, hinc⟩
      have hfz : ∀ i, z' ≤ i → i < dim → f i = n := by
        intro i h1 h2
        rcases hcases i with ⟨_, h3⟩ | ⟨π, h3, _, h4⟩
        · exact h3
        · exact absurd (hzero i h1 h2 π h4.core.1) h4.core.2
      have hfp : ∀ i, i < z' → f i = piv i := fun i hi => (heq i (piv i) (hp i hi)).1
      have hzz : z ≤ z' := by
        by_contra hc
        exact d (by omega) (hfz (z - 1) (by omega) (by omega))
      intro k hk
      rw [hfp k (by omega), hfp (k + 1) (by omega)]
      have := hinc k (k + 1) (by omega) (by omega)
      omega
  · simp only [hr, if_true] at hcases heq ⊢
    obtain ⟨_, a, b, d⟩ := skipUp_spec f dim 0 (fun j hj => by omega)
    simp only [Nat.zero_add] at a d
    generalize skipUp f dim 0 = z at *
    rw [checkUp_iff]
    constructor
    · intro h
      have hs := strict_of_step f z dim (fun i h1 h2 => h i h1 (by omega))
      have hval : ∀ i, z ≤ i → i < dim → ∃ π : Nat, f i = π ∧ LastNonzero n (L i) π := by
        intro i hi hid
        rcases hcases i with ⟨_, h1⟩ | ⟨π, h1, _, h2⟩
        · exfalso
          have hlast := d (by omega)
          have hle : -1 ≤ f z := by
            rcases hcases z with ⟨_, h1⟩ | ⟨π, h1, _, h2⟩
            · omega
            · omega
          by_cases e : i = z
          · rw [e] at h1; exact hlast h1
          · have := hs z i (by omega) (by omega) (by omega); omega
        · exact ⟨π, h1, h2⟩
      refine ⟨z, a, fun i h1 => ?_, ?_⟩
      · rcases hcases i with ⟨h3, _⟩ | ⟨π, h3, _, h4⟩
        · exact h3
        · exfalso
          have := b i h1
          omega
      · choose piv hp using fun i : {i : Nat // z ≤ i ∧ i < dim} => hval i.1 i.2.1 i.2.2
        refine ⟨fun i => if hi : z ≤ i ∧ i < dim then piv ⟨i, hi⟩ else 0, fun i h1 h2 => ?_,
          fun i j h1 hij hj => ?_⟩
        · simp only [dif_pos (And.intro h1 h2)]; exact (hp ⟨i, h1, h2⟩).2
        · have hi : z ≤ i ∧ i < dim := by omega
          have hj' : z ≤ j ∧ j < dim := by omega
          simp only [dif_pos hi, dif_pos hj']
          have e1 := (hp ⟨i, hi⟩).1
          have e2 := (hp ⟨j, hj'⟩).1
          have := hs i j (by omega) hij hj
          simp only at e1 e2
          omega
    · rintro ⟨z', hz', hzero, piv, hp, hinc⟩
      have hfz : ∀ i, i < z' → f i = -1 := by
        intro i h1
        rcases hcases i with ⟨_, h3⟩ | ⟨π, h3, _, h4⟩
        · exact h3
        · exact absurd (hzero i h1 π h4.core.1) h4.core.2
      have hfp : ∀ i, z' ≤ i → i < dim → f i = piv i := fun i h1 h2 => (heq i (piv i) (hp i h1 h2)).1
      have hzz : z' ≤ z := by
        by_contra hc
        exact d (by omega) (hfz z (by omega))
      intro k hk1 hk2
      rw [hfp k (by omega) (by omega), hfp (k + 1) (by omega) (by omega)]
      have := hinc k (k + 1) (by omega) (by omega) (by omega)
      omega

/-- Hermite form of a family of lines. -/
def Herm (right : Bool) (dim n : Nat) (L : Nat → Nat → K[X]) : Prop :=
  if right then HermiteLower dim n L else HermiteUpper dim n L

theorem length_gt_iff {p q : K[X]} (hq : q ≠ 0) :
    ¬ (polyLength p : Int) > (q.natDegree : Int) ↔ p.degree < q.degree := by
  rw [← pdeg_lt_iff hq]
  unfold pdeg
  omega

theorem hermiteLine_iff (o : Orient) (r c : Nat) (M : Mat K[X]) (k π : Nat)
    (hk : k < lineNum o.isRow r c)
    (h : EchPivot o.isRight (lineLen o.isRow r c) (line o.isRow M k) π) :
    hermiteLine o r c M k = true ↔ (line o.isRow M k π).Monic ∧
      ∀ kk, (if o.isRight then k < kk ∧ kk < lineNum o.isRow r c else kk < k) →
        (line o.isRow M kk π).degree < (line o.isRow M k π).degree := by
  obtain ⟨e1, e2⟩ := echelonIndex_eq o r c M k π h
  unfold hermiteLine
  simp only [e1, e2, Int.toNat_natCast, Bool.and_eq_true, decide_eq_true_eq]
  refine and_congr Iff.rfl ?_
  cases hr : o.isRight
  · simp only [Bool.false_eq_true, if_false, List.all_eq_true, List.mem_range, decide_eq_true_eq]
    refine forall_congr' fun kk => forall_congr' fun _ => ?_
    exact length_gt_iff h.core.2
  · simp only [if_true, List.all_eq_true, List.mem_range, decide_eq_true_eq]
    refine forall_congr' fun kk => ?_
    rw [not_and, length_gt_iff h.core.2]
    constructor
    · exact fun hh hc => hh hc.2 (by omega)
    · exact fun hh h1 h2 => hh ⟨by omega, h1⟩

theorem isHermite_iff (o : Orient) (r c : Nat) (M : Mat K[X]) :
    isHermite o r c M = true ↔
      Herm o.isRight (lineNum o.isRow r c) (lineLen o.isRow r c) (line o.isRow M) := by
  have hech := isEchelon_iff o r c M
  have hcases := echelonIndex_cases o r c M
  have heq := echelonIndex_eq o r c M
  have hline := hermiteLine_iff o r c M
  unfold isHermite Herm
  unfold Ech at hech
  generalize isEchelon o r c M = e at *
  generalize lineNum o.isRow r c = dim at *
  generalize lineLen o.isRow r c = n at *
  generalize line o.isRow M = L at *
  generalize echelonIndex o r c M = f at *
  generalize echelonDegree o r c M = g at *
  generalize hermiteLine o r c M = hl at *
  simp only []
  by_cases hd : dim = 0
  · rw [if_pos hd]
    simp only [true_iff]
    subst hd
    split_ifs
    · exact ⟨fun _ => 0, fun i hi => by omega, fun i j hij hj => by omega, fun i hi => by omega,
        fun i k hik hk => by omega⟩
    · exact ⟨fun _ => 0, fun i hi => by omega, fun i j hij hj => by omega, fun i hi => by omega,
        fun i k hik hk => by omega⟩
  rw [if_neg hd]
  cases hr : o.isRight
  · simp only [hr, Bool.false_eq_true, if_false] at hech hcases heq hline ⊢
    constructor
    · intro h
      by_cases he : e = false
      · rw [if_pos he] at h; simp at h
      rw [if_neg he] at h
      by_cases hz : f 0 = -1 ∨ f (dim - 1) = (n : Int)
      · rw [if_pos hz] at h; simp at h
      rw [if_neg hz] at h
      rw [List.all_eq_true] at h
      obtain ⟨z, hzd, hzero, piv, hp, hinc⟩ := hech.1 (by simpa using he)
      have hzd' : z = dim := by
        by_contra hc
        apply hz
        right
        rcases hcases (dim - 1) with ⟨_, h3⟩ | ⟨π, h3, _, h4⟩
        · exact h3
        · exact absurd (hzero (dim - 1) (by omega) (by omega) π h4.core.1) h4.core.2
      subst hzd'
      have hm := fun i hi => (hline i (piv i) hi (hp i hi)).1 (h i (by simpa using hi))
      exact ⟨piv, hp, hinc, fun i hi => (hm i hi).1, fun i k hk hi => (hm i hi).2 k hk⟩
    · rintro ⟨piv, hp, hinc, hmon, hdeg⟩
      have he : e = true := hech.2 ⟨dim, le_refl _, fun i h1 h2 => by omega, piv, hp, hinc⟩
      rw [if_neg (by simp [he]), if_neg, List.all_eq_true]
      · intro k hk
        have hk : k < dim := by simpa using hk
        exact (hline k (piv k) hk (hp k hk)).2 ⟨hmon k hk, fun kk hkk => hdeg k kk hkk hk⟩
      · rintro (h | h)
        · rw [(heq 0 _ (hp 0 (by omega))).1] at h; omega
        · rw [(heq (dim - 1) _ (hp (dim - 1) (by omega))).1] at h
          have := (hp (dim - 1) (by omega)).lt
          omega
  · simp only [hr, if_true] at hech hcases heq hline ⊢
    constructor
    · intro h
      by_cases he : e = false
      · rw [if_pos he] at h; simp at h
      rw [if_neg he] at h
      by_cases hz : f 0 = -1 ∨ f (dim - 1) = (n : Int)
      · rw [if_pos hz] at h; simp at h
      rw [if_neg hz] at h
      rw [List.all_eq_true] at h
      obtain ⟨z, hzd, hzero, piv, hp, hinc⟩ := hech.1 (by simpa using he)
      have hzd' : z = 0 := by
        by_contra hc
        apply hz
        left
        rcases hcases 0 with ⟨_, h3⟩ | ⟨π, h3, _, h4⟩
        · exact h3
        · exact absurd (hzero 0 (by omega) π h4.core.1) h4.core.2
      subst hzd'
      have hp' : ∀ i, i < dim → LastNonzero n (L i) (piv i) := fun i hi => hp i (by omega) hi
      have hm := fun i hi => (hline i (piv i) hi (hp' i hi)).1 (h i (by simpa using hi))
      exact ⟨piv, hp', fun i j hij hj => hinc i j (by omega) hij hj, fun i hi => (hm i hi).1,
        fun i k hik hk => (hm i (by omega)).2 k ⟨hik, hk⟩⟩
    · rintro ⟨piv, hp, hinc, hmon, hdeg⟩
      have he : e = true := hech.2 ⟨0, by omega, fun i h1 => by omega, piv,
        fun i _ hi => hp i hi, fun i j _ hij hj => hinc i j hij hj⟩
      rw [if_neg (by simp [he]), if_neg, List.all_eq_true]
      · intro k hk
        have hk : k < dim := by simpa using hk
        exact (hline k (piv k) hk (hp k hk)).2 ⟨hmon k hk, fun kk hkk => hdeg k kk hkk.1 hkk.2⟩
      · rintro (h | h)
        · rw [(heq 0 _ (hp 0 (by omega))).1] at h; omega
        · rw [(heq (dim - 1) _ (hp (dim - 1) (by omega))).1] at h
          have := (hp (dim - 1) (by omega)).lt
          omega

end PML.Forms
