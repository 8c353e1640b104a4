import Verif.Ntl.SeqSpec
import Verif.Ntl.MatUtilsLemmas
import Mathlib.RingTheory.Coprime.Lemmas

/-!
# Theory for C97: leading terms of the sequences obtained from one sequence
-/

namespace PML.Ntl.Seq

open Polynomial PML.Ntl.Utils

variable {F : Type} [Field F]

/-- The action on `σ`, as a linear map. -/
noncomputable def act (σ : Nat → F[X]) (i : Nat) : Polynomial F[X] →ₗ[F[X]] F[X] :=
  Polynomial.lsum fun j => LinearMap.mulRight F[X] (σ (i + j))

theorem act_entry (σ : Nat → F[X]) (i : Nat) (g : Polynomial F[X]) : act σ i g = entry g σ i := by
  unfold act entry
  rw [Polynomial.lsum_apply, Polynomial.sum_over_range]
  · rfl
  · intro n; simp

theorem act_monomial (σ : Nat → F[X]) (i j : Nat) (c : F[X]) : act σ i (monomial j c) = c * σ (i + j) := by
  unfold act
  rw [Polynomial.lsum_apply, Polynomial.sum_monomial_index]
  · rfl
  · simp

theorem act_C (σ : Nat → F[X]) (i : Nat) (c : F[X]) : act σ i (C c) = c * σ i := act_monomial σ i 0 c

theorem act_C_mul (σ : Nat → F[X]) (i : Nat) (c : F[X]) (g : Polynomial F[X]) : act σ i (C c * g) = c * act σ i g := by
  rw [← smul_eq_C_mul, map_smul, smul_eq_mul]

theorem act_mul_X (σ : Nat → F[X]) (i : Nat) (g : Polynomial F[X]) : act σ i (g * X) = act σ (i + 1) g := by
  induction g using Polynomial.induction_on' with
  | add p q hp hq => rw [add_mul, map_add, map_add, hp, hq]
  | monomial n c => rw [monomial_mul_X, act_monomial, act_monomial, show i + (n + 1) = i + 1 + n by omega]

theorem act_mul_X_pow (σ : Nat → F[X]) (g : Polynomial F[X]) : ∀ k i : Nat, act σ i (g * X ^ k) = act σ (i + k) g
  | 0, i => by rw [pow_zero, mul_one]; rfl
  | k + 1, i => by rw [pow_succ, ← mul_assoc, act_mul_X, act_mul_X_pow σ g k, show i + 1 + k = i + (k + 1) by omega]

/-- If all coefficients are divisible by `a`, so is the result. -/
theorem act_dvd (σ : Nat → F[X]) (i : Nat) (g : Polynomial F[X]) (a : F[X]) (h : ∀ j, a ∣ g.coeff j) : a ∣ act σ i g := by
  rw [act_entry]
  exact Finset.dvd_sum fun j _ => Dvd.dvd.mul_right (h j) _

theorem coprime_X {w : F[X]} (hw : w.coeff 0 ≠ 0) (v : Nat) : IsCoprime (X ^ v : F[X]) w := by
  refine IsCoprime.pow_left ?_
  rw [Irreducible.coprime_iff_not_dvd irreducible_X, X_dvd_iff]
  exact hw

theorem dvd_unit {w a : F[X]} (hw : w.coeff 0 ≠ 0) (v : Nat) : X ^ v ∣ w * a ↔ X ^ v ∣ a :=
  ⟨fun h => (coprime_X hw v).dvd_of_dvd_mul_left h, fun h => h.mul_left _⟩

/-- The valuation of `a` is `v`. -/
def V (v : Nat) (a : F[X]) : Prop := X ^ v ∣ a ∧ ¬X ^ (v + 1) ∣ a

theorem V.le {v u : Nat} {a : F[X]} (h : V v a) (hu : X ^ u ∣ a) : u ≤ v := by
  by_contra hc
  exact h.2 ((pow_dvd_pow X (by omega)).trans hu)

theorem V.lt {v d : Nat} {a : F[X]} (h : V v a) (hd : ¬X ^ d ∣ a) : v < d := by
  by_contra hc
  exact hd ((pow_dvd_pow X (by omega)).trans h.1)

theorem exists_V {a : F[X]} {d : Nat} (hd : ¬X ^ d ∣ a) : ∃ v, V v a := by
  classical
  have hex : ∃ u, ¬(X : F[X]) ^ u ∣ a := ⟨d, hd⟩
  have h0 : Nat.find hex ≠ 0 := by
    intro e
    have := Nat.find_spec hex
    rw [e, pow_zero] at this
    exact this (one_dvd _)
  refine ⟨Nat.find hex - 1, ?_, ?_⟩
  · have := Nat.find_min hex (m := Nat.find hex - 1) (by omega)
    exact not_not.1 this
  · rw [Nat.sub_add_cancel (Nat.one_le_iff_ne_zero.2 h0)]
    exact Nat.find_spec hex

/-- A polynomial that is not zero modulo `X^d` is a power of `X` times a unit modulo `X^d`. -/
theorem split_unit {c : F[X]} {d : Nat} (hd : ¬X ^ d ∣ c) : ∃ t w, t < d ∧ w.coeff 0 ≠ 0 ∧ c = X ^ t * w := by
  obtain ⟨v, hv⟩ := exists_V hd
  obtain ⟨w, hw⟩ := hv.1
  refine ⟨v, w, hv.lt hd, fun h => ?_, hw⟩
  obtain ⟨u, hu⟩ := X_dvd_iff.2 h
  exact hv.2 ⟨u, by rw [hw, hu]; ring⟩

/-- The first nonzero entry of `h σ` has index `k`. -/
def Lead (d : Nat) (σ : Nat → F[X]) (h : Polynomial F[X]) (k : Nat) : Prop := (∀ j, j < k → X ^ d ∣ act σ j h) ∧ ¬X ^ d ∣ act σ k h

/-- The table has an entry at `k` whose valuation is at most that of `h σ` at `k`. -/
def Red (I : Int → Option (Polynomial F[X])) (σ : Nat → F[X]) (h : Polynomial F[X]) (k : Nat) : Prop :=
  ∃ g, I k = some g ∧ ∀ v, V v (act σ k g) → X ^ v ∣ act σ k h

/-- The entries of the table at indices smaller than `n` are as announced. -/
def Ent (d n : Nat) (σ : Nat → F[X]) (I : Int → Option (Polynomial F[X])) : Prop :=
  ∀ k : Nat, k < n → ∀ g, I k = some g → Lead d σ g k

/-- All leading terms of polynomials of degree at most `s` are known in the table. -/
def Std (d n s : Nat) (σ : Nat → F[X]) (I : Int → Option (Polynomial F[X])) : Prop :=
  ∀ h : Polynomial F[X], (∀ j, s < j → h.coeff j = 0) → ∀ k, k < n - s → Lead d σ h k → Red I σ h k

theorem lead_exists {d L : Nat} {σ : Nat → F[X]} {h : Polynomial F[X]} (hz : ¬∀ i, i < L → X ^ d ∣ act σ i h) : ∃ k, k < L ∧ Lead d σ h k := by
  classical
  push Not at hz
  have hex : ∃ i, i < L ∧ ¬X ^ d ∣ act σ i h := hz
  refine ⟨Nat.find hex, (Nat.find_spec hex).1, fun j hj => ?_, (Nat.find_spec hex).2⟩
  have := Nat.find_min hex hj
  by_contra hc
  exact this ⟨by have := (Nat.find_spec hex).1; omega, hc⟩

theorem Red.congr {d : Nat} {I : Int → Option (Polynomial F[X])} {σ : Nat → F[X]} {e h : Polynomial F[X]} {k : Nat} (hE : ∀ g, I k = some g → Lead d σ g k)
    (hc : X ^ d ∣ act σ k h - act σ k e) (hr : Red I σ e k) : Red I σ h k := by
  obtain ⟨g, hg, hv⟩ := hr
  refine ⟨g, hg, fun v h1 => ?_⟩
  have h2 : v < d := h1.lt (hE g hg).2
  have h3 : (X : F[X]) ^ v ∣ act σ k h - act σ k e := (pow_dvd_pow X (by omega)).trans hc
  have := dvd_add h3 (hv v h1)
  rwa [sub_add_cancel] at this

theorem Lead.congr {d k : Nat} {σ : Nat → F[X]} {e h : Polynomial F[X]} (hl : Lead d σ h k) (hc : ∀ j, j ≤ k → X ^ d ∣ act σ j h - act σ j e) : Lead d σ e k := by
  constructor
  · intro j hj
    exact (dvd_sub_right (hl.1 j hj)).1 (hc j (by omega))
  · intro hd
    apply hl.2
    have := dvd_add (hc k le_rfl) hd
    rwa [sub_add_cancel] at this

/-- The data on the polynomial `f` kept for `x^t`. -/
structure Fam (d n s t : Nat) (σ : Nat → F[X]) (I : Int → Option (Polynomial F[X])) (f : Polynomial F[X]) : Prop where
  deg : f.natDegree ≤ s
  lc : f.leadingCoeff = X ^ t
  alt : (∀ i, i < n - f.natDegree → X ^ d ∣ act σ i f) ∨ (f.natDegree = s ∧ ∀ k, k < n - s → Lead d σ f k → ¬Red I σ f k)

/-- No combination of lower degree has the leading term of `f`. -/
theorem no_combination {d n s k : Nat} {σ : Nat → F[X]} {I : Int → Option (Polynomial F[X])} {f h : Polynomial F[X]} {w : F[X]} (hw : w.coeff 0 ≠ 0)
    (hE : Ent d n σ I) (hS : Std d n s σ I) (hk : k < n - (s + 1)) (hl : Lead d σ f k) (hr : ¬Red I σ f k)
    (he : ∀ j, s < j → (h - C w * f).coeff j = 0) (hz : ∀ j, j ≤ k → X ^ d ∣ act σ j h) : False := by
  have ha : ∀ j, act σ j (h - C w * f) = act σ j h - w * act σ j f := fun j => by rw [map_sub, act_C_mul]
  have hl' : Lead d σ (h - C w * f) k := by
    constructor
    · intro j hj
      rw [ha]
      exact dvd_sub (hz j (by omega)) ((hl.1 j hj).mul_left _)
    · rw [ha, dvd_sub_right (hz k le_rfl), dvd_unit hw]
      exact hl.2
  obtain ⟨g, hg, hv⟩ := hS _ he k (by omega) hl'
  refine hr ⟨g, hg, fun v h1 => ?_⟩
  have h2 : v < d := h1.lt (hE k (by omega) g hg).2
  have h3 := hv v h1
  rw [ha, dvd_sub_right ((pow_dvd_pow X (by omega)).trans (hz k le_rfl)), dvd_unit hw] at h3
  exact h3

theorem top_cancel {s t : Nat} {f h : Polynomial F[X]} {w : F[X]} (hf : f.leadingCoeff = X ^ t) (hfs : f.natDegree ≤ s) (hh : ∀ j, s < j → h.coeff j = 0)
    (hc : h.coeff s = X ^ t * w) : ∀ j, s ≤ j → (h - C w * (f * X ^ (s - f.natDegree))).coeff j = 0 := by
  intro j hj
  rw [coeff_sub, coeff_C_mul, coeff_mul_X_pow', if_pos (by omega)]
  rcases Nat.lt_or_ge s j with h1 | h1
  · rw [hh j h1, coeff_eq_zero_of_natDegree_lt (n := j - (s - f.natDegree)) (by omega), mul_zero, sub_zero]
  · obtain rfl : j = s := by omega
    rw [hc, show j - (j - f.natDegree) = f.natDegree by omega]
    rw [Polynomial.leadingCoeff] at hf
    rw [hf]; ring

/-- One more degree: the leading terms are those known before, and those of the new polynomials. -/
theorem std_step {d n s : Nat} {σ : Nat → F[X]} {I : Int → Option (Polynomial F[X])} {gens : Nat → Polynomial F[X]} (hE : Ent d n σ I) (hS : Std d n s σ I)
    (hf : ∀ t, t < d → Fam d n (s + 1) t σ I (gens t)) (h : Polynomial F[X]) (hh : ∀ j, s + 1 < j → h.coeff j = 0) (k : Nat) (hk : k < n - (s + 1))
    (hl : Lead d σ h k) :
    Red I σ h k ∨ ∃ t, t < d ∧ k < n - (gens t).natDegree ∧ Lead d σ (gens t) k ∧ ∀ v, V v (act σ k (gens t)) → X ^ v ∣ act σ k h := by
  have low : ∀ e : Polynomial F[X], (∀ j, s + 1 ≤ j → e.coeff j = 0) → (∀ j, j ≤ k → X ^ d ∣ act σ j h - act σ j e) → Red I σ h k := by
    intro e he hc
    exact (hS e (fun j hj => he j hj) k (by omega) (hl.congr hc)).congr (hE k (by omega)) (hc k le_rfl)
  by_cases hd : X ^ d ∣ h.coeff (s + 1)
  · left
    refine low (h - monomial (s + 1) (h.coeff (s + 1))) (fun j hj => ?_) fun j _ => ?_
    · rw [coeff_sub, coeff_monomial]
      split_ifs with e
      · rw [e, sub_self]
      · rw [hh j (by omega), sub_zero]
    · rw [map_sub, act_monomial, sub_sub_cancel]
      exact hd.mul_right _
  · obtain ⟨t, w, ht, hw, hc⟩ := split_unit hd
    have F' := hf t ht
    have top := top_cancel F'.lc F'.deg hh hc
    have ha : ∀ j, act σ j (h - C w * (gens t * X ^ (s + 1 - (gens t).natDegree))) = act σ j h - w * act σ (j + (s + 1 - (gens t).natDegree)) (gens t) := by
      intro j
      rw [map_sub, act_C_mul, act_mul_X_pow]
    have hdeg := F'.deg
    by_cases hz : ∀ i, i < n - (gens t).natDegree → X ^ d ∣ act σ i (gens t)
    · left
      refine low _ top fun j hj => ?_
      rw [ha, sub_sub_cancel]
      exact (hz _ (by omega)).mul_left _
    · obtain ⟨hs, hirr⟩ := F'.alt.resolve_left hz
      rw [hs] at hz
      obtain ⟨k0, hk0, hl0⟩ := lead_exists hz
      have hr := hirr k0 hk0 hl0
      rw [hs, Nat.sub_self, pow_zero, mul_one] at top
      have ha : ∀ j, act σ j (h - C w * gens t) = act σ j h - w * act σ j (gens t) := fun j => by rw [map_sub, act_C_mul]
      rcases Nat.lt_trichotomy k k0 with h1 | h1 | h1
      · left
        refine low _ top fun j hj => ?_
        rw [ha, sub_sub_cancel]
        exact (hl0.1 j (by omega)).mul_left _
      · right
        subst h1
        refine ⟨t, ht, by omega, hl0, fun v hv => ?_⟩
        have hvd := hv.lt hl0.2
        have key : (X : F[X]) ^ v ∣ act σ k (h - C w * gens t) := by
          by_cases h2 : X ^ d ∣ act σ k (h - C w * gens t)
          · exact (pow_dvd_pow X (by omega)).trans h2
          · obtain ⟨g, hg, hgv⟩ := hS _ (fun j hj => top j hj) k (by omega)
              ⟨fun j hj => by rw [ha]; exact dvd_sub (hl.1 j hj) ((hl0.1 j hj).mul_left _), h2⟩
            obtain ⟨v', hv'⟩ := exists_V (hE k (by omega) g hg).2
            have h3 : ¬X ^ v' ∣ act σ k (gens t) := fun h4 => hr ⟨g, hg, fun u hu => (pow_dvd_pow X (hv'.le hu.1)).trans h4⟩
            have h5 : v < v' := by
              by_contra h6
              exact h3 ((pow_dvd_pow X (by omega)).trans hv.1)
            exact (pow_dvd_pow X (by omega)).trans (hgv v' hv')
        rw [ha] at key
        have := dvd_add key (hv.1.mul_left w)
        rwa [sub_add_cancel] at this
      · exact (no_combination hw hE hS hk0 hl0 hr (fun j hj => top j hj) fun j hj => hl.1 j (by omega)).elim

/-- One more degree: a polynomial of leading coefficient `x^t w` that cancels all terms. -/
theorem min_step {d n s t : Nat} {σ : Nat → F[X]} {I : Int → Option (Polynomial F[X])} {f : Polynomial F[X]} (hE : Ent d n σ I) (hS : Std d n s σ I)
    (hf : Fam d n (s + 1) t σ I f) (h : Polynomial F[X]) (w : F[X]) (hw : w.coeff 0 ≠ 0) (hn : h.natDegree = s + 1) (hc : h.leadingCoeff = X ^ t * w)
    (hz : ∀ i, i < n - h.natDegree → X ^ d ∣ act σ i h) : ∀ i, i < n - f.natDegree → X ^ d ∣ act σ i f := by
  by_contra hcon
  obtain ⟨hs, hirr⟩ := hf.alt.resolve_left hcon
  rw [hs] at hcon
  obtain ⟨k0, hk0, hl0⟩ := lead_exists hcon
  have top := top_cancel (w := w) hf.lc hf.deg (h := h) (fun j hj => coeff_eq_zero_of_natDegree_lt (by omega)) (by rw [← hn]; exact hc)
  rw [hs, Nat.sub_self, pow_zero, mul_one] at top
  exact no_combination hw hE hS hk0 hl0 (hirr k0 hk0 hl0) (fun j hj => top j hj) fun j hj => hz j (by omega)

end PML.Ntl.Seq
