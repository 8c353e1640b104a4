import Verif.Approx.Spec
import Verif.Forms.Spec
import Mathlib.LinearAlgebra.Matrix.NonsingularInverse
import Mathlib.Algebra.Polynomial.Degree.Operations
import Mathlib.Algebra.Polynomial.BigOperators
import Mathlib.Tactic.Ring
import Mathlib.Tactic.LinearCombination

/-!
# Theory: one step of mbasis, and products of bases, on mathematical matrices
-/

namespace PML.Approx

open Polynomial Matrix Spec

variable {K : Type} [Field K] {m n : Nat}

/-- `p` has degree at most `d - s` (as integers; `p = 0` if this is negative). -/
def DegLE (s : Int) (p : K[X]) (d : Int) : Prop := ∀ k : Nat, d < (k : Int) + s → p.coeff k = 0

theorem DegLE.zero {s d : Int} : DegLE s (0 : K[X]) d := fun _ _ => by simp

theorem DegLE.mono {s d d' : Int} {p : K[X]} (h : DegLE s p d) (hd : d ≤ d') : DegLE s p d' :=
  fun k hk => h k (by omega)

theorem DegLE.add {s d : Int} {p q : K[X]} (hp : DegLE s p d) (hq : DegLE s q d) :
    DegLE s (p + q) d := fun k hk => by rw [coeff_add, hp k hk, hq k hk, add_zero]

theorem DegLE.sum {ι : Type} {s d : Int} (T : Finset ι) (f : ι → K[X])
    (h : ∀ i ∈ T, DegLE s (f i) d) : DegLE s (∑ i ∈ T, f i) d := fun k hk => by
  rw [finsetSum_coeff]; exact Finset.sum_eq_zero fun i hi => h i hi k hk

theorem DegLE.C_mul {s d : Int} {p : K[X]} (c : K) (hp : DegLE s p d) : DegLE s (C c * p) d :=
  fun k hk => by rw [coeff_C_mul, hp k hk, mul_zero]

theorem DegLE.X_mul {s d : Int} {p : K[X]} (hp : DegLE s p d) : DegLE s (X * p) (d + 1) := by
  intro k hk
  cases k with
  | zero => simp
  | succ k => rw [coeff_X_mul]; exact hp k (by push_cast at hk; omega)

/-- Degrees add up: `p` of degree at most `d - t`, `q` of degree at most `t - s`. -/
theorem DegLE.mul {s t d : Int} {p q : K[X]} (hp : DegLE t p d) (hq : DegLE s q t) :
    DegLE s (p * q) d := by
  intro k hk
  rw [coeff_mul]
  refine Finset.sum_eq_zero fun x hx => ?_
  rw [Finset.mem_antidiagonal] at hx
  by_cases h : d < (x.1 : Int) + t
  · rw [hp x.1 h, zero_mul]
  · rw [hq x.2 (by omega), mul_zero]

theorem degLE_iff {s d : Int} {p : K[X]} :
    DegLE s p d ↔ (p ≠ 0 → (p.natDegree : Int) + s ≤ d) := by
  constructor
  · intro h hp
    by_contra hc
    have := h p.natDegree (by omega)
    exact hp (leadingCoeff_eq_zero.1 this)
  · intro h k hk
    by_cases hp : p = 0
    · simp [hp]
    · have := h hp
      exact coeff_eq_zero_of_natDegree_lt (by omega)

/-- Lower pivots on the diagonal, shifted row degrees `t`; degrees bounded by the
    order `d`. Besides, if row `l` has not been multiplied by `X`, it has not been
    added to other rows and its other entries have degree below `d`. -/
structure DiagPivots (d : Nat) (s : Fin m → Int) (P : Matrix (Fin m) (Fin m) K[X]) (t : Fin m → Int) :
    Prop where
  le : ∀ i j, DegLE (s j) (P i j) (t i)
  after : ∀ i j, i < j → DegLE (s j) (P i j) (t i - 1)
  ge : ∀ i, s i ≤ t i
  lead : ∀ i, (P i i).coeff (t i - s i).toNat ≠ 0
  unmoved : ∀ l, t l = s l → ∀ i, P i l = if i = l then 1 else 0
  deg : ∀ i l k, d < k → (P i l).coeff k = 0
  degUnmoved : ∀ i, t i = s i → ∀ l, l ≠ i → ∀ k, d ≤ k → (P i l).coeff k = 0

theorem DiagPivots.one (s : Fin m → Int) :
    DiagPivots 0 s (1 : Matrix (Fin m) (Fin m) K[X]) s := by
  have h1 : ∀ i j, DegLE (s j) ((1 : Matrix (Fin m) (Fin m) K[X]) i j) (s i) := by
    intro i j
    by_cases h : i = j
    · subst h
      intro k hk
      rw [Matrix.one_apply_eq, coeff_one, if_neg (by omega)]
    · rw [Matrix.one_apply_ne h]; exact DegLE.zero
  refine ⟨h1, fun i j hij => ?_, fun i => le_refl _, fun i => ?_, fun l _ i => Matrix.one_apply,
    fun i l k hk => ?_, fun i _ l hl k _ => ?_⟩
  · rw [Matrix.one_apply_ne (ne_of_lt hij)]; exact DegLE.zero
  · simp
  · rw [Matrix.one_apply]
    split_ifs
    · rw [coeff_one, if_neg (by omega)]
    · simp
  · rw [Matrix.one_apply_ne (Ne.symm hl)]; simp

theorem DiagPivots.mono {d d' : Nat} {s t : Fin m → Int} {P : Matrix (Fin m) (Fin m) K[X]}
    (h : DiagPivots d s P t) (hd : d ≤ d') : DiagPivots d' s P t :=
  ⟨h.le, h.after, h.ge, h.lead, h.unmoved, fun i l k hk => h.deg i l k (by omega),
    fun i hi l hl k hk => h.degUnmoved i hi l hl k (by omega)⟩

/-- One step of mbasis: the rows in `T` are multiplied by `X`, to the others is
    added a combination of rows of `T` of smaller (degree, index). -/
structure Step (R : Matrix (Fin m) (Fin n) K) (s s' : Fin m → Int)
    (P P' : Matrix (Fin m) (Fin m) K[X]) (T : Finset (Fin m)) (c : Fin m → Fin m → K) : Prop where
  indep : ∀ ν : Fin m → K, (∀ j, ∑ t ∈ T, ν t * R t j = 0) → ∀ t ∈ T, ν t = 0
  rel : ∀ i, i ∉ T → ∀ j, R i j + ∑ t ∈ T, c i t * R t j = 0
  lex : ∀ i, i ∉ T → ∀ t ∈ T, c i t ≠ 0 → s t < s i ∨ (s t = s i ∧ t < i)
  top : ∀ t ∈ T, ∀ l, P' t l = X * P t l
  bot : ∀ i, i ∉ T → ∀ l, P' i l = P i l + ∑ t ∈ T, C (c i t) * P t l
  stop : ∀ t ∈ T, s' t = s t + 1
  sbot : ∀ i, i ∉ T → s' i = s i

theorem Step.diagPivots {R : Matrix (Fin m) (Fin n) K} {s s' s0 : Fin m → Int}
    {P P' : Matrix (Fin m) (Fin m) K[X]} {T : Finset (Fin m)} {c : Fin m → Fin m → K}
    {d : Nat} (h : Step R s s' P P' T c) (hP : DiagPivots d s0 P s) :
    DiagPivots (d + 1) s0 P' s' := by
  have hbot : ∀ i, i ∉ T → ∀ t ∈ T, ∀ l, i ≤ l → DegLE (s0 l) (C (c i t) * P t l) (s i - 1) := by
    intro i hi t ht l hl
    by_cases hc : c i t = 0
    · rw [hc]; simp only [map_zero, zero_mul]; exact DegLE.zero
    · apply DegLE.C_mul
      rcases h.lex i hi t ht hc with h1 | ⟨h1, h2⟩
      · exact (hP.le t l).mono (by omega)
      · exact (hP.after t l (lt_of_lt_of_le h2 hl)).mono (by omega)
  refine ⟨fun i j => ?_, fun i j hij => ?_, fun i => ?_, fun i => ?_, fun l hl i => ?_,
    fun i l k hk => ?_, fun i hi l hl k hk => ?_⟩
  · by_cases hi : i ∈ T
    · rw [h.top i hi, h.stop i hi]; exact (hP.le i j).X_mul
    · rw [h.bot i hi, h.sbot i hi]
      refine (hP.le i j).add (DegLE.sum _ _ fun t ht => ?_)
      by_cases hc : c i t = 0
      · rw [hc]; simp only [map_zero, zero_mul]; exact DegLE.zero
      · apply DegLE.C_mul
        rcases h.lex i hi t ht hc with h1 | ⟨h1, h2⟩
        · exact (hP.le t j).mono (by omega)
        · exact (hP.le t j).mono (by omega)
  · by_cases hi : i ∈ T
    · rw [h.top i hi, h.stop i hi]
      have := (hP.after i j hij).X_mul
      exact this.mono (by omega)
    · rw [h.bot i hi, h.sbot i hi]
      exact (hP.after i j hij).add (DegLE.sum _ _ fun t ht => hbot i hi t ht j (le_of_lt hij))
  · by_cases hi : i ∈ T
    · rw [h.stop i hi]; have := hP.ge i; omega
    · rw [h.sbot i hi]; exact hP.ge i
  · have hge := hP.ge i
    by_cases hi : i ∈ T
    · rw [h.top i hi, h.stop i hi]
      have e : (s i + 1 - s0 i).toNat = (s i - s0 i).toNat + 1 := by omega
      rw [e, coeff_X_mul]; exact hP.lead i
    · rw [h.bot i hi, h.sbot i hi, coeff_add]
      have : DegLE (s0 i) (∑ t ∈ T, C (c i t) * P t i) (s i - 1) :=
        DegLE.sum _ _ fun t ht => hbot i hi t ht i (le_refl _)
      rw [this (s i - s0 i).toNat (by omega), add_zero]
      exact hP.lead i
  · have hge := hP.ge l
    have hlT : l ∉ T := fun h1 => by rw [h.stop l h1] at hl; omega
    rw [h.sbot l hlT] at hl
    have hcol := hP.unmoved l hl
    have hT : ∀ t ∈ T, P t l = 0 := fun t ht => by
      rw [hcol, if_neg]; rintro rfl; exact hlT ht
    by_cases hi : i ∈ T
    · rw [h.top i hi, hT i hi, mul_zero, if_neg]; rintro rfl; exact hlT hi
    · rw [h.bot i hi, hcol, Finset.sum_eq_zero, add_zero]
      intro t ht; rw [hT t ht, mul_zero]
  · by_cases hi : i ∈ T
    · rw [h.top i hi]
      obtain ⟨k, rfl⟩ := Nat.exists_eq_succ_of_ne_zero (show k ≠ 0 by omega)
      rw [Nat.succ_eq_add_one, coeff_X_mul]; exact hP.deg i l k (by omega)
    · rw [h.bot i hi, coeff_add, hP.deg i l k (by omega), zero_add, finsetSum_coeff]
      exact Finset.sum_eq_zero fun t _ => by rw [coeff_C_mul, hP.deg t l k (by omega), mul_zero]
  · have hge := hP.ge i
    have hiT : i ∉ T := fun h1 => by rw [h.stop i h1] at hi; omega
    rw [h.bot i hiT, coeff_add, hP.deg i l k (by omega), zero_add, finsetSum_coeff]
    exact Finset.sum_eq_zero fun t _ => by rw [coeff_C_mul, hP.deg t l k (by omega), mul_zero]

/-- All rows of `P` are approximants, every approximant is a combination. -/
structure Generates (F : Matrix (Fin m) (Fin n) K[X]) (d : Nat)
    (P : Matrix (Fin m) (Fin m) K[X]) : Prop where
  sound : ∀ i j, X ^ d ∣ (P * F) i j
  complete : ∀ v, IsApproximant F d v → ∃ u : Fin m → K[X], v = u ᵥ* P

theorem Generates.zero_order (F : Matrix (Fin m) (Fin n) K[X]) : Generates F 0 1 :=
  ⟨fun i j => by simp, fun v _ => ⟨v, by simp⟩⟩

theorem coeff_of_dvd {p : K[X]} {d k : Nat} (h : X ^ d ∣ p) (hk : k < d) : p.coeff k = 0 :=
  X_pow_dvd_iff.1 h k hk

theorem Step.generates {F : Matrix (Fin m) (Fin n) K[X]} {d : Nat} {s s' : Fin m → Int}
    {P P' : Matrix (Fin m) (Fin m) K[X]} {T : Finset (Fin m)} {c : Fin m → Fin m → K}
    {R : Matrix (Fin m) (Fin n) K} (hR : ∀ i j, R i j = ((P * F) i j).coeff d)
    (h : Step R s s' P P' T c) (hP : Generates F d P) : Generates F (d + 1) P' := by
  classical
  have htop : ∀ t ∈ T, ∀ j, (P' * F) t j = X * (P * F) t j := by
    intro t ht j
    simp only [Matrix.mul_apply, h.top t ht, Finset.mul_sum, mul_assoc]
  have hbot : ∀ i, i ∉ T → ∀ j, (P' * F) i j = (P * F) i j + ∑ t ∈ T, C (c i t) * (P * F) t j := by
    intro i hi j
    simp only [Matrix.mul_apply, h.bot i hi, add_mul, Finset.sum_add_distrib, Finset.mul_sum,
      Finset.sum_mul]
    congr 1
    rw [Finset.sum_comm]
    simp only [mul_assoc]
  constructor
  · intro i j
    by_cases hi : i ∈ T
    · rw [htop i hi, pow_succ, mul_comm]; exact mul_dvd_mul_left X (hP.sound i j)
    · rw [X_pow_dvd_iff]
      intro k hk
      rw [hbot i hi, coeff_add, finsetSum_coeff]
      simp only [coeff_C_mul]
      by_cases hkd : k < d
      · rw [coeff_of_dvd (hP.sound i j) hkd, zero_add]
        exact Finset.sum_eq_zero fun t _ => by rw [coeff_of_dvd (hP.sound t j) hkd, mul_zero]
      · have e : k = d := by omega
        subst e
        simp only [← hR]
        exact h.rel i hi j
  · intro v hv
    obtain ⟨u, rfl⟩ := hP.complete v fun j => (pow_dvd_pow X (Nat.le_succ d)).trans (hv j)
    -- the residual relation for the constant coefficients of `u`
    have hu0 : ∀ j, ∑ i, (u i).coeff 0 * R i j = 0 := by
      intro j
      have h1 : ((u ᵥ* P) ᵥ* F) j = ∑ i, u i * (P * F) i j := by
        rw [Matrix.vecMul_vecMul]; rfl
      have h2 := coeff_of_dvd (hv j) (Nat.lt_succ_self d)
      rw [h1, finsetSum_coeff] at h2
      rw [← h2]
      refine Finset.sum_congr rfl fun i _ => ?_
      obtain ⟨q, hq⟩ := hP.sound i j
      rw [hR, hq, mul_comm (u i), mul_assoc]
      have hc : ∀ q : K[X], (X ^ d * q).coeff d = q.coeff 0 := by
        intro q
        have := coeff_X_pow_mul q d 0
        simpa using this
      rw [hc, hc, mul_coeff_zero, mul_comm]
    set ν : Fin m → K[X] := fun t => u t - ∑ i ∈ Tᶜ, u i * C (c i t) with hν
    have hν0 : ∀ t ∈ T, (ν t).coeff 0 = 0 := by
      apply h.indep fun t => (ν t).coeff 0
      intro j
      have h1 := hu0 j
      rw [← Finset.sum_add_sum_compl T] at h1
      have h2 : ∑ i ∈ Tᶜ, (u i).coeff 0 * R i j =
          - ∑ t ∈ T, (∑ i ∈ Tᶜ, (u i).coeff 0 * c i t) * R t j := by
        simp only [Finset.sum_mul]
        rw [Finset.sum_comm, ← Finset.sum_neg_distrib]
        refine Finset.sum_congr rfl fun i hi => ?_
        have hrel := h.rel i (Finset.mem_compl.1 hi) j
        have : R i j = - ∑ t ∈ T, c i t * R t j := by linear_combination hrel
        rw [this, mul_neg, Finset.mul_sum]
        congr 1
        exact Finset.sum_congr rfl fun t _ => by ring
      rw [h2] at h1
      rw [← h1, ← Finset.sum_neg_distrib, ← Finset.sum_add_distrib]
      refine Finset.sum_congr rfl fun t _ => ?_
      simp only [hν, coeff_sub, finsetSum_coeff, coeff_mul_C]
      ring
    have hdiv : ∀ t ∈ T, ∃ q, ν t = X * q := fun t ht => X_dvd_iff.2 (hν0 t ht)
    choose! q hq using hdiv
    refine ⟨fun i => if i ∈ T then q i else u i, ?_⟩
    funext l
    show ∑ i, u i * P i l = ∑ i, (if i ∈ T then q i else u i) * P' i l
    rw [← Finset.sum_add_sum_compl T, ← Finset.sum_add_sum_compl T
      (fun i => (if i ∈ T then q i else u i) * P' i l)]
    have e1 : ∑ i ∈ T, (if i ∈ T then q i else u i) * P' i l = ∑ t ∈ T, ν t * P t l := by
      refine Finset.sum_congr rfl fun t ht => ?_
      rw [if_pos ht, h.top t ht, hq t ht]; ring
    have e2 : ∑ i ∈ Tᶜ, (if i ∈ T then q i else u i) * P' i l =
        ∑ i ∈ Tᶜ, u i * P i l + ∑ t ∈ T, (∑ i ∈ Tᶜ, u i * C (c i t)) * P t l := by
      simp only [Finset.sum_mul]
      rw [Finset.sum_comm (s := T), ← Finset.sum_add_distrib]
      refine Finset.sum_congr rfl fun i hi => ?_
      have hi' := Finset.mem_compl.1 hi
      rw [if_neg hi', h.bot i hi', mul_add, Finset.mul_sum]
      congr 1
      exact Finset.sum_congr rfl fun t _ => by ring
    rw [e1, e2]
    simp only [hν, sub_mul, Finset.sum_sub_distrib]
    ring

theorem det_ne_zero_of_generates {F : Matrix (Fin m) (Fin n) K[X]} {d : Nat}
    {P : Matrix (Fin m) (Fin m) K[X]} (hP : Generates F d P) : P.det ≠ 0 := by
  have h : ∀ i : Fin m, ∃ u : Fin m → K[X], (fun l => if i = l then X ^ d else 0) = u ᵥ* P := by
    intro i
    apply hP.complete
    intro j
    show X ^ d ∣ ∑ l, (if i = l then X ^ d else 0) * F l j
    refine Finset.dvd_sum fun l _ => ?_
    split_ifs
    · exact dvd_mul_right _ _
    · simp
  choose U hU using h
  have hm : (X ^ d : K[X]) • (1 : Matrix (Fin m) (Fin m) K[X]) = (Matrix.of U) * P := by
    refine Matrix.ext fun i l => ?_
    have := congrFun (hU i) l
    rw [Matrix.smul_apply, Matrix.one_apply, smul_eq_mul, mul_ite, mul_one, mul_zero]
    rw [this]; rfl
  intro hz
  have hdet := congrArg Matrix.det hm
  rw [Matrix.det_mul, hz, mul_zero, Matrix.det_smul, Matrix.det_one, mul_one] at hdet
  exact pow_ne_zero _ (pow_ne_zero _ X_ne_zero) hdet

theorem Generates.isBasis {F : Matrix (Fin m) (Fin n) K[X]} {d : Nat}
    {P : Matrix (Fin m) (Fin m) K[X]} (hP : Generates F d P) : IsApproximantBasis F d P := by
  refine ⟨det_ne_zero_of_generates hP, fun v => ⟨hP.complete v, ?_⟩⟩
  rintro ⟨u, rfl⟩ j
  rw [Matrix.vecMul_vecMul]
  show X ^ d ∣ ∑ i, u i * (P * F) i j
  exact Finset.dvd_sum fun i _ => Dvd.dvd.mul_left (hP.sound i j) _

theorem IsApproximantBasis.generates' {F : Matrix (Fin m) (Fin n) K[X]} {d : Nat}
    {P : Matrix (Fin m) (Fin m) K[X]} (hP : IsApproximantBasis F d P) : Generates F d P := by
  refine ⟨fun i j => ?_, fun v hv => (hP.generates v).1 hv⟩
  have := (hP.generates (P i)).2 ⟨Pi.single i 1, by rw [Matrix.single_one_vecMul]; rfl⟩ j
  exact this

/-! ### Products of bases (divide and conquer) -/

/-- If `P₁` generates at order `d₁`, `X^d₁ * G` is `P₁ F` modulo `X^(d₁+d₂)` and
    `P₂` generates for `G` at order `d₂`, the product generates at `d₁ + d₂`. -/
theorem Generates.mul {F G : Matrix (Fin m) (Fin n) K[X]} {d₁ d₂ : Nat}
    {P₁ P₂ : Matrix (Fin m) (Fin m) K[X]} (h₁ : Generates F d₁ P₁)
    (hG : ∀ i j, X ^ (d₁ + d₂) ∣ (P₁ * F) i j - X ^ d₁ * G i j) (h₂ : Generates G d₂ P₂) :
    Generates F (d₁ + d₂) (P₂ * P₁) := by
  have hG' : ∀ v : Fin m → K[X], ∀ j,
      X ^ (d₁ + d₂) ∣ (v ᵥ* (P₁ * F)) j - X ^ d₁ * (v ᵥ* G) j := by
    intro v j
    show _ ∣ ∑ i, v i * (P₁ * F) i j - X ^ d₁ * ∑ i, v i * G i j
    rw [Finset.mul_sum, ← Finset.sum_sub_distrib]
    refine Finset.dvd_sum fun i _ => ?_
    have : v i * (P₁ * F) i j - X ^ d₁ * (v i * G i j) =
        v i * ((P₁ * F) i j - X ^ d₁ * G i j) := by ring
    rw [this]; exact Dvd.dvd.mul_left (hG i j) _
  have hiff : ∀ v : Fin m → K[X], ∀ j,
      X ^ (d₁ + d₂) ∣ (v ᵥ* (P₁ * F)) j ↔ X ^ d₂ ∣ (v ᵥ* G) j := by
    intro v j
    rw [dvd_iff_dvd_of_dvd_sub (hG' v j), pow_add]
    exact mul_dvd_mul_iff_left (pow_ne_zero _ X_ne_zero)
  constructor
  · intro i j
    rw [Matrix.mul_assoc]
    exact (hiff (P₂ i) j).2 (h₂.sound i j)
  · intro v hv
    obtain ⟨u, rfl⟩ := h₁.complete v fun j => (pow_dvd_pow X (Nat.le_add_right _ _)).trans (hv j)
    have : IsApproximant G d₂ u := fun j => (hiff u j).1 (by
      have := hv j; rwa [Matrix.vecMul_vecMul] at this)
    obtain ⟨w, rfl⟩ := h₂.complete u this
    exact ⟨w, by rw [Matrix.vecMul_vecMul]⟩

theorem coeff_mul_eq_zero {p q : K[X]} {a b k : Nat} (hp : ∀ x, a < x → p.coeff x = 0)
    (hq : ∀ x, b < x → q.coeff x = 0) (hk : a + b < k) : (p * q).coeff k = 0 := by
  rw [coeff_mul]
  refine Finset.sum_eq_zero fun y hy => ?_
  rw [Finset.mem_antidiagonal] at hy
  by_cases h : a < y.1
  · rw [hp _ h, zero_mul]
  · rw [hq _ (by omega), mul_zero]

theorem DiagPivots.mul {d₁ d₂ : Nat} {s t r : Fin m → Int} {P₁ P₂ : Matrix (Fin m) (Fin m) K[X]}
    (h₁ : DiagPivots d₁ s P₁ t) (h₂ : DiagPivots d₂ t P₂ r) :
    DiagPivots (d₁ + d₂) s (P₂ * P₁) r := by
  have hstrict : ∀ i l k, i ≤ l → (k ≠ i ∨ k < l) →
      DegLE (s l) (P₂ i k * P₁ k l) (r i - 1) := by
    intro i l k hil hk
    by_cases h : i < k
    · exact (h₂.after i k h).mul (h₁.le k l)
    · have hkl : k < l := by
        rcases hk with hk | hk
        · exact lt_of_lt_of_le (lt_of_le_of_ne (not_lt.1 h) hk) hil
        · exact hk
      intro x hx
      rw [coeff_mul]
      refine Finset.sum_eq_zero fun y hy => ?_
      rw [Finset.mem_antidiagonal] at hy
      by_cases h3 : r i < (y.1 : Int) + t k
      · rw [h₂.le i k y.1 h3, zero_mul]
      · rw [h₁.after k l hkl y.2 (by omega), mul_zero]
  refine ⟨fun i l => ?_, fun i l hil => ?_, fun i => (h₁.ge i).trans (h₂.ge i), fun i => ?_,
    fun l hl i => ?_, fun i l k hk => ?_, fun i hi l hl k hk => ?_⟩
  · rw [Matrix.mul_apply]; exact DegLE.sum _ _ fun k _ => (h₂.le i k).mul (h₁.le k l)
  · rw [Matrix.mul_apply]
    refine DegLE.sum _ _ fun k _ => ?_
    by_cases h : k = i
    · subst h; exact hstrict k l k (le_of_lt hil) (Or.inr hil)
    · exact hstrict i l k (le_of_lt hil) (Or.inl h)
  · have h1 := h₁.ge i
    have h2 := h₂.ge i
    rw [Matrix.mul_apply, ← Finset.sum_erase_add _ _ (Finset.mem_univ i), coeff_add]
    have hz : DegLE (s i) (∑ k ∈ Finset.univ.erase i, P₂ i k * P₁ k i) (r i - 1) :=
      DegLE.sum _ _ fun k hk => hstrict i i k (le_refl _) (Or.inl (Finset.ne_of_mem_erase hk))
    rw [hz (r i - s i).toNat (by omega), zero_add]
    have e : (r i - s i).toNat = (r i - t i).toNat + (t i - s i).toNat := by omega
    have hd1 : (P₂ i i).natDegree ≤ (r i - t i).toNat :=
      natDegree_le_iff_coeff_eq_zero.2 fun k hk => h₂.le i i k (by omega)
    have hd2 : (P₁ i i).natDegree ≤ (t i - s i).toNat :=
      natDegree_le_iff_coeff_eq_zero.2 fun k hk => h₁.le i i k (by omega)
    rw [e, coeff_mul_add_eq_of_natDegree_le hd1 hd2]
    exact mul_ne_zero (h₂.lead i) (h₁.lead i)
  · have h1 := h₁.ge l
    have h2 := h₂.ge l
    have e1 := h₁.unmoved l (by omega)
    have e2 := h₂.unmoved l (by omega)
    rw [Matrix.mul_apply, Finset.sum_eq_single l]
    · rw [e1, e2, if_pos rfl, mul_one]
    · intro k _ hk; rw [e1, if_neg hk, mul_zero]
    · intro h; exact absurd (Finset.mem_univ l) h
  · rw [Matrix.mul_apply, finsetSum_coeff]
    exact Finset.sum_eq_zero fun x _ =>
      coeff_mul_eq_zero (h₂.deg i x) (h₁.deg x l) (by omega)
  · have h1 := h₁.ge i
    have h2 := h₂.ge i
    rw [Matrix.mul_apply, finsetSum_coeff]
    refine Finset.sum_eq_zero fun x _ => ?_
    by_cases hx : x = i
    · subst hx
      rw [h₂.unmoved x (by omega) x, if_pos rfl, one_mul]
      exact h₁.degUnmoved x (by omega) l hl k (by omega)
    · by_cases hd : d₂ = 0
      · have : P₂ i x = 0 := by
          ext y; rw [h₂.degUnmoved i (by omega) x hx y (by omega), coeff_zero]
        rw [this, zero_mul, coeff_zero]
      · exact coeff_mul_eq_zero (a := d₂ - 1)
          (fun y hy => h₂.degUnmoved i (by omega) x hx y (by omega)) (h₁.deg x l) (by omega)


end PML.Approx
