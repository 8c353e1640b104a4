import Verif.Ntl.CLikeSpec
import Mathlib.LinearAlgebra.Matrix.ToLin
import Mathlib.LinearAlgebra.FiniteDimensional.Basic
import Mathlib.LinearAlgebra.FiniteDimensional.Lemmas
import Mathlib.Tactic.Ring
import Mathlib.Tactic.FieldSimp
import Mathlib.Tactic.LinearCombination

/-!
# Generators of Schur complements and of inverses of Cauchy-like matrices

A matrix `M` with `M_ij = (Y_i . Z_j) / (x_i - y_j)` is given by the rows `Y_i` and `Z_j`.  `Sweep k` says what the rows have
become after the leading block of size `k` has been eliminated: the first `k` ones describe its inverse, the others the Schur
complement.
-/

namespace PML.Ntl.CLike

variable {K : Type} [Field K] {α : Nat}

theorem fin_mulVec {k : Nat} (M : Nat → Nat → K) (v : Nat → K) (i : Fin k) :
    (Matrix.of fun (i j : Fin k) => M i j).mulVec (fun j => v j) i = ∑ j ∈ Finset.range k, M i j * v j := by
  rw [Matrix.mulVec, dotProduct, ← Fin.sum_univ_eq_sum_range (fun j => M i j * v j)]
  rfl

theorem Nonsing.inj {k : Nat} {M : Nat → Nat → K} (h : Nonsing k M) : Function.Injective (Matrix.of fun (i j : Fin k) => M i j).mulVec := by
  intro v w e
  let d : Nat → K := fun j => if hj : j < k then v ⟨j, hj⟩ - w ⟨j, hj⟩ else 0
  have hd : (fun j : Fin k => d j) = v - w := by
    funext j
    simp [d]
  have := h d fun i hi => by
    rw [← fin_mulVec M d ⟨i, hi⟩, hd, Matrix.mulVec_sub, e, sub_self]; rfl
  funext j
  have h1 := this j j.2
  simp only [d, Fin.is_lt, dif_pos, Fin.eta] at h1
  exact sub_eq_zero.1 h1

/-- An invertible block solves all systems. -/
theorem Nonsing.solve {k : Nat} {M : Nat → Nat → K} (h : Nonsing k M) (b : Nat → K) :
    ∃ v : Nat → K, ∀ i, i < k → ∑ j ∈ Finset.range k, M i j * v j = b i := by
  have hs : Function.Surjective (Matrix.of fun (i j : Fin k) => M i j).mulVecLin := LinearMap.surjective_of_injective h.inj
  obtain ⟨w, hw⟩ := hs fun i => b i
  refine ⟨fun j => if hj : j < k then w ⟨j, hj⟩ else 0, fun i hi => ?_⟩
  rw [← fin_mulVec M _ ⟨i, hi⟩]
  have e : (fun j : Fin k => (fun j : Nat => if hj : j < k then w ⟨j, hj⟩ else 0) j) = w := by
    funext j; simp
  rw [e]
  exact congrFun hw ⟨i, hi⟩

theorem Nonsing.transpose {k : Nat} {M : Nat → Nat → K} (h : Nonsing k M) : Nonsing k fun i j => M j i := by
  intro v hv j hj
  obtain ⟨w, hw⟩ := h.solve fun i => if i = j then 1 else 0
  have e : ∑ i ∈ Finset.range k, v i * ∑ l ∈ Finset.range k, M i l * w l = v j := by
    rw [Finset.sum_congr rfl fun i hi => by rw [hw i (Finset.mem_range.1 hi)]]
    simp [hj]
  rw [← e]
  simp only [Finset.mul_sum]
  rw [Finset.sum_comm]
  refine Finset.sum_eq_zero fun l hl => ?_
  have := hv l (Finset.mem_range.1 hl)
  rw [Finset.sum_congr rfl fun i _ => show v i * (M i l * w l) = w l * (M i l * v i) by ring, ← Finset.mul_sum, this, mul_zero]

theorem Nonsing.eq {k : Nat} {M : Nat → Nat → K} (h : Nonsing k M) {v w : Nat → K}
    (e : ∀ i, i < k → ∑ j ∈ Finset.range k, M i j * v j = ∑ j ∈ Finset.range k, M i j * w j) : ∀ j, j < k → v j = w j := by
  intro j hj
  refine sub_eq_zero.1 (h (fun j => v j - w j) (fun i hi => ?_) j hj)
  simp only [mul_sub, Finset.sum_sub_distrib]
  rw [e i hi, sub_self]

/-- The rows `Y', Z'` obtained from `Y, Z` by elimination of the leading block of size `k`. -/
structure Sweep (m n k : Nat) (x y : Nat → K) (Y Z Y' Z' : Nat → Fin α → K) : Prop where
  le_m : k ≤ m
  le_n : k ≤ n
  nons : Nonsing k (mat Y Z x y)
  row : ∀ i, i < m → Y i + ∑ l ∈ Finset.range k, mat Y Z x y i l • Y' l = if i < k then 0 else Y' i
  col : ∀ j, j < n → Z j - ∑ l ∈ Finset.range k, mat Y Z x y l j • Z' l = if j < k then 0 else Z' j

variable {m n k s : Nat} {x y : Nat → K} {Y Z Y' Z' Y'' Z'' : Nat → Fin α → K}

theorem mat_mul (h : ∀ i j, i < m → j < n → x i ≠ y j) {i j : Nat} (hi : i < m) (hj : j < n) :
    (x i - y j) * mat Y Z x y i j = Y i ⬝ᵥ Z j := by
  unfold mat
  rw [mul_div_cancel₀]
  exact sub_ne_zero.2 (h i j hi hj)

theorem Sweep.zero (x y : Nat → K) (Y Z : Nat → Fin α → K) : Sweep m n 0 x y Y Z Y Z :=
  ⟨Nat.zero_le _, Nat.zero_le _, fun _ _ j hj => by omega, fun i _ => by simp, fun j _ => by simp⟩

/-- The columns after the first `k` ones, as combinations of these: up to sign, the coefficients are entries of the eliminated matrix. -/
theorem Sweep.right (h : Sweep m n k x y Y Z Y' Z') (hxy : ∀ i j, i < m → j < n → x i ≠ y j) {t : Nat} (hk : k ≤ t) (ht : t < n) :
    ∃ p : Nat → K, (∀ l, l < k → (y l - y t) * p l = Y' l ⬝ᵥ Z' t) ∧
      ∀ i, i < m → mat Y Z x y i t + ∑ l ∈ Finset.range k, mat Y Z x y i l * p l = if i < k then 0 else mat Y' Z' x y i t := by
  have hm := h.le_m
  have hn := h.le_n
  obtain ⟨p, hp⟩ := h.nons.solve fun i => -mat Y Z x y i t
  -- `Z_t + sum p_l Z_l = Z'_t`
  have hz : Z t + ∑ l ∈ Finset.range k, p l • Z l = Z' t := by
    have e1 : ∀ l, l < k → Z l = ∑ i ∈ Finset.range k, mat Y Z x y i l • Z' i := fun l hl => by
      have := h.col l (by omega)
      rw [if_pos hl] at this
      exact sub_eq_zero.1 this
    have e2 := h.col t ht
    rw [if_neg (by omega)] at e2
    rw [← e2, sub_eq_add_neg]
    congr 1
    rw [Finset.sum_congr rfl fun l hl => by rw [e1 l (Finset.mem_range.1 hl), Finset.smul_sum]]
    rw [Finset.sum_comm, ← Finset.sum_neg_distrib]
    refine Finset.sum_congr rfl fun i hi => ?_
    rw [← neg_smul, ← hp i (Finset.mem_range.1 hi), Finset.sum_smul]
    refine Finset.sum_congr rfl fun l _ => ?_
    rw [smul_smul, mul_comm]
  have key : ∀ i, i < m → ∑ l ∈ Finset.range k, mat Y Z x y i l * ((y l - y t) * p l) =
      (x i - y t) * (mat Y Z x y i t + ∑ l ∈ Finset.range k, mat Y Z x y i l * p l) - Y i ⬝ᵥ Z' t := by
    intro i hi
    rw [← hz, dotProduct_add, dotProduct_sum, mul_add, mat_mul hxy hi ht, Finset.mul_sum]
    have : ∀ l ∈ Finset.range k, mat Y Z x y i l * ((y l - y t) * p l) = (x i - y t) * (mat Y Z x y i l * p l) - Y i ⬝ᵥ p l • Z l := by
      intro l hl
      rw [dotProduct_smul, ← mat_mul hxy hi (show l < n by have := Finset.mem_range.1 hl; omega), smul_eq_mul]
      ring
    rw [Finset.sum_congr rfl this, Finset.sum_sub_distrib]
    ring
  have hq : ∀ l, l < k → (y l - y t) * p l = Y' l ⬝ᵥ Z' t := by
    refine h.nons.eq fun i hi => ?_
    rw [key i (by omega), hp i hi, add_neg_cancel, mul_zero, zero_sub]
    have := h.row i (by omega)
    rw [if_pos hi] at this
    rw [eq_neg_of_add_eq_zero_left this, neg_dotProduct, neg_neg, sum_dotProduct]
    refine Finset.sum_congr rfl fun l _ => ?_
    rw [smul_dotProduct, smul_eq_mul]
  refine ⟨p, hq, fun i hi => ?_⟩
  by_cases hik : i < k
  · rw [if_pos hik, hp i hik, add_neg_cancel]
  · rw [if_neg hik]
    have hne := sub_ne_zero.2 (hxy i t hi ht)
    have e1 := key i hi
    have e2 := h.row i hi
    rw [if_neg hik] at e2
    unfold mat at e1 ⊢
    rw [eq_div_iff hne, ← e2, add_dotProduct, sum_dotProduct]
    rw [Finset.sum_congr rfl fun l hl => by rw [hq l (Finset.mem_range.1 hl)]] at e1
    unfold mat
    rw [Finset.sum_congr rfl fun l _ => show (((Y i ⬝ᵥ Z l) / (x i - y l)) • Y' l) ⬝ᵥ Z' t = (Y i ⬝ᵥ Z l) / (x i - y l) * (Y' l ⬝ᵥ Z' t) by
      rw [smul_dotProduct, smul_eq_mul], e1]
    ring

/-- The rows after the first `k` ones, as combinations of these. -/
theorem Sweep.left (h : Sweep m n k x y Y Z Y' Z') (hxy : ∀ i j, i < m → j < n → x i ≠ y j) {i : Nat} (hk : k ≤ i) (hi : i < m) :
    ∃ p : Nat → K, (∀ l, l < k → (x i - x l) * p l = Y' i ⬝ᵥ Z' l) ∧
      ∀ j, j < n → mat Y Z x y i j - ∑ l ∈ Finset.range k, p l * mat Y Z x y l j = if j < k then 0 else mat Y' Z' x y i j := by
  have hm := h.le_m
  have hn := h.le_n
  obtain ⟨p, hp⟩ := h.nons.transpose.solve fun j => mat Y Z x y i j
  have hp' : ∀ j, j < k → ∑ l ∈ Finset.range k, p l * mat Y Z x y l j = mat Y Z x y i j := fun j hj => by
    rw [← hp j hj]
    exact Finset.sum_congr rfl fun l _ => mul_comm _ _
  have hy : Y i - ∑ l ∈ Finset.range k, p l • Y l = Y' i := by
    have e1 : ∀ l, l < k → Y l = -∑ t ∈ Finset.range k, mat Y Z x y l t • Y' t := fun l hl => by
      have := h.row l (by omega)
      rw [if_pos hl] at this
      exact eq_neg_of_add_eq_zero_left this
    have e2 := h.row i hi
    rw [if_neg (by omega)] at e2
    rw [← e2, sub_eq_add_neg]
    congr 1
    rw [Finset.sum_congr rfl fun l hl => by rw [e1 l (Finset.mem_range.1 hl), smul_neg, Finset.smul_sum]]
    rw [Finset.sum_neg_distrib, neg_neg, Finset.sum_comm]
    refine Finset.sum_congr rfl fun t ht => ?_
    rw [← hp' t (Finset.mem_range.1 ht), Finset.sum_smul]
    refine Finset.sum_congr rfl fun l _ => ?_
    rw [smul_smul]
  have key : ∀ j, j < n → ∑ l ∈ Finset.range k, mat Y Z x y l j * ((x i - x l) * p l) =
      Y' i ⬝ᵥ Z j - (x i - y j) * (mat Y Z x y i j - ∑ l ∈ Finset.range k, p l * mat Y Z x y l j) := by
    intro j hj
    rw [← hy, sub_dotProduct, sum_dotProduct, mul_sub, mat_mul hxy hi hj, Finset.mul_sum]
    have : ∀ l ∈ Finset.range k, mat Y Z x y l j * ((x i - x l) * p l) = (x i - y j) * (p l * mat Y Z x y l j) - (p l • Y l) ⬝ᵥ Z j := by
      intro l hl
      rw [smul_dotProduct, ← mat_mul hxy (show l < m by have := Finset.mem_range.1 hl; omega) hj, smul_eq_mul]
      ring
    rw [Finset.sum_congr rfl this, Finset.sum_sub_distrib]
    ring
  have hq : ∀ l, l < k → (x i - x l) * p l = Y' i ⬝ᵥ Z' l := by
    refine h.nons.transpose.eq fun j hj => ?_
    rw [key j (by omega), hp' j hj, sub_self, mul_zero, sub_zero]
    have := h.col j (by omega)
    rw [if_pos hj] at this
    rw [sub_eq_zero.1 this, dotProduct_sum]
    refine Finset.sum_congr rfl fun l _ => ?_
    rw [dotProduct_smul, smul_eq_mul]
  refine ⟨p, hq, fun j hj => ?_⟩
  by_cases hjk : j < k
  · rw [if_pos hjk, hp' j hjk, sub_self]
  · rw [if_neg hjk]
    have hne := sub_ne_zero.2 (hxy i j hi hj)
    have e1 := key j hj
    have e2 := h.col j hj
    rw [if_neg hjk] at e2
    rw [Finset.sum_congr rfl fun l hl => by rw [hq l (Finset.mem_range.1 hl)]] at e1
    conv_rhs => unfold mat
    rw [eq_div_iff hne, ← e2, dotProduct_sub, dotProduct_sum]
    rw [Finset.sum_congr rfl fun l _ => show Y' i ⬝ᵥ (mat Y Z x y l j • Z' l) = mat Y Z x y l j * (Y' i ⬝ᵥ Z' l) by
      rw [dotProduct_smul, smul_eq_mul], e1]
    ring

/-- The inverse of the leading block. -/
theorem Sweep.inverse (h : Sweep m n k x y Y Z Y' Z') (hxy : ∀ i j, i < m → j < n → x i ≠ y j) {a : Nat} (ha : a < k) :
    ∀ i, i < k → ∑ l ∈ Finset.range k, mat Y Z x y i l * mat Y' Z' y x l a = if i = a then 1 else 0 := by
  have hm := h.le_m
  have hn := h.le_n
  obtain ⟨b, hb⟩ := h.nons.solve fun i => if i = a then 1 else 0
  have hz : ∑ l ∈ Finset.range k, b l • Z l = Z' a := by
    have e1 : ∀ l, l < k → Z l = ∑ i ∈ Finset.range k, mat Y Z x y i l • Z' i := fun l hl => by
      have := h.col l (by omega)
      rw [if_pos hl] at this
      exact sub_eq_zero.1 this
    rw [Finset.sum_congr rfl fun l hl => by rw [e1 l (Finset.mem_range.1 hl), Finset.smul_sum]]
    rw [Finset.sum_comm]
    rw [Finset.sum_congr rfl fun i hi => show _ = (if i = a then (1 : K) else 0) • Z' i by
      rw [← hb i (Finset.mem_range.1 hi), Finset.sum_smul]
      exact Finset.sum_congr rfl fun l _ => by rw [smul_smul, mul_comm]]
    simp [ha]
  have hq : ∀ l, l < k → (y l - x a) * b l = Y' l ⬝ᵥ Z' a := by
    refine h.nons.eq fun i hi => ?_
    have : ∀ l ∈ Finset.range k, mat Y Z x y i l * ((y l - x a) * b l) = (x i - x a) * (mat Y Z x y i l * b l) - Y i ⬝ᵥ b l • Z l := by
      intro l hl
      rw [dotProduct_smul, ← mat_mul hxy (show i < m by omega) (show l < n by have := Finset.mem_range.1 hl; omega), smul_eq_mul]
      ring
    rw [Finset.sum_congr rfl this, Finset.sum_sub_distrib, ← Finset.mul_sum, hb i hi, ← dotProduct_sum, hz]
    have e : (x i - x a) * (if i = a then 1 else 0) = 0 := by
      split_ifs with h1
      · rw [h1, sub_self, zero_mul]
      · rw [mul_zero]
    rw [e, zero_sub]
    have := h.row i (by omega)
    rw [if_pos hi] at this
    rw [eq_neg_of_add_eq_zero_left this, neg_dotProduct, neg_neg, sum_dotProduct]
    refine Finset.sum_congr rfl fun l _ => ?_
    rw [smul_dotProduct, smul_eq_mul]
  intro i hi
  rw [← hb i hi]
  refine Finset.sum_congr rfl fun l hl => ?_
  have hl := Finset.mem_range.1 hl
  congr 1
  conv_lhs => unfold mat
  rw [div_eq_iff (sub_ne_zero.2 (hxy a l (by omega) (by omega)).symm), ← hq l hl, mul_comm]

/-- Two eliminations one after the other. -/
theorem Sweep.comp (h : Sweep m n k x y Y Z Y' Z') (hxy : ∀ i j, i < m → j < n → x i ≠ y j)
    (h2 : Sweep (m - k) (n - k) s (fun i => x (k + i)) (fun i => y (k + i)) (fun i => Y' (k + i)) (fun i => Z' (k + i)) (fun i => Y'' (k + i)) (fun i => Z'' (k + i)))
    (hy : ∀ l t, l < k → t < s → y l ≠ y (k + t)) (hx : ∀ l t, l < k → t < s → x l ≠ x (k + t))
    (hY : ∀ l, l < k → Y'' l = Y' l + ∑ t ∈ Finset.range s, ((Y' l ⬝ᵥ Z' (k + t)) / (y l - y (k + t))) • Y'' (k + t))
    (hZ : ∀ l, l < k → Z'' l = Z' l - ∑ t ∈ Finset.range s, ((Y' (k + t) ⬝ᵥ Z' l) / (x (k + t) - x l)) • Z'' (k + t)) :
    Sweep m n (k + s) x y Y Z Y'' Z'' := by
  have hm := h.le_m
  have hn := h.le_n
  have hsm := h2.le_m
  have hsn := h2.le_n
  set P : Nat → Nat → K := fun l t => (Y' l ⬝ᵥ Z' (k + t)) / (y l - y (k + t)) with hP
  set Q : Nat → Nat → K := fun t l => (Y' (k + t) ⬝ᵥ Z' l) / (x (k + t) - x l) with hQ
  have hright : ∀ t, t < s → ∀ i, i < m → mat Y Z x y i (k + t) + ∑ l ∈ Finset.range k, mat Y Z x y i l * P l t =
      if i < k then 0 else mat Y' Z' x y i (k + t) := by
    intro t ht i hi
    obtain ⟨p, hp, hp2⟩ := h.right hxy (show k ≤ k + t by omega) (by omega)
    rw [← hp2 i hi]
    congr 1
    refine Finset.sum_congr rfl fun l hl => ?_
    congr 1
    have hl := Finset.mem_range.1 hl
    rw [hP]
    dsimp only
    rw [div_eq_iff (sub_ne_zero.2 (hy l t hl ht)), ← hp l hl, mul_comm]
  have hleft : ∀ t, t < s → ∀ j, j < n → mat Y Z x y (k + t) j - ∑ l ∈ Finset.range k, Q t l * mat Y Z x y l j =
      if j < k then 0 else mat Y' Z' x y (k + t) j := by
    intro t ht j hj
    obtain ⟨p, hp, hp2⟩ := h.left hxy (show k ≤ k + t by omega) (by omega)
    rw [← hp2 j hj]
    congr 1
    refine Finset.sum_congr rfl fun l hl => ?_
    congr 1
    have hl := Finset.mem_range.1 hl
    rw [hQ]
    dsimp only
    rw [div_eq_iff (sub_ne_zero.2 (hx l t hl ht).symm), ← hp l hl, mul_comm]
  refine ⟨by omega, by omega, ?_, ?_, ?_⟩
  · intro v hv
    have hv' : ∀ i, i < k + s → ∑ l ∈ Finset.range k, mat Y Z x y i l * (v l - ∑ t ∈ Finset.range s, P l t * v (k + t)) +
        ∑ t ∈ Finset.range s, (if i < k then 0 else mat Y' Z' x y i (k + t)) * v (k + t) = 0 := by
      intro i hi
      have e := hv i hi
      rw [Finset.sum_range_add] at e
      have e2 : ∑ t ∈ Finset.range s, (if i < k then 0 else mat Y' Z' x y i (k + t)) * v (k + t) =
          ∑ t ∈ Finset.range s, (mat Y Z x y i (k + t) + ∑ l ∈ Finset.range k, mat Y Z x y i l * P l t) * v (k + t) :=
        Finset.sum_congr rfl fun t ht => by rw [hright t (Finset.mem_range.1 ht) i (by omega)]
      have e3 : ∑ l ∈ Finset.range k, mat Y Z x y i l * ∑ t ∈ Finset.range s, P l t * v (k + t) =
          ∑ t ∈ Finset.range s, (∑ l ∈ Finset.range k, mat Y Z x y i l * P l t) * v (k + t) := by
        simp only [Finset.mul_sum, Finset.sum_mul]
        rw [Finset.sum_comm]
        simp only [mul_assoc]
      rw [e2, Finset.sum_congr rfl fun t _ => add_mul _ _ _, Finset.sum_add_distrib, ← e3,
        Finset.sum_congr rfl fun l _ => mul_sub _ _ _, Finset.sum_sub_distrib]
      rw [← e]
      ring
    have h0 : ∀ l, l < k → v l - ∑ t ∈ Finset.range s, P l t * v (k + t) = 0 := by
      refine h.nons _ fun i hi => ?_
      have := hv' i (by omega)
      rw [Finset.sum_eq_zero (s := Finset.range s) fun t _ => by rw [if_pos hi, zero_mul], add_zero] at this
      exact this
    have h1 : ∀ t, t < s → v (k + t) = 0 := by
      refine h2.nons (fun t => v (k + t)) fun i hi => ?_
      have := hv' (k + i) (by omega)
      rw [Finset.sum_eq_zero (s := Finset.range k) fun l hl => by rw [h0 l (Finset.mem_range.1 hl), mul_zero], zero_add] at this
      rw [← this]
      exact Finset.sum_congr rfl fun t _ => by rw [if_neg (by omega)]; rfl
    intro j hj
    by_cases hjk : j < k
    · have := h0 j hjk
      rw [Finset.sum_eq_zero fun t ht => by rw [h1 t (Finset.mem_range.1 ht), mul_zero], sub_zero] at this
      exact this
    · have := h1 (j - k) (by omega)
      rwa [show k + (j - k) = j by omega] at this
  · intro i hi
    have e1 : Y i + ∑ l ∈ Finset.range (k + s), mat Y Z x y i l • Y'' l =
        (Y i + ∑ l ∈ Finset.range k, mat Y Z x y i l • Y' l) +
          ∑ t ∈ Finset.range s, (mat Y Z x y i (k + t) + ∑ l ∈ Finset.range k, mat Y Z x y i l * P l t) • Y'' (k + t) := by
      rw [Finset.sum_range_add]
      rw [Finset.sum_congr rfl fun l hl => by rw [hY l (Finset.mem_range.1 hl), smul_add, Finset.smul_sum]]
      rw [Finset.sum_add_distrib]
      simp only [add_smul, Finset.sum_add_distrib, Finset.sum_smul, smul_smul]
      rw [Finset.sum_comm (s := Finset.range s)]
      abel
    rw [e1, h.row i hi]
    rw [Finset.sum_congr rfl fun t ht => by rw [hright t (Finset.mem_range.1 ht) i hi]]
    by_cases hik : i < k
    · simp [hik, show i < k + s by omega]
    · simp only [if_neg hik]
      have := h2.row (i - k) (by omega)
      simp only [mat, show k + (i - k) = i by omega] at this
      rw [show mat Y' Z' x y i = fun j => (Y' i ⬝ᵥ Z' j) / (x i - y j) from rfl]
      rw [this]
      by_cases h3 : i < k + s
      · rw [if_pos (by omega), if_pos h3]
      · rw [if_neg (by omega), if_neg h3]
  · intro j hj
    have e1 : Z j - ∑ l ∈ Finset.range (k + s), mat Y Z x y l j • Z'' l =
        (Z j - ∑ l ∈ Finset.range k, mat Y Z x y l j • Z' l) -
          ∑ t ∈ Finset.range s, (mat Y Z x y (k + t) j - ∑ l ∈ Finset.range k, Q t l * mat Y Z x y l j) • Z'' (k + t) := by
      rw [Finset.sum_range_add]
      rw [Finset.sum_congr rfl fun l hl => by rw [hZ l (Finset.mem_range.1 hl), smul_sub, Finset.smul_sum]]
      rw [Finset.sum_sub_distrib]
      simp only [sub_smul, Finset.sum_sub_distrib, Finset.sum_smul, smul_smul]
      rw [Finset.sum_comm (s := Finset.range s)]
      rw [Finset.sum_congr rfl fun l _ => Finset.sum_congr rfl fun t _ => by rw [mul_comm (mat Y Z x y l j)]]
      abel
    rw [e1, h.col j hj]
    rw [Finset.sum_congr rfl fun t ht => by rw [hleft t (Finset.mem_range.1 ht) j hj]]
    by_cases hjk : j < k
    · simp [hjk, show j < k + s by omega]
    · simp only [if_neg hjk]
      have := h2.col (j - k) (by omega)
      simp only [mat, show k + (j - k) = j by omega] at this
      simp only [mat]
      rw [this]
      by_cases h3 : j < k + s
      · rw [if_pos (by omega), if_pos h3]
      · rw [if_neg (by omega), if_neg h3]

theorem spanned_first {n r i : Nat} (M : Nat → Nat → K) (hi : i < r) : ∃ c : Nat → K, ∀ j, j < n → M i j = ∑ l ∈ Finset.range r, c l * M l j :=
  ⟨fun l => if l = i then 1 else 0, fun j _ => by simp [hi]⟩

/-- If nothing is left after the elimination, then all rows are combinations of the first ones. -/
theorem Sweep.spanned (h : Sweep m n k x y Y Z Y' Z') (hxy : ∀ i j, i < m → j < n → x i ≠ y j)
    (h0 : ∀ i j, k ≤ i → i < m → k ≤ j → j < n → Y' i ⬝ᵥ Z' j = 0) : Spanned m n k (mat Y Z x y) := by
  intro i hi
  by_cases hik : i < k
  · exact spanned_first _ hik
  · obtain ⟨p, -, hp⟩ := h.left hxy (show k ≤ i by omega) hi
    refine ⟨p, fun j hj => ?_⟩
    have := hp j hj
    have e : (if j < k then 0 else mat Y' Z' x y i j) = 0 := by
      split_ifs with hj2
      · rfl
      · unfold mat; rw [h0 i j (by omega) hi (by omega) hj, zero_div]
    rw [e] at this
    exact sub_eq_zero.1 this

/-- With a zero pivot, the next leading block is not invertible. -/
theorem Sweep.singular (h : Sweep m n k x y Y Z Y' Z') (hxy : ∀ i j, i < m → j < n → x i ≠ y j) (hm : k < m) (hn : k < n)
    (h0 : Y' k ⬝ᵥ Z' k = 0) : ¬Nonsing (k + 1) (mat Y Z x y) := by
  intro hs
  obtain ⟨p, -, hp⟩ := h.right hxy (le_refl k) hn
  have := hs (fun j => if j < k then p j else 1) (fun i hi => ?_) k (by omega)
  · rw [if_neg (by omega)] at this
    exact one_ne_zero this
  · rw [Finset.sum_range_succ, Finset.sum_congr rfl fun l hl => by rw [if_pos (Finset.mem_range.1 hl)], if_neg (by omega), mul_one, add_comm, hp i (by omega)]
    split_ifs with h1
    · rfl
    · rw [show i = k by omega]
      unfold mat
      rw [h0, zero_div]

/-- If the pivot is zero and something is left, the matrix does not have generic rank profile. -/
theorem Sweep.no_profile (h : Sweep m n k x y Y Z Y' Z') (hxy : ∀ i j, i < m → j < n → x i ≠ y j)
    (h0 : ¬Nonsing (k + 1) (mat Y Z x y)) {a b : Nat} (ha : k ≤ a) (ha' : a < m) (hb : k ≤ b) (hb' : b < n) (hne : Y' a ⬝ᵥ Z' b ≠ 0) :
    ¬GenericRankProfile m n (mat Y Z x y) := by
  rintro ⟨r, h1, h2, h3, h4⟩
  have hr : r ≤ k := by
    by_contra hc
    exact h0 (h3 (k + 1) (by omega))
  obtain ⟨c, hc⟩ := h4 a ha'
  obtain ⟨p, -, hp⟩ := h.left hxy ha ha'
  have hc' : ∀ j, j < n → mat Y Z x y a j = ∑ l ∈ Finset.range k, (if l < r then c l else 0) * mat Y Z x y l j := by
    intro j hj
    rw [hc j hj, show k = r + (k - r) by omega, Finset.sum_range_add]
    rw [Finset.sum_congr rfl fun l hl => show c l * mat Y Z x y l j = (if l < r then c l else 0) * mat Y Z x y l j by
      rw [if_pos (Finset.mem_range.1 hl)]]
    rw [Finset.sum_eq_zero (s := Finset.range (k - r)) fun l _ => by rw [if_neg (by omega), zero_mul], add_zero]
  have he : ∀ l, l < k → p l = if l < r then c l else 0 := by
    refine h.nons.transpose.eq fun j hj => ?_
    have := hp j (by have := h.le_n; omega)
    rw [if_pos hj, sub_eq_zero, hc' j (by have := h.le_n; omega)] at this
    simp only [mul_comm (mat Y Z x y _ j)]
    exact this.symm
  have := hp b hb'
  have e : ∑ l ∈ Finset.range k, p l * mat Y Z x y l b = mat Y Z x y a b := by
    rw [hc' b hb']
    exact Finset.sum_congr rfl fun l hl => by rw [he l (Finset.mem_range.1 hl)]
  rw [if_neg (by omega), e, sub_self] at this
  unfold mat at this
  rcases div_eq_zero_iff.1 this.symm with h5 | h5
  · exact hne h5
  · exact sub_ne_zero.2 (hxy a b ha' hb') h5

/-! ### Generic rank profile of blocks and of Schur complements -/

theorem Nonsing.le_of_spanned {M : Nat → Nat → K} {k r : Nat} (h : Nonsing k M) (hm : k ≤ m) (hn : k ≤ n) (hs : Spanned m n r M) : k ≤ r := by
  by_contra hc
  obtain ⟨c, hcc⟩ := hs r (by omega)
  have := h.transpose (fun l => if l < r then c l else if l = r then -1 else 0) (fun j hj => ?_) r (by omega)
  · rw [if_neg (by omega), if_pos rfl] at this
    exact one_ne_zero (neg_eq_zero.1 this)
  · dsimp only
    rw [show k = r + 1 + (k - r - 1) by omega, Finset.sum_range_add, Finset.sum_range_succ]
    rw [Finset.sum_eq_zero (s := Finset.range (k - r - 1)) fun l _ => by rw [if_neg (by omega), if_neg (by omega), mul_zero], add_zero,
      if_neg (by omega), if_pos rfl, hcc j (by omega)]
    rw [Finset.sum_congr rfl fun l hl => by rw [if_pos (Finset.mem_range.1 hl), mul_comm]]
    ring

/-- A leading square block of a matrix with generic rank profile. -/
theorem GenericRankProfile.block {M : Nat → Nat → K} {N : Nat} (h : GenericRankProfile m n M) (hm : N ≤ m) (hn : N ≤ n) :
    GenericRankProfile N N M := by
  obtain ⟨r, h1, h2, h3, h4⟩ := h
  by_cases hr : r ≤ N
  · exact ⟨r, hr, hr, h3, fun i hi => by obtain ⟨c, hc⟩ := h4 i (by omega); exact ⟨c, fun j hj => hc j (by omega)⟩⟩
  · exact ⟨N, le_refl _, le_refl _, fun j hj => h3 j (by omega), fun i hi => spanned_first _ hi⟩

theorem Sweep.nonsing_schur (h : Sweep m n k x y Y Z Y' Z') (hxy : ∀ i j, i < m → j < n → x i ≠ y j) (hm : k + s ≤ m) (hn : k + s ≤ n)
    (hs : Nonsing (k + s) (mat Y Z x y)) : Nonsing s fun i j => mat Y' Z' x y (k + i) (k + j) := by
  intro v hv
  have hr : ∀ t, ∃ p : Nat → K, t < s → ∀ i, i < m → mat Y Z x y i (k + t) + ∑ l ∈ Finset.range k, mat Y Z x y i l * p l =
      if i < k then 0 else mat Y' Z' x y i (k + t) := fun t => by
    by_cases ht : t < s
    · obtain ⟨p, -, hp⟩ := h.right hxy (show k ≤ k + t by omega) (by omega)
      exact ⟨p, fun _ => hp⟩
    · exact ⟨fun _ => 0, fun h => absurd h ht⟩
  choose p hp using hr
  have := hs (fun j => if j < k then ∑ t ∈ Finset.range s, p t j * v t else v (j - k)) fun i hi => ?_
  · intro j hj
    have h2 := this (k + j) (by omega)
    rwa [if_neg (by omega), show k + j - k = j by omega] at h2
  · have e1 : ∑ t ∈ Finset.range s, (mat Y Z x y i (k + t) + ∑ l ∈ Finset.range k, mat Y Z x y i l * p t l) * v t = 0 := by
      rw [Finset.sum_congr rfl fun t ht => by rw [hp t (Finset.mem_range.1 ht) i (by omega)]]
      by_cases hik : i < k
      · exact Finset.sum_eq_zero fun t _ => by rw [if_pos hik, zero_mul]
      · have := hv (i - k) (by omega)
        rw [← this]
        refine Finset.sum_congr rfl fun t _ => ?_
        rw [if_neg hik]
        simp only [show k + (i - k) = i by omega]
    rw [Finset.sum_range_add]
    rw [Finset.sum_congr (s₁ := Finset.range k) rfl fun l hl => by rw [if_pos (Finset.mem_range.1 hl), Finset.mul_sum]]
    rw [Finset.sum_congr (s₁ := Finset.range s) rfl fun t _ => by rw [if_neg (by omega), show k + t - k = t by omega]]
    rw [← e1, Finset.sum_congr rfl fun t _ => add_mul _ _ _, Finset.sum_add_distrib, add_comm, Finset.sum_comm]
    congr 1
    refine Finset.sum_congr rfl fun t _ => ?_
    rw [Finset.sum_mul]
    exact Finset.sum_congr rfl fun l _ => by ring

theorem Sweep.spanned_schur (h : Sweep m n k x y Y Z Y' Z') (hxy : ∀ i j, i < m → j < n → x i ≠ y j) (hm : k + s ≤ m)
    (hs : Spanned m n (k + s) (mat Y Z x y)) : Spanned (m - k) (n - k) s fun i j => mat Y' Z' x y (k + i) (k + j) := by
  have hn := h.le_n
  intro i hi
  obtain ⟨c, hc⟩ := hs (k + i) (by omega)
  obtain ⟨p, -, hp⟩ := h.left hxy (show k ≤ k + i by omega) (by omega)
  have hl : ∀ t, ∃ q : Nat → K, t < s → ∀ j, j < n → mat Y Z x y (k + t) j - ∑ l ∈ Finset.range k, q l * mat Y Z x y l j =
      if j < k then 0 else mat Y' Z' x y (k + t) j := fun t => by
    by_cases ht : t < s
    · obtain ⟨q, -, hq⟩ := h.left hxy (show k ≤ k + t by omega) (by omega)
      exact ⟨q, fun _ => hq⟩
    · exact ⟨fun _ => 0, fun h => absurd h ht⟩
  choose q hq using hl
  -- the difference is a combination of the first `k` rows
  have e : ∀ j, j < n → ∑ l ∈ Finset.range k, (c l + ∑ t ∈ Finset.range s, c (k + t) * q t l - p l) * mat Y Z x y l j =
      (if j < k then 0 else mat Y' Z' x y (k + i) j) - ∑ t ∈ Finset.range s, c (k + t) * (if j < k then 0 else mat Y' Z' x y (k + t) j) := by
    intro j hj
    rw [← hp j hj, hc j hj, Finset.sum_congr (s₁ := Finset.range s) rfl fun t ht => by rw [← hq t (Finset.mem_range.1 ht) j hj],
      Finset.sum_range_add]
    simp only [sub_mul, add_mul, mul_sub, Finset.sum_sub_distrib, Finset.sum_add_distrib]
    have e3 : ∑ l ∈ Finset.range k, (∑ t ∈ Finset.range s, c (k + t) * q t l) * mat Y Z x y l j =
        ∑ t ∈ Finset.range s, c (k + t) * ∑ l ∈ Finset.range k, q t l * mat Y Z x y l j := by
      simp only [Finset.mul_sum, Finset.sum_mul]
      rw [Finset.sum_comm]
      simp only [mul_assoc]
    rw [e3]
    ring
  have z : ∀ l, l < k → c l + ∑ t ∈ Finset.range s, c (k + t) * q t l - p l = 0 := by
    refine h.nons.transpose _ fun j hj => ?_
    have := e j (by omega)
    simp only [if_pos hj, mul_zero, Finset.sum_const_zero, sub_zero] at this
    rw [← this]
    exact Finset.sum_congr rfl fun l _ => mul_comm _ _
  refine ⟨fun t => c (k + t), fun j hj => ?_⟩
  have := e (k + j) (by omega)
  rw [Finset.sum_eq_zero fun l hl => by rw [z l (Finset.mem_range.1 hl), zero_mul]] at this
  simp only [if_neg (show ¬k + j < k by omega)] at this
  exact (sub_eq_zero.1 this.symm)

/-- The Schur complement of a matrix with generic rank profile. -/
theorem Sweep.profile_schur (h : Sweep m n k x y Y Z Y' Z') (hxy : ∀ i j, i < m → j < n → x i ≠ y j)
    (hg : GenericRankProfile m n (mat Y Z x y)) : GenericRankProfile (m - k) (n - k) fun i j => mat Y' Z' x y (k + i) (k + j) := by
  obtain ⟨r, h1, h2, h3, h4⟩ := hg
  have hr := h.nons.le_of_spanned h.le_m h.le_n h4
  refine ⟨r - k, by omega, by omega, fun j hj => h.nonsing_schur hxy (by omega) (by omega) (h3 _ (by omega)), ?_⟩
  refine h.spanned_schur hxy (by omega) ?_
  rwa [show k + (r - k) = r by omega]

/-- If all rows are combinations of the first `k` ones, nothing is left after the elimination. -/
theorem Sweep.schur_zero (h : Sweep m n k x y Y Z Y' Z') (hxy : ∀ i j, i < m → j < n → x i ≠ y j)
    (hs : Spanned m n k (mat Y Z x y)) : ∀ i j, k ≤ i → i < m → k ≤ j → j < n → Y' i ⬝ᵥ Z' j = 0 := by
  intro i j hi hi' hj hj'
  obtain ⟨c, hc⟩ := h.spanned_schur (s := 0) hxy (by have := h.le_m; omega) hs (i - k) (by omega)
  have := hc (j - k) (by omega)
  simp only [Finset.range_zero, Finset.sum_empty, show k + (i - k) = i by omega, show k + (j - k) = j by omega] at this
  rw [← mat_mul (Y := Y') (Z := Z') hxy hi' hj', this, mul_zero]

/-- The rank, if all rows are combinations of the first `k` ones. -/
theorem Spanned.trans {M : Nat → Nat → K} {r : Nat} (h : Spanned r n s M) (h2 : Spanned m n r M) : Spanned m n s M := by
  intro i hi
  obtain ⟨c, hc⟩ := h2 i hi
  have : ∀ l, ∃ d : Nat → K, l < r → ∀ j, j < n → M l j = ∑ t ∈ Finset.range s, d t * M t j := fun l => by
    by_cases hl : l < r
    · obtain ⟨d, hd⟩ := h l hl
      exact ⟨d, fun _ => hd⟩
    · exact ⟨fun _ => 0, fun h => absurd h hl⟩
  choose d hd using this
  refine ⟨fun t => ∑ l ∈ Finset.range r, c l * d l t, fun j hj => ?_⟩
  rw [hc j hj, Finset.sum_congr rfl fun l hl => by rw [hd l (Finset.mem_range.1 hl) j hj, Finset.mul_sum], Finset.sum_comm]
  refine Finset.sum_congr rfl fun t _ => ?_
  rw [Finset.sum_mul]
  exact Finset.sum_congr rfl fun l _ => by ring

end PML.Ntl.CLike
