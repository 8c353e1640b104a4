import Verif.Ntl.InvSpec
import Verif.Ntl.MatMidProps
import Verif.Ntl.MatUtilsProps
import Mathlib.LinearAlgebra.Matrix.NonsingularInverse
import Mathlib.RingTheory.Ideal.Quotient.Operations

/-!
# Newton iteration for the inverse of a polynomial matrix
-/

namespace PML.Ntl.Inv

open Polynomial PML.Ntl.Utils PML.Ntl.MatMul PML.Ntl.MatEval PML.Ntl.MatMid

set_option linter.unusedSectionVars false

section Ring

variable {R : Type} [CommRing R]

/-- A matrix of Mathlib. -/
def toM (s : Nat) (e : Nat × Nat → R) : Matrix (Fin s) (Fin s) R := Matrix.of fun i j => e (i, j)

theorem toM_apply (s : Nat) (e : Nat × Nat → R) (i j : Fin s) : toM s e i j = e (i, j) := rfl

theorem toM_mul (s : Nat) (a b : Nat × Nat → R) : toM s a * toM s b = toM s (cmul s a b) := by
  ext i j
  rw [Matrix.mul_apply, toM_apply, cmul, Finset.sum_range]
  rfl

theorem toM_one (s : Nat) : toM s (fun ij => if ij.1 = ij.2 then (1 : R) else 0) = 1 := by
  ext i j
  rw [toM_apply, Matrix.one_apply]
  simp only [Fin.ext_iff]

theorem toM_eq (s : Nat) (a b : Nat × Nat → R) : toM s a = toM s b ↔ ∀ i j, i < s → j < s → a (i, j) = b (i, j) := by
  constructor
  · intro h i j hi hj
    have := congrFun (congrFun h ⟨i, hi⟩) ⟨j, hj⟩
    exact this
  · intro h
    ext i j
    exact h i j i.2 j.2

/-- `x a = 1` modulo `X^k`. -/
def InvMod (s : Nat) (a x : Nat × Nat → R[X]) (k : Nat) : Prop :=
  ∀ i j, i < s → j < s → X ^ k ∣ cmul s x a (i, j) - if i = j then 1 else 0

theorem invMod_iff (s : Nat) (a x : Nat × Nat → R[X]) (k : Nat) : InvMod s a x k ↔ ∀ i j, i < s → j < s → ∀ t, t < k →
    (cmul s x a (i, j)).coeff t = if i = j ∧ t = 0 then 1 else 0 := by
  unfold InvMod
  refine forall_congr' fun i => forall_congr' fun j => forall_congr' fun _ => forall_congr' fun _ => ?_
  rw [X_pow_dvd_iff]
  refine forall_congr' fun t => forall_congr' fun _ => ?_
  rw [coeff_sub, sub_eq_zero]
  have : (if i = j then (1 : R[X]) else 0).coeff t = if i = j ∧ t = 0 then 1 else 0 := by
    by_cases h : i = j
    · rw [if_pos h, coeff_one]
      simp only [h, true_and]
    · rw [if_neg h, if_neg (fun e => h e.1), coeff_zero]
  rw [this]

theorem invMod_congr {s : Nat} {a x x' : Nat × Nat → R[X]} {k : Nat} (h : InvMod s a x k)
    (hx : ∀ i j, i < s → j < s → X ^ k ∣ x' (i, j) - x (i, j)) : InvMod s a x' k := by
  intro i j hi hj
  have : cmul s x' a (i, j) - (if i = j then 1 else 0) =
      (cmul s x a (i, j) - if i = j then 1 else 0) + ∑ l ∈ Finset.range s, (x' (i, l) - x (i, l)) * a (l, j) := by
    unfold cmul
    simp only [sub_mul, Finset.sum_sub_distrib]
    ring
  rw [this]
  exact dvd_add (h i j hi hj) (Finset.dvd_sum fun l hl => Dvd.dvd.mul_right (hx i l hi (Finset.mem_range.1 hl)) _)

theorem invMod_mono {s : Nat} {a x : Nat × Nat → R[X]} {k k' : Nat} (hk : k' ≤ k) (h : InvMod s a x k) : InvMod s a x k' :=
  fun i j hi hj => (pow_dvd_pow X hk).trans (h i j hi hj)

/-- The step of Newton's iteration. -/
theorem newton_step {s k : Nat} {a x y : Nat × Nat → R[X]} (h : InvMod s a x k)
    (hy : ∀ D : Nat × Nat → R[X], (∀ i j, i < s → j < s → cmul s x a (i, j) = (if i = j then 1 else 0) + X ^ k * D (i, j)) →
      ∀ i j, i < s → j < s → X ^ k ∣ y (i, j) - cmul s D x (i, j)) :
    InvMod s a (fun ij => x ij - X ^ k * y ij) (2 * k) := by
  have : ∀ ij : Nat × Nat, ∃ d : R[X], ij.1 < s → ij.2 < s → cmul s x a ij = (if ij.1 = ij.2 then 1 else 0) + X ^ k * d := by
    rintro ⟨i, j⟩
    by_cases hi : i < s
    · by_cases hj : j < s
      · obtain ⟨d, hd⟩ := h i j hi hj
        exact ⟨d, fun _ _ => by rw [← hd]; ring⟩
      · exact ⟨0, fun _ h => absurd h hj⟩
    · exact ⟨0, fun h _ => absurd h hi⟩
  choose D hD using this
  have hy := hy D fun i j hi hj => hD (i, j) hi hj
  have : ∀ ij : Nat × Nat, ∃ e : R[X], ij.1 < s → ij.2 < s → y ij = cmul s D x ij + X ^ k * e := by
    rintro ⟨i, j⟩
    by_cases hi : i < s
    · by_cases hj : j < s
      · obtain ⟨d, hd⟩ := hy i j hi hj
        exact ⟨d, fun _ _ => by rw [← hd]; ring⟩
      · exact ⟨0, fun _ h => absurd h hj⟩
    · exact ⟨0, fun h _ => absurd h hi⟩
  choose E hE using this
  set z : R[X] := X ^ k with hz
  have e1 : toM s x * toM s a = 1 + z • toM s D := by
    rw [toM_mul]
    ext i j : 1
    rw [toM_apply, hD (i, j) i.2 j.2, Matrix.add_apply, Matrix.smul_apply, Matrix.one_apply, toM_apply, smul_eq_mul]
    simp only [Fin.ext_iff]
  have e2 : toM s y = toM s D * toM s x + z • toM s E := by
    rw [toM_mul]
    ext i j : 1
    rw [toM_apply, hE (i, j) i.2 j.2, Matrix.add_apply, Matrix.smul_apply, toM_apply, toM_apply, smul_eq_mul]
  have e3 : toM s (fun ij => x ij - z * y ij) = toM s x - z • toM s y := by
    ext i j : 1
    rw [toM_apply, Matrix.sub_apply, Matrix.smul_apply, toM_apply, toM_apply, smul_eq_mul]
  have e4 : toM s (fun ij => x ij - z * y ij) * toM s a = 1 - (z * z) • (toM s D * toM s D + toM s E * toM s a) := by
    rw [e3, e2, sub_mul, e1, smul_mul_assoc, add_mul, mul_assoc, e1, smul_mul_assoc, mul_add, mul_one, mul_smul_comm, mul_smul]
    simp only [smul_add]
    abel
  intro i j hi hj
  have e5 := congrFun (congrFun e4 ⟨i, hi⟩) ⟨j, hj⟩
  rw [toM_mul, toM_apply, Matrix.sub_apply, Matrix.one_apply, Matrix.smul_apply, smul_eq_mul] at e5
  simp only [Fin.mk.injEq] at e5
  rw [e5, two_mul, pow_add, ← hz, sub_sub_cancel_left]
  exact (Dvd.intro _ rfl).neg_right

/-- A left inverse modulo `X^k` is a right inverse. -/
theorem invMod_right {s : Nat} {a x : Nat × Nat → R[X]} {k : Nat} (h : InvMod s a x k) : InvMod s x a k := by
  set π := Ideal.Quotient.mk (Ideal.span {(X : R[X]) ^ k})
  have hmem : ∀ f g : R[X], X ^ k ∣ f - g ↔ π f = π g := fun f g => by
    rw [Ideal.Quotient.eq, Ideal.mem_span_singleton]
  have hite : ∀ i j : Fin s, π (if (i : Nat) = j then 1 else 0) = if i = j then 1 else 0 := fun i j => by
    by_cases hc : i = j
    · subst hc
      rw [if_pos rfl, if_pos rfl, map_one]
    · rw [if_neg (fun e => hc (Fin.ext e)), if_neg hc, map_zero]
  have e1 : (toM s x).map π * (toM s a).map π = 1 := by
    rw [← Matrix.map_mul, toM_mul]
    ext i j : 1
    rw [Matrix.map_apply, toM_apply, (hmem _ _).1 (h i j i.2 j.2), Matrix.one_apply, hite]
  have e2 := mul_eq_one_comm.1 e1
  rw [← Matrix.map_mul, toM_mul] at e2
  intro i j hi hj
  have e3 := congrFun (congrFun e2 ⟨i, hi⟩) ⟨j, hj⟩
  rw [Matrix.map_apply, toM_apply, Matrix.one_apply] at e3
  have := hite ⟨i, hi⟩ ⟨j, hj⟩
  exact (hmem _ _).2 (e3.trans this.symm)

theorem cmul_add (s : Nat) (a b c : Nat × Nat → R) (ij : Nat × Nat) :
    cmul s (fun ij => a ij + b ij) c ij = cmul s a c ij + cmul s b c ij := by
  unfold cmul
  simp only [add_mul, Finset.sum_add_distrib]

theorem cmul_neg (s : Nat) (a c : Nat × Nat → R) (ij : Nat × Nat) : cmul s (fun ij => -a ij) c ij = -cmul s a c ij := by
  unfold cmul
  simp only [neg_mul, Finset.sum_neg_distrib]

theorem cmul_assoc (s : Nat) (a b c : Nat × Nat → R) (ij : Nat × Nat) : cmul s (cmul s a b) c ij = cmul s a (cmul s b c) ij := by
  unfold cmul
  simp only [Finset.sum_mul, Finset.mul_sum]
  rw [Finset.sum_comm]
  exact Finset.sum_congr rfl fun _ _ => Finset.sum_congr rfl fun _ _ => mul_assoc _ _ _

theorem cmul_congr {s : Nat} {a a' b b' : Nat × Nat → R} {i j : Nat} (ha : ∀ l, l < s → a (i, l) = a' (i, l))
    (hb : ∀ l, l < s → b (l, j) = b' (l, j)) : cmul s a b (i, j) = cmul s a' b' (i, j) := by
  unfold cmul
  refine Finset.sum_congr rfl fun l hl => ?_
  have hl := Finset.mem_range.1 hl
  dsimp only
  rw [ha l hl, hb l hl]

theorem cmul_one (s : Nat) (a b : Nat × Nat → R) (i j : Nat) (hj : j < s)
    (hb : ∀ l, l < s → b (l, j) = if l = j then 1 else 0) : cmul s a b (i, j) = a (i, j) := by
  unfold cmul
  dsimp only
  rw [Finset.sum_eq_single j]
  · rw [hb j hj, if_pos rfl, mul_one]
  · intro l hl h
    rw [hb l (Finset.mem_range.1 hl), if_neg h, mul_zero]
  · intro h
    exact absurd (Finset.mem_range.2 hj) h

/-- Coefficients of a product of matrices. -/
theorem cmul_coeff (s : Nat) (x a : Nat × Nat → R[X]) (ij : Nat × Nat) (k : Nat) :
    (cmul s x a ij).coeff k = ∑ t ∈ Finset.range (k + 1), cmul s (fun ij => (x ij).coeff (k - t)) (fun ij => (a ij).coeff t) ij := by
  unfold cmul
  rw [finsetSum_coeff, Finset.sum_comm]
  refine Finset.sum_congr rfl fun l _ => ?_
  rw [mul_comm, coeff_mul, Finset.Nat.sum_antidiagonal_eq_sum_range_succ_mk]
  exact Finset.sum_congr rfl fun t _ => mul_comm _ _

end Ring

section Field

variable {F : Type} [Field F]

theorem isInvTrunc_of {a x : PMat F[X]} {m : Nat} (hr : x.rows = a.rows) (hc : x.cols = a.rows)
    (hd : ∀ i j, i < a.rows → j < a.rows → ∀ k, m ≤ k → (x.e (i, j)).coeff k = 0) (h : InvMod a.rows a.e x.e m) :
    IsInvTrunc a m x :=
  ⟨hr, hc, hd, (invMod_iff _ _ _ _).1 h, (invMod_iff _ _ _ _).1 (invMod_right h)⟩

/-! ### Naive algorithm -/

theorem inner_sum (g : Nat → Nat × Nat → F) (first : Nat × Nat → F) (c : Nat) (ij : Nat × Nat) :
    forN c (fun i2 acc ij => acc ij + g i2 ij) first ij = first ij + ∑ t ∈ Finset.range c, g t ij := by
  refine forN_inv (P := fun (n : Nat) (t : Nat × Nat → F) => t ij = first ij + ∑ u ∈ Finset.range n, g u ij) (by simp) ?_
  intro i t _ h
  rw [Finset.sum_range_succ, ← add_assoc, ← h]

theorem plainLoop_spec (s m d : Nat) (hd : 1 ≤ d) (ac : Nat → Nat × Nat → F) (x0 : Nat × Nat → F) :
    plainLoop s m d ac x0 0 = x0 ∧ ∀ k, 1 ≤ k → k ≤ m - 1 → ∀ ij, plainLoop s m d ac x0 k ij =
      -cmul s (fun ij => ∑ t ∈ Finset.range (min k d), cmul s (plainLoop s m d ac x0 (k - (t + 1))) (ac (t + 1)) ij) x0 ij := by
  unfold plainLoop
  refine forN_inv (P := fun (n : Nat) (t : Nat → Nat × Nat → F) => t 0 = x0 ∧ ∀ k, 1 ≤ k → k ≤ n → ∀ ij, t k ij =
      -cmul s (fun ij => ∑ u ∈ Finset.range (min k d), cmul s (t (k - (u + 1))) (ac (u + 1)) ij) x0 ij) ⟨?_, ?_⟩ ?_
  · unfold write; rw [Function.update_self]
  · intro k h1 h2; omega
  · rintro k1 t - ⟨h0, ht⟩
    dsimp only
    have hw : ∀ (w : Nat × Nat → F) k, k ≤ k1 → write (k1 + 1) w t k = t k := fun w k hk => by
      unfold write; rw [Function.update_of_ne (by omega)]
    refine ⟨(hw _ 0 (by omega)).trans h0, fun k h1 h2 ij => ?_⟩
    by_cases hk : k ≤ k1
    · rw [hw _ k hk, ht k h1 hk]
      congr 2
      ext ij
      refine Finset.sum_congr rfl fun u _ => ?_
      rw [hw _ _ (by omega)]
    · obtain rfl : k = k1 + 1 := by omega
      have e : ∀ (w : Nat × Nat → F), write (k1 + 1) w t (k1 + 1) = w := fun w => by unfold write; rw [Function.update_self]
      rw [e, h0]
      congr 2
      ext ij
      rw [inner_sum (fun i2 => cmul s (t (k1 + 1 - (i2 + 2))) (ac (i2 + 2)))]
      obtain ⟨c, hc⟩ : ∃ c, min (k1 + 1) d = c + 1 := ⟨min (k1 + 1) d - 1, by omega⟩
      rw [hc, Nat.add_sub_cancel, Finset.sum_range_succ', add_comm]
      congr 1
      · refine Finset.sum_congr rfl fun u _ => ?_
        rw [hw _ _ (by omega)]
      · rw [hw _ _ (by omega)]
        rfl

/-- The coefficients computed by the naive algorithm are those of the inverse. -/
theorem plainLoop_inv (a : PMat F[X]) (m d : Nat) (hd : 1 ≤ d) (hm : 1 ≤ m) (hda : deg a ≤ d) (hsq : a.rows = a.cols)
    (ac : Nat → Nat × Nat → F) (hac : ∀ t i j, t ≤ d → t < m → i < a.rows → j < a.rows → ac t (i, j) = (a.e (i, j)).coeff t)
    (x0 : Nat × Nat → F) (hx0 : ∀ i j, i < a.rows → j < a.rows → cmul a.rows x0 (ac 0) (i, j) = if i = j then 1 else 0) :
    InvMod a.rows a.e (fun ij => ofCoeffs m fun k => plainLoop a.rows m d ac x0 k ij) m := by
  obtain ⟨p0, pk⟩ := plainLoop_spec a.rows m d hd ac x0
  set xc := plainLoop a.rows m d ac x0
  rw [invMod_iff]
  intro i j hi hj k hk
  rw [cmul_coeff]
  have e1 : ∀ t, t ≤ k → cmul a.rows (fun ij => (ofCoeffs m fun k => xc k ij).coeff (k - t)) (fun ij => (a.e ij).coeff t) (i, j) =
      if t ≤ d then cmul a.rows (xc (k - t)) (ac t) (i, j) else 0 := fun t ht => by
    split_ifs with h
    · refine cmul_congr (fun l hl => ?_) fun l hl => ?_
      · rw [ofCoeffs_coeff, if_pos (by omega)]
      · rw [hac t l j h (by omega) hl hj]
    · unfold cmul
      refine Finset.sum_eq_zero fun l hl => ?_
      have hl := Finset.mem_range.1 hl
      dsimp only
      rw [(deg_lt_iff a t).1 (by omega) l j hl (by omega) t (le_refl _), mul_zero]
  rw [Finset.sum_congr rfl fun t ht => e1 t (by have := Finset.mem_range.1 ht; omega)]
  by_cases h0 : k = 0
  · subst h0
    rw [Finset.sum_range_succ, Finset.sum_range_zero, zero_add, if_pos (by omega), p0, hx0 i j hi hj]
    simp only [and_true]
  · rw [if_neg (fun h => h0 h.2), Finset.sum_range_succ', if_pos (by omega)]
    set S : Nat × Nat → F := fun ij => ∑ t ∈ Finset.range (min k d), cmul a.rows (xc (k - (t + 1))) (ac (t + 1)) ij with hS
    have e2 : ∑ t ∈ Finset.range k, (if t + 1 ≤ d then cmul a.rows (xc (k - (t + 1))) (ac (t + 1)) (i, j) else 0) = S (i, j) := by
      rw [hS]
      dsimp only
      rw [← Finset.sum_subset (Finset.range_subset_range.2 (min_le_left k d))]
      · refine Finset.sum_congr rfl fun t ht => ?_
        have := Finset.mem_range.1 ht
        rw [if_pos (by omega)]
      · intro t h1 h2
        have := Finset.mem_range.1 h1
        rw [Finset.mem_range] at h2
        rw [if_neg (by omega)]
    have e3 : cmul a.rows (xc (k - 0)) (ac 0) (i, j) = -S (i, j) := by
      have : xc (k - 0) = fun ij => -cmul a.rows S x0 ij := funext fun ij => pk k (by omega) (by omega) ij
      rw [this, cmul_neg, cmul_assoc, cmul_one a.rows S _ i j hj fun l hl => hx0 l j hl hj]
    rw [e2, e3, add_neg_cancel]

end Field

end PML.Ntl.Inv
