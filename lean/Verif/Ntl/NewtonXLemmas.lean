import Mathlib.LinearAlgebra.Matrix.NonsingularInverse
import Mathlib.RingTheory.Ideal.Quotient.Operations
import Mathlib.Tactic.NoncommRing
import Verif.Ntl.NewtonXSpec
import Verif.Ntl.SylvXProps
import Verif.Ntl.SylvXDense
import Verif.Ntl.SylvProps

/-! # Inversion of the Sylvester matrices over `K[X]`: lemmas -/

namespace PML.Ntl.NewtonX

open Polynomial PML.Ntl.Utils PML.Ntl.Inv PML.Ntl.Solve PML.Ntl.Bivar PML.Ntl.FftPoints PML.Ntl.StructX PML.Ntl.SylvX
open PML.Ntl.Struct (loopOut)

section matrices

variable {S T : Type} [CommRing S] [CommRing T]

/-- The matrix of a function. -/
def toX (n m : Nat) (M : Nat → Nat → S) : Matrix (Fin n) (Fin m) S := Matrix.of fun i j => M i j

theorem toX_mul (n m l : Nat) (M N : Nat → Nat → S) :
    toX n m M * toX m l N = toX n l fun i j => ∑ k ∈ Finset.range m, M i k * N k j := by
  ext i j
  rw [Matrix.mul_apply]
  show _ = ∑ k ∈ Finset.range m, M i k * N k j
  rw [Finset.sum_range]
  rfl

theorem toX_sub (n m : Nat) (M N : Nat → Nat → S) : toX n m M - toX n m N = toX n m fun i j => M i j - N i j := rfl

theorem toX_one (n : Nat) : toX n n (fun i j => if i = j then (1 : S) else 0) = 1 := by
  ext i j
  rw [Matrix.one_apply]
  show (if (i : Nat) = j then _ else _) = _
  by_cases h : i = j
  · rw [if_pos h, if_pos (by rw [h])]
  · rw [if_neg h, if_neg (fun e => h (Fin.ext e))]

theorem inv_step {n r : Type} [Fintype n] [Fintype r] [DecidableEq n] {Z0 Z1 M P N : Matrix n n S} {U G : Matrix n r S} {V H : Matrix r n S}
    (h1 : M * P = 1) (h2 : P * M = 1) (hd : Z1 * M - M * Z0 = U * V) (hG : M * G = -U) (hH : H * M = V) (hN : Z0 * N - N * Z1 = G * H) :
    Z0 * (N - P) - (N - P) * Z1 = 0 := by
  have hGH : G * H = -(P * (Z1 * M - M * Z0) * P) := by
    rw [hd, ← hH, show U = -(M * G) by rw [hG, neg_neg]]
    have e1 : P * (-(M * G) * (H * M)) * P = -((P * M) * G * (H * (M * P))) := by
      simp only [Matrix.mul_assoc, Matrix.neg_mul, Matrix.mul_neg]
    rw [e1, h1, h2, Matrix.one_mul, Matrix.mul_one, neg_neg]
  have e2 : P * (Z1 * M - M * Z0) * P = P * Z1 * (M * P) - (P * M) * Z0 * P := by
    noncomm_ring
  rw [e2, h1, h2, Matrix.mul_one, Matrix.one_mul] at hGH
  have e3 : Z0 * (N - P) - (N - P) * Z1 = (Z0 * N - N * Z1) - (Z0 * P - P * Z1) := by noncomm_ring
  rw [e3, hN, hGH]
  abel

end matrices

variable {p : Nat} [Fact p.Prime]

/-- The reduction modulo `X^k`. -/
noncomputable def red (p k : Nat) [Fact p.Prime] : (ZMod p)[X] →+* (ZMod p)[X] ⧸ Ideal.span {(X : (ZMod p)[X]) ^ k} := Ideal.Quotient.mk _

theorem red_eq {k : Nat} {f g : (ZMod p)[X]} : red p k f = red p k g ↔ X ^ k ∣ f - g := by
  rw [red, Ideal.Quotient.eq, Ideal.mem_span_singleton]

theorem red_map {k n m : Nat} {M N : Nat → Nat → (ZMod p)[X]} :
    (toX n m M).map (red p k) = (toX n m N).map (red p k) ↔ ∀ i j, i < n → j < m → X ^ k ∣ M i j - N i j := by
  constructor
  · intro h i j hi hj
    exact red_eq.1 (congrFun (congrFun h ⟨i, hi⟩) ⟨j, hj⟩)
  · intro h
    ext i j
    exact red_eq.2 (h i j i.2 j.2)

/-- A matrix that is invertible at `X = 0` is invertible modulo `X^k`. -/
theorem lift_inv {n : Nat} {M : Nat → Nat → (ZMod p)[X]} {Q : Nat → Nat → ZMod p} (hQ : toX n n (fun i j => (M i j).coeff 0) * toX n n Q = 1) (k : Nat) :
    ∃ P : Nat → Nat → (ZMod p)[X], (toX n n M).map (red p k) * (toX n n P).map (red p k) = 1 ∧
      (toX n n P).map (red p k) * (toX n n M).map (red p k) = 1 := by
  have hdet : (toX n n M).det.coeff 0 ≠ 0 := by
    have e : (toX n n M).det.coeff 0 = (toX n n (fun i j => (M i j).coeff 0)).det := by
      have := (constantCoeff (R := ZMod p)).map_det (toX n n M)
      rw [constantCoeff_apply] at this
      rw [this]
      congr 1
    rw [e]
    intro h0
    have := congrArg Matrix.det hQ
    rw [Matrix.det_mul, h0, zero_mul, Matrix.det_one] at this
    exact zero_ne_one this
  have hco : IsCoprime (X ^ k) (toX n n M).det :=
    IsCoprime.pow_left ((irreducible_X.coprime_iff_not_dvd).2 fun h => hdet (X_dvd_iff.1 h))
  obtain ⟨u, v, huv⟩ := hco
  have hunit : IsUnit ((toX n n M).map (red p k)) := by
    rw [Matrix.isUnit_iff_isUnit_det]
    have e : ((toX n n M).map (red p k)).det = red p k (toX n n M).det := ((red p k).map_det _).symm
    rw [e]
    refine IsUnit.of_mul_eq_one (red p k v) ?_
    rw [← map_mul, ← map_one (red p k), red_eq]
    exact ⟨-u, by rw [← huv]; ring⟩
  obtain ⟨N, hN⟩ := hunit.exists_right_inv
  have lift : ∀ x, ∃ f, red p k f = x := Ideal.Quotient.mk_surjective
  choose l hl using lift
  have hP : (toX n n fun i j => if h : i < n ∧ j < n then l (N ⟨i, h.1⟩ ⟨j, h.2⟩) else 0).map (red p k) = N := by
    ext i j
    show red p k (if h : (i : Nat) < n ∧ (j : Nat) < n then l (N ⟨i, h.1⟩ ⟨j, h.2⟩) else 0) = _
    rw [dif_pos ⟨i.2, j.2⟩, hl]
  exact ⟨_, by rw [hP, hN], by rw [hP]; exact mul_eq_one_comm.1 hN⟩

theorem disp_smul (x : (ZMod p)[X]) (n : Nat) (M : Nat → Nat → (ZMod p)[X]) (i j : Nat) :
    disp 0 1 n n (fun i j => x * M i j) i j = x * disp 0 1 n n M i j := by
  unfold disp
  rw [mul_sub, Finset.mul_sum, Finset.mul_sum]
  congr 1 <;> exact Finset.sum_congr rfl fun l _ => by ring

/-- A matrix whose displacement is zero modulo `X^k` is zero modulo `X^k`. -/
theorem disp_dvd {n k : Nat} {E : Nat → Nat → (ZMod p)[X]} (h : ∀ i j, i < n → j < n → X ^ k ∣ disp 0 1 n n E i j) {i j : Nat} (hi : i < n) (hj : j < n) :
    X ^ k ∣ E i j := by
  have h' : ∀ i j, ∃ q, i < n → j < n → disp 0 1 n n E i j = X ^ k * q := by
    intro i j
    by_cases hij : i < n ∧ j < n
    · obtain ⟨q, hq⟩ := h i j hij.1 hij.2
      exact ⟨q, fun _ _ => hq⟩
    · exact ⟨0, fun a b => absurd ⟨a, b⟩ hij⟩
  choose Q hQ using h'
  obtain ⟨⟨E', hE'⟩, -⟩ := C92_unique (F := ZMod p) ⟨n, n, fun ij => Q ij.1 ij.2⟩ ⟨n, n, fun ij => if ij.1 = ij.2 then 1 else 0⟩
  have key := (C92_unique (F := ZMod p) ⟨n, n, fun ij => X ^ k * Q ij.1 ij.2⟩ ⟨n, n, fun ij => if ij.1 = ij.2 then 1 else 0⟩).2 E (fun i j => X ^ k * E' i j)
    (fun i j hi hj => by
      dsimp only at hi hj ⊢
      rw [hQ i j hi hj, Finset.sum_eq_single j (fun l _ hl => by rw [if_neg (Ne.symm hl), mul_zero]) (fun hl => absurd (Finset.mem_range.2 hj) hl),
        if_pos rfl, mul_one])
    (fun i j hi hj => by
      dsimp only at hi hj ⊢
      rw [disp_smul]
      have := hE' i j hi hj
      dsimp only at this
      rw [this, Finset.mul_sum]
      exact Finset.sum_congr rfl fun l _ => by ring) i j hi hj
  exact ⟨E' i j, key⟩

/-- The matrix whose generators are the solutions of the two systems modulo `X^k` is the inverse modulo `X^k`. -/
theorem gens_inv {n k : Nat} {M N : Nat → Nat → (ZMod p)[X]} {U V G H : Nat → Nat → (ZMod p)[X]} {Q : Nat → Nat → ZMod p}
    (hQ : toX n n (fun i j => (M i j).coeff 0) * toX n n Q = 1)
    (hM : ∀ i j, i < n → j < n → disp 1 0 n n M i j = ∑ l ∈ Finset.range 2, U i l * V j l)
    (hN : ∀ i j, i < n → j < n → disp 0 1 n n N i j = ∑ l ∈ Finset.range 2, G i l * H l j)
    (hG : ∀ i j, i < n → j < 2 → X ^ k ∣ (∑ l ∈ Finset.range n, M i l * G l j) + U i j)
    (hH : ∀ i j, i < 2 → j < n → X ^ k ∣ (∑ l ∈ Finset.range n, H i l * M l j) - V j i) : IsInvMod k n M N := by
  obtain ⟨P, h1, h2⟩ := lift_inv hQ k
  have zero : ∀ i j, i < n → j < n → X ^ k ∣ N i j - P i j := by
    refine fun i j hi hj => disp_dvd (E := fun i j => N i j - P i j) (n := n) ?_ hi hj
    have e := inv_step (Z0 := (toX n n (zEntry n 0)).map (red p k)) (Z1 := (toX n n (zEntry n 1)).map (red p k)) (N := (toX n n N).map (red p k))
      (U := (toX n 2 U).map (red p k)) (G := (toX n 2 G).map (red p k)) (V := (toX 2 n fun i j => V j i).map (red p k))
      (H := (toX 2 n H).map (red p k)) h1 h2 ?_ ?_ ?_ ?_
    · intro i j hi hj
      have e' : (toX n n (disp 0 1 n n fun i j => N i j - P i j)).map (red p k) = (toX n n fun _ _ => 0).map (red p k) := by
        have e1 : (toX n n fun _ _ => (0 : (ZMod p)[X])).map (red p k) = 0 := by
          ext a b
          exact map_zero (red p k)
        rw [e1, ← e, ← Matrix.map_sub _ (fun a b => map_sub (red p k) a b), ← Matrix.map_mul, ← Matrix.map_mul,
          ← Matrix.map_sub _ (fun a b => map_sub (red p k) a b)]
        have e2 : toX n n N - toX n n P = toX n n fun i j => N i j - P i j := rfl
        rw [e2, toX_mul, toX_mul]
        rfl
      have := red_map.1 e' i j hi hj
      rwa [sub_zero] at this
    · rw [← Matrix.map_mul, ← Matrix.map_mul, ← Matrix.map_mul, ← Matrix.map_sub _ (fun a b => map_sub (red p k) a b), toX_mul, toX_mul, toX_mul, toX_sub]
      refine red_map.2 fun i j hi hj => ?_
      have := hM i j hi hj
      unfold disp at this
      rw [this, sub_self]
      exact dvd_zero _
    · rw [← Matrix.map_mul, toX_mul]
      have e2 : -(toX n 2 U).map (red p k) = (toX n 2 fun i j => -U i j).map (red p k) := by
        ext a b
        exact (map_neg (red p k) (U a b)).symm
      rw [e2]
      refine red_map.2 fun i j hi hj => ?_
      rw [sub_neg_eq_add]
      exact hG i j hi hj
    · rw [← Matrix.map_mul, toX_mul]
      exact red_map.2 fun i j hi hj => hH i j hi hj
    · rw [← Matrix.map_mul, ← Matrix.map_mul, ← Matrix.map_mul, ← Matrix.map_sub _ (fun a b => map_sub (red p k) a b), toX_mul, toX_mul, toX_mul, toX_sub]
      refine red_map.2 fun i j hi hj => ?_
      have := hN i j hi hj
      unfold disp at this
      rw [this, sub_self]
      exact dvd_zero _
  have hPN : (toX n n P).map (red p k) = (toX n n N).map (red p k) := (red_map.2 zero).symm
  have one : (1 : Matrix (Fin n) (Fin n) ((ZMod p)[X] ⧸ Ideal.span {(X : (ZMod p)[X]) ^ k})) =
      (toX n n fun i j => if i = j then (1 : (ZMod p)[X]) else 0).map (red p k) := by
    rw [toX_one, Matrix.map_one _ (map_zero _) (map_one _)]
  rw [hPN, ← Matrix.map_mul, toX_mul, one] at h1 h2
  exact ⟨red_map.1 h1, red_map.1 h2⟩

end PML.Ntl.NewtonX
