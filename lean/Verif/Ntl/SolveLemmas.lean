import Verif.Ntl.SolveSpec
import Verif.Ntl.InvProps
import Verif.Ntl.LMulProps
import Verif.Ntl.ShiftProps

/-!
# Lemmas on power series solutions
-/

namespace PML.Ntl.Solve

open Polynomial PML.Ntl.Utils PML.Ntl.Inv PML.Ntl.MatMul PML.Ntl.MatMid PML.Ntl.LMul

variable {F : Type} [Field F]

theorem dvd_iff (f g : F[X]) (k : Nat) : X ^ k ∣ f - g ↔ ∀ t, t < k → f.coeff t = g.coeff t := by
  rw [X_pow_dvd_iff]
  simp only [coeff_sub, sub_eq_zero]

theorem cmul_add_right (n : Nat) (a b c : Nat × Nat → F[X]) (ij : Nat × Nat) :
    cmul n a (fun ij => b ij + c ij) ij = cmul n a b ij + cmul n a c ij := by
  unfold cmul
  simp only [mul_add, Finset.sum_add_distrib]

theorem cmul_mul_right (n : Nat) (a b : Nat × Nat → F[X]) (g : F[X]) (ij : Nat × Nat) :
    cmul n a (fun ij => b ij * g) ij = cmul n a b ij * g := by
  unfold cmul
  simp only [← mul_assoc, Finset.sum_mul]

theorem cmul_shift (n : Nat) (a s u : Nat × Nat → F[X]) (h : Nat) (ij : Nat × Nat) :
    cmul n a (fun ij => s ij + u ij * X ^ h) ij = cmul n a s ij + cmul n a u ij * X ^ h := by
  rw [cmul_add_right, cmul_mul_right]

/-- Products modulo a power of `X`. -/
theorem cmul_dvd {n k i j : Nat} {a a' b b' : Nat × Nat → F[X]} (ha : ∀ l, l < n → X ^ k ∣ a (i, l) - a' (i, l))
    (hb : ∀ l, l < n → X ^ k ∣ b (l, j) - b' (l, j)) : X ^ k ∣ cmul n a b (i, j) - cmul n a' b' (i, j) := by
  unfold cmul
  rw [← Finset.sum_sub_distrib]
  refine Finset.dvd_sum fun l hl => ?_
  have hl := Finset.mem_range.1 hl
  dsimp only
  rw [show a (i, l) * b (l, j) - a' (i, l) * b' (l, j) = (a (i, l) - a' (i, l)) * b (l, j) + a' (i, l) * (b (l, j) - b' (l, j)) by ring]
  exact dvd_add ((ha l hl).mul_right _) ((hb l hl).mul_left _)

theorem cmul_id_left (n : Nat) (a b : Nat × Nat → F[X]) (i j k : Nat) (hi : i < n)
    (ha : ∀ l, l < n → X ^ k ∣ a (i, l) - if i = l then 1 else 0) : X ^ k ∣ cmul n a b (i, j) - b (i, j) := by
  have h : b (i, j) = cmul n (fun ij => if ij.1 = ij.2 then (1 : F[X]) else 0) b (i, j) := by
    unfold cmul
    dsimp only
    rw [Finset.sum_eq_single i]
    · rw [if_pos rfl, one_mul]
    · intro l _ h
      rw [if_neg (Ne.symm h), zero_mul]
    · intro h
      exact absurd (Finset.mem_range.2 hi) h
  rw [h]
  exact cmul_dvd ha fun l _ => by rw [sub_self]; exact dvd_zero _

/-- Multiplication by the inverse modulo `X^k` solves the system modulo `X^k`. -/
theorem inv_solves {n k i j : Nat} {A A0 x b u : Nat × Nat → F[X]} (hi : i < n)
    (hA : ∀ i l, i < n → l < n → X ^ k ∣ A (i, l) - A0 (i, l)) (hx : InvMod n x A0 k)
    (hu : ∀ l, l < n → X ^ k ∣ u (l, j) - cmul n x b (l, j)) : X ^ k ∣ cmul n A u (i, j) - b (i, j) := by
  have h1 : X ^ k ∣ cmul n A u (i, j) - cmul n A0 (cmul n x b) (i, j) := cmul_dvd (fun l hl => hA i l hi hl) hu
  have h2 : X ^ k ∣ cmul n A0 (cmul n x b) (i, j) - b (i, j) := by
    rw [← cmul_assoc]
    exact cmul_id_left n _ b i j k hi fun l hl => hx i l hi hl
  have := dvd_add h1 h2
  rwa [sub_add_sub_cancel] at this

/-- The right inverse, from `IsInvTrunc`. -/
theorem invMod_of {A x : PMat F[X]} {m : Nat} (h : IsInvTrunc A m x) : InvMod A.rows x.e A.e m :=
  (invMod_iff _ _ _ _).2 h.right

theorem trunc_deg (al : Bool) (x a : PMat F[X]) (n : Nat) : deg (trunc al x a n) < n := by
  obtain ⟨h1, h2, h3⟩ := C65_trunc al x a n
  rw [deg_lt_iff]
  intro i j hi hj k hk
  rw [h3 i j (by omega) (by omega), if_neg (by omega)]

theorem ConstInv.ne_zero {A : PMat F[X]} (h : ConstInv A) (hn : 0 < A.rows) : ∃ k, k < A.rows ∧ (A.e (k, 0)).coeff 0 ≠ 0 := by
  obtain ⟨W, hW⟩ := h
  by_contra hc
  have h1 := hW 0 0 hn hn
  rw [if_pos rfl, Finset.sum_eq_zero] at h1
  · exact zero_ne_one h1
  · intro k hk
    have : (A.e (k, 0)).coeff 0 = 0 := by
      by_contra h2
      exact hc ⟨k, Finset.mem_range.1 hk, h2⟩
    rw [this, mul_zero]

theorem ConstInv.deg_nonneg {A : PMat F[X]} (h : ConstInv A) (hn : 0 < A.rows) (hsq : A.rows = A.cols) : 0 ≤ deg A := by
  obtain ⟨k, hk, h⟩ := ConstInv.ne_zero h hn
  by_contra hc
  exact h ((deg_lt_iff A 0).1 (by omega) k 0 hk (by omega) 0 (le_refl _))

theorem inv_deg_nonneg {A x : PMat F[X]} {m : Nat} (h : IsInvTrunc A m x) (hm : 1 ≤ m) (hn : 0 < A.rows) : 0 ≤ deg x := by
  by_contra hc
  have h1 := h.left 0 0 hn hn 0 hm
  rw [if_pos ⟨rfl, rfl⟩, Finset.sum_eq_zero] at h1
  · rw [coeff_zero] at h1
    exact zero_ne_one h1
  · intro l hl
    have hl := Finset.mem_range.1 hl
    have : x.e (0, l) = 0 := by
      have hr := h.rows
      have hcs := h.cols
      exact (deg_neg_iff x).1 (by have := (deg_spec x).1; omega) 0 l (by omega) (by omega)
    rw [this, zero_mul]

theorem constInv_congr {A A' : PMat F[X]} (h : ConstInv A) (hr : A'.rows = A.rows)
    (he : ∀ i j, i < A.rows → j < A.rows → (A'.e (i, j)).coeff 0 = (A.e (i, j)).coeff 0) : ConstInv A' := by
  obtain ⟨W, hW⟩ := h
  refine ⟨W, fun i j hi hj => ?_⟩
  rw [hr] at hi hj ⊢
  rw [← hW i j hi hj]
  exact Finset.sum_congr rfl fun k hk => by rw [he k j (Finset.mem_range.1 hk) hj]

attribute [local irreducible] Utils.deg

/-- The middle product failed, on a zero matrix. -/
def MidFails (C : Calls F) : Prop := ∃ (a c : PMat F[X]) (dA dB : Nat), deg a < 0 ∧ C.mid a c dA dB = none

/-- The two halves of a solution. -/
theorem combine {A A1 A2 b b1 b2 s1 s2 y : Nat × Nat → F[X]} (n hp prec i j : Nat) (hle : hp ≤ prec)
    (h1 : ∀ l, l < n → ∀ t, t < hp → (A1 (i, l)).coeff t = (A (i, l)).coeff t)
    (h2 : ∀ l, l < n → ∀ t, t < prec - hp → (A2 (i, l)).coeff t = (A (i, l)).coeff t)
    (hb : ∀ t, t < hp → (b1 (i, j)).coeff t = (b (i, j)).coeff t)
    (hb2 : ∀ t, t < prec - hp → (b2 (i, j)).coeff t = (b (i, j)).coeff (hp + t) - (cmul n A s1 (i, j)).coeff (hp + t))
    (e1 : ∀ t, t < hp → (∑ l ∈ Finset.range n, A1 (i, l) * s1 (l, j)).coeff t = (b1 (i, j)).coeff t)
    (e2 : ∀ t, t < prec - hp → (∑ l ∈ Finset.range n, A2 (i, l) * s2 (l, j)).coeff t = (b2 (i, j)).coeff t)
    (hy : ∀ l, l < n → y (l, j) = s1 (l, j) + s2 (l, j) * X ^ hp) (k : Nat) (hk : k < prec) :
    (∑ l ∈ Finset.range n, A (i, l) * y (l, j)).coeff k = (b (i, j)).coeff k := by
  have hs1 : ∀ t, t < hp → (cmul n A s1 (i, j)).coeff t = (b (i, j)).coeff t := by
    intro t htp
    rw [← hb t htp, ← e1 t htp]
    refine (dvd_iff _ _ hp).1 (cmul_dvd (a' := A1) (b := s1) (fun l hl => ?_) fun l hl => ?_) t htp
    · rw [dvd_iff]
      exact fun t' ht' => (h1 l hl t' ht').symm
    · rw [sub_self]; exact dvd_zero _
  have hs2 : ∀ t, t < prec - hp → (cmul n A s2 (i, j)).coeff t = (b2 (i, j)).coeff t := by
    intro t htp
    rw [← e2 t htp]
    refine (dvd_iff _ _ (prec - hp)).1 (cmul_dvd (a' := A2) (b := s2) (fun l hl => ?_) fun l hl => ?_) t htp
    · rw [dvd_iff]
      exact fun t' ht' => (h2 l hl t' ht').symm
    · rw [sub_self]; exact dvd_zero _
  have hy : ∑ l ∈ Finset.range n, A (i, l) * y (l, j) = cmul n A s1 (i, j) + cmul n A s2 (i, j) * X ^ hp := by
    rw [← cmul_shift]
    unfold cmul
    refine Finset.sum_congr rfl fun l hl => ?_
    dsimp only
    rw [hy l (Finset.mem_range.1 hl)]
  rw [hy, coeff_add, coeff_mul_X_pow']
  by_cases hk2 : k < hp
  · rw [if_neg (by omega), add_zero, hs1 k hk2]
  · rw [if_pos (by omega), hs2 (k - hp) (by omega), hb2 (k - hp) (by omega), show hp + (k - hp) = k by omega]
    ring

set_option maxHeartbeats 2000000 in
theorem dac_spec {C : Calls F} (hC : C.Ok) {A0 invA : PMat F[X]} {thresh : Nat} (hI : IsInvTrunc A0 thresh invA)
    {f : PMat F[X] → Res (PMat F[X])} (hf : Multiplies invA (thresh - 1) f) (ht : 1 ≤ thresh) (hn : 0 < A0.rows) :
    ∀ (fuel : Nat) (A b : PMat F[X]) (prec : Nat), prec ≤ fuel → 1 ≤ prec → A.rows = A0.rows → A.cols = A0.rows → b.rows = A0.rows →
      (∀ i j, i < A0.rows → j < A0.rows → X ^ prec ∣ A.e (i, j) - A0.e (i, j)) → deg A < prec → deg b < prec →
      (∃ u, dac C.mid f thresh fuel A b prec = .ok u ∧ IsSol A b prec u) ∨
        (dac C.mid f thresh fuel A b prec = .ub ∧ MidFails C) := by
  intro fuel
  induction fuel with
  | zero => intro A b prec h1 h2; omega
  | succ fuel ih =>
    intro A b prec h1 h2 hAr hAc hbr hA hdA hdb
    unfold dac
    by_cases h : prec ≤ thresh
    · rw [if_pos h]
      left
      have hr := hI.rows
      have hc := hI.cols
      obtain ⟨c, e, hc1, hc2, hc3⟩ := hf b (by omega) (by omega)
      rw [e]
      dsimp only [ofRes, andThen]
      obtain ⟨t1, t2, t3⟩ := C65_trunc true c c prec
      refine ⟨_, rfl, by omega, by omega, fun i j hi hj k hk => ?_, fun i j hi hj k hk => ?_⟩
      · rw [t3 i j (by omega) (by omega), if_neg (by omega)]
      · refine (dvd_iff _ _ prec).1 ?_ k hk
        rw [hAc]
        refine inv_solves (A := A.e) (A0 := A0.e) (x := invA.e) (b := b.e) (u := (trunc true c c prec).e) (by omega) hA
          (invMod_mono h (invMod_of hI)) fun l hl => ?_
        rw [dvd_iff]
        intro t htp
        rw [t3 l j (by omega) (by omega), if_pos htp, hc3 l j (by omega) hj, hc]
        rfl
    · rw [if_neg h]
      dsimp only
      obtain ⟨hp, hp1⟩ : ∃ hp, hp = prec / 2 := ⟨_, rfl⟩
      rw [← hp1]
      obtain ⟨a1, a2, a3⟩ := C65_trunc false ⟨0, 0, fun _ => 0⟩ A hp
      obtain ⟨b1, b2, b3⟩ := C65_trunc false ⟨0, 0, fun _ => 0⟩ b hp
      have da := trunc_deg false ⟨0, 0, fun _ => 0⟩ A hp
      have db := trunc_deg false ⟨0, 0, fun _ => 0⟩ b hp
      generalize trunc false ⟨0, 0, fun _ => 0⟩ A hp = A1 at *
      generalize trunc false ⟨0, 0, fun _ => 0⟩ b hp = B1 at *
      have hA1 : ∀ i j, i < A0.rows → j < A0.rows → X ^ hp ∣ A1.e (i, j) - A0.e (i, j) := by
        intro i j hi hj
        rw [dvd_iff]
        intro t htp
        rw [a3 i j (by omega) (by omega), if_pos htp]
        exact (dvd_iff _ _ prec).1 (hA i j hi hj) t (by omega)
      rcases ih A1 B1 hp (by omega) (by omega) (by omega) (by omega)
        (by omega) hA1 da db with ⟨s1, e1, g1, g2, g3, g4⟩ | ⟨e1, hF⟩
      swap
      · right
        rw [e1]
        exact ⟨rfl, hF⟩
      rw [e1]
      dsimp only [andThen]
      obtain ⟨p1, p2, p3⟩ := C65_transpose false A1 A
      obtain ⟨q1, q2, q3⟩ := C65_transpose false B1 s1
      generalize transpose false A1 A = bufA at *
      generalize transpose false B1 s1 = bufB at *
      rw [a2] at g1 g3
      rw [b2] at g2 g3
      have hdB : deg bufB < hp := by
        rw [deg_lt_iff]
        intro i j hi hj k hk
        rw [q3 i j (by omega) (by omega)]
        exact g3 j i (by omega) (by omega) k hk
      have hdA' : deg bufA < prec := by
        rw [deg_lt_iff]
        intro i j hi hj k hk
        rw [p3 i j (by omega) (by omega)]
        exact (deg_lt_iff A prec).1 hdA j i (by omega) (by omega) k hk
      rcases hC.mid bufB bufA hp (prec - hp - 1) (by omega) (by omega) (by omega) (by omega) (by omega) with ⟨m, em, m1, m2, m3⟩ | ⟨em, hz⟩
      swap
      · right
        rw [em]
        exact ⟨rfl, _, _, _, _, hz, em⟩
      rw [em]
      dsimp only [ofMid]
      obtain ⟨u1, u2, u3⟩ := C65_transpose false bufB m
      generalize transpose false bufB m = bufB2 at *
      obtain ⟨-, v1, v2, v3⟩ := C65_shift false m b hp
      generalize rightShift false m b hp = resid at *
      obtain ⟨-, z2, -, z4⟩ := C66_add_sub false true bufB2 resid bufB2 (by simp)
      obtain ⟨w, ew⟩ : ∃ w, zipWith (· - ·) false true bufB2 resid bufB2 = some w := by
        rcases hz : zipWith (· - ·) false true bufB2 resid bufB2 with _ | w
        · exact absurd ⟨by omega, by omega⟩ (z2.1 hz)
        · exact ⟨w, rfl⟩
      obtain ⟨w1, w2, w3⟩ := z4 w ew
      clear z2 z4
      rw [ew]
      dsimp only [ofOpt]
      have hmid : ∀ i j, i < A0.rows → j < b.cols → ∀ k, k < prec - hp →
          (bufB2.e (i, j)).coeff k = (cmul A0.rows A.e s1.e (i, j)).coeff (hp + k) := by
        intro i j hi hj k hk
        rw [u3 i j (by omega) (by omega), m3 j i (by omega) (by omega), if_pos (by omega)]
        congr 1
        unfold cmul
        rw [show bufB.cols = A0.rows by omega]
        refine Finset.sum_congr rfl fun l hl => ?_
        have hl := Finset.mem_range.1 hl
        rw [mid_trunc, q3 j l (by omega) (by omega), p3 l i (by omega) (by omega), mul_comm]
        intro t htp
        exact (deg_lt_iff bufB hp).1 hdB j l (by omega) (by omega) t (by omega)
      have hw : ∀ i j, i < A0.rows → j < b.cols → ∀ k, k < prec - hp →
          (w.e (i, j)).coeff k = (b.e (i, j)).coeff (hp + k) - (cmul A0.rows A.e s1.e (i, j)).coeff (hp + k) := by
        intro i j hi hj k hk
        rw [w3 i j (by omega) (by omega), coeff_sub, hmid i j hi hj k hk, v3 i j (by omega) (by omega), if_pos (by omega)]
        congr 3
        omega
      have hdw : deg w < (prec - hp : Nat) := by
        rw [deg_lt_iff]
        intro i j hi hj k hk
        rw [w3 i j (by omega) (by omega), coeff_sub, v3 i j (by omega) (by omega), if_pos (by omega),
          u3 i j (by omega) (by omega), m3 j i (by omega) (by omega), if_neg (by omega), sub_zero]
        exact (deg_lt_iff b prec).1 hdb i j (by omega) (by omega) _ (by omega)
      obtain ⟨c1, c2, c3⟩ := C65_trunc false bufA A (prec - hp)
      have dc := trunc_deg false bufA A (prec - hp)
      generalize trunc false bufA A (prec - hp) = A2 at *
      have hA2 : ∀ i j, i < A0.rows → j < A0.rows → X ^ (prec - hp) ∣ A2.e (i, j) - A0.e (i, j) := by
        intro i j hi hj
        rw [dvd_iff]
        intro t htp
        rw [c3 i j (by omega) (by omega), if_pos htp]
        exact (dvd_iff _ _ prec).1 (hA i j hi hj) t (by omega)
      rcases ih A2 w (prec - hp) (by omega) (by omega) (by omega) (by omega)
        (by omega) hA2 dc hdw with ⟨s2, e2, k1, k2, k3, k4⟩ | ⟨e2, hF⟩
      swap
      · right
        rw [e2]
        exact ⟨rfl, hF⟩
      rw [e2]
      dsimp only
      left
      rw [c2] at k1 k3
      have w5 : w.cols = b.cols := by omega
      clear hdB hdA' hdw da db dc hdA hdb hmid u1 u2 u3 v1 v2 v3 m1 m2 m3 p1 p2 p3 q1 q2 q3 w1 w2 w3 ih h h1
      obtain ⟨y1, y2⟩ := zipWith_spec (fun f g : F[X] => f + g * X ^ hp) true false s1 s1 s2 (by simp)
      unfold addShift
      obtain ⟨y, ey⟩ : ∃ w, zipWith (fun f g : F[X] => f + g * X ^ hp) true false s1 s1 s2 = some w := by
        rcases hz : zipWith (fun f g : F[X] => f + g * X ^ hp) true false s1 s1 s2 with _ | w
        · exact absurd ⟨by omega, by omega⟩ (y1.1 hz)
        · exact ⟨w, rfl⟩
      obtain ⟨x1, x2, x3⟩ := y2 y ey
      clear y1 y2
      rw [ey]
      refine ⟨y, rfl, by omega, by omega, fun i j hi hj k hk => ?_, fun i j hi hj k hk => ?_⟩
      · rw [x3 i j (by omega) (by omega), coeff_add, coeff_mul_X_pow', g3 i j hi hj k (by omega), if_pos (by omega),
          k3 i j hi (by omega) (k - hp) (by omega), add_zero]
      · rw [hAc]
        refine combine (A := A.e) (A1 := A1.e) (A2 := A2.e)
          (b := b.e) (b1 := B1.e) (b2 := w.e) (s1 := s1.e) (s2 := s2.e) (y := y.e) A0.rows hp prec i j
          (by omega) ?_ ?_ ?_ (hw i j (by omega) hj) ?_ ?_ ?_ k hk
        · intro l hl t htp
          rw [a3 i l (by omega) (by omega), if_pos htp]
        · intro l hl t htp
          rw [c3 i l (by omega) (by omega), if_pos htp]
        · intro t htp
          rw [b3 i j (by omega) (by omega), if_pos htp]
        · have := g4 i j (by omega) (by omega)
          rw [a2, hAc] at this
          exact this
        · have := k4 i j (by omega) (by omega)
          rw [c2, hAc] at this
          exact this
        · intro l hl
          exact x3 l j (by omega) (by omega)

/-! ### Iteration -/

/-- The value computed by `add_LeftShift`, whether or not its operands are normalised. -/
theorem addLeftShift_val [DecidableEq F] (aliased : Bool) (la lb k : Nat) (a b : Nat → F) (i : Nat) :
    (if i < (Shift.addLeftShift aliased la a lb b k).1 then (Shift.addLeftShift aliased la a lb b k).2 i else 0) =
      Shift.sumCoeff la a lb b k i := by
  obtain ⟨c, hc⟩ : ∃ c : Nat → F, c = fun i =>
    if i < min la k then a i
    else if i < k then 0
    else if i < min la (lb + k) then a i + b (i - k)
    else if min la (lb + k) < la then a i
    else b (i - k) := ⟨_, rfl⟩
  have hcv : ∀ i, i < max la (lb + k) → c i = Shift.sumCoeff la a lb b k i := by
    intro i hi
    rw [hc]
    unfold Shift.sumCoeff
    dsimp only
    by_cases h1 : i < k
    · rw [if_neg (show ¬ (k ≤ i ∧ i < lb + k) by omega), add_zero]
      by_cases h2 : i < la
      · rw [if_pos (by omega), if_pos h2]
      · rw [if_neg (by omega), if_pos h1, if_neg h2]
    · rw [if_neg (by omega), if_neg h1]
      by_cases h2 : i < la
      · by_cases h3 : i < lb + k
        · rw [if_pos (by omega), if_pos h2, if_pos (by omega)]
        · rw [if_neg (by omega), if_pos (by omega), if_pos h2, if_neg (by omega), add_zero]
      · rw [if_neg (by omega), if_neg (by omega), if_neg h2, if_pos (by omega), zero_add]
  have hz : ∀ i, max la (lb + k) ≤ i → Shift.sumCoeff la a lb b k i = 0 := by
    intro i hi
    unfold Shift.sumCoeff
    rw [if_neg (by omega), if_neg (by omega), add_zero]
  have hval : (if i < max la (lb + k) then c i else 0) = Shift.sumCoeff la a lb b k i := by
    by_cases h : i < max la (lb + k)
    · rw [if_pos h, hcv i h]
    · rw [if_neg h, hz i (by omega)]
  have hnorm : (if i < Shift.normLen c (max la (lb + k)) then c i else 0) = Shift.sumCoeff la a lb b k i := by
    have h1 := Shift.normLen_le c (max la (lb + k))
    have h2 := Shift.normLen_spec c (max la (lb + k))
    by_cases h : i < Shift.normLen c (max la (lb + k))
    · rw [if_pos h, hcv i (by omega)]
    · rw [if_neg h]
      by_cases hlt : i < max la (lb + k)
      · rw [← hcv i hlt]; exact (h2.1 i (by omega) hlt).symm
      · exact (hz i (by omega)).symm
  have hr : Shift.addLeftShift aliased la a lb b k = (max la (lb + k), c) ∨
      Shift.addLeftShift aliased la a lb b k = (Shift.normLen c (max la (lb + k)), c) := by
    unfold Shift.addLeftShift
    dsimp only
    rw [← hc]
    split_ifs
    · exact Or.inl rfl
    · exact Or.inl rfl
    · exact Or.inr rfl
  rcases hr with hr | hr
  · rw [hr]
    exact hval
  · rw [hr]
    exact hnorm

theorem addRep_val [DecidableEq F] (shift : Nat) (x : Sto F) (g : F[X]) : (addRep shift x g).val = x.val + g * X ^ shift := by
  ext k
  rw [val_coeff, coeff_add, val_coeff, coeff_mul_X_pow']
  unfold addRep
  dsimp only
  rw [addLeftShift_val]
  unfold Shift.sumCoeff repOf
  dsimp only
  congr 1
  by_cases h : shift ≤ k
  · rw [if_pos h]
    by_cases h2 : k < (pdeg g + 1).toNat + shift
    · rw [if_pos ⟨h, h2⟩]
    · rw [if_neg (by omega), coeff_gt_pdeg g _ (by omega)]
  · rw [if_neg h, if_neg (by omega)]

theorem repOf_val (f : F[X]) : (repOf f).val = f := by
  ext k
  rw [val_coeff]
  unfold repOf
  dsimp only
  split_ifs with h
  · rfl
  · rw [coeff_gt_pdeg f k (by omega)]

theorem truncRep_val [DecidableEq F] (n : Nat) (x : Sto F) (k : Nat) :
    (truncRep n x).val.coeff k = if k < n then x.val.coeff k else 0 := by
  rw [val_coeff, val_coeff]
  unfold truncRep
  by_cases h : n < x.len
  · rw [if_pos h]
    dsimp only
    have h1 := Shift.normLen_le x.mem n
    have h2 := (Shift.normLen_spec x.mem n).1
    by_cases hk : k < n
    · rw [if_pos hk, if_pos (show k < x.len by omega)]
      split_ifs with h3
      · rfl
      · exact (h2 k (by omega) hk).symm
    · rw [if_neg (by omega), if_neg hk]
  · rw [if_neg h]
    by_cases hk : k < n
    · rw [if_pos hk]
    · rw [if_neg hk, if_neg (by omega)]

theorem flip_coeff (dA shift : Nat) (b f : F[X]) (k : Nat) :
    (flip dA shift b f).coeff k = if k ≤ dA then b.coeff (k + shift) - f.coeff k else f.coeff k := by
  have : ∀ k, (flip dA shift b f).coeff k = if k < dA + 1 then b.coeff (k + shift) - f.coeff k else f.coeff k := by
    unfold flip
    refine forN_inv (P := fun (m : Nat) (t : F[X]) => ∀ k, t.coeff k = if k < m then b.coeff (k + shift) - f.coeff k else f.coeff k)
      (fun k => by rw [if_neg (by omega)]) ?_
    intro m t _ h k
    rw [erase_add_coeff]
    by_cases hk : k = m
    · rw [if_pos hk, if_pos (by omega), h m, if_neg (by omega), hk]
    · rw [if_neg hk, h k]
      by_cases h2 : k < m
      · rw [if_pos h2, if_pos (by omega)]
      · rw [if_neg h2, if_neg (by omega)]
  rw [this k]
  by_cases h : k ≤ dA
  · rw [if_pos h, if_pos (by omega)]
  · rw [if_neg h, if_neg (by omega)]

theorem addShiftRep_spec [DecidableEq F] (u : PMat (Sto F)) (sol : PMat F[X]) (shift : Nat) (hr : u.rows = sol.rows) (hc : u.cols = sol.cols) :
    ∃ y, addShiftRep u sol shift = .ok y ∧ y.rows = u.rows ∧ y.cols = u.cols ∧ ∀ i j, i < u.rows → j < u.cols →
      y.e (i, j) = addRep shift (u.e (i, j)) (sol.e (i, j)) := by
  unfold addShiftRep
  rw [if_neg (by omega)]
  refine ⟨_, rfl, rfl, rfl, fun i j hi hj => ?_⟩
  dsimp only
  rw [loop2_spec, if_pos ⟨hi, hj⟩]
  intro i j x y h
  rw [h]

/-- The state of the loop: `A u = b` modulo `X^shift`, and the rest of `A u` comes from the last part of `u`. -/
structure Loop (A b : PMat F[X]) (dA shift : Nat) (u sol : PMat F[X]) : Prop where
  ur : u.rows = A.rows
  uc : u.cols = b.cols
  sr : sol.rows = A.rows
  sc : sol.cols = b.cols
  sd : ∀ i j, i < A.rows → j < b.cols → ∀ t, dA < t → (sol.e (i, j)).coeff t = 0
  lo : ∀ i j, i < A.rows → j < b.cols → ∀ t, t < shift → (cmul A.rows A.e u.e (i, j)).coeff t = (b.e (i, j)).coeff t
  hi : ∀ i j, i < A.rows → j < b.cols → ∀ t, shift ≤ t →
    (cmul A.rows A.e u.e (i, j)).coeff t = (cmul A.rows A.e sol.e (i, j)).coeff (t + (dA + 1) - shift)

/-- One iteration, on values. -/
theorem Loop.step {A b u sol sol' u' : PMat F[X]} {dA shift : Nat} (h : Loop A b dA shift u sol) (hdA : deg A ≤ dA)
    (hsq : A.rows = A.cols) (r1 : u'.rows = A.rows) (r2 : u'.cols = b.cols) (r3 : sol'.rows = A.rows) (r4 : sol'.cols = b.cols)
    (hd : ∀ i j, i < A.rows → j < b.cols → ∀ t, dA < t → (sol'.e (i, j)).coeff t = 0)
    (hs : ∀ i j, i < A.rows → j < b.cols → ∀ t, t < dA + 1 → (cmul A.rows A.e sol'.e (i, j)).coeff t =
      (b.e (i, j)).coeff (t + shift) - (cmul A.rows A.e sol.e (i, j)).coeff (t + (dA + 1)))
    (hu : ∀ i j, i < A.rows → j < b.cols → u'.e (i, j) = u.e (i, j) + sol'.e (i, j) * X ^ shift) :
    Loop A b dA (shift + (dA + 1)) u' sol' := by
  have hA : ∀ i j, i < A.rows → j < b.cols →
      cmul A.rows A.e u'.e (i, j) = cmul A.rows A.e u.e (i, j) + cmul A.rows A.e sol'.e (i, j) * X ^ shift := by
    intro i j hi hj
    rw [← cmul_shift]
    exact cmul_congr (fun _ _ => rfl) fun l hl => hu l j hl hj
  refine ⟨r1, r2, r3, r4, hd, fun i j hi hj t ht => ?_, fun i j hi hj t ht => ?_⟩
  · rw [hA i j hi hj, coeff_add, coeff_mul_X_pow']
    by_cases h1 : t < shift
    · rw [if_neg (by omega), add_zero, h.lo i j hi hj t h1]
    · rw [if_pos (by omega), h.hi i j hi hj t (by omega), hs i j hi hj (t - shift) (by omega),
        show t - shift + shift = t by omega, show t - shift + (dA + 1) = t + (dA + 1) - shift by omega]
      ring
  · rw [hA i j hi hj, coeff_add, coeff_mul_X_pow', if_pos (by omega), h.hi i j hi hj t (by omega),
      cmul_zero A.rows A.e sol.e i j dA dA (fun l hl t' ht' => ?_) (fun l hl t' ht' => h.sd l j hl hj t' ht') _ (by omega), zero_add]
    · congr 1
      omega
    · exact (deg_lt_iff A (dA + 1)).1 (by omega) i l hi (by omega) t' (by omega)

theorem highLoop_spec [DecidableEq F] {A b invA : PMat F[X]} {dA : Nat} (hsq : A.rows = A.cols) (hb : b.rows = A.rows)
    (hdA : deg A ≤ dA) (hI : IsInvTrunc A (dA + 1) invA) {mulA mulInv : PMat F[X] → Res (PMat F[X])} (hmA : Multiplies A dA mulA)
    (hmI : Multiplies invA dA mulInv) : ∀ (it shift : Nat) (u : PMat (Sto F)) (sol : PMat F[X]), dA + 1 ≤ shift →
      Loop A b dA shift (vals u) sol → (∀ i j, i < A.rows → j < b.cols → ∀ t, shift ≤ t → ((vals u).e (i, j)).coeff t = 0) →
      ∃ u' sol', highLoop mulA mulInv b dA it shift u sol = .ok u' ∧ Loop A b dA (shift + it * (dA + 1)) (vals u') sol' ∧
        ∀ i j, i < A.rows → j < b.cols → ∀ t, shift + it * (dA + 1) ≤ t → ((vals u').e (i, j)).coeff t = 0 := by
  intro it
  induction it with
  | zero =>
    intro shift u sol _ h hd
    exact ⟨u, sol, rfl, by rwa [Nat.zero_mul, Nat.add_zero], by rwa [Nat.zero_mul, Nat.add_zero]⟩
  | succ it ih =>
    intro shift u sol hsh h hud
    unfold highLoop
    have hr := hI.rows
    have hc := hI.cols
    have g1 := h.sr
    have g2 := h.sc
    have g3 : u.rows = A.rows := h.ur
    have g4 : u.cols = b.cols := h.uc
    obtain ⟨up, e1, p1, p2, p3⟩ := hmA sol (by omega) (by
      have : deg sol < (dA + 1 : Nat) := by
        rw [deg_lt_iff]
        exact fun i j hi hj t ht => h.sd i j (by omega) (by omega) t (by omega)
      omega)
    rw [e1]
    dsimp only [ofRes, andThen]
    obtain ⟨-, q1, q2, q3⟩ := C65_shift true up up (dA + 1 : Nat)
    generalize rightShift true up up (dA + 1 : Nat) = up1 at *
    obtain ⟨up2, hup2⟩ : ∃ x : PMat F[X], x = { up1 with e := loop2 b.rows b.cols (fun i j cur => flip dA shift (b.e (i, j)) (cur (i, j))) up1.e } :=
      ⟨_, rfl⟩
    have v1 : up2.rows = up1.rows := by rw [hup2]
    have v2 : up2.cols = up1.cols := by rw [hup2]
    have v3 : ∀ i j, i < A.rows → j < b.cols → ∀ t, (up2.e (i, j)).coeff t = if t ≤ dA then
        (b.e (i, j)).coeff (t + shift) - (cmul A.rows A.e sol.e (i, j)).coeff (t + (dA + 1)) else 0 := by
      intro i j hi hj t
      rw [hup2]
      dsimp only
      rw [loop2_spec _ _ _ (fun i j x y h => by rw [h]), if_pos ⟨by omega, hj⟩, flip_coeff, q3 i j (by omega) (by omega),
        if_pos (by omega : -((dA + 1 : Nat) : Int) ≤ (t : Int)),
        p3 i j (by omega) (by omega), ← hsq, show ((t : Int) + (dA + 1 : Nat)).toNat = t + (dA + 1) by omega]
      by_cases ht : t ≤ dA
      · rw [if_pos ht, if_pos ht]
        rfl
      · rw [if_neg ht, if_neg ht]
        refine cmul_zero A.rows A.e sol.e i j dA dA (fun l hl t' ht' => ?_) (fun l hl t' ht' => h.sd l j hl hj t' ht') _ (by omega)
        exact (deg_lt_iff A (dA + 1)).1 (by omega) i l hi (by omega) t' (by omega)
    rw [← hup2]
    clear hup2 q3
    obtain ⟨s, e2, s1, s2, s3⟩ := hmI up2 (by omega) (by
      have : deg up2 < (dA + 1 : Nat) := by
        rw [deg_lt_iff]
        intro i j hi hj t ht
        rw [v3 i j (by omega) (by omega), if_neg (by omega)]
      omega)
    rw [e2]
    dsimp only [ofRes, andThen]
    obtain ⟨t1, t2, t3⟩ := C65_trunc true s s (dA + 1)
    generalize trunc true s s (dA + 1) = s' at *
    obtain ⟨y, e3, y1, y2, y3⟩ := addShiftRep_spec u s' shift (by omega) (by omega)
    rw [e3]
    dsimp only
    have hd : ∀ i j, i < A.rows → j < b.cols → ∀ t, dA < t → (s'.e (i, j)).coeff t = 0 := fun i j hi hj t ht => by
      rw [t3 i j (by omega) (by omega), if_neg (by omega)]
    have hv : ∀ i j, i < A.rows → j < b.cols → (vals y).e (i, j) = (vals u).e (i, j) + s'.e (i, j) * X ^ shift := by
      intro i j hi hj
      show (y.e (i, j)).val = (u.e (i, j)).val + _
      rw [y3 i j (by omega) (by omega), addRep_val]
    have hs : ∀ i j, i < A.rows → j < b.cols → ∀ t, t < dA + 1 → (cmul A.rows A.e s'.e (i, j)).coeff t = (up2.e (i, j)).coeff t := by
      intro i j hi hj
      refine (dvd_iff _ _ _).1 (inv_solves (A0 := A.e) (x := invA.e) hi (fun i l _ _ => by rw [sub_self]; exact dvd_zero _)
        (invMod_of hI) fun l hl => ?_)
      rw [dvd_iff]
      intro t ht
      rw [t3 l j (by omega) (by omega), if_pos ht, s3 l j (by omega) (by omega), hc]
      rfl
    obtain ⟨u', sol', f1, f2, f3⟩ := ih (shift + (dA + 1)) y s' (by omega)
      (h.step hdA hsq (y1.trans (by omega)) (y2.trans (by omega)) (by omega) (by omega) hd
        (fun i j hi hj t ht => by rw [hs i j hi hj t ht, v3 i j hi hj, if_pos (by omega)]) hv)
      (fun i j hi hj t ht => by
        rw [hv i j hi hj, coeff_add, coeff_mul_X_pow', if_pos (by omega), hud i j hi hj t (by omega), hd i j hi hj _ (by omega), add_zero])
    have hmul : shift + (it + 1) * (dA + 1) = shift + (dA + 1) + it * (dA + 1) := by ring
    rw [hmul]
    exact ⟨u', sol', f1, f2, f3⟩

end PML.Ntl.Solve
