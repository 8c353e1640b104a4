import Verif.Ntl.LiftSpec
import Verif.Ntl.SolveLemmas
import Mathlib.RingTheory.PowerSeries.Inverse

/-!
# Lemmas for C74: shifted power series and their residues
-/

namespace PML.Ntl.Lift

open PML.Ntl.Utils PML.Ntl.Inv PML.Ntl.Solve

section Series

variable {F : Type} [Field F]

local notation "cf" => PowerSeries.coeff (R := F)

/-- The series without its `J` first coefficients. -/
noncomputable def sh (J : Nat) (f : PowerSeries F) : PowerSeries F := PowerSeries.mk fun n => cf (n + J) f

theorem coeff_sh (J n : Nat) (f : PowerSeries F) : cf n (sh J f) = cf (n + J) f := PowerSeries.coeff_mk _ _

theorem coeff_mul_congr {n : Nat} {f f' g g' : PowerSeries F} (hf : ∀ t, t ≤ n → cf t f = cf t f') (hg : ∀ t, t ≤ n → cf t g = cf t g') :
    cf n (f * g) = cf n (f' * g') := by
  rw [PowerSeries.coeff_mul, PowerSeries.coeff_mul]
  refine Finset.sum_congr rfl fun x hx => ?_
  have := Finset.mem_antidiagonal.1 hx
  rw [hf _ (by omega), hg _ (by omega)]

theorem cmul_coeff_congr {s n i j : Nat} {f f' g g' : Nat × Nat → PowerSeries F} (hf : ∀ l, l < s → ∀ t, t ≤ n → cf t (f (i, l)) = cf t (f' (i, l)))
    (hg : ∀ l, l < s → ∀ t, t ≤ n → cf t (g (l, j)) = cf t (g' (l, j))) : cf n (cmul s f g (i, j)) = cf n (cmul s f' g' (i, j)) := by
  unfold cmul
  rw [map_sum, map_sum]
  refine Finset.sum_congr rfl fun l hl => ?_
  have hl := Finset.mem_range.1 hl
  exact coeff_mul_congr (hf l hl) (hg l hl)

/-- A product with a polynomial of degree at most `d`. -/
theorem coeff_mul_low {d n : Nat} {p : PowerSeries F} (f : PowerSeries F) (hp : ∀ u, d < u → cf u p = 0) (hn : d ≤ n) :
    cf n (p * f) = ∑ u ∈ Finset.range (d + 1), cf u p * cf (n - u) f := by
  rw [PowerSeries.coeff_mul, Finset.Nat.sum_antidiagonal_eq_sum_range_succ_mk]
  symm
  refine Finset.sum_subset (fun x hx => ?_) fun x _ hx => ?_
  · have := Finset.mem_range.1 hx
    exact Finset.mem_range.2 (by omega)
  · have : ¬x < d + 1 := fun h => hx (Finset.mem_range.2 h)
    rw [hp x (by omega), zero_mul]

theorem coeff_mul_sh {d n : Nat} {p : PowerSeries F} (f : PowerSeries F) (J : Nat) (hp : ∀ u, d < u → cf u p = 0) (hn : d ≤ n) :
    cf n (p * sh J f) = cf (n + J) (p * f) := by
  rw [coeff_mul_low _ hp hn, coeff_mul_low _ hp (by omega)]
  refine Finset.sum_congr rfl fun u hu => ?_
  have := Finset.mem_range.1 hu
  rw [coeff_sh, show n - u + J = n + J - u by omega]

/-- The middle coefficients of the product by a slice of `h` are coefficients of the product by `h`. -/
theorem coeff_mul_slice {d o n : Nat} {S h r : PowerSeries F} (hd : 1 ≤ d) (hS : ∀ t, t < 2 * d - 1 → cf t S = cf (o + t) h)
    (hr : ∀ u, d ≤ u → cf u r = 0) (hn : n < d) : cf (d - 1 + n) (S * r) = cf (o + (d - 1) + n) (h * r) := by
  rw [mul_comm S, mul_comm h, coeff_mul_low (d := d - 1) _ (fun u hu => hr u (by omega)) (by omega),
    coeff_mul_low (d := d - 1) _ (fun u hu => hr u (by omega)) (by omega)]
  refine Finset.sum_congr rfl fun u hu => ?_
  have := Finset.mem_range.1 hu
  rw [hS _ (by omega), show o + (d - 1 + n - u) = o + (d - 1) + n - u by omega]

theorem cmul_left_inv {s : Nat} {h a : Nat × Nat → PowerSeries F} (hl : ∀ i j, i < s → j < s → cmul s h a (i, j) = if i = j then 1 else 0)
    (g : Nat × Nat → PowerSeries F) (i j : Nat) (hi : i < s) : cmul s h (cmul s a g) (i, j) = g (i, j) := by
  rw [← cmul_assoc]
  show ∑ k ∈ Finset.range s, cmul s h a (i, k) * g (k, j) = _
  rw [Finset.sum_congr rfl fun k hk => by rw [hl i k hi (Finset.mem_range.1 hk), ite_mul, one_mul, zero_mul], Finset.sum_ite_eq,
    if_pos (Finset.mem_range.2 hi)]

/-- The residue of order `J`: `a` times the series without its `J` first coefficients. -/
noncomputable def res (s : Nat) (a g : Nat × Nat → PowerSeries F) (J : Nat) (ij : Nat × Nat) : PowerSeries F := cmul s a (fun x => sh J (g x)) ij

/-- Residues are polynomials of degree less than `d`, if the product `a g` is one and `a` has degree at most `d`. -/
theorem res_high {s d : Nat} {a g : Nat × Nat → PowerSeries F} {i j : Nat} (ha : ∀ l, l < s → ∀ u, d < u → cf u (a (i, l)) = 0)
    (hg : ∀ u, d ≤ u → cf u (cmul s a g (i, j)) = 0) (J n : Nat) (hn : d ≤ n) : cf n (res s a g J (i, j)) = 0 := by
  have := hg (n + J) (by omega)
  rw [← this]
  unfold res cmul
  rw [map_sum, map_sum]
  exact Finset.sum_congr rfl fun l hl => coeff_mul_sh _ J (ha l (Finset.mem_range.1 hl)) hn

/-- The coefficients of `g` from the slice and a residue. -/
theorem next_coeff {s d o J : Nat} {a h g S r : Nat × Nat → PowerSeries F} {i j : Nat} (hd : 1 ≤ d) (hi : i < s)
    (hl : ∀ i j, i < s → j < s → cmul s h a (i, j) = if i = j then 1 else 0)
    (ha : ∀ k l, k < s → l < s → ∀ u, d < u → cf u (a (k, l)) = 0) (hg : ∀ k, k < s → ∀ u, d ≤ u → cf u (cmul s a g (k, j)) = 0)
    (hS : ∀ l, l < s → ∀ t, t < 2 * d - 1 → cf t (S (i, l)) = cf (o + t) (h (i, l))) (hr : ∀ l, l < s → r (l, j) = res s a g J (l, j))
    (n : Nat) (hn : n < d) : cf (d - 1 + n) (cmul s S r (i, j)) = cf (o + (d - 1) + n + J) (g (i, j)) := by
  have h1 : cf (d - 1 + n) (cmul s S r (i, j)) = cf (o + (d - 1) + n) (cmul s h (res s a g J) (i, j)) := by
    unfold cmul
    rw [map_sum, map_sum]
    refine Finset.sum_congr rfl fun l hlm => ?_
    have hlm := Finset.mem_range.1 hlm
    dsimp only
    rw [hr l hlm]
    exact coeff_mul_slice hd (hS l hlm) (fun u hu => res_high (fun k hk => ha l k hlm hk) (hg l hlm) J u hu) hn
  rw [h1]
  have h2 : cmul s h (res s a g J) (i, j) = sh J (g (i, j)) := cmul_left_inv hl (fun x => sh J (g x)) i j hi
  rw [h2, coeff_sh]

/-- The low coefficients of a residue. -/
theorem low_residue {s d K : Nat} {a g N : Nat × Nat → PowerSeries F} {i j : Nat}
    (hN : ∀ l, l < s → ∀ n, n < d → cf n (N (l, j)) = cf (n + K) (g (l, j))) (n : Nat) (hn : n < d) :
    cf n (cmul s a N (i, j)) = cf n (res s a g K (i, j)) :=
  cmul_coeff_congr (fun _ _ _ _ => rfl) fun l hl t ht => by rw [hN l hl t (by omega), coeff_sh]

/-- The high coefficients of the product by `d` coefficients of `g` are the opposite of the next residue. -/
theorem upper_residue {s d K : Nat} {a g N : Nat × Nat → PowerSeries F} {i j : Nat} (ha : ∀ l, l < s → ∀ u, d < u → cf u (a (i, l)) = 0)
    (hg : ∀ u, d ≤ u → cf u (cmul s a g (i, j)) = 0)
    (hN : ∀ l, l < s → ∀ n, cf n (N (l, j)) = if n < d then cf (n + K) (g (l, j)) else 0) (t : Nat) :
    cf (d + t) (cmul s a N (i, j)) = -cf t (res s a g (K + d) (i, j)) := by
  have h1 : res s a g K (i, j) = cmul s a N (i, j) + PowerSeries.X ^ d * res s a g (K + d) (i, j) := by
    unfold res cmul
    rw [Finset.mul_sum, ← Finset.sum_add_distrib]
    refine Finset.sum_congr rfl fun l hl => ?_
    have hl := Finset.mem_range.1 hl
    have : sh K (g (l, j)) = N (l, j) + PowerSeries.X ^ d * sh (K + d) (g (l, j)) := by
      ext n
      rw [map_add, hN l hl, PowerSeries.coeff_X_pow_mul', coeff_sh]
      by_cases h : n < d
      · rw [if_pos h, if_neg (by omega), add_zero]
      · rw [if_neg h, if_pos (by omega), coeff_sh, zero_add, show n - d + (K + d) = n + K by omega]
    dsimp only
    rw [this]
    ring
  have h2 := res_high ha hg K (d + t) (by omega)
  rw [h1, map_add, add_comm d t, PowerSeries.coeff_X_pow_mul] at h2
  rw [add_comm d t]
  exact eq_neg_of_add_eq_zero_left h2

/-- Product of the inverse and of the opposite of a residue. -/
theorem inv_residue {s K c : Nat} {a h g I m : Nat × Nat → PowerSeries F} {i j : Nat} (hi : i < s)
    (hl : ∀ i j, i < s → j < s → cmul s h a (i, j) = if i = j then 1 else 0) (e : F)
    (hI : ∀ l, l < s → ∀ t, t < c → cf t (I (i, l)) = cf t (h (i, l)))
    (hm : ∀ l, l < s → ∀ t, t < c → cf t (m (l, j)) = e * cf t (res s a g K (l, j))) (t : Nat) (ht : t < c) :
    cf t (cmul s I m (i, j)) = e * cf (t + K) (g (i, j)) := by
  have h1 : cf t (cmul s I m (i, j)) = cf t (cmul s h (fun x => PowerSeries.C e * res s a g K x) (i, j)) :=
    cmul_coeff_congr (fun l hl u hu => hI l hl u (by omega)) fun l hl u hu => by rw [hm l hl u (by omega), PowerSeries.coeff_C_mul]
  have h2 : cmul s h (fun x => PowerSeries.C e * res s a g K x) (i, j) = PowerSeries.C e * cmul s h (res s a g K) (i, j) := by
    unfold cmul
    rw [Finset.mul_sum]
    exact Finset.sum_congr rfl fun l _ => by ring
  have h3 : cmul s h (res s a g K) (i, j) = sh K (g (i, j)) := cmul_left_inv hl (fun x => sh K (g x)) i j hi
  rw [h1, h2, h3, PowerSeries.coeff_C_mul, coeff_sh]

end Series

open Polynomial

variable {F : Type} [Field F]

/-- Series of the entries. -/
noncomputable def ser (e : Nat × Nat → F[X]) (ij : Nat × Nat) : PowerSeries F := (e ij : PowerSeries F)

theorem coeff_ser (e : Nat × Nat → F[X]) (ij : Nat × Nat) (n : Nat) : PowerSeries.coeff n (ser e ij) = (e ij).coeff n := coeff_coe _ _

theorem ser_cmul (s : Nat) (a b : Nat × Nat → F[X]) (ij : Nat × Nat) : cmul s (ser a) (ser b) ij = ((cmul s a b ij : F[X]) : PowerSeries F) := by
  unfold cmul ser
  rw [← coeToPowerSeries.ringHom_apply, map_sum]
  refine Finset.sum_congr rfl fun l _ => ?_
  rw [coeToPowerSeries.ringHom_apply, coe_mul]

theorem coeff_ser_cmul (s : Nat) (a b : Nat × Nat → F[X]) (ij : Nat × Nat) (n : Nat) :
    PowerSeries.coeff n (cmul s (ser a) (ser b) ij) = (cmul s a b ij).coeff n := by rw [ser_cmul, coeff_coe]

/-- The inverse exists. -/
theorem seriesInv_exists {A : PMat F[X]} (hc : ConstInv A) : ∃ h, IsSeriesInv A h := by
  obtain ⟨W, hW⟩ := hc
  generalize hs : A.rows = s at *
  have h1 : toM s W * toM s (fun x => (A.e x).coeff 0) = 1 := by
    rw [toM_mul, ← toM_one, toM_eq]
    intro i j hi hj
    exact hW i j hi hj
  have h2 : (toM s (ser A.e)).map (PowerSeries.constantCoeff (R := F)) = toM s (fun x => (A.e x).coeff 0) := by
    ext i j
    rw [Matrix.map_apply, toM_apply, toM_apply, ← PowerSeries.coeff_zero_eq_constantCoeff_apply, coeff_ser]
  have h3 : IsUnit (toM s (ser A.e)).det := by
    rw [PowerSeries.isUnit_iff_constantCoeff, RingHom.map_det, RingHom.mapMatrix_apply, h2]
    exact (Matrix.isUnit_iff_isUnit_det _).1 ⟨⟨_, _, mul_eq_one_comm.1 h1, h1⟩, rfl⟩
  obtain ⟨u, hu⟩ := (Matrix.isUnit_iff_isUnit_det _).2 h3
  have e1 : toM s (fun ij => if h : ij.1 < s ∧ ij.2 < s then (↑u⁻¹ : Matrix (Fin s) (Fin s) (PowerSeries F)) ⟨ij.1, h.1⟩ ⟨ij.2, h.2⟩ else 0) = ↑u⁻¹ := by
    ext i j
    rw [toM_apply, dif_pos ⟨i.2, j.2⟩]
  refine ⟨fun ij => if h : ij.1 < s ∧ ij.2 < s then (↑u⁻¹ : Matrix (Fin s) (Fin s) (PowerSeries F)) ⟨ij.1, h.1⟩ ⟨ij.2, h.2⟩ else 0, ?_, ?_⟩
  · rw [hs]
    have : toM s (fun ij => if h : ij.1 < s ∧ ij.2 < s then (↑u⁻¹ : Matrix (Fin s) (Fin s) (PowerSeries F)) ⟨ij.1, h.1⟩ ⟨ij.2, h.2⟩ else 0) * toM s (ser A.e) = 1 := by
      rw [e1, ← hu, Units.inv_mul]
    rw [toM_mul, ← toM_one, toM_eq] at this
    exact this
  · rw [hs]
    have : toM s (ser A.e) * toM s (fun ij => if h : ij.1 < s ∧ ij.2 < s then (↑u⁻¹ : Matrix (Fin s) (Fin s) (PowerSeries F)) ⟨ij.1, h.1⟩ ⟨ij.2, h.2⟩ else 0) = 1 := by
      rw [e1, ← hu, Units.mul_inv]
    rw [toM_mul, ← toM_one, toM_eq] at this
    exact this

/-- The truncated inverse is made of the first coefficients of the inverse. -/
theorem slice_of_inv {A x : PMat F[X]} {m : Nat} (hI : IsInvTrunc A m x) {h : Nat × Nat → PowerSeries F} (hh : IsSeriesInv A h) : IsSlice A.rows h 0 m x := by
  refine ⟨hI.rows, hI.cols, fun i j hi hj t => ?_⟩
  by_cases ht : t < m
  · rw [if_pos ht, Nat.zero_add]
    -- x = x (A h) = (x A) h
    have h1 : cmul A.rows (cmul A.rows (ser x.e) (ser A.e)) h (i, j) = ser x.e (i, j) := by
      rw [cmul_assoc]
      exact cmul_one _ _ _ i j hj fun l hl => hh.right l j hl hj
    rw [← coeff_ser, ← h1]
    have h2 : PowerSeries.coeff t (cmul A.rows (cmul A.rows (ser x.e) (ser A.e)) h (i, j)) =
        PowerSeries.coeff t (cmul A.rows (fun ij => if ij.1 = ij.2 then 1 else 0) h (i, j)) := by
      refine cmul_coeff_congr (fun l hl u hu => ?_) fun _ _ _ _ => rfl
      rw [coeff_ser_cmul]
      have := hI.left i l hi hl u (by omega)
      refine this.trans ?_
      dsimp only
      by_cases hil : i = l
      · rw [if_pos hil, PowerSeries.coeff_one]
        by_cases hu0 : u = 0
        · rw [if_pos ⟨hil, hu0⟩, if_pos hu0]
        · rw [if_neg (fun h => hu0 h.2), if_neg hu0]
      · rw [if_neg hil, if_neg (fun h => hil h.1), map_zero]
    rw [h2]
    congr 1
    show ∑ k ∈ Finset.range A.rows, (if i = k then (1 : PowerSeries F) else 0) * h (k, j) = _
    rw [Finset.sum_congr rfl fun k _ => by rw [ite_mul, one_mul, zero_mul], Finset.sum_ite_eq, if_pos (Finset.mem_range.2 hi)]
  · rw [if_neg ht, hI.deg i j hi hj t (by omega)]

end PML.Ntl.Lift
