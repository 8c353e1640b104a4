import Verif.Ntl.CLikeRaw
import Mathlib.LinearAlgebra.Matrix.Rank
import Mathlib.LinearAlgebra.Matrix.NonsingularInverse

/-!
# Cauchy-like matrices: the block algorithm
-/

namespace PML.Ntl.CLike

open PML.Ntl.Utils PML.Ntl.Inv PML.Ntl.Solve PML.Ntl.Middle PML.Ntl.Struct

variable {p : Nat} [Fact p.Prime]

theorem Nonsing.neg {s : Nat} {S : Nat → Nat → ZMod p} (h : Nonsing s S) : Nonsing s fun i j => -S i j := by
  intro v hv
  refine h v fun i hi => ?_
  have := hv i hi
  simp only [neg_mul, Finset.sum_neg_distrib, neg_eq_zero] at this
  exact this

theorem nonsing_neg {s : Nat} {S : Nat → Nat → ZMod p} : Nonsing s (fun i j => -S i j) ↔ Nonsing s S :=
  ⟨fun h => by simpa using h.neg, Nonsing.neg⟩

theorem Spanned.neg {m n r : Nat} {S : Nat → Nat → ZMod p} (h : Spanned m n r S) : Spanned m n r fun i j => -S i j := by
  intro i hi
  obtain ⟨c, hc⟩ := h i hi
  exact ⟨c, fun j hj => by simp only [mul_neg, Finset.sum_neg_distrib]; rw [hc j hj]⟩

theorem nonsing_iff_rank {s : Nat} {d : Nat → Nat → ZMod p} : Nonsing s d ↔ (sq s d).rank = s := by
  have key := LinearMap.finrank_range_add_finrank_ker (sq s d).mulVecLin
  rw [Module.finrank_fin_fun] at key
  change (sq s d).rank + _ = s at key
  constructor
  · intro h
    have hk : LinearMap.ker (sq s d).mulVecLin = ⊥ := LinearMap.ker_eq_bot.2 h.inj
    rw [hk, finrank_bot] at key
    exact key
  · intro h
    have hk : LinearMap.ker (sq s d).mulVecLin = ⊥ := Submodule.finrank_eq_zero.1 (by omega)
    have hi := LinearMap.ker_eq_bot.1 hk
    intro v hv j hj
    have e : (sq s d).mulVecLin (fun j : Fin s => v j) = (sq s d).mulVecLin 0 := by
      rw [map_zero]
      funext i
      exact (fin_mulVec d v i).trans (hv i i.2)
    exact congrFun (hi e) ⟨j, hj⟩

/-- An invertible leading block bounds the rank below. -/
theorem rank_ge {r s : Nat} {d : Nat → Nat → ZMod p} (hrs : r ≤ s) (h : Nonsing r d) : r ≤ (sq s d).rank := by
  have e : sq r d = (Matrix.of fun (i : Fin r) (l : Fin s) => if (i : Nat) = l then (1 : ZMod p) else 0) * sq s d *
      (Matrix.of fun (l : Fin s) (j : Fin r) => if (l : Nat) = j then (1 : ZMod p) else 0) := by
    ext i j
    rw [Matrix.mul_apply]
    simp only [Matrix.mul_apply, Matrix.of_apply, sq]
    have h1 : ∀ l : Fin s, (∑ x : Fin s, (if (i : Nat) = x then (1 : ZMod p) else 0) * d x l) = d i l := by
      intro l
      rw [Finset.sum_eq_single (⟨i, by omega⟩ : Fin s)]
      · simp
      · intro b _ hb
        rw [if_neg (fun h => hb (Fin.ext h.symm)), zero_mul]
      · intro h; exact absurd (Finset.mem_univ _) h
    rw [Finset.sum_congr rfl fun l _ => by rw [h1 l]]
    rw [Finset.sum_eq_single (⟨j, by omega⟩ : Fin s)]
    · simp
    · intro b _ hb
      rw [if_neg (fun h => hb (Fin.ext h)), mul_zero]
    · intro h; exact absurd (Finset.mem_univ _) h
  have h2 := nonsing_iff_rank.1 h
  rw [e] at h2
  calc r = _ := h2.symm
    _ ≤ _ := Matrix.rank_mul_le_left _ _
    _ ≤ _ := Matrix.rank_mul_le_right _ _

/-- If all rows are combinations of the first `r` ones, the rank is at most `r`. -/
theorem rank_le {r s : Nat} {d : Nat → Nat → ZMod p} (h : Spanned s s r d) : (sq s d).rank ≤ r := by
  choose c hc using h
  have e : sq s d = (Matrix.of fun (i : Fin s) (l : Fin r) => c i i.2 l) * Matrix.of fun (l : Fin r) (j : Fin s) => d l j := by
    ext i j
    rw [Matrix.mul_apply]
    simp only [Matrix.of_apply, sq]
    rw [hc i i.2 j j.2, ← Fin.sum_univ_eq_sum_range (fun l => c i i.2 l * d l j)]
  rw [e]
  exact (Matrix.rank_mul_le_left _ _).trans (Matrix.rank_le_width _)

theorem inv_right {s : Nat} {d : Nat → Nat → ZMod p} (h : Nonsing s d) {i j : Nat} (hi : i < s) (hj : j < s) :
    ∑ t ∈ Finset.range s, d i t * unsq (sq s d)⁻¹ t j = if i = j then 1 else 0 := by
  have hu : IsUnit (sq s d) := Matrix.mulVec_injective_iff_isUnit.1 h.inj
  have e := Matrix.mul_nonsing_inv (sq s d) ((Matrix.isUnit_iff_isUnit_det _).1 hu)
  have e2 := congrFun (congrFun e ⟨i, hi⟩) ⟨j, hj⟩
  rw [Matrix.mul_apply, Matrix.one_apply] at e2
  rw [← Fin.sum_univ_eq_sum_range (fun t => d i t * unsq (sq s d)⁻¹ t j)]
  rw [show (if i = j then (1 : ZMod p) else 0) = if (⟨i, hi⟩ : Fin s) = ⟨j, hj⟩ then 1 else 0 by simp, ← e2]
  refine Finset.sum_congr rfl fun t _ => ?_
  unfold unsq
  rw [dif_pos ⟨t.2, hj⟩]
  rfl

theorem inv_left {s : Nat} {d : Nat → Nat → ZMod p} (h : Nonsing s d) {i j : Nat} (hi : i < s) (hj : j < s) :
    ∑ t ∈ Finset.range s, unsq (sq s d)⁻¹ i t * d t j = if i = j then 1 else 0 := by
  have hu : IsUnit (sq s d) := Matrix.mulVec_injective_iff_isUnit.1 h.inj
  have e := Matrix.nonsing_inv_mul (sq s d) ((Matrix.isUnit_iff_isUnit_det _).1 hu)
  have e2 := congrFun (congrFun e ⟨i, hi⟩) ⟨j, hj⟩
  rw [Matrix.mul_apply, Matrix.one_apply] at e2
  rw [← Fin.sum_univ_eq_sum_range (fun t => unsq (sq s d)⁻¹ i t * d t j)]
  rw [show (if i = j then (1 : ZMod p) else 0) = if (⟨i, hi⟩ : Fin s) = ⟨j, hj⟩ then 1 else 0 by simp, ← e2]
  refine Finset.sum_congr rfl fun t _ => ?_
  unfold unsq
  rw [dif_pos ⟨hi, t.2⟩]
  rfl

variable {u v rho : ZMod p} {m n : Nat} {w : Invs p} {alpha : Nat}

theorem blockA_below (hw : InvsOK w u v rho m n) (Y Z : Nat × Nat → ZMod p) {k j i : Nat} (hj : k + j < min m n) (hk : k ≤ i) (hi : i < m) :
    blockA alpha m (min m n) w k Y Z i j = mat (genRow alpha Y) (genRow alpha Z) (progr u rho) (progr v rho) i (k + j) := by
  unfold blockA
  dsimp only
  rw [if_neg (by omega), mul_assoc, hw.uv i (k + j) hi (by omega), dotRow_eq, mul_one_div]
  rfl

theorem blockA_above (hw : InvsOK w u v rho m n) (Y Z : Nat × Nat → ZMod p) {k j i : Nat} (hj : k + j < min m n) (hi : i < k) :
    blockA alpha m (min m n) w k Y Z i j = (genRow alpha Y i ⬝ᵥ genRow alpha Z (k + j)) / (progr v rho i - progr v rho (k + j)) := by
  unfold blockA
  dsimp only
  rw [if_pos hi, mul_assoc, hw.vv i (k + j) (by omega) hj, dotRow_eq, mul_one_div, ← neg_sub (progr v rho (k + j)), div_neg, neg_div]

theorem blockB_below (hw : InvsOK w u v rho m n) (Y Z : Nat × Nat → ZMod p) {k j i : Nat} (hj : k + j < min m n) (hk : k ≤ i) (hi : i < n) :
    blockB alpha m (min m n) w k Y Z i j = -mat (genRow alpha Y) (genRow alpha Z) (progr u rho) (progr v rho) (k + j) i := by
  unfold blockB
  dsimp only
  rw [if_neg (by omega), mul_assoc, hw.uv (k + j) i (by omega) hi, dotRow_eq, mul_one_div, dotProduct_comm, neg_div]
  rfl

theorem blockB_above (hw : InvsOK w u v rho m n) (Y Z : Nat × Nat → ZMod p) {k j i : Nat} (hj : k + j < min m n) (hi : i < k) :
    blockB alpha m (min m n) w k Y Z i j = -((genRow alpha Y (k + j) ⬝ᵥ genRow alpha Z i) / (progr u rho (k + j) - progr u rho i)) := by
  unfold blockB
  dsimp only
  rw [if_pos hi, mul_assoc, hw.uu i (k + j) (by omega) hj, dotRow_eq, mul_one_div, dotProduct_comm, neg_div]

theorem blockUpd_row (k step : Nat) (A mul : Nat → Nat → ZMod p) (Y : Nat × Nat → ZMod p) (i : Nat) :
    genRow alpha (blockUpd k step A mul Y) i = if k ≤ i ∧ i < k + step then fun t : Fin alpha => mul (i - k) t
      else genRow alpha Y i + ∑ t ∈ Finset.range step, A i t • fun c : Fin alpha => mul t c := by
  funext t
  unfold genRow blockUpd
  dsimp only
  split_ifs with h
  · rfl
  · simp [Finset.sum_apply]

/-- One turn of the block algorithm. -/
theorem block_sweep (hw : InvsOK w u v rho m n) {Y0 Z0 : Nat → Fin alpha → ZMod p} {k step : Nat} (hk : k + step ≤ min m n) {Y Z : Nat × Nat → ZMod p}
    (hok : CauchyOK u v rho m n) (hu : Distinct u rho (min m n)) (hv : Distinct v rho (min m n))
    (hS : Sweep m n k (progr u rho) (progr v rho) Y0 Z0 (genRow alpha Y) (genRow alpha Z)) {d : Nat → Nat → ZMod p}
    (hd : ∀ i j, d i j = -blockA alpha m (min m n) w k Y Z (i + k) j) (hns : Nonsing step d) :
    Sweep m n (k + step) (progr u rho) (progr v rho) Y0 Z0
      (genRow alpha (blockUpd k step (blockA alpha m (min m n) w k Y Z) (fun i j => ∑ t ∈ Finset.range step, unsq (sq step d)⁻¹ i t * Y (t + k, j)) Y))
      (genRow alpha (blockUpd k step (blockB alpha m (min m n) w k Y Z) (fun i j => ∑ t ∈ Finset.range step, -unsq (sq step d)⁻¹ t i * Z (t + k, j)) Z)) := by
  have hxy : ∀ i j, i < m → j < n → progr u rho i ≠ progr v rho j := hok
  set D := unsq (sq step d)⁻¹ with hD
  have hd' : ∀ i j, i < step → j < step → d i j = -mat (genRow alpha Y) (genRow alpha Z) (progr u rho) (progr v rho) (k + i) (k + j) := by
    intro i j hi hj
    rw [hd i j, blockA_below hw Y Z (by omega) (by omega) (by omega), add_comm i k]
  have eG : ∀ i, (fun c : Fin alpha => ∑ t ∈ Finset.range step, D i t * Y (t + k, c)) = ∑ t ∈ Finset.range step, D i t • genRow alpha Y (k + t) := by
    intro i; funext c
    simp [genRow, Finset.sum_apply, add_comm]
  have eH : ∀ i, (fun c : Fin alpha => ∑ t ∈ Finset.range step, -D t i * Z (t + k, c)) = ∑ t ∈ Finset.range step, -D t i • genRow alpha Z (k + t) := by
    intro i; funext c
    simp [genRow, Finset.sum_apply, add_comm]
  -- the pivot rows
  have pG : ∀ i, i < step → genRow alpha Y (k + i) + ∑ l ∈ Finset.range step,
      mat (genRow alpha Y) (genRow alpha Z) (progr u rho) (progr v rho) (k + i) (k + l) • ∑ t ∈ Finset.range step, D l t • genRow alpha Y (k + t) = 0 := by
    intro i hi
    rw [Finset.sum_congr rfl fun l hl => show _ = -∑ t ∈ Finset.range step, (d i l * D l t) • genRow alpha Y (k + t) by
      rw [show mat (genRow alpha Y) (genRow alpha Z) (progr u rho) (progr v rho) (k + i) (k + l) = -d i l by
        rw [hd' i l hi (Finset.mem_range.1 hl), neg_neg], neg_smul, Finset.smul_sum]
      simp only [smul_smul]]
    rw [Finset.sum_neg_distrib, Finset.sum_comm]
    rw [Finset.sum_congr rfl fun t ht => show _ = (if i = t then (1 : ZMod p) else 0) • genRow alpha Y (k + t) by
      rw [← Finset.sum_smul, inv_right hns hi (Finset.mem_range.1 ht)]]
    simp [hi]
  have pH : ∀ j, j < step → genRow alpha Z (k + j) - ∑ l ∈ Finset.range step,
      mat (genRow alpha Y) (genRow alpha Z) (progr u rho) (progr v rho) (k + l) (k + j) • ∑ t ∈ Finset.range step, -D t l • genRow alpha Z (k + t) = 0 := by
    intro j hj
    rw [Finset.sum_congr rfl fun l hl => show _ = ∑ t ∈ Finset.range step, (D t l * d l j) • genRow alpha Z (k + t) by
      rw [show mat (genRow alpha Y) (genRow alpha Z) (progr u rho) (progr v rho) (k + l) (k + j) = -d l j by
        rw [hd' l j (Finset.mem_range.1 hl) hj, neg_neg], Finset.smul_sum]
      refine Finset.sum_congr rfl fun t _ => ?_
      rw [smul_smul, neg_mul_neg, mul_comm]]
    rw [Finset.sum_comm]
    rw [Finset.sum_congr rfl fun t ht => show _ = (if t = j then (1 : ZMod p) else 0) • genRow alpha Z (k + t) by
      rw [← Finset.sum_smul, inv_left hns (Finset.mem_range.1 ht) hj]]
    simp [hj]
  have rG : ∀ l, l < step → genRow alpha (blockUpd k step (blockA alpha m (min m n) w k Y Z) (fun i j => ∑ t ∈ Finset.range step, D i t * Y (t + k, j)) Y) (k + l) =
      ∑ t ∈ Finset.range step, D l t • genRow alpha Y (k + t) := by
    intro l hl
    rw [blockUpd_row, if_pos (by omega), show k + l - k = l by omega, eG]
  have rH : ∀ l, l < step → genRow alpha (blockUpd k step (blockB alpha m (min m n) w k Y Z) (fun i j => ∑ t ∈ Finset.range step, -D t i * Z (t + k, j)) Z) (k + l) =
      ∑ t ∈ Finset.range step, -D t l • genRow alpha Z (k + t) := by
    intro l hl
    rw [blockUpd_row, if_pos (by omega), show k + l - k = l by omega, eH]
  refine hS.comp hxy ?_ ?_ ?_ ?_ ?_
  · refine ⟨by omega, by omega, ?_, ?_, ?_⟩
    · intro x hx
      refine hns x fun i hi => ?_
      have := hx i hi
      rw [Finset.sum_congr rfl fun j hj => show d i j * x j = -(mat (genRow alpha Y) (genRow alpha Z) (progr u rho) (progr v rho) (k + i) (k + j) * x j) by
        rw [hd' i j hi (Finset.mem_range.1 hj), neg_mul], Finset.sum_neg_distrib, neg_eq_zero]
      exact this
    · intro i hi
      show genRow alpha Y (k + i) + ∑ l ∈ Finset.range step, mat (genRow alpha Y) (genRow alpha Z) (progr u rho) (progr v rho) (k + i) (k + l) • _ = _
      rw [Finset.sum_congr rfl fun l hl => by rw [rG l (Finset.mem_range.1 hl)]]
      by_cases h : i < step
      · rw [if_pos h, pG i h]
      · rw [if_neg h, blockUpd_row, if_neg (by omega)]
        congr 1
        refine Finset.sum_congr rfl fun l hl => ?_
        rw [eG, blockA_below hw Y Z (by have := Finset.mem_range.1 hl; omega) (by omega) (by omega)]
    · intro j hj
      show genRow alpha Z (k + j) - ∑ l ∈ Finset.range step, mat (genRow alpha Y) (genRow alpha Z) (progr u rho) (progr v rho) (k + l) (k + j) • _ = _
      rw [Finset.sum_congr rfl fun l hl => by rw [rH l (Finset.mem_range.1 hl)]]
      by_cases h : j < step
      · rw [if_pos h, pH j h]
      · rw [if_neg h, blockUpd_row, if_neg (by omega), sub_eq_add_neg, ← Finset.sum_neg_distrib]
        congr 1
        refine Finset.sum_congr rfl fun l hl => ?_
        rw [eH, blockB_below hw Y Z (by have := Finset.mem_range.1 hl; omega) (by omega) (by omega), neg_smul]
  · intro l t hl ht
    exact hv l (k + t) (by omega) (by omega)
  · intro l t hl ht
    exact hu l (k + t) (by omega) (by omega)
  · intro l hl
    conv_lhs => rw [blockUpd_row, if_neg (by omega)]
    congr 1
    refine Finset.sum_congr rfl fun t ht => ?_
    have ht := Finset.mem_range.1 ht
    rw [eG, rG t ht, blockA_above hw Y Z (by omega) hl]
  · intro l hl
    conv_lhs => rw [blockUpd_row, if_neg (by omega)]
    rw [sub_eq_add_neg, ← Finset.sum_neg_distrib]
    congr 1
    refine Finset.sum_congr rfl fun t ht => ?_
    have ht := Finset.mem_range.1 ht
    rw [eH, rH t ht, blockB_above hw Y Z (by omega) hl, neg_smul]

/-- The turn after a block which was not invertible. -/
theorem blockLoop_early (hw : InvsOK w u v rho m n) {Y0 Z0 : Nat → Fin alpha → ZMod p} (hok : CauchyOK u v rho m n)
    (hu : Distinct u rho (min m n)) (hv : Distinct v rho (min m n)) (f : Nat) {k step : Nat} {Y Z : Nat × Nat → ZMod p} (hk : k + step < min m n)
    (hS : Sweep m n k (progr u rho) (progr v rho) Y0 Z0 (genRow alpha Y) (genRow alpha Z))
    (hr : (sq step fun i j => -blockA alpha m (min m n) w k Y Z (i + k) j).rank = step)
    (hno : ¬Nonsing (k + step + 1) (mat Y0 Z0 (progr u rho) (progr v rho))) :
    ∃ o, blockLoop alpha m n w (f + 1) k step true Y Z = .ok o ∧ Exact m n (progr u rho) (progr v rho) Y0 Z0 o := by
  have hxy : ∀ i j, i < m → j < n → progr u rho i ≠ progr v rho j := hok
  unfold blockLoop
  dsimp only
  rw [if_neg (by omega), show min step (min m n - k) = step by omega, if_neg (by omega), if_pos rfl]
  have hS' := block_sweep hw (k := k) (step := step) (by omega) hok hu hv hS (fun _ _ => rfl) (nonsing_iff_rank.2 hr)
  set Y' := blockUpd k step (blockA alpha m (min m n) w k Y Z) (fun i j => ∑ t ∈ Finset.range step,
    unsq (sq step fun i j => -blockA alpha m (min m n) w k Y Z (i + k) j)⁻¹ i t * Y (t + k, j)) Y with hY'
  set Z' := blockUpd k step (blockB alpha m (min m n) w k Y Z) (fun i j => ∑ t ∈ Finset.range step,
    -unsq (sq step fun i j => -blockA alpha m (min m n) w k Y Z (i + k) j)⁻¹ t i * Z (t + k, j)) Z with hZ'
  by_cases ha : ((List.range (m - (k + step))).any fun a => (List.range (n - (k + step))).any fun b =>
      decide (dotRow alpha Y' Z' (k + step + a) (k + step + b) ≠ 0)) = true
  · rw [if_pos ha]
    obtain ⟨a, b, h1, h2, h3, h4, h⟩ := any_dot_iff.1 ha
    exact ⟨_, rfl, fun _ => hS'.no_profile hxy hno h1 h2 h3 h4 h, fun r Y Z h => by cases h⟩
  · rw [if_neg ha]
    refine ⟨_, rfl, fun h => (by cases h), ?_⟩
    rintro r Y2 Z2 h
    cases h
    refine ⟨hS', hS'.spanned hxy fun i j h1 h2 h3 h4 => ?_⟩
    by_contra hne
    exact ha (any_dot_iff.2 ⟨i, j, h1, h2, h3, h4, hne⟩)

theorem blockLoop_spec (hw : InvsOK w u v rho m n) {Y0 Z0 : Nat → Fin alpha → ZMod p} (hok : CauchyOK u v rho m n)
    (hu : Distinct u rho (min m n)) (hv : Distinct v rho (min m n)) : ∀ (f k step : Nat) (Y Z : Nat × Nat → ZMod p), min m n - k + 2 ≤ f → 0 < step →
    Sweep m n k (progr u rho) (progr v rho) Y0 Z0 (genRow alpha Y) (genRow alpha Z) →
    ∃ o, blockLoop alpha m n w f k step false Y Z = .ok o ∧ Exact m n (progr u rho) (progr v rho) Y0 Z0 o
  | 0, k, step, Y, Z, hf, _, _ => by omega
  | f + 1, k, step, Y, Z, hf, hst, hS => by
    have hxy : ∀ i j, i < m → j < n → progr u rho i ≠ progr v rho j := hok
    unfold blockLoop
    dsimp only
    by_cases hkN : min m n ≤ k
    · rw [if_pos hkN]
      refine ⟨_, rfl, fun h => (by cases h), ?_⟩
      rintro r Y' Z' h
      cases h
      exact ⟨hS, hS.spanned hxy fun i j h1 h2 h3 h4 => by omega⟩
    rw [if_neg hkN]
    have hst' : 0 < min step (min m n - k) := by omega
    have hle : k + min step (min m n - k) ≤ min m n := by omega
    generalize min step (min m n - k) = step at hst' hle ⊢
    generalize hd : (fun i j => -blockA alpha m (min m n) w k Y Z (i + k) j) = d
    have hd' : ∀ i j, d i j = -blockA alpha m (min m n) w k Y Z (i + k) j := fun i j => by rw [← hd]
    have hdS : ∀ i j, i < step → j < step → d i j = -mat (genRow alpha Y) (genRow alpha Z) (progr u rho) (progr v rho) (k + i) (k + j) := by
      intro i j hi hj
      rw [hd' i j, blockA_below hw Y Z (by omega) (by omega) (by omega), add_comm i k]
    by_cases hrk : (sq step d).rank < step
    · rw [if_pos hrk]
      -- the leading blocks of the matrix and of `d`
      have hblock : ∀ s, s ≤ step → Nonsing (k + s) (mat Y0 Z0 (progr u rho) (progr v rho)) → Nonsing s d := by
        intro s hs hns
        have h1 := (hS.nonsing_schur hxy (by omega) (by omega) hns).neg
        intro x hx
        refine h1 x fun i hi => ?_
        rw [← hx i hi]
        exact Finset.sum_congr rfl fun j hj => by rw [hdS i j (by omega) (by have := Finset.mem_range.1 hj; omega)]
      by_cases hrk2 : (sq (sq step d).rank d).rank ≠ (sq step d).rank
      · rw [if_pos hrk2]
        refine ⟨_, rfl, fun _ hg => ?_, fun r Y Z h => by cases h⟩
        obtain ⟨r, h1, h2, h3, h4⟩ := (hS.profile_schur hxy hg).block (N := step) (by omega) (by omega)
        have h3' : ∀ j, j ≤ r → Nonsing j d := by
          intro j hj x hx
          refine (h3 j hj).neg x fun i hi => ?_
          rw [← hx i hi]
          exact Finset.sum_congr rfl fun l hl => by rw [hdS i l (by omega) (by have := Finset.mem_range.1 hl; omega)]
        have h4' : Spanned step step r d := by
          intro i hi
          obtain ⟨c, hc⟩ := h4.neg i hi
          refine ⟨c, fun j hj => ?_⟩
          refine (hdS i j hi hj).trans ((hc j hj).trans ?_)
          exact Finset.sum_congr rfl fun l hl => by rw [hdS l j (by have := Finset.mem_range.1 hl; omega) hj]
        have e : (sq step d).rank = r := le_antisymm (rank_le h4') (rank_ge h1 (h3' r (le_refl _)))
        rw [e] at hrk2
        exact hrk2 (nonsing_iff_rank.1 (h3' r (le_refl _)))
      · rw [if_neg hrk2]
        obtain ⟨f, rfl⟩ : ∃ g, f = g + 1 := ⟨f - 1, by omega⟩
        refine blockLoop_early hw hok hu hv f (by omega) hS ?_ ?_
        · rw [hd]; exact not_not.1 hrk2
        · intro hns
          have := rank_ge (r := (sq step d).rank + 1) (s := step) (by omega) (hblock ((sq step d).rank + 1) (by omega) (by rwa [← Nat.add_assoc]))
          omega
    · rw [if_neg hrk]
      have hr : (sq step d).rank = step := le_antisymm (Matrix.rank_le_width _) (by omega)
      have hS' := block_sweep hw hle hok hu hv hS hd' (nonsing_iff_rank.2 hr)
      simp only [Bool.false_eq_true, if_false]
      exact blockLoop_spec hw hok hu hv f (k + step) step _ _ (by omega) hst' hS'

/-- The block algorithm, for at least one generator. -/
theorem invertBlock_spec {Y Z : PMat (ZMod p)} (hr : rho ≠ 0) (hm : 0 < Y.rows) (hn : 0 < Z.rows) (ha : 0 < Y.cols) (hg : Z.cols = Y.cols)
    (hok : CauchyOK u v rho Y.rows Z.rows) (hu : Distinct u rho (min Y.rows Z.rows)) (hv : Distinct v rho (min Y.rows Z.rows)) :
    ∃ o, invertBlock Y Z u v rho = .ok (takeRows Y.cols o) ∧
      Exact Y.rows Z.rows (progr u rho) (progr v rho) (genRow Y.cols Y.e) (genRow Y.cols Z.e) o := by
  obtain ⟨w, ew, hw⟩ := prepare_ok hr hm hn hok hu hv
  unfold invertBlock
  dsimp only
  rw [ew]
  obtain ⟨o, eo, h1⟩ := blockLoop_spec hw hok hu hv (min Y.rows Z.rows + 2) 0 Y.cols Y.e Z.e (by omega) ha (Sweep.zero _ _ _ _)
  refine ⟨o, ?_, h1⟩
  show (if 0 < min Y.rows Z.rows ∧ Z.cols ≠ Y.cols then Out.error else
    andThen (blockLoop Y.cols Y.rows Z.rows w (min Y.rows Z.rows + 2) 0 Y.cols false Y.e Z.e) _) = _
  rw [if_neg (by omega), eo]; rfl

/-- Without generators, the block algorithm never stops. -/
theorem blockLoop_forever (w : Invs p) (hN : 0 < min m n) (Y Z : Nat × Nat → ZMod p) : ∀ f, blockLoop 0 m n w f 0 0 false Y Z = .loops
  | 0 => rfl
  | f + 1 => by
    unfold blockLoop
    dsimp only
    rw [if_neg (by omega), Nat.zero_min, if_neg (by omega)]
    simp only [Bool.false_eq_true, if_false, Nat.add_zero]
    have e : ∀ (A mul : Nat → Nat → ZMod p) (X : Nat × Nat → ZMod p), blockUpd 0 0 A mul X = X := by
      intro A mul X
      funext ij
      unfold blockUpd
      rw [if_neg (by omega)]
      simp
    rw [e, e]
    exact blockLoop_forever w hN Y Z f

end PML.Ntl.CLike
