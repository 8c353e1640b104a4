import Verif.Ntl.CLikeMul
import Verif.Ntl.SweepTheory

/-!
# Cauchy-like matrices: the direct algorithm
-/

namespace PML.Ntl.CLike

open PML.Ntl.Utils PML.Ntl.Inv PML.Ntl.Solve PML.Ntl.Middle PML.Ntl.Struct

variable {p : Nat} [Fact p.Prime]

/-- The first `N` elements of the progression are distinct. -/
def Distinct (u rho : ZMod p) (N : Nat) : Prop := ∀ i j, i < j → j < N → progr u rho i ≠ progr u rho j

theorem fwdDen_spec {u v rho : ZMod p} {m n : Nat} (hr : rho ≠ 0) (hk : 0 < m + n - 1) (x : Nat) (hx : x < m + n - 1) :
    fwdDen u v rho m n x = u - v * rho ^ ((x : Int) - ((m : Int) - 1)) := by
  unfold fwdDen
  dsimp only
  generalize hK : m + n - 1 = k at hk hx
  rw [show m + n - 2 = k - 1 by omega]
  have inv := forN_inv (n := k - 1) (P := fun (i : Nat) (d : Nat → ZMod p) =>
      (∀ y, y < i → d y = u - v * rho ^ ((y : Int) - ((m : Int) - 1))) ∧ d i = -v * rho ^ ((i : Int) - ((m : Int) - 1)))
    (s := write 0 (-v * rho⁻¹ ^ ((m : Int) - 1)) fun _ => 0)
    (f := fun i d =>
      let d := write (i + 1) (d i * rho) d
      write i (d i + u) d) (by
      refine ⟨fun y hy => by omega, ?_⟩
      unfold write
      rw [Function.update_self, inv_zpow', Nat.cast_zero, zero_sub]) (by
      intro i d hi hd
      dsimp only
      unfold write
      constructor
      · intro y hy
        by_cases h : y = i
        · rw [h, Function.update_self, Function.update_of_ne (by omega), hd.2]; ring
        · rw [Function.update_of_ne h, Function.update_of_ne (by omega), hd.1 y (by omega)]
      · rw [Function.update_of_ne (by omega), Function.update_self, hd.2, mul_assoc, ← zpow_add_one₀ hr]
        congr 2; push_cast; ring)
  unfold write at inv ⊢
  by_cases h : x = k - 1
  · rw [h, Function.update_self, inv.2]; ring
  · rw [Function.update_of_ne h, inv.1 x (by omega)]

/-- The vectors of inverses are right. -/
structure InvsOK (w : Invs p) (u v rho : ZMod p) (m n : Nat) : Prop where
  uv : ∀ i j, i < m → j < n → w.irho i * w.iuv (j + (m - 1) - i) = 1 / (progr u rho i - progr v rho j)
  uu : ∀ i k, i < k → k < min m n → w.irho k * w.iuu (i + (min m n - 1) - k) = 1 / (progr u rho k - progr u rho i)
  vv : ∀ i k, i < k → k < min m n → w.irho k * w.ivv (i + (min m n - 1) - k) = 1 / (progr v rho k - progr v rho i)

theorem den_prog {u v rho : ZMod p} (hr : rho ≠ 0) (i j : Nat) : u - v * rho ^ ((j : Int) - i) = (progr u rho i - progr v rho j) * rho⁻¹ ^ i :=
  den_eq hr i j

/-- The inverses, for `m` rows and `n` columns. -/
theorem fwd_full {u v rho : ZMod p} {m n : Nat} (hr : rho ≠ 0) (hm : 0 < m) (hn : 0 < n) (hok : CauchyOK u v rho m n) :
    ∃ w, fwdInverses u v rho m n = .ok w ∧ ∀ i j, i < m → j < n → rho⁻¹ ^ i * w.e (j + (m - 1) - i) = 1 / (progr u rho i - progr v rho j) := by
  unfold fwdInverses
  rw [if_neg hr, if_neg (by omega), if_neg (by omega)]
  have hne : ∀ e, e < m + n - 1 → fwdDen u v rho m n e ≠ 0 := by
    intro e he
    rw [fwdDen_spec hr (by omega) e he]
    obtain ⟨i, j, hi, hj, h⟩ : ∃ i j, i < m ∧ j < n ∧ e + i = j + (m - 1) := by
      by_cases h : e ≤ m - 1
      · exact ⟨m - 1 - e, 0, by omega, by omega, by omega⟩
      · exact ⟨0, e - (m - 1), by omega, by omega, by omega⟩
    rw [show (e : Int) - ((m : Int) - 1) = (j : Int) - i by omega, den_prog hr]
    exact mul_ne_zero (sub_ne_zero.2 (hok i j hi hj)) (pow_ne_zero _ (inv_ne_zero hr))
  rw [((PML.Ntl.Order.C64_inv (m + n - 1) (fwdDen u v rho m n) fun _ => 0).1 hne).1]
  refine ⟨_, rfl, fun i j hi hj => ?_⟩
  dsimp only
  rw [if_pos (by omega), fwdDen_spec hr (by omega) _ (by omega)]
  rw [show ((j + (m - 1) - i : Nat) : Int) - ((m : Int) - 1) = (j : Int) - i by omega, den_prog hr, mul_inv, one_div, mul_comm,
    mul_assoc, inv_mul_cancel₀ (pow_ne_zero _ (inv_ne_zero hr)), mul_one]

/-- The inverses of the differences of a progression. -/
theorem fwd_diff {u rho : ZMod p} {N : Nat} (hr : rho ≠ 0) (hN : 0 < N) (hd : Distinct u rho N) :
    ∃ w, fwdInverses u u rho N 0 = .ok w ∧ ∀ i k, i < k → k < N → rho⁻¹ ^ k * w.e (i + (N - 1) - k) = 1 / (progr u rho k - progr u rho i) := by
  unfold fwdInverses
  rw [if_neg hr, if_neg (by omega)]
  by_cases h1 : N + 0 - 1 = 0
  · rw [if_pos h1]
    exact ⟨_, rfl, fun i k hi hk => by omega⟩
  rw [if_neg h1]
  have hne : ∀ e, e < N + 0 - 1 → fwdDen u u rho N 0 e ≠ 0 := by
    intro e he
    rw [fwdDen_spec hr (by omega) e he]
    rw [show (e : Int) - ((N : Int) - 1) = ((0 : Nat) : Int) - ((N - 1 - e : Nat) : Int) by omega, den_prog hr]
    exact mul_ne_zero (sub_ne_zero.2 (hd 0 (N - 1 - e) (by omega) (by omega)).symm) (pow_ne_zero _ (inv_ne_zero hr))
  rw [((PML.Ntl.Order.C64_inv (N + 0 - 1) (fwdDen u u rho N 0) fun _ => 0).1 hne).1]
  refine ⟨_, rfl, fun i k hi hk => ?_⟩
  dsimp only
  rw [if_pos (by omega), fwdDen_spec hr (by omega) _ (by omega)]
  rw [show ((i + (N - 1) - k : Nat) : Int) - ((N : Int) - 1) = (i : Int) - k by omega, den_prog hr, mul_inv, one_div, mul_comm,
    mul_assoc, inv_mul_cancel₀ (pow_ne_zero _ (inv_ne_zero hr)), mul_one]

/-- The vectors which the two algorithms prepare. -/
theorem prepare_ok {u v rho : ZMod p} {m n : Nat} (hr : rho ≠ 0) (hm : 0 < m) (hn : 0 < n) (hok : CauchyOK u v rho m n)
    (hu : Distinct u rho (min m n)) (hv : Distinct v rho (min m n)) : ∃ w, prepare u v rho m n = .ok w ∧ InvsOK w u v rho m n := by
  obtain ⟨a, ea, ha⟩ := fwd_full hr hm hn hok
  obtain ⟨b, eb, hb⟩ := fwd_diff hr (show 0 < min m n by omega) hu
  obtain ⟨c, ec, hc⟩ := fwd_diff hr (show 0 < min m n by omega) hv
  unfold prepare
  rw [if_neg hr, if_neg (by omega), ea, eb, ec]
  refine ⟨_, rfl, ?_, ?_, ?_⟩
  · intro i j hi hj
    rw [← ha i j hi hj]
    dsimp only
    rw [powers_spec rho m i hi]
  · intro i k hi hk
    rw [← hb i k hi hk]
    dsimp only
    rw [powers_spec rho m k (by omega)]
  · intro i k hi hk
    rw [← hc i k hi hk]
    dsimp only
    rw [powers_spec rho m k (by omega)]

theorem dotRow_eq (alpha : Nat) (A B : Nat × Nat → ZMod p) (i j : Nat) : dotRow alpha A B i j = genRow alpha A i ⬝ᵥ genRow alpha B j := by
  unfold dotRow
  have := forN_inv (n := alpha) (P := fun (k : Nat) (s : ZMod p) => s = ∑ t ∈ Finset.range k, A (i, t) * B (j, t)) (s := 0)
    (f := fun t s => s + A (i, t) * B (j, t)) (by simp) (by
      intro k s hk hs
      rw [hs, Finset.sum_range_succ])
  rw [this, ← Fin.sum_univ_eq_sum_range (fun t => A (i, t) * B (j, t))]
  rfl

/-- The update of a row by another one. -/
theorem upd_loop (alpha : Nat) {i k : Nat} (hik : i ≠ k) (g : ZMod p → ZMod p → ZMod p) (Y : Nat × Nat → ZMod p) (a b : Nat) :
    forN alpha (fun j Y => write (i, j) (g (Y (i, j)) (Y (k, j))) Y) Y (a, b) = if a = i ∧ b < alpha then g (Y (i, b)) (Y (k, b)) else Y (a, b) := by
  have := forN_inv (n := alpha) (P := fun (l : Nat) (d : Nat × Nat → ZMod p) => ∀ a b, d (a, b) = if a = i ∧ b < l then g (Y (i, b)) (Y (k, b)) else Y (a, b))
    (s := Y) (f := fun j Y => write (i, j) (g (Y (i, j)) (Y (k, j))) Y) (fun a b => by rw [if_neg (by omega)]) (by
      intro l d hl hd a b
      unfold write
      by_cases h : (a, b) = (i, l)
      · rw [h, Function.update_self]
        cases h
        rw [if_pos ⟨rfl, by omega⟩, hd, hd, if_neg (by omega), if_neg (by omega)]
      · rw [Function.update_of_ne h, hd]
        have h' : ¬(a = i ∧ b = l) := fun h2 => h (by rw [h2.1, h2.2])
        by_cases h2 : a = i ∧ b < l
        · rw [if_pos h2, if_pos ⟨h2.1, by omega⟩]
        · rw [if_neg h2, if_neg (by omega)])
  exact this a b

theorem scale_row_loop (alpha i : Nat) (c : ZMod p) (Y : Nat × Nat → ZMod p) (a : Nat) :
    genRow alpha (forN alpha (fun j Y => write (i, j) (c * Y (i, j)) Y) Y) a = if a = i then c • genRow alpha Y i else genRow alpha Y a := by
  have := forN_inv (n := alpha) (P := fun (l : Nat) (d : Nat × Nat → ZMod p) => ∀ a b, d (a, b) = if a = i ∧ b < l then c * Y (i, b) else Y (a, b))
    (s := Y) (f := fun j Y => write (i, j) (c * Y (i, j)) Y) (fun a b => by rw [if_neg (by omega)]) (by
      intro l d hl hd a b
      unfold write
      by_cases h : (a, b) = (i, l)
      · rw [h, Function.update_self]
        cases h
        rw [if_pos ⟨rfl, by omega⟩, hd, if_neg (by omega)]
      · rw [Function.update_of_ne h, hd]
        have h' : ¬(a = i ∧ b = l) := fun h2 => h (by rw [h2.1, h2.2])
        by_cases h2 : a = i ∧ b < l
        · rw [if_pos h2, if_pos ⟨h2.1, by omega⟩]
        · rw [if_neg h2, if_neg (by omega)])
  funext t
  unfold genRow
  rw [this a t]
  by_cases h : a = i
  · rw [if_pos ⟨h, t.2⟩, if_pos h]; rfl
  · rw [if_neg (by omega), if_neg h]

theorem sub_row_loop (alpha : Nat) {i k : Nat} (hik : i ≠ k) (c : ZMod p) (Y : Nat × Nat → ZMod p) (a : Nat) :
    genRow alpha (forN alpha (fun j Y => write (i, j) (Y (i, j) - c * Y (k, j)) Y) Y) a =
      if a = i then genRow alpha Y i - c • genRow alpha Y k else genRow alpha Y a := by
  funext t
  have := upd_loop alpha hik (fun s t => s - c * t) Y a t
  unfold genRow
  rw [this]
  by_cases h : a = i
  · rw [if_pos ⟨h, t.2⟩, if_pos h]; rfl
  · rw [if_neg (by omega), if_neg h]

theorem add_row_loop (alpha : Nat) {i k : Nat} (hik : i ≠ k) (c : ZMod p) (Y : Nat × Nat → ZMod p) (a : Nat) :
    genRow alpha (forN alpha (fun j Y => write (i, j) (Y (i, j) + c * Y (k, j)) Y) Y) a =
      if a = i then genRow alpha Y i + c • genRow alpha Y k else genRow alpha Y a := by
  funext t
  have := upd_loop alpha hik (fun s t => s + c * t) Y a t
  unfold genRow
  rw [this]
  by_cases h : a = i
  · rw [if_pos ⟨h, t.2⟩, if_pos h]; rfl
  · rw [if_neg (by omega), if_neg h]

variable {u v rho : ZMod p} {m n : Nat} {w : Invs p}

/-- The rows above the pivot. -/
theorem rawAbove_spec (hw : InvsOK w u v rho m n) (alpha : Nat) {k : Nat} (hk : k < min m n) (mid : ZMod p) (Y Z : Nat × Nat → ZMod p) (i : Nat) :
    genRow alpha (rawAbove alpha (min m n) w k mid (Y, Z)).1 i = (if i < k then genRow alpha Y i +
      ((genRow alpha Y i ⬝ᵥ genRow alpha Z k) / (progr v rho i - progr v rho k)) • (mid • genRow alpha Y k) else genRow alpha Y i) ∧
    genRow alpha (rawAbove alpha (min m n) w k mid (Y, Z)).2 i = (if i < k then genRow alpha Z i -
      ((genRow alpha Y k ⬝ᵥ genRow alpha Z i) / (progr u rho k - progr u rho i)) • (-mid • genRow alpha Z k) else genRow alpha Z i) := by
  unfold rawAbove
  have := forN_inv (n := k) (P := fun (l : Nat) (s : (Nat × Nat → ZMod p) × (Nat × Nat → ZMod p)) => ∀ i,
      genRow alpha s.1 i = (if i < l then genRow alpha Y i +
        ((genRow alpha Y i ⬝ᵥ genRow alpha Z k) / (progr v rho i - progr v rho k)) • (mid • genRow alpha Y k) else genRow alpha Y i) ∧
      genRow alpha s.2 i = (if i < l then genRow alpha Z i -
        ((genRow alpha Y k ⬝ᵥ genRow alpha Z i) / (progr u rho k - progr u rho i)) • (-mid • genRow alpha Z k) else genRow alpha Z i))
    (s := (Y, Z)) (f := fun i s =>
      (forN alpha (fun j Y => write (i, j) (Y (i, j) - dotRow alpha s.1 s.2 i k * mid * w.irho k * w.ivv (i + (min m n - 1) - k) * Y (k, j)) Y) s.1,
       forN alpha (fun j Z => write (i, j) (Z (i, j) + dotRow alpha s.2 s.1 i k * mid * w.irho k * w.iuu (i + (min m n - 1) - k) * Z (k, j)) Z) s.2))
    (fun i => by rw [if_neg (by omega), if_neg (by omega)]; exact ⟨rfl, rfl⟩) (by
      intro l s hl hs i
      dsimp only
      rw [sub_row_loop alpha (show l ≠ k by omega), add_row_loop alpha (show l ≠ k by omega), dotRow_eq, dotRow_eq]
      have hl' := hs l
      have hk' := hs k
      rw [if_neg (by omega), if_neg (by omega)] at hl' hk'
      rw [hl'.1, hl'.2, hk'.1, hk'.2]
      have e1 := hw.vv l k hl hk
      have e2 := hw.uu l k hl hk
      by_cases h : i = l
      · rw [if_pos h, if_pos h, h, if_pos (by omega), if_pos (by omega)]
        constructor
        · rw [sub_eq_add_neg]
          congr 1
          rw [← neg_smul, smul_smul]
          congr 1
          rw [mul_assoc _ (w.irho k), e1, ← neg_sub (progr v rho k), div_neg]
          ring
        · rw [sub_eq_add_neg]
          congr 1
          rw [smul_smul, ← neg_smul]
          congr 1
          rw [mul_assoc _ (w.irho k), e2, dotProduct_comm (genRow alpha Z l)]
          ring
      · rw [if_neg h, if_neg h]
        obtain ⟨h1, h2⟩ := hs i
        rw [h1, h2]
        by_cases h2 : i < l
        · rw [if_pos h2, if_pos h2, if_pos (by omega), if_pos (by omega)]; exact ⟨rfl, rfl⟩
        · rw [if_neg h2, if_neg h2, if_neg (by omega), if_neg (by omega)]; exact ⟨rfl, rfl⟩)
  exact this i

theorem rawBelowY_spec (hw : InvsOK w u v rho m n) (alpha : Nat) {k : Nat} (hk : k < min m n) (rd : ZMod p) (Y Z : Nat × Nat → ZMod p) (i : Nat) (hi : i < m) :
    genRow alpha (rawBelowY alpha m w k rd Y Z) i = if k < i then genRow alpha Y i +
      ((genRow alpha Y i ⬝ᵥ (rd • genRow alpha Z k)) / (progr u rho i - progr v rho k)) • genRow alpha Y k else genRow alpha Y i := by
  unfold rawBelowY
  have := forN_inv (n := m - (k + 1)) (P := fun (l : Nat) (s : Nat × Nat → ZMod p) => ∀ i,
      genRow alpha s i = if k < i ∧ i < k + 1 + l then genRow alpha Y i +
        ((genRow alpha Y i ⬝ᵥ (rd • genRow alpha Z k)) / (progr u rho i - progr v rho k)) • genRow alpha Y k else genRow alpha Y i)
    (s := Y) (f := fun i' Y =>
      forN alpha (fun j Y' => write (k + 1 + i', j) (Y' (k + 1 + i', j) + dotRow alpha Y Z (k + 1 + i') k * rd * w.irho (k + 1 + i') *
        w.iuv (k + (m - 1) - (k + 1 + i')) * Y' (k, j)) Y') Y)
    (fun i => by rw [if_neg (by omega)]) (by
      intro l s hl hs i
      rw [add_row_loop alpha (show k + 1 + l ≠ k by omega), dotRow_eq]
      have hl' := hs (k + 1 + l)
      have hk' := hs k
      rw [if_neg (by omega)] at hl' hk'
      rw [hl', hk']
      have e1 := hw.uv (k + 1 + l) k (by omega) (by omega)
      by_cases h : i = k + 1 + l
      · rw [if_pos h, h, if_pos (by omega)]
        congr 2
        rw [mul_assoc _ (w.irho _), e1, dotProduct_smul, smul_eq_mul]
        ring
      · rw [if_neg h, hs i]
        by_cases h2 : k < i ∧ i < k + 1 + l
        · rw [if_pos h2, if_pos (by omega)]
        · rw [if_neg h2, if_neg (by omega)])
  have h2 := this i
  by_cases h3 : k < i
  · rw [if_pos (by omega)] at h2
    rw [if_pos h3]
    exact h2
  · rw [if_neg (by omega)] at h2
    rw [if_neg h3]
    exact h2

theorem rawBelowZ_spec (hw : InvsOK w u v rho m n) (alpha : Nat) {k : Nat} (hk : k < min m n) (rd : ZMod p) (Y Z : Nat × Nat → ZMod p) (i : Nat) (hi : i < n) :
    genRow alpha (rawBelowZ alpha m n w k rd Y Z) i = if k < i then genRow alpha Z i -
      (((-rd • genRow alpha Y k) ⬝ᵥ genRow alpha Z i) / (progr u rho k - progr v rho i)) • genRow alpha Z k else genRow alpha Z i := by
  unfold rawBelowZ
  have := forN_inv (n := n - (k + 1)) (P := fun (l : Nat) (s : Nat × Nat → ZMod p) => ∀ i,
      genRow alpha s i = if k < i ∧ i < k + 1 + l then genRow alpha Z i -
        (((-rd • genRow alpha Y k) ⬝ᵥ genRow alpha Z i) / (progr u rho k - progr v rho i)) • genRow alpha Z k else genRow alpha Z i)
    (s := Z) (f := fun i' Z =>
      forN alpha (fun j Z' => write (k + 1 + i', j) (Z' (k + 1 + i', j) + dotRow alpha Z Y (k + 1 + i') k * rd * w.irho k *
        w.iuv (k + 1 + i' + (m - 1) - k) * Z' (k, j)) Z') Z)
    (fun i => by rw [if_neg (by omega)]) (by
      intro l s hl hs i
      rw [add_row_loop alpha (show k + 1 + l ≠ k by omega), dotRow_eq]
      have hl' := hs (k + 1 + l)
      have hk' := hs k
      rw [if_neg (by omega)] at hl' hk'
      rw [hl', hk']
      have e1 := hw.uv k (k + 1 + l) (by omega) (by omega)
      by_cases h : i = k + 1 + l
      · rw [if_pos h, h, if_pos (by omega), sub_eq_add_neg, ← neg_smul]
        congr 2
        rw [mul_assoc _ (w.irho _), e1, smul_dotProduct, smul_eq_mul, dotProduct_comm (genRow alpha Z _)]
        ring
      · rw [if_neg h, hs i]
        by_cases h2 : k < i ∧ i < k + 1 + l
        · rw [if_pos h2, if_pos (by omega)]
        · rw [if_neg h2, if_neg (by omega)])
  have h2 := this i
  by_cases h3 : k < i
  · rw [if_pos (by omega)] at h2
    rw [if_pos h3]
    exact h2
  · rw [if_neg (by omega)] at h2
    rw [if_neg h3]
    exact h2

/-- One turn of the direct algorithm, in terms of rows. -/
theorem rawStep_spec (hw : InvsOK w u v rho m n) (alpha : Nat) {k : Nat} (hk : k < min m n) {rd : ZMod p} (hrd : rd ≠ 0) (Y Z : Nat × Nat → ZMod p) :
    (∀ i, i < m → genRow alpha (rawStep alpha m n w k rd Y Z).1 i =
      if i < k then genRow alpha Y i + ((genRow alpha Y i ⬝ᵥ genRow alpha Z k) / (progr v rho i - progr v rho k)) • (-rd⁻¹ • genRow alpha Y k)
      else if i = k then -rd⁻¹ • genRow alpha Y k
      else genRow alpha Y i + ((genRow alpha Y i ⬝ᵥ genRow alpha Z k) / (progr u rho i - progr v rho k)) • (-rd⁻¹ • genRow alpha Y k)) ∧
    ∀ i, i < n → genRow alpha (rawStep alpha m n w k rd Y Z).2 i =
      if i < k then genRow alpha Z i - ((genRow alpha Y k ⬝ᵥ genRow alpha Z i) / (progr u rho k - progr u rho i)) • (rd⁻¹ • genRow alpha Z k)
      else if i = k then rd⁻¹ • genRow alpha Z k
      else genRow alpha Z i - ((genRow alpha Y k ⬝ᵥ genRow alpha Z i) / (progr u rho k - progr v rho i)) • (rd⁻¹ • genRow alpha Z k) := by
  have hA := rawAbove_spec hw alpha hk (-rd⁻¹) Y Z
  have hAk := hA k
  rw [if_neg (by omega), if_neg (by omega)] at hAk
  unfold rawStep
  dsimp only
  constructor
  · intro i hi
    rw [rawBelowY_spec hw alpha hk _ _ _ i hi]
    simp only [scale_row_loop, if_true]
    rw [(hA i).1, hAk.1, hAk.2]
    by_cases h1 : i < k
    · rw [if_neg (by omega), if_neg (by omega), if_pos h1, if_pos h1]
    · by_cases h2 : i = k
      · rw [if_neg (by omega), if_pos h2, if_neg h1, if_pos h2]
      · rw [if_pos (by omega), if_neg h2, if_neg h1, if_neg h1, if_neg h2, smul_smul rd, mul_inv_cancel₀ hrd, one_smul]
  · intro i hi
    rw [rawBelowZ_spec hw alpha hk _ _ _ i hi]
    rw [rawBelowY_spec hw alpha hk _ _ _ k (by omega), if_neg (lt_irrefl k)]
    simp only [scale_row_loop, if_true]
    rw [(hA i).2, hAk.1, hAk.2, neg_neg]
    by_cases h1 : i < k
    · rw [if_neg (by omega), if_neg (by omega), if_pos h1, if_pos h1]
    · by_cases h2 : i = k
      · rw [if_neg (by omega), if_pos h2, if_neg h1, if_pos h2]
      · rw [if_pos (by omega), if_neg h2, if_neg h1, if_neg h1, if_neg h2, smul_smul (-rd), neg_mul_neg, mul_inv_cancel₀ hrd, one_smul]

variable {alpha : Nat}

theorem nonsing_one {M : Nat → Nat → ZMod p} : Nonsing 1 M ↔ M 0 0 ≠ 0 := by
  constructor
  · intro h h0
    exact one_ne_zero (h (fun _ => 1) (fun i hi => by rw [Finset.sum_range_one, show i = 0 by omega, h0, zero_mul]) 0 (by omega))
  · intro h v hv j hj
    have := hv 0 (by omega)
    rw [Finset.sum_range_one] at this
    rw [show j = 0 by omega]
    exact (mul_eq_zero.1 this).resolve_left h

/-- One more pivot. -/
theorem rawStep_sweep (hw : InvsOK w u v rho m n) {Y0 Z0 : Nat → Fin alpha → ZMod p} {k : Nat} (hk : k < min m n) {Y Z : Nat × Nat → ZMod p}
    (hok : CauchyOK u v rho m n) (hu : Distinct u rho (min m n)) (hv : Distinct v rho (min m n))
    (hS : Sweep m n k (progr u rho) (progr v rho) Y0 Z0 (genRow alpha Y) (genRow alpha Z))
    {rd : ZMod p} (hrd : rd ≠ 0) (hd : rd = mat (genRow alpha Y) (genRow alpha Z) (progr u rho) (progr v rho) k k) :
    Sweep m n (k + 1) (progr u rho) (progr v rho) Y0 Z0 (genRow alpha (rawStep alpha m n w k rd Y Z).1) (genRow alpha (rawStep alpha m n w k rd Y Z).2) := by
  obtain ⟨hY, hZ⟩ := rawStep_spec hw alpha hk hrd Y Z
  have hYk := hY k (by omega)
  have hZk := hZ k (by omega)
  rw [if_neg (by omega), if_pos rfl] at hYk hZk
  have hxy : ∀ i j, i < m → j < n → progr u rho i ≠ progr v rho j := hok
  refine hS.comp hxy ?_ ?_ ?_ ?_ ?_
  · refine ⟨by omega, by omega, ?_, ?_, ?_⟩
    · rw [nonsing_one]
      show mat (genRow alpha Y) (genRow alpha Z) (progr u rho) (progr v rho) k k ≠ 0
      rw [← hd]; exact hrd
    · intro i hi
      rw [Finset.sum_range_one]
      show genRow alpha Y (k + i) + mat (genRow alpha Y) (genRow alpha Z) (progr u rho) (progr v rho) (k + i) k • _ = _
      rw [Nat.add_zero, hYk]
      by_cases h : i < 1
      · rw [if_pos h, show k + i = k by omega, ← hd, smul_smul, mul_neg, mul_inv_cancel₀ hrd, neg_one_smul, add_neg_cancel]
      · rw [if_neg h, hY (k + i) (by omega), if_neg (by omega), if_neg (by omega)]
        rfl
    · intro i hi
      rw [Finset.sum_range_one]
      show genRow alpha Z (k + i) - mat (genRow alpha Y) (genRow alpha Z) (progr u rho) (progr v rho) k (k + i) • _ = _
      rw [Nat.add_zero, hZk]
      by_cases h : i < 1
      · rw [if_pos h, show k + i = k by omega, ← hd, smul_smul, mul_inv_cancel₀ hrd, one_smul, sub_self]
      · rw [if_neg h, hZ (k + i) (by omega), if_neg (by omega), if_neg (by omega)]
        rfl
  · intro l t hl ht
    exact hv l (k + t) (by omega) (by omega)
  · intro l t hl ht
    exact hu l (k + t) (by omega) (by omega)
  · intro l hl
    rw [Finset.sum_range_one, Nat.add_zero, hYk, hY l (by omega), if_pos hl]
  · intro l hl
    rw [Finset.sum_range_one, Nat.add_zero, hZk, hZ l (by omega), if_pos hl]

/-- What a rank-revealing inversion returns: if the answer is negative, the matrix does not have generic rank profile; otherwise the
    rows are those of the inverse of the leading block of size `r`, and `r` is the rank. -/
structure Exact (m n : Nat) (x y : Nat → ZMod p) (Y0 Z0 : Nat → Fin alpha → ZMod p)
    (o : Option (Nat × (Nat × Nat → ZMod p) × (Nat × Nat → ZMod p))) : Prop where
  no : o = none → ¬GenericRankProfile m n (mat Y0 Z0 x y)
  yes : ∀ r Y Z, o = some (r, Y, Z) → Sweep m n r x y Y0 Z0 (genRow alpha Y) (genRow alpha Z) ∧ Spanned m n r (mat Y0 Z0 x y)

theorem any_dot_iff {Y Z : Nat × Nat → ZMod p} {k : Nat} :
    ((List.range (m - k)).any fun a => (List.range (n - k)).any fun b => decide (dotRow alpha Y Z (k + a) (k + b) ≠ 0)) = true ↔
      ∃ a b, k ≤ a ∧ a < m ∧ k ≤ b ∧ b < n ∧ genRow alpha Y a ⬝ᵥ genRow alpha Z b ≠ 0 := by
  simp only [List.any_eq_true, List.mem_range, decide_eq_true_eq, dotRow_eq]
  constructor
  · rintro ⟨a, ha, b, hb, h⟩
    exact ⟨k + a, k + b, by omega, by omega, by omega, by omega, h⟩
  · rintro ⟨a, b, h1, h2, h3, h4, h⟩
    exact ⟨a - k, by omega, b - k, by omega, by rwa [show k + (a - k) = a by omega, show k + (b - k) = b by omega]⟩

theorem rawLoop_spec (hw : InvsOK w u v rho m n) {Y0 Z0 : Nat → Fin alpha → ZMod p} (hok : CauchyOK u v rho m n)
    (hu : Distinct u rho (min m n)) (hv : Distinct v rho (min m n)) : ∀ (f k : Nat) (Y Z : Nat × Nat → ZMod p), f + k = min m n →
    Sweep m n k (progr u rho) (progr v rho) Y0 Z0 (genRow alpha Y) (genRow alpha Z) →
    (∀ j, j ≤ k → Nonsing j (mat Y0 Z0 (progr u rho) (progr v rho))) →
    ∃ o, rawLoop alpha m n w f k Y Z = .ok o ∧ Exact m n (progr u rho) (progr v rho) Y0 Z0 o ∧
      ∀ r Y Z, o = some (r, Y, Z) → ∀ j, j ≤ r → Nonsing j (mat Y0 Z0 (progr u rho) (progr v rho))
  | 0, k, Y, Z, hk, hS, hN => by
    refine ⟨_, rfl, ⟨fun h => (by cases h), ?_⟩, ?_⟩
    · rintro r Y' Z' h
      cases h
      exact ⟨hS, hS.spanned hok fun i j h1 h2 h3 h4 => by omega⟩
    · rintro r Y' Z' h
      cases h
      exact hN
  | f + 1, k, Y, Z, hk, hS, hN => by
    have hxy : ∀ i j, i < m → j < n → progr u rho i ≠ progr v rho j := hok
    unfold rawLoop
    dsimp only
    by_cases h0 : dotRow alpha Y Z k k = 0
    · rw [if_pos h0]
      rw [dotRow_eq] at h0
      have hs := hS.singular hxy (by omega) (by omega) h0
      by_cases ha : ((List.range (m - k)).any fun a => (List.range (n - k)).any fun b => decide (dotRow alpha Y Z (k + a) (k + b) ≠ 0)) = true
      · rw [if_pos ha]
        obtain ⟨a, b, h1, h2, h3, h4, h⟩ := any_dot_iff.1 ha
        exact ⟨_, rfl, ⟨fun _ => hS.no_profile hxy hs h1 h2 h3 h4 h, fun r Y Z h => by cases h⟩, fun r Y Z h => by cases h⟩
      · rw [if_neg ha]
        refine ⟨_, rfl, ⟨fun h => (by cases h), ?_⟩, ?_⟩
        · rintro r Y' Z' h
          cases h
          refine ⟨hS, hS.spanned hxy fun i j h1 h2 h3 h4 => ?_⟩
          by_contra hne
          exact ha (any_dot_iff.2 ⟨i, j, h1, h2, h3, h4, hne⟩)
        · rintro r Y' Z' h
          cases h
          exact hN
    · rw [if_neg h0]
      have e := hw.uv k k (by omega) (by omega)
      rw [show k + (m - 1) - k = m - 1 by omega] at e
      have hne := sub_ne_zero.2 (hxy k k (by omega) (by omega))
      have hd : dotRow alpha Y Z k k * w.irho k * w.iuv (m - 1) = mat (genRow alpha Y) (genRow alpha Z) (progr u rho) (progr v rho) k k := by
        rw [mul_assoc, e, dotRow_eq, mul_one_div]; rfl
      have hrd : dotRow alpha Y Z k k * w.irho k * w.iuv (m - 1) ≠ 0 := by
        rw [mul_assoc, e]
        exact mul_ne_zero h0 (one_div_ne_zero hne)
      rw [if_neg hrd]
      have hS' := rawStep_sweep hw (by omega) hok hu hv hS hrd hd
      exact rawLoop_spec hw hok hu hv f (k + 1) _ _ (by omega) hS' fun j hj => by
        by_cases h : j ≤ k
        · exact hN j h
        · rw [show j = k + 1 by omega]; exact hS'.nons

/-- The direct algorithm. -/
theorem invertRaw_spec {Y Z : PMat (ZMod p)} (hr : rho ≠ 0) (hm : 0 < Y.rows) (hn : 0 < Z.rows) (hg : Z.cols = Y.cols)
    (hok : CauchyOK u v rho Y.rows Z.rows) (hu : Distinct u rho (min Y.rows Z.rows)) (hv : Distinct v rho (min Y.rows Z.rows)) :
    ∃ o, invertRaw Y Z u v rho = .ok (takeRows Y.cols o) ∧
      Exact Y.rows Z.rows (progr u rho) (progr v rho) (genRow Y.cols Y.e) (genRow Y.cols Z.e) o ∧
      ∀ r Y' Z', o = some (r, Y', Z') → ∀ j, j ≤ r → Nonsing j (mat (genRow Y.cols Y.e) (genRow Y.cols Z.e) (progr u rho) (progr v rho)) := by
  obtain ⟨w, ew, hw⟩ := prepare_ok hr hm hn hok hu hv
  unfold invertRaw
  dsimp only
  rw [if_neg (by omega), ew]
  obtain ⟨o, eo, h1, h2⟩ := rawLoop_spec hw hok hu hv (min Y.rows Z.rows) 0 Y.e Z.e (by omega) (Sweep.zero _ _ _ _) (fun j hj => by
    rw [show j = 0 by omega]; intro _ _ j hj; omega)
  refine ⟨o, ?_, h1, h2⟩
  show andThen (rawLoop Y.cols Y.rows Z.rows w (min Y.rows Z.rows) 0 Y.e Z.e) _ = _
  rw [eo]; rfl

end PML.Ntl.CLike
