import Verif.Ntl.CauchySpec
import Verif.Ntl.LikeLemmas
import Verif.Ntl.OrderProps

/-!
# Cauchy matrices on geometric progressions: theorems (C85)
-/

namespace PML.Ntl.Struct

open Polynomial PML.Ntl.Utils PML.Ntl.Inv PML.Ntl.Solve PML.Ntl.Middle

variable {p : Nat} [Fact p.Prime]

theorem cauchyDen_spec {u v rho : ZMod p} {m n : Nat} (hr : rho ≠ 0) (hk : 0 < m + n - 1) (x : Nat) (hx : x < m + n - 1) :
    cauchyDen u v rho m n (m + n - 1 - 1 - x) = u - v * rho ^ ((x : Int) - ((m : Int) - 1)) := by
  unfold cauchyDen
  dsimp only
  generalize hK : m + n - 1 = k at hk hx ⊢
  have inv := forN_inv (n := k - 1) (P := fun (i : Nat) (d : Nat → ZMod p) =>
      (∀ y, y < i → d (k - 1 - y) = u - v * rho ^ ((y : Int) - ((m : Int) - 1))) ∧ d (k - 1 - i) = -v * rho ^ ((i : Int) - ((m : Int) - 1)))
    (s := write (k - 1) (-v * rho⁻¹ ^ ((m : Int) - 1)) fun _ => 0)
    (f := fun i d =>
      let d := write (k - 1 - (i + 1)) (d (k - 1 - i) * rho) d
      write (k - 1 - i) (d (k - 1 - i) + u) d)
    ⟨by omega, by
      unfold write
      rw [Nat.sub_zero, Function.update_self, inv_zpow, ← zpow_neg]
      congr 2; push_cast; ring⟩ (by
      rintro i d hi ⟨h1, h2⟩
      dsimp only
      unfold write
      refine ⟨fun y hy => ?_, ?_⟩
      · by_cases e : y = i
        · subst e
          rw [Function.update_self, Function.update_of_ne (by omega), h2]
          ring
        · rw [Function.update_of_ne (by omega), Function.update_of_ne (by omega), h1 y (by omega)]
      · rw [Function.update_of_ne (by omega), Function.update_self, h2, mul_assoc, ← zpow_add_one₀ hr]
        congr 2; push_cast; ring)
  obtain ⟨h1, h2⟩ := inv
  rw [Nat.sub_self] at h2
  unfold write at h1 h2 ⊢
  by_cases e : x = k - 1
  · subst e
    rw [Nat.sub_self, Function.update_self, h2]
    ring
  · rw [Function.update_of_ne (by omega), h1 x (by omega)]

/-- The denominators are those of the matrix. -/
theorem den_eq {u v rho : ZMod p} (hr : rho ≠ 0) (i j : Nat) :
    u - v * rho ^ ((j : Int) - i) = (u * rho ^ i - v * rho ^ j) * (rho⁻¹) ^ i := by
  have hi : rho ^ i ≠ 0 := pow_ne_zero _ hr
  rw [zpow_sub₀ hr, zpow_natCast, zpow_natCast, inv_pow]
  field_simp

theorem cauchyOK_iff {u v rho : ZMod p} {m n : Nat} (hr : rho ≠ 0) (hm : 0 < m) (hn : 0 < n) :
    CauchyOK u v rho m n ↔ ∀ y, y < m + n - 1 → cauchyDen u v rho m n y ≠ 0 := by
  constructor
  · intro h y hy
    have := cauchyDen_spec (u := u) (v := v) (m := m) (n := n) hr (by omega) (m + n - 1 - 1 - y) (by omega)
    rw [show m + n - 1 - 1 - (m + n - 1 - 1 - y) = y by omega] at this
    rw [this]
    -- `y = n - 1 + i - j`
    obtain ⟨i, j, hi, hj, e⟩ : ∃ i j, i < m ∧ j < n ∧ y + j = n - 1 + i := by
      by_cases hyn : y ≤ n - 1
      · exact ⟨0, n - 1 - y, hm, by omega, by omega⟩
      · exact ⟨y - (n - 1), 0, by omega, hn, by omega⟩
    have e2 : ((m + n - 1 - 1 - y : Nat) : Int) - ((m : Int) - 1) = (j : Int) - i := by omega
    rw [e2, den_eq hr]
    exact mul_ne_zero (sub_ne_zero.2 (h i j hi hj)) (pow_ne_zero _ (inv_ne_zero hr))
  · intro h i j hi hj
    have h1 := h (m + n - 1 - 1 - (m - 1 - i + j)) (by omega)
    rw [cauchyDen_spec hr (by omega) _ (by omega)] at h1
    have e2 : ((m - 1 - i + j : Nat) : Int) - ((m : Int) - 1) = (j : Int) - i := by omega
    rw [e2, den_eq hr] at h1
    exact sub_ne_zero.1 (left_ne_zero_of_mul h1)

theorem powers_spec (rho : ZMod p) (m i : Nat) (hi : i < m) :
    forN (m - 1) (fun i pw => write (i + 1) (rho⁻¹ * pw (i + 1 - 1)) pw) (write 0 1 fun _ => 0) i = rho⁻¹ ^ i := by
  have := forN_inv (n := m - 1) (P := fun (k : Nat) (d : Nat → ZMod p) => ∀ y, y ≤ k → d y = rho⁻¹ ^ y)
    (s := write 0 1 fun _ => 0) (f := fun i pw => write (i + 1) (rho⁻¹ * pw (i + 1 - 1)) pw) (by
      intro y hy
      rw [show y = 0 by omega, pow_zero]
      unfold write
      rw [Function.update_self]) (by
      intro k d hk hd y hy
      unfold write
      by_cases e : y = k + 1
      · rw [e, Function.update_self, Nat.add_sub_cancel, hd k (Nat.le_refl _), pow_succ']
      · rw [Function.update_of_ne e, hd y (by omega)])
  exact this i (by omega)

/-- What a successful constructor gives. -/
theorem cauchy_made {u v rho : ZMod p} {m n : Nat} (hm : 0 < m) (hn : 0 < n) :
    (rho ≠ 0 ∧ CauchyOK u v rho m n → ∃ c, Cauchy.make u v rho m n = .ok c) ∧
    (¬ (rho ≠ 0 ∧ CauchyOK u v rho m n) → Cauchy.make u v rho m n = .error) ∧
    ∀ c, Cauchy.make u v rho m n = .ok c → rho ≠ 0 ∧ CauchyOK u v rho m n ∧ c.u = u ∧ c.v = v ∧ c.rho = rho ∧ c.m = m ∧ c.n = n ∧
      (∀ i, i < m → c.pw i = rho⁻¹ ^ i) ∧
      ∃ w : NVec (ZMod p), Band.make w m n = .ok c.t ∧ ∀ i j, i < m → j < n → toeplitzEntry w.e n i j = simpleEntry u v rho i j := by
  have bad : ¬ (rho ≠ 0 ∧ CauchyOK u v rho m n) → cauchyInverses u v rho m n = .error := by
    intro h
    unfold cauchyInverses
    by_cases hr : rho = 0
    · rw [if_pos hr]
    · rw [if_neg hr, if_neg (by omega)]
      have h2 : ¬ CauchyOK u v rho m n := fun h2 => h ⟨hr, h2⟩
      rw [cauchyOK_iff hr hm hn] at h2
      push Not at h2
      rw [((PML.Ntl.Order.C64_inv (m + n - 1) (cauchyDen u v rho m n) fun _ => 0).2 h2).1]
  have good : rho ≠ 0 → CauchyOK u v rho m n → ∃ w : NVec (ZMod p), cauchyInverses u v rho m n = .ok w ∧ w.len = m + n - 1 ∧
      ∀ i j, i < m → j < n → toeplitzEntry w.e n i j = simpleEntry u v rho i j := by
    intro hr h
    unfold cauchyInverses
    rw [if_neg hr, if_neg (by omega)]
    rw [((PML.Ntl.Order.C64_inv (m + n - 1) (cauchyDen u v rho m n) fun _ => 0).1 ((cauchyOK_iff hr hm hn).1 h)).1]
    refine ⟨_, rfl, rfl, fun i j hi hj => ?_⟩
    unfold toeplitzEntry simpleEntry
    dsimp only
    rw [if_pos (by omega), one_div]
    congr 1
    have := cauchyDen_spec (u := u) (v := v) (m := m) (n := n) hr (by omega) (m - 1 - i + j) (by omega)
    rw [show m + n - 1 - 1 - (m - 1 - i + j) = n - 1 + i - j by omega] at this
    rw [this]
    congr 3; omega
  refine ⟨?_, ?_, ?_⟩
  · rintro ⟨hr, h⟩
    obtain ⟨w, e, hl, -⟩ := good hr h
    obtain ⟨t, et, -⟩ := make_made w m n (by omega) (by omega)
    unfold Cauchy.make
    rw [if_neg (by omega), e]
    show ∃ c, (if m = 0 then Out.ub else _) = .ok c
    rw [if_neg (by omega), et]
    exact ⟨_, rfl⟩
  · intro h
    unfold Cauchy.make
    rw [if_neg (by omega), bad h]; rfl
  · intro c hc
    by_cases h : rho ≠ 0 ∧ CauchyOK u v rho m n
    · obtain ⟨w, e, hl, hw⟩ := good h.1 h.2
      obtain ⟨t, et, -⟩ := make_made w m n (by omega) (by omega)
      unfold Cauchy.make at hc
      rw [if_neg (by omega), e] at hc
      have hc' : (if m = 0 then Out.ub else andThen (Band.make w m n) fun t => Out.ok (⟨u, v, rho, m, n, t,
        forN (m - 1) (fun i pw => write (i + 1) (rho⁻¹ * pw (i + 1 - 1)) pw) (write 0 1 fun _ => 0)⟩ : Cauchy p)) = .ok c := hc
      rw [if_neg (by omega), et] at hc'
      cases hc'
      exact ⟨h.1, h.2, rfl, rfl, rfl, rfl, rfl, fun i hi => powers_spec rho m i hi, w, et, hw⟩
    · unfold Cauchy.make at hc
      rw [if_neg (by omega), bad h] at hc
      cases hc

/-- **C85**. With at least one row and one column, the constructor succeeds if and only if `rho` is not zero and no denominator is
    zero; otherwise it is an error. -/
theorem C85_constructor (u v rho : ZMod p) {m n : Nat} (hm : 0 < m) (hn : 0 < n) :
    (rho ≠ 0 ∧ CauchyOK u v rho m n → ∃ c, Cauchy.make u v rho m n = .ok c ∧ c.m = m ∧ c.n = n) ∧
    (¬ (rho ≠ 0 ∧ CauchyOK u v rho m n) → Cauchy.make u v rho m n = .error) := by
  obtain ⟨h1, h2, h3⟩ := cauchy_made (u := u) (v := v) (rho := rho) hm hn
  refine ⟨fun h => ?_, h2⟩
  obtain ⟨c, e⟩ := h1 h
  obtain ⟨-, -, -, -, -, g1, g2, -⟩ := h3 c e
  exact ⟨c, e, g1, g2⟩

example : (2 : ZMod 7) ≠ 0 ∧ CauchyOK (1 : ZMod 7) 3 2 3 2 := by
  refine ⟨by decide, fun i j hi hj => ?_⟩
  interval_cases i <;> interval_cases j <;> decide

/-- The diagonal factor. -/
theorem entry_mul {u v rho : ZMod p} (hr : rho ≠ 0) (i j : Nat) : simpleEntry u v rho i j * rho⁻¹ ^ i = cauchyEntry u v rho i j := by
  unfold simpleEntry cauchyEntry
  rw [den_eq hr, one_div, mul_inv, mul_assoc, inv_mul_cancel₀ (pow_ne_zero _ (inv_ne_zero hr)), mul_one, one_div]

/-- `for (i = 0; i < m; i++) e[i] *= f[i]` -/
theorem scale_loop (m : Nat) (f e : Nat → ZMod p) (i : Nat) :
    forN m (fun i e => write i (e i * f i) e) e i = if i < m then e i * f i else e i := by
  have := forN_inv (n := m) (P := fun (k : Nat) (d : Nat → ZMod p) => ∀ y, d y = if y < k then e y * f y else e y)
    (s := e) (f := fun i e => write i (e i * f i) e) (fun y => by rw [if_neg (by omega)]) (by
      intro k d hk hd y
      unfold write
      by_cases h : y = k
      · rw [h, Function.update_self, hd, if_neg (by omega), if_pos (by omega)]
      · rw [Function.update_of_ne h, hd]
        by_cases h2 : y < k
        · rw [if_pos h2, if_pos (by omega)]
        · rw [if_neg h2, if_neg (by omega)])
  exact this i

theorem scale_loop2 (m n : Nat) (g : Nat → Nat → ZMod p) (e : Nat × Nat → ZMod p) (i j : Nat) (hi : i < m) (hj : j < n) :
    loop2 m n (fun i j e => e (i, j) * g i j) e (i, j) = e (i, j) * g i j := by
  have := forN_inv (n := m) (P := fun (k : Nat) (d : Nat × Nat → ZMod p) => ∀ a b, d (a, b) = if a < k ∧ b < n then e (a, b) * g a b else e (a, b))
    (s := e) (f := fun i => forN n fun j => fun x => write (i, j) (x (i, j) * g i j) x) (fun a b => by rw [if_neg (by omega)]) (by
      intro k d hk hd
      have inner := forN_inv (n := n) (P := fun (l : Nat) (d' : Nat × Nat → ZMod p) => ∀ a b, d' (a, b) = if a = k ∧ b < l then e (a, b) * g a b else d (a, b))
        (s := d) (f := fun j => fun x => write (k, j) (x (k, j) * g k j) x) (fun a b => by rw [if_neg (by omega)]) (by
          intro l d' hl hd' a b
          unfold write
          by_cases h : (a, b) = (k, l)
          · rw [h, Function.update_self]
            cases h
            rw [hd', if_neg (by omega), hd, if_neg (by omega), if_pos (by omega)]
          · have hne : ¬ (a = k ∧ b = l) := fun hc => h (by rw [hc.1, hc.2])
            rw [Function.update_of_ne h, hd']
            by_cases h2 : a = k ∧ b < l
            · rw [if_pos h2, if_pos (by omega)]
            · rw [if_neg h2, if_neg (by omega)])
      intro a b
      rw [inner a b]
      by_cases h : a = k ∧ b < n
      · rw [if_pos h, if_pos (by omega)]
      · rw [if_neg h, hd]
        by_cases h2 : a < k ∧ b < n
        · rw [if_pos h2, if_pos (by omega)]
        · rw [if_neg h2, if_neg (by omega)])
  unfold loop2
  rw [this, if_pos ⟨hi, hj⟩]

/-- **C85**. `to_dense` gives the matrix with the entries `1 / (u rho^i - v rho^j)`. -/
theorem C85_dense {u v rho : ZMod p} {m n : Nat} {c : Cauchy p} (h : Cauchy.make u v rho m n = .ok c) (hm : 0 < m) (hn : 0 < n)
    (x : PMat (ZMod p)) : IsMat (c.dense x) m n (cauchyEntry u v rho) := by
  obtain ⟨hr, hok, rfl, rfl, rfl, rfl, rfl, -, -⟩ := (cauchy_made hm hn).2.2 c h
  unfold Cauchy.dense
  dsimp only
  obtain ⟨e, he, hP⟩ := loopOut_inv (fun k (d : Nat × Nat → ZMod p) => ∀ a b, a < k → b < c.n → d (a, b) = cauchyEntry c.u c.v c.rho a b)
    (f := fun i e => loopOut c.n (fun j e => if c.u * c.rho ^ i - c.v * c.rho ^ j = 0 then Out.error
      else .ok (write (i, j) (c.u * c.rho ^ i - c.v * c.rho ^ j)⁻¹ e)) e) (s := (x.setDims c.m c.n).e) (k := c.m) (by omega) (by
      intro i d hi hd
      obtain ⟨d', e', h1, h2⟩ := loopOut_inv (fun l (d' : Nat × Nat → ZMod p) => (∀ b, b < l → d' (i, b) = cauchyEntry c.u c.v c.rho i b) ∧
          ∀ a b, a ≠ i → d' (a, b) = d (a, b))
        (f := fun j e => if c.u * c.rho ^ i - c.v * c.rho ^ j = 0 then Out.error
          else .ok (write (i, j) (c.u * c.rho ^ i - c.v * c.rho ^ j)⁻¹ e)) (s := d) (k := c.n) ⟨by omega, fun _ _ _ => rfl⟩ (by
          rintro l d' hl ⟨h1, h2⟩
          refine ⟨_, if_neg (sub_ne_zero.2 (hok i l hi hl)), fun b hb => ?_, fun a b ha => ?_⟩
          · unfold write
            by_cases hb' : b = l
            · rw [hb', Function.update_self]
              unfold cauchyEntry
              rw [one_div]
            · rw [Function.update_of_ne (fun hc => hb' (by cases hc; rfl)), h1 b (by omega)]
          · unfold write
            rw [Function.update_of_ne (fun hc => ha (by cases hc; rfl)), h2 a b ha])
      refine ⟨d', e', fun a b ha hb => ?_⟩
      by_cases hai : a = i
      · subst hai; exact h1 b hb
      · rw [h2 a b hai, hd a b (by omega) hb])
  rw [he]
  exact ⟨_, rfl, rfl, rfl, hP⟩

/-- **C85 (partial)**. `mul_right` and `mul_right_simple` on vectors.  Missing: the sums which overflow in the product by the
    Toeplitz matrix, see `C83_toeplitz_right_partial`. -/
theorem C85_right_partial {red : Nat → ZMod p} (hred : RedOK red) {u v rho : ZMod p} {m n : Nat} {c : Cauchy p}
    (h : Cauchy.make u v rho m n = .ok c) (hm : 0 < m) (hn : 0 < n) (cross : Nat) (w : NVec (ZMod p)) (hw : w.len = n)
    (hno : NoOverflow p cross m n n) :
    IsRight (c.right red cross w) m n (cauchyEntry u v rho) w.e ∧ IsRight (c.rightSimple red cross w) m n (simpleEntry u v rho) w.e := by
  obtain ⟨hr, hok, -, -, -, hm', hn', hpw, a, ha, hT⟩ := (cauchy_made hm hn).2.2 c h
  obtain ⟨r, e, h1, h2⟩ := C83_toeplitz_right_partial hred ha cross w hw hno
  have h3 : ∀ i, i < m → r.e i = ∑ j ∈ Finset.range n, simpleEntry u v rho i j * w.e j := by
    intro i hi
    rw [h2 i hi]
    exact Finset.sum_congr rfl fun j hj => by rw [hT i j hi (Finset.mem_range.1 hj)]
  refine ⟨?_, r, e, h1, h3⟩
  unfold Cauchy.right
  rw [e]
  refine ⟨_, rfl, h1, fun i hi => ?_⟩
  dsimp only
  rw [scale_loop, hm', if_pos hi, hpw i hi, h3 i hi, Finset.sum_mul]
  refine Finset.sum_congr rfl fun j _ => ?_
  rw [← entry_mul hr]
  ring

/-- **C85 (partial)**. `mul_left` and `mul_left_simple` on vectors.  Missing: as in `C85_right_partial`. -/
theorem C85_left_partial {red : Nat → ZMod p} (hred : RedOK red) {u v rho : ZMod p} {m n : Nat} {c : Cauchy p}
    (h : Cauchy.make u v rho m n = .ok c) (hm : 0 < m) (hn : 0 < n) (cross : Nat) (w : NVec (ZMod p)) (hw : w.len = m)
    (hno : NoOverflow p cross m n m) :
    IsLeft (c.left red cross w) m n (cauchyEntry u v rho) w.e ∧ IsLeft (c.leftSimple red cross w) m n (simpleEntry u v rho) w.e := by
  obtain ⟨hr, hok, -, -, -, hm', hn', hpw, a, ha, hT⟩ := (cauchy_made hm hn).2.2 c h
  constructor
  · unfold Cauchy.left
    rw [if_neg (by omega)]
    obtain ⟨r, e, h1, h2⟩ := C83_toeplitz_left_partial hred ha cross ⟨w.len, forN c.m (fun i e => write i (e i * c.pw i) e) w.e⟩ hw hno
    refine ⟨r, e, h1, fun j hj => ?_⟩
    rw [h2 j hj]
    refine Finset.sum_congr rfl fun i hi => ?_
    have hi' := Finset.mem_range.1 hi
    dsimp only
    rw [scale_loop, hm', if_pos hi', hpw i hi', hT i j hi' hj, ← entry_mul hr]
    ring
  · obtain ⟨r, e, h1, h2⟩ := C83_toeplitz_left_partial hred ha cross w hw hno
    refine ⟨r, e, h1, fun j hj => ?_⟩
    rw [h2 j hj]
    exact Finset.sum_congr rfl fun i hi => by rw [hT i j (Finset.mem_range.1 hi) hj]

/-- **C85 (partial)**. `mul_right` and `mul_right_simple` on matrices.  Missing: as in `C85_right_partial`. -/
theorem C85_right_matrix_partial {red : Nat → ZMod p} (hred : RedOK red) {u v rho : ZMod p} {m n : Nat} {c : Cauchy p}
    (h : Cauchy.make u v rho m n = .ok c) (hm : 0 < m) (hn : 0 < n) (cross lim : Nat) (x V : PMat (ZMod p)) (hV : V.rows = n)
    (hno : NoOverflow p cross m n n) :
    IsMat (c.rightMat red cross lim x V) m V.cols (fun i j => ∑ l ∈ Finset.range n, cauchyEntry u v rho i l * V.e (l, j)) ∧
    IsMat (c.rightSimpleMat red cross lim x V) m V.cols fun i j => ∑ l ∈ Finset.range n, simpleEntry u v rho i l * V.e (l, j) := by
  obtain ⟨hr, hok, -, -, -, hm', hn', hpw, a, ha, hT⟩ := (cauchy_made hm hn).2.2 c h
  obtain ⟨r, e, h1, h2, h3⟩ := C83_toeplitz_right_matrix_partial hred ha cross lim x V hV hno
  have h4 : ∀ i j, i < m → j < V.cols → r.e (i, j) = ∑ l ∈ Finset.range n, simpleEntry u v rho i l * V.e (l, j) := by
    intro i j hi hj
    rw [h3 i j hi hj]
    exact Finset.sum_congr rfl fun l hl => by rw [hT i l hi (Finset.mem_range.1 hl)]
  refine ⟨?_, r, e, h1, h2, h4⟩
  unfold Cauchy.rightMat
  rw [e]
  refine ⟨_, rfl, h1, h2, fun i j hi hj => ?_⟩
  dsimp only
  rw [scale_loop2 _ _ (fun i _ => c.pw i) _ i j (by omega) hj, hpw i hi, h4 i j hi hj, Finset.sum_mul]
  refine Finset.sum_congr rfl fun l _ => ?_
  rw [← entry_mul hr]
  ring

/-- **C85 (partial)**. `mul_left` and `mul_left_simple` on matrices.  Missing: as in `C85_right_partial`. -/
theorem C85_left_matrix_partial {red : Nat → ZMod p} (hred : RedOK red) {u v rho : ZMod p} {m n : Nat} {c : Cauchy p}
    (h : Cauchy.make u v rho m n = .ok c) (hm : 0 < m) (hn : 0 < n) (cross lim : Nat) (x V : PMat (ZMod p)) (hV : V.cols = m)
    (hno : NoOverflow p cross m n m) :
    IsMat (c.leftMat red cross lim x V) V.rows n (fun i j => ∑ l ∈ Finset.range m, V.e (i, l) * cauchyEntry u v rho l j) ∧
    IsMat (c.leftSimpleMat red cross lim x V) V.rows n fun i j => ∑ l ∈ Finset.range m, V.e (i, l) * simpleEntry u v rho l j := by
  obtain ⟨hr, hok, -, -, -, hm', hn', hpw, a, ha, hT⟩ := (cauchy_made hm hn).2.2 c h
  constructor
  · unfold Cauchy.leftMat
    rw [if_neg (by omega)]
    refine isMat_congr (C83_toeplitz_left_matrix_partial hred ha cross lim x
      { V with e := loop2 V.rows c.m (fun i j e => e (i, j) * c.pw j) V.e } hV hno) fun i j hi hj => ?_
    refine Finset.sum_congr rfl fun l hl => ?_
    have hl' := Finset.mem_range.1 hl
    dsimp only at hi ⊢
    rw [scale_loop2 _ _ (fun _ j => c.pw j) _ i l hi (by omega), hpw l hl', hT l j hl' hj, ← entry_mul hr]
    ring
  · refine isMat_congr (C83_toeplitz_left_matrix_partial hred ha cross lim x V hV hno) fun i j hi hj => ?_
    exact Finset.sum_congr rfl fun l hl => by rw [hT l j (Finset.mem_range.1 hl) hj]

/-- `reduce` with a single modulus satisfies the hypothesis, and small sums do not overflow. -/
example : RedOK (fun n => (n : ZMod 7)) ∧ NoOverflow 7 32 3 2 2 := by
  refine ⟨fun n _ => rfl, fun _ _ => ?_⟩
  unfold SP_BOUND
  norm_num

/-- **C85**, finding. `mul_left` does not test the size of its input before it uses it: a shorter vector, or a matrix with fewer columns,
    is accessed out of bounds; longer ones are errors. -/
theorem C85_left_sizes {u v rho : ZMod p} {m n : Nat} {c : Cauchy p} (h : Cauchy.make u v rho m n = .ok c) (hm : 0 < m) (hn : 0 < n)
    (red : Nat → ZMod p) (cross lim : Nat) (w : NVec (ZMod p)) (x V : PMat (ZMod p)) :
    (w.len < m → c.left red cross w = .ub) ∧ (m < w.len → c.left red cross w = .error) ∧
    (V.cols < m → 0 < V.rows → c.leftMat red cross lim x V = .ub) ∧ (m < V.cols → c.leftMat red cross lim x V = .error) := by
  obtain ⟨-, -, -, -, -, hm', hn', -, a, ha, -⟩ := (cauchy_made hm hn).2.2 c h
  obtain ⟨g1, g2, -⟩ := made_of_make ha
  refine ⟨fun hw => if_pos (by omega), fun hw => ?_, fun hV hr => if_pos ⟨hr, by omega⟩, fun hV => ?_⟩
  · unfold Cauchy.left
    rw [if_neg (by omega)]
    exact if_pos (show w.len ≠ c.t.n by omega)
  · unfold Cauchy.leftMat
    rw [if_neg (by omega)]
    exact if_pos (show V.cols ≠ c.t.n by omega)

/-- **C85**. `mul_right` rejects a vector of another length, and a matrix with another number of rows. -/
theorem C85_right_sizes {u v rho : ZMod p} {m n : Nat} {c : Cauchy p} (h : Cauchy.make u v rho m n = .ok c) (hm : 0 < m) (hn : 0 < n)
    (red : Nat → ZMod p) (cross lim : Nat) (w : NVec (ZMod p)) (x V : PMat (ZMod p)) :
    (w.len ≠ n → c.right red cross w = .error) ∧ (V.rows ≠ n → c.rightMat red cross lim x V = .error) := by
  obtain ⟨-, -, -, -, -, hm', hn', -, a, ha, -⟩ := (cauchy_made hm hn).2.2 c h
  obtain ⟨g1, g2, -⟩ := made_of_make ha
  have hs := C83_sizes c.t red cross lim w x V
  refine ⟨fun hw => ?_, fun hV => ?_⟩
  · unfold Cauchy.right
    rw [(hs.1 (by omega)).1]; rfl
  · unfold Cauchy.rightMat
    rw [(hs.2.2.1 (by omega)).1]; rfl

/-- **C85**, finding. Without rows and with columns, the constructor writes beyond an empty vector, unless a division fails first. -/
theorem C85_no_rows (u v rho : ZMod p) {n : Nat} (hn : 0 < n) :
    Cauchy.make u v rho 0 n = .ub ∨ Cauchy.make u v rho 0 n = .error := by
  unfold Cauchy.make
  rw [if_neg (by omega)]
  cases e : cauchyInverses u v rho 0 n with
  | ok w => exact .inl rfl
  | error => exact .inr rfl
  | ub => exact .inl rfl
  | loops =>
    exfalso
    unfold cauchyInverses at e
    split at e
    · cases e
    · split at e
      · cases e
      · split at e <;> cases e

example : Cauchy.make (1 : ZMod 7) 3 2 0 1 = .ub := by
  have : cauchyInverses (1 : ZMod 7) 3 2 0 1 = .ok ⟨0, fun _ => 0⟩ := by
    unfold cauchyInverses
    rw [if_neg (by decide), if_pos rfl]
  unfold Cauchy.make
  rw [if_neg (by decide), this]
  rfl

/-- **C85**, finding. The matrix without rows and columns can be built, and its product by the empty vector is an error. -/
theorem C85_empty (u v rho : ZMod p) (red : Nat → ZMod p) (cross : Nat) (w : Nat → ZMod p) :
    ∃ c, Cauchy.make u v rho 0 0 = .ok c ∧ c.right red cross ⟨0, w⟩ = .error := by
  refine ⟨_, if_pos ⟨rfl, rfl⟩, ?_⟩
  unfold Cauchy.right
  rw [(C83_empty red cross ⟨0, 0, fun _ => 0⟩ w).1]; rfl

/-! ### Helpers on matrices -/

/-- **C85**. `diagonal_matrix` gives the diagonal matrix. -/
theorem C85_diagonal_matrix (d : NVec (ZMod p)) :
    IsMat (.ok (diagonalMatrix d)) d.len d.len fun i j => if i = j then d.e i else 0 := by
  refine ⟨_, rfl, rfl, rfl, fun i j hi hj => ?_⟩
  have := forN_inv (n := d.len) (P := fun (k : Nat) (e : Nat × Nat → ZMod p) => ∀ i j, e (i, j) = if i = j ∧ i < k then d.e i else 0)
    (s := fun _ => 0) (f := fun i => write (i, i) (d.e i)) (fun i j => by rw [if_neg (by omega)]) (by
      intro k e hk he i j
      unfold write
      by_cases h : (i, j) = (k, k)
      · rw [h, Function.update_self]
        cases h
        rw [if_pos (by omega)]
      · rw [Function.update_of_ne h, he]
        have : ¬ (i = k ∧ j = k) := fun hc => h (by rw [hc.1, hc.2])
        by_cases h2 : i = j ∧ i < k
        · rw [if_pos h2, if_pos (by omega)]
        · rw [if_neg h2, if_neg (by omega)])
  unfold diagonalMatrix
  dsimp only
  rw [this]
  by_cases h : i = j
  · rw [if_pos ⟨h, hi⟩, if_pos h]
  · rw [if_neg (by omega), if_neg h]

/-- **C85**. `clear` of a window sets to zero the entries of the matrix which are in the window, and only these. -/
theorem C85_clear_window (a : PMat (ZMod p)) (r c nrows ncols : Nat) :
    IsMat (.ok (clearWindow a r c nrows ncols)) a.rows a.cols fun i j =>
      if r ≤ i ∧ i < r + nrows ∧ c ≤ j ∧ j < c + ncols then 0 else a.e (i, j) := by
  refine ⟨_, rfl, rfl, rfl, fun i j hi hj => ?_⟩
  unfold clearWindow
  dsimp only
  generalize hR : min (r + nrows) a.rows - r = R
  generalize hC : min (c + ncols) a.cols - c = C
  have := forN_inv (n := R) (P := fun (k : Nat) (d : Nat × Nat → ZMod p) => ∀ x y, d (x, y) = if r ≤ x ∧ x < r + k ∧ c ≤ y ∧ y < c + C then 0 else a.e (x, y))
    (s := a.e) (f := fun i => forN C fun j => write (r + i, c + j) 0) (fun x y => by rw [if_neg (by omega)]) (by
      intro k d hk hd
      have inner := forN_inv (n := C) (P := fun (l : Nat) (d' : Nat × Nat → ZMod p) => ∀ x y, d' (x, y) = if x = r + k ∧ c ≤ y ∧ y < c + l then 0 else d (x, y))
        (s := d) (f := fun j => write (r + k, c + j) (0 : ZMod p)) (fun x y => by rw [if_neg (by omega)]) (by
          intro l d' hl hd' x y
          unfold write
          by_cases h : (x, y) = (r + k, c + l)
          · rw [h, Function.update_self]
            cases h
            rw [if_pos (by omega)]
          · have hne : ¬ (x = r + k ∧ y = c + l) := fun hc => h (by rw [hc.1, hc.2])
            rw [Function.update_of_ne h, hd']
            by_cases h2 : x = r + k ∧ c ≤ y ∧ y < c + l
            · rw [if_pos h2, if_pos (by omega)]
            · rw [if_neg h2, if_neg (by omega)])
      intro x y
      rw [inner x y]
      by_cases h : x = r + k ∧ c ≤ y ∧ y < c + C
      · rw [if_pos h, if_pos (by omega)]
      · rw [if_neg h, hd]
        by_cases h2 : r ≤ x ∧ x < r + k ∧ c ≤ y ∧ y < c + C
        · rw [if_pos h2, if_pos (by omega)]
        · rw [if_neg h2, if_neg (by omega)])
  rw [this]
  by_cases h : r ≤ i ∧ i < r + nrows ∧ c ≤ j ∧ j < c + ncols
  · rw [if_pos h, if_pos (by omega)]
  · rw [if_neg h, if_neg (by omega)]

end PML.Ntl.Struct
