import Mathlib.Data.Nat.Size
import Verif.Ntl.ThreeSpec
import Verif.Ntl.MatEvalProps

/-!
# C68: product of polynomial matrices modulo up to three FFT primes
-/

namespace PML.Ntl.Three

open Polynomial PML.Ntl.Utils

theorem ofArr_coeff (n : Nat) (v : Nat → Nat) (k : Nat) : (ofArr n v).coeff k = if k < n then v k else 0 := by
  unfold ofArr
  rw [finsetSum_coeff]
  simp only [coeff_C_mul, coeff_X_pow, mul_ite, mul_one, mul_zero]
  rw [Finset.sum_ite_eq]
  simp only [Finset.mem_range]

theorem coeff_len (f : ℕ[X]) (k : Nat) (hk : len f ≤ k) : f.coeff k = 0 := by
  unfold len at hk
  split_ifs at hk with h
  · rw [degree_eq_bot.1 h, coeff_zero]
  · exact coeff_eq_zero_of_natDegree_lt (by omega)

theorem reduce_coeff (p : Nat) (a : PMat ℕ[X]) (i j k : Nat) (hi : i < a.rows) (hj : j < a.cols) :
    ((reduce p a).e (i, j)).coeff k = (a.e (i, j)).coeff k % p := by
  unfold reduce
  dsimp only
  rw [loop2_at _ _ (fun i j => ofArr (len (a.e (i, j))) fun k => (a.e (i, j)).coeff k % p) _ i j hi hj, ofArr_coeff]
  split_ifs with h
  · rfl
  · rw [coeff_len _ _ (by omega), Nat.zero_mod]

/-! ### Chinese remaindering of one coefficient -/

theorem addMod_eq {a b n : Nat} (ha : a < n) (hb : b < n) : addMod a b n = (a + b) % n := by
  unfold addMod
  split_ifs with h
  · rw [Nat.mod_eq_sub_mod h, Nat.mod_eq_of_lt (by omega)]
  · rw [Nat.mod_eq_of_lt (by omega)]

theorem subMod_modEq {a b n : Nat} (hb : b ≤ n) : subMod a b n + b ≡ a [MOD n] := by
  unfold subMod
  split_ifs with h
  · rw [Nat.sub_add_cancel (by omega)]
    exact Nat.add_modEq_right
  · rw [Nat.sub_add_cancel (by omega)]

/-- The operands given to `MulMod` are reduced. -/
theorem C68_subMod_range {a b n : Nat} (ha : a < n) (hb : b < n) : subMod a b n < n ∧ subMod a b n + b ≡ a [MOD n] := by
  refine ⟨?_, subMod_modEq hb.le⟩
  unfold subMod
  split_ifs <;> omega

example : subMod 3 5 7 = 5 := by decide

theorem invMod_spec {a n : Nat} (ha : a < n) (hc : Nat.Coprime a n) : ∃ i, invMod a n = some i ∧ i * a ≡ 1 [MOD n] := by
  unfold invMod
  rw [if_pos ⟨ha, hc⟩]
  refine ⟨_, rfl, ?_⟩
  have : NeZero n := ⟨by omega⟩
  rw [← ZMod.natCast_eq_natCast_iff, Nat.cast_mul, ZMod.natCast_val, ZMod.cast_id', id, Nat.cast_one, mul_comm]
  exact ZMod.coe_mul_inv_eq_one a hc

theorem lt_mul_of {m0 p0 al p1 : Nat} (h0 : m0 < p0) (h1 : al < p1) : m0 + p0 * al < p0 * p1 := by
  have := Nat.mul_le_mul_left p0 (show al + 1 ≤ p1 by omega)
  rw [Nat.mul_succ] at this
  omega

/-- The value of the mixed radix digit. -/
theorem digit {m m' p P inv : Nat} (h : m' ≤ p) (hinv : inv * P ≡ 1 [MOD p]) :
    m' + P * mulMod (subMod m m' p) inv p ≡ m [MOD p] := by
  have h1 : P * mulMod (subMod m m' p) inv p ≡ subMod m m' p [MOD p] := by
    unfold mulMod
    calc P * (subMod m m' p * inv % p) ≡ P * (subMod m m' p * inv) [MOD p] := (Nat.mod_modEq _ _).mul_left _
      _ = subMod m m' p * (inv * P) := by ring
      _ ≡ subMod m m' p * 1 [MOD p] := hinv.mul_left _
      _ = subMod m m' p := mul_one _
  calc m' + P * mulMod (subMod m m' p) inv p ≡ m' + subMod m m' p [MOD p] := h1.add_left _
    _ = subMod m m' p + m' := Nat.add_comm _ _
    _ ≡ m [MOD p] := subMod_modEq h

theorem coef2_spec {p p0 p1 inv m0 m1 x : Nat} (hp : 0 < p) (h01 : p0 ≤ p1) (hc : Nat.Coprime p0 p1) (hinv : inv * p0 ≡ 1 [MOD p1])
    (hm0 : m0 < p0) (e0 : m0 ≡ x [MOD p0]) (e1 : m1 ≡ x [MOD p1]) (hx : x < p0 * p1) : coef2 p p0 p1 inv m0 m1 = x % p := by
  have hp1 : 0 < p1 := by omega
  have hd := digit (m := m1) (m' := m0) (p := p1) (P := p0) (inv := inv) (by omega) hinv
  have hal : mulMod (subMod m1 m0 p1) inv p1 < p1 := Nat.mod_lt _ hp1
  unfold coef2
  dsimp only
  generalize mulMod (subMod m1 m0 p1) inv p1 = al at hd hal ⊢
  have hxe : m0 + p0 * al = x := by
    refine Nat.ModEq.eq_of_lt_of_lt ?_ (lt_mul_of hm0 hal) hx
    refine (Nat.modEq_and_modEq_iff_modEq_mul hc).1 ⟨?_, hd.trans e1⟩
    refine Nat.ModEq.trans ?_ e0
    exact Nat.add_modulus_mul_modEq_iff.2 rfl
  unfold mulMod
  rw [addMod_eq (Nat.mod_lt _ hp) (Nat.mod_lt _ hp), ← Nat.mul_mod, ← Nat.add_mod, mul_comm al, hxe]

theorem coef3_spec {p p0 p1 p2 i1 i2 m0 m1 m2 x : Nat} (hp : 0 < p) (h01 : p0 ≤ p1) (h12 : p1 ≤ p2) (hc : Nat.Coprime p0 p1)
    (hc2 : Nat.Coprime (p0 * p1) p2) (hi1 : i1 * p0 ≡ 1 [MOD p1]) (hi2 : i2 * (p0 * p1) ≡ 1 [MOD p2])
    (hm0 : m0 < p0) (e0 : m0 ≡ x [MOD p0]) (e1 : m1 ≡ x [MOD p1]) (e2 : m2 ≡ x [MOD p2]) (hx : x < p0 * p1 * p2) :
    coef3 p p0 p1 p2 i1 i2 m0 m1 m2 = x % p := by
  have hp1 : 0 < p1 := by omega
  have hd := digit (m := m1) (m' := m0) (p := p1) (P := p0) (inv := i1) (by omega) hi1
  have hal : mulMod (subMod m1 m0 p1) i1 p1 < p1 := Nat.mod_lt _ hp1
  unfold coef3
  dsimp only
  generalize mulMod (subMod m1 m0 p1) i1 p1 = a1 at hd hal ⊢
  have hs : addMod m0 (mulMod a1 p0 p2) p2 < p2 ∧ addMod m0 (mulMod a1 p0 p2) p2 ≡ m0 + p0 * a1 [MOD p2] := by
    unfold mulMod
    rw [addMod_eq (by omega) (Nat.mod_lt _ (by omega))]
    refine ⟨Nat.mod_lt _ (by omega), (Nat.mod_modEq _ _).trans ?_⟩
    rw [mul_comm p0]
    exact (Nat.mod_modEq _ _).add_left _
  generalize addMod m0 (mulMod a1 p0 p2) p2 = t at hs ⊢
  have hd2 := digit (m := m2) (m' := t) (p := p2) (P := p0 * p1) (inv := i2) (by omega) hi2
  have hal2 : mulMod (subMod m2 t p2) i2 p2 < p2 := Nat.mod_lt _ (by omega)
  generalize mulMod (subMod m2 t p2) i2 p2 = a2 at hd2 hal2 ⊢
  have h1 : m0 + p0 * a1 < p0 * p1 := lt_mul_of hm0 hal
  have h1x : m0 + p0 * a1 ≡ x [MOD p0 * p1] := by
    refine (Nat.modEq_and_modEq_iff_modEq_mul hc).1 ⟨?_, hd.trans e1⟩
    refine Nat.ModEq.trans ?_ e0
    exact Nat.add_modulus_mul_modEq_iff.2 rfl
  have hxe : m0 + p0 * a1 + p0 * p1 * a2 = x := by
    refine Nat.ModEq.eq_of_lt_of_lt ?_ (lt_mul_of h1 hal2) hx
    refine (Nat.modEq_and_modEq_iff_modEq_mul hc2).1 ⟨?_, (((hs.2.symm).add_right _).trans hd2).trans e2⟩
    refine Nat.ModEq.trans ?_ h1x
    exact Nat.add_modulus_mul_modEq_iff.2 rfl
  unfold mulMod
  rw [← Nat.mul_mod p0 p1, addMod_eq (Nat.mod_lt _ hp) (Nat.mod_lt _ hp), ← Nat.mul_mod, ← Nat.mul_mod, ← Nat.add_mod,
    addMod_eq (Nat.mod_lt _ hp) (Nat.mod_lt _ hp), ← Nat.add_mod, ← hxe]
  congr 1
  ring

/-! ### Matrices -/

theorem two_loops (lo hi : Nat) (h : lo ≤ hi) (w : Nat → Nat) (k : Nat) (hk : k < hi) :
    forN (hi - lo) (fun k => write (lo + k) (w (lo + k))) (forN lo (fun k => write k (w k)) fun _ => 0) k = w k := by
  have key := Fills.comp (Fills.forN (n := lo) (v := w) fun k _ => Fills.write k (w k) rfl)
    (Fills.forN (n := hi - lo) fun k _ => Fills.write (lo + k) (w (lo + k)) rfl)
  refine (key (fun _ => 0) k).1 ?_
  by_cases h1 : k < lo
  · exact Or.inl ⟨k, h1, rfl⟩
  · exact Or.inr ⟨k - lo, by omega, by rw [Set.mem_singleton_iff]; omega⟩

theorem recon2_spec {p p0 p1 m u : Nat} {c0 c1 : PMat ℕ[X]} {x : Nat → Nat → Nat → Nat} (hp : 0 < p) (h01 : p0 < p1)
    (hc : Nat.Coprime p0 p1) (h0 : Img m u p0 c0 x) (h1 : Img m u p1 c1 x)
    (hx : ∀ i j k, i < m → j < u → x i j k < p0 * p1) : ∃ c, recon2 p c0 p0 c1 p1 = some c ∧ Out m u p c x := by
  obtain ⟨inv, hinv, hi⟩ := invMod_spec h01 hc
  unfold recon2
  rw [hinv, Option.map_some, h0.rows, h0.cols]
  refine ⟨_, rfl, rfl, rfl, fun i j k hi' hj => ?_⟩
  dsimp only
  rw [loop2_at _ _ (fun i j => ofArr (max (len (c0.e (i, j))) (len (c1.e (i, j)))) _) _ i j hi' hj, ofArr_coeff]
  have hv : coef2 p p0 p1 inv ((c0.e (i, j)).coeff k) ((c1.e (i, j)).coeff k) = x i j k % p :=
    coef2_spec hp (by omega) hc hi (h0.lt i j k hi' hj) (h0.mod i j k hi' hj) (h1.mod i j k hi' hj) (hx i j k hi' hj)
  split_ifs with hk
  · rw [two_loops _ _ (by omega) (fun k => coef2 p p0 p1 inv ((c0.e (i, j)).coeff k) ((c1.e (i, j)).coeff k)) k hk, hv]
  · have hz0 := coeff_len (c0.e (i, j)) k (by omega)
    have hz1 := coeff_len (c1.e (i, j)) k (by omega)
    have e0 := h0.mod i j k hi' hj
    have e1 := h1.mod i j k hi' hj
    rw [hz0] at e0
    rw [hz1] at e1
    have := Nat.ModEq.eq_of_lt_of_lt ((Nat.modEq_and_modEq_iff_modEq_mul hc).1 ⟨e0, e1⟩)
      (by have := hx i j k hi' hj; omega) (hx i j k hi' hj)
    rw [← this, Nat.zero_mod]

theorem recon3_spec {p p0 p1 p2 m u : Nat} {c0 c1 c2 : PMat ℕ[X]} {x : Nat → Nat → Nat → Nat} (hp : 0 < p) (h01 : p0 < p1)
    (h12 : p1 < p2) (hc : Nat.Coprime p0 p1) (hc02 : Nat.Coprime p0 p2) (hc12 : Nat.Coprime p1 p2) (h0 : Img m u p0 c0 x)
    (h1 : Img m u p1 c1 x) (h2 : Img m u p2 c2 x) (hx : ∀ i j k, i < m → j < u → x i j k < p0 * p1 * p2) :
    ∃ c, recon3 p c0 p0 c1 p1 c2 p2 = some c ∧ Out m u p c x := by
  have hc2 : Nat.Coprime (p0 * p1) p2 := Nat.Coprime.mul_left hc02 hc12
  obtain ⟨i1, e1, hi1⟩ := invMod_spec h01 hc
  have hmm : mulMod p0 p1 p2 < p2 := Nat.mod_lt _ (by omega)
  have hmc : Nat.Coprime (mulMod p0 p1 p2) p2 := by
    unfold mulMod Nat.Coprime
    rw [← Nat.gcd_rec, Nat.gcd_comm]
    exact hc2
  obtain ⟨i2, e2, hi2⟩ := invMod_spec hmm hmc
  have hi2' : i2 * (p0 * p1) ≡ 1 [MOD p2] := ((Nat.mod_modEq (p0 * p1) p2).symm.mul_left i2).trans hi2
  unfold recon3
  dsimp only
  rw [e1, Option.bind_some, e2, Option.map_some, h0.rows, h0.cols]
  refine ⟨_, rfl, rfl, rfl, fun i j k hi' hj => ?_⟩
  dsimp only
  rw [loop2_at _ _ (fun i j => ofArr (max (len (c0.e (i, j))) (max (len (c1.e (i, j))) (len (c2.e (i, j))))) _) _ i j hi' hj, ofArr_coeff]
  have hv : coef3 p p0 p1 p2 i1 i2 ((c0.e (i, j)).coeff k) ((c1.e (i, j)).coeff k) ((c2.e (i, j)).coeff k) = x i j k % p :=
    coef3_spec hp (by omega) (by omega) hc hc2 hi1 hi2' (h0.lt i j k hi' hj) (h0.mod i j k hi' hj) (h1.mod i j k hi' hj)
      (h2.mod i j k hi' hj) (hx i j k hi' hj)
  split_ifs with hk
  · rw [two_loops _ _ (by omega) (fun k => coef3 p p0 p1 p2 i1 i2 ((c0.e (i, j)).coeff k) ((c1.e (i, j)).coeff k)
      ((c2.e (i, j)).coeff k)) k hk, hv]
  · have hz0 := coeff_len (c0.e (i, j)) k (by omega)
    have hz1 := coeff_len (c1.e (i, j)) k (by omega)
    have hz2 := coeff_len (c2.e (i, j)) k (by omega)
    have e0 := h0.mod i j k hi' hj
    have e1 := h1.mod i j k hi' hj
    have e2 := h2.mod i j k hi' hj
    rw [hz0] at e0
    rw [hz1] at e1
    rw [hz2] at e2
    have := Nat.ModEq.eq_of_lt_of_lt ((Nat.modEq_and_modEq_iff_modEq_mul hc2).1
      ⟨(Nat.modEq_and_modEq_iff_modEq_mul hc).1 ⟨e0, e1⟩, e2⟩) (by have := hx i j k hi' hj; omega) (hx i j k hi' hj)
    rw [← this, Nat.zero_mod]

theorem Primes.coprime {q : Nat → Nat} (h : Primes q) {i j : Nat} (hi : i < 3) (hj : j < 3) (hij : i ≠ j) : Nat.Coprime (q i) (q j) :=
  (Nat.coprime_primes (h.prime i hi) (h.prime j hj)).2 (h.ne i j hi hj hij)

/-- **C68 (reconstruction)**. From the images, modulo the first `nb ≤ 3` primes, of integers less than the
    product of these primes, `reconstruct` computes the integers modulo `p`, whatever the order of the primes. -/
theorem C68_reconstruct {p m u nb : Nat} {q : Nat → Nat} (hq : Primes q) (hp : 0 < p) {cs : Nat → PMat ℕ[X]}
    {x : Nat → Nat → Nat → Nat} (hnb : 1 ≤ nb ∧ nb ≤ 3) (h : ∀ i, i < nb → Img m u (q i) (cs i) x)
    (hx : ∀ i j k, i < m → j < u → x i j k < ∏ t ∈ Finset.range nb, q t) :
    ∃ c, reconstruct p q nb cs = some c ∧ Out m u p c x := by
  have hnb' : nb = 1 ∨ nb = 2 ∨ nb = 3 := by omega
  rcases hnb' with rfl | rfl | rfl
  · have h0 := h 0 (by omega)
    refine ⟨_, rfl, h0.rows, h0.cols, fun i j k hi hj => ?_⟩
    rw [reduce_coeff p (cs 0) i j k (by rw [h0.rows]; exact hi) (by rw [h0.cols]; exact hj)]
    have := hx i j k hi hj
    rw [Finset.prod_range_one] at this
    rw [Nat.ModEq.eq_of_lt_of_lt (h0.mod i j k hi hj) (h0.lt i j k hi hj) this]
  · have h0 := h 0 (by omega)
    have h1 := h 1 (by omega)
    have hc := hq.coprime (i := 0) (j := 1) (by omega) (by omega) (by omega)
    have hne := hq.ne 0 1 (by omega) (by omega) (by omega)
    have hx : ∀ i j k, i < m → j < u → x i j k < q 0 * q 1 := fun i j k hi hj => by
      have := hx i j k hi hj
      rwa [Finset.prod_range_succ, Finset.prod_range_one] at this
    show ∃ c, reconstruct2 p (cs 0) (q 0) (cs 1) (q 1) = some c ∧ _
    unfold reconstruct2
    split_ifs with hlt
    · exact recon2_spec hp hlt hc.symm h1 h0 fun i j k hi hj => by rw [mul_comm]; exact hx i j k hi hj
    · exact recon2_spec hp (by omega) hc h0 h1 hx
  · have h0 := h 0 (by omega)
    have h1 := h 1 (by omega)
    have h2 := h 2 (by omega)
    have c01 := hq.coprime (i := 0) (j := 1) (by omega) (by omega) (by omega)
    have c02 := hq.coprime (i := 0) (j := 2) (by omega) (by omega) (by omega)
    have c12 := hq.coprime (i := 1) (j := 2) (by omega) (by omega) (by omega)
    have n01 := hq.ne 0 1 (by omega) (by omega) (by omega)
    have n02 := hq.ne 0 2 (by omega) (by omega) (by omega)
    have n12 := hq.ne 1 2 (by omega) (by omega) (by omega)
    have c10 := c01.symm
    have c20 := c02.symm
    have c21 := c12.symm
    have hx : ∀ i j k, i < m → j < u → x i j k < q 0 * q 1 * q 2 := fun i j k hi hj => by
      have := hx i j k hi hj
      rwa [Finset.prod_range_succ, Finset.prod_range_succ, Finset.prod_range_one] at this
    show ∃ c, reconstruct3 p 4 (cs 0) (q 0) (cs 1) (q 1) (cs 2) (q 2) = some c ∧ _
    simp only [reconstruct3]
    split_ifs <;> first
      | (exfalso; omega)
      | exact recon3_spec hp (by omega) (by omega) (by assumption) (by assumption) (by assumption) (by assumption) (by assumption)
          (by assumption) (fun i j k hi hj => lt_of_lt_of_eq (hx i j k hi hj) (by ring))

theorem nbPrimes_spec {p : Nat} {q : Nat → Nat} {ncols : Nat} {dA dB : Int} {nb : Nat} (h : nbPrimes p q ncols dA dB = some nb)
    (h0 : -1 ≤ dA ∧ -1 ≤ dB) (hp : 0 < p) : (1 ≤ nb ∧ nb ≤ 3) ∧
    ncols * min (dA + 1) (dB + 1) * (p - 1) * (p - 1) < ((∏ t ∈ Finset.range nb, q t : Nat) : Int) := by
  unfold nbPrimes at h
  dsimp only at h
  have hpos : 0 ≤ ncols * min (dA + 1) (dB + 1) * ((p : Int) - 1) * (p - 1) := by
    have h1 : (0 : Int) ≤ min (dA + 1) (dB + 1) := by omega
    have h2 : (0 : Int) ≤ (p : Int) - 1 := by omega
    positivity
  generalize ncols * min (dA + 1) (dB + 1) * ((p : Int) - 1) * (p - 1) = M at h hpos ⊢
  split_ifs at h with h1 h2 h3 <;> cases h
  · rw [Finset.prod_range_one]
    exact ⟨by omega, by omega⟩
  · rw [Finset.prod_range_succ, Finset.prod_range_one]
    refine ⟨by omega, ?_⟩
    push_cast
    omega
  · rw [Finset.prod_range_succ, Finset.prod_range_succ, Finset.prod_range_one]
    refine ⟨by omega, ?_⟩
    push_cast
    omega

/-- Multi-modular computation of integers bounded by `maxCoeff`, from their images. -/
theorem threePrimes_spec {p m u nb : Nat} {q : Nat → Nat} (hq : Primes q) (hp : 0 < p) {dA dB : Int} (h0 : -1 ≤ dA ∧ -1 ≤ dB)
    {f : Nat → PMat ℕ[X] → PMat ℕ[X] → Option (PMat ℕ[X])} {a b : PMat ℕ[X]} {x : Nat → Nat → Nat → Nat}
    (hnb : nbPrimes p q a.cols dA dB = some nb)
    (hx : ∀ i j k, i < m → j < u → (x i j k : Int) ≤ a.cols * min (dA + 1) (dB + 1) * (p - 1) * (p - 1))
    (h : ∀ i, i < nb → ∃ c, moduloFFTPrime (f i) p (q i) a b = some c ∧ Img m u (q i) c x) :
    ∃ c, threePrimes f p q dA dB a b = some c ∧ Out m u p c x := by
  obtain ⟨hn, hM⟩ := nbPrimes_spec hnb h0 hp
  have hx' : ∀ i j k, i < m → j < u → x i j k < ∏ t ∈ Finset.range nb, q t := fun i j k hi hj => by
    have := hx i j k hi hj
    exact_mod_cast lt_of_le_of_lt this hM
  unfold threePrimes
  rw [hnb, Option.bind_some]
  by_cases h1 : nb = 1
  · subst h1
    rw [if_pos rfl]
    obtain ⟨c, e, hc⟩ := h 0 (by omega)
    obtain ⟨c', e', hc'⟩ := C68_reconstruct hq hp (nb := 1) (cs := fun _ => c) hn (fun i hi => by
      obtain rfl : i = 0 := by omega
      exact hc) hx'
    rw [e, Option.map_some]
    exact ⟨c', e', hc'⟩
  · rw [if_neg h1]
    dsimp only
    rw [if_pos]
    · refine C68_reconstruct hq hp hn (fun i hi => ?_) hx'
      obtain ⟨c, e, hc⟩ := h i hi
      rw [e, Option.getD_some]
      exact hc
    · rw [List.all_eq_true]
      intro i hi
      obtain ⟨c, e, hc⟩ := h i (List.mem_range.1 hi)
      rw [e]
      rfl

/-! ### Bounds -/

theorem mul_coeff_le {f g : ℕ[X]} {B n : Nat} (hf : ∀ k, f.coeff k ≤ B) (hg : ∀ k, g.coeff k ≤ B) (hn : ∀ k, n ≤ k → f.coeff k = 0)
    (k : Nat) : (f * g).coeff k ≤ n * (B * B) := by
  rw [coeff_mul, Finset.Nat.sum_antidiagonal_eq_sum_range_succ (fun i j => f.coeff i * g.coeff j)]
  calc ∑ i ∈ Finset.range (k + 1), f.coeff i * g.coeff (k - i)
      ≤ ∑ i ∈ Finset.range (k + 1), if i ∈ Finset.range n then B * B else 0 := by
        refine Finset.sum_le_sum fun i _ => ?_
        split_ifs with h
        · exact Nat.mul_le_mul (hf _) (hg _)
        · rw [hn i (by simpa using h), zero_mul]
    _ = ∑ i ∈ Finset.range (k + 1) ∩ Finset.range n, B * B := by rw [Finset.sum_ite_mem]
    _ = (Finset.range (k + 1) ∩ Finset.range n).card * (B * B) := by rw [Finset.sum_const, smul_eq_mul]
    _ ≤ n * (B * B) := by
        refine Nat.mul_le_mul_right _ ?_
        calc _ ≤ (Finset.range n).card := Finset.card_le_card Finset.inter_subset_right
          _ = n := Finset.card_range n

theorem rdeg_lt_iff (a : PMat ℕ[X]) (n : Nat) : rdeg a < n ↔
    ∀ i j, i < a.rows → j < a.cols → ∀ k, n ≤ k → (a.e (i, j)).coeff k = 0 := by
  unfold rdeg
  rw [deg_lt_iff]
  dsimp only
  simp only [coeff_map, eq_natCast, Nat.cast_eq_zero]

theorem rdeg_ge (a : PMat ℕ[X]) : -1 ≤ rdeg a := (deg_spec _).1

theorem prod_coeff_le {a b : PMat ℕ[X]} {p : Nat} (hp : 0 < p) (hab : a.cols = b.rows) (ha : Reduced p a) (hb : Reduced p b) (i j k : Nat)
    (hi : i < a.rows) (hj : j < b.cols) :
    (((∑ l ∈ Finset.range a.cols, a.e (i, l) * b.e (l, j)).coeff k : Nat) : Int) ≤
      a.cols * min (rdeg a + 1) (rdeg b + 1) * (p - 1) * (p - 1) := by
  obtain ⟨nA, hA⟩ : ∃ n : Nat, rdeg a + 1 = n := ⟨(rdeg a + 1).toNat, by have := rdeg_ge a; omega⟩
  obtain ⟨nB, hB⟩ : ∃ n : Nat, rdeg b + 1 = n := ⟨(rdeg b + 1).toNat, by have := rdeg_ge b; omega⟩
  rw [hA, hB, ← Nat.cast_min, show ((p : Int) - 1) = ((p - 1 : Nat) : Int) by omega]
  have : (∑ l ∈ Finset.range a.cols, a.e (i, l) * b.e (l, j)).coeff k ≤ a.cols * min nA nB * (p - 1) * (p - 1) := by
    rw [finsetSum_coeff]
    calc ∑ l ∈ Finset.range a.cols, (a.e (i, l) * b.e (l, j)).coeff k
        ≤ ∑ l ∈ Finset.range a.cols, min nA nB * ((p - 1) * (p - 1)) := by
          refine Finset.sum_le_sum fun l hl => ?_
          have hl := Finset.mem_range.1 hl
          have fa : ∀ k, (a.e (i, l)).coeff k ≤ p - 1 := fun k => by have := ha i l k hi hl; omega
          have fb : ∀ k, (b.e (l, j)).coeff k ≤ p - 1 := fun k => by have := hb l j k (by omega) hj; omega
          rcases Nat.le_total nA nB with h | h
          · rw [Nat.min_eq_left h]
            exact mul_coeff_le fa fb (fun k hk => (rdeg_lt_iff a nA).1 (by omega) i l hi hl k hk) k
          · rw [Nat.min_eq_right h, mul_comm (a.e (i, l))]
            exact mul_coeff_le fb fa (fun k hk => (rdeg_lt_iff b nB).1 (by omega) l j (by omega) hj k hk) k
      _ = a.cols * min nA nB * (p - 1) * (p - 1) := by
          rw [Finset.sum_const, Finset.card_range, smul_eq_mul]
          ring
  exact_mod_cast this

theorem reduced_reduce {q : Nat} (hq : 0 < q) (a : PMat ℕ[X]) : Reduced q (reduce q a) := fun i j k hi hj => by
  rw [reduce_coeff q a i j k hi hj]
  exact Nat.mod_lt _ hq

theorem rdeg_reduce (q : Nat) (a : PMat ℕ[X]) : rdeg (reduce q a) ≤ rdeg a := by
  obtain ⟨n, hn⟩ : ∃ n : Nat, rdeg a + 1 = n := ⟨(rdeg a + 1).toNat, by have := rdeg_ge a; omega⟩
  have : rdeg (reduce q a) < n := (rdeg_lt_iff _ n).2 fun i j hi hj k hk => by
    rw [reduce_coeff q a i j k hi hj, (rdeg_lt_iff a n).1 (by omega) i j hi hj k hk, Nat.zero_mod]
  omega

theorem sum_modEq {ι : Type*} {q : Nat} (s : Finset ι) {f g : ι → Nat} (h : ∀ i ∈ s, f i ≡ g i [MOD q]) :
    ∑ i ∈ s, f i ≡ ∑ i ∈ s, g i [MOD q] := by
  rw [← ZMod.natCast_eq_natCast_iff, Nat.cast_sum, Nat.cast_sum]
  exact Finset.sum_congr rfl fun i hi => (ZMod.natCast_eq_natCast_iff _ _ _).2 (h i hi)

theorem sum_coeff_modEq {q n k : Nat} {x y x' y' : Nat → ℕ[X]} (hx : ∀ l, l < n → ∀ k, (x l).coeff k ≡ (x' l).coeff k [MOD q])
    (hy : ∀ l, l < n → ∀ k, (y l).coeff k ≡ (y' l).coeff k [MOD q]) :
    (∑ l ∈ Finset.range n, x l * y l).coeff k ≡ (∑ l ∈ Finset.range n, x' l * y' l).coeff k [MOD q] := by
  rw [finsetSum_coeff, finsetSum_coeff]
  refine sum_modEq _ fun l hl => ?_
  have hl := Finset.mem_range.1 hl
  rw [coeff_mul, coeff_mul]
  exact sum_modEq _ fun z _ => (hx l hl _).mul (hy l hl _)

/-- The image modulo an FFT prime of the integer product. -/
theorem moduloFFTPrime_spec {f : PMat ℕ[X] → PMat ℕ[X] → Option (PMat ℕ[X])} {p q : Nat} (hq : 0 < q) {a b : PMat ℕ[X]}
    (hab : a.cols = b.rows) (ha : Reduced p a) (hb : Reduced p b) (hf : MulModOk f q a.rows a.cols b.cols (rdeg a) (rdeg b)) :
    ∃ c, moduloFFTPrime f p q a b = some c ∧
      Img a.rows b.cols q c fun i j k => (∑ l ∈ Finset.range a.cols, a.e (i, l) * b.e (l, j)).coeff k := by
  unfold moduloFFTPrime
  split_ifs with h
  · obtain ⟨c, e, h1, h2, h3, h4⟩ := hf (reduce q a) (reduce q b) rfl rfl hab.symm rfl (reduced_reduce hq a) (reduced_reduce hq b)
      (rdeg_reduce q a) (rdeg_reduce q b)
    refine ⟨c, e, h1, h2, fun i j k hi hj => h3 i j k (by rw [h1]; exact hi) (by rw [h2]; exact hj), fun i j k hi hj =>
      (h4 i j k hi hj).trans (sum_coeff_modEq (fun l hl k => ?_) fun l hl k => ?_)⟩
    · rw [reduce_coeff q a i l k hi hl]
      exact Nat.mod_modEq _ _
    · rw [reduce_coeff q b l j k (by rw [← hab]; exact hl) hj]
      exact Nat.mod_modEq _ _
  · obtain ⟨c, e, h1, h2, h3, h4⟩ := hf a b rfl rfl hab.symm rfl (fun i j k hi hj => (ha i j k hi hj).trans_le (by omega))
      (fun i j k hi hj => (hb i j k hi hj).trans_le (by omega)) (le_refl _) (le_refl _)
    exact ⟨c, e, h1, h2, fun i j k hi hj => h3 i j k (by rw [h1]; exact hi) (by rw [h2]; exact hj), h4⟩

/-- **C68**. `multiply_3_primes(c, a, b)` for any modulus `p`, prime or not: if the product modulo each of
    the FFT primes that are used is correct, the output is the product modulo `p`. -/
theorem C68_three_primes {p : Nat} (hp : 0 < p) {q : Nat → Nat} (hq : Primes q)
    {f : Nat → PMat ℕ[X] → PMat ℕ[X] → Option (PMat ℕ[X])} (a b : PMat ℕ[X]) (hab : a.cols = b.rows) (ha : Reduced p a)
    (hb : Reduced p b) (nb : Nat) (hnb : nbPrimes p q a.cols (rdeg a) (rdeg b) = some nb)
    (hf : ∀ i, i < nb → MulModOk (f i) (q i) a.rows a.cols b.cols (rdeg a) (rdeg b)) :
    ∃ c, multiply3 f p q a b = some c ∧ IsProdMod p a b c := by
  have h3 := (nbPrimes_spec hnb ⟨rdeg_ge a, rdeg_ge b⟩ hp).1
  obtain ⟨c, e, h1, h2, h⟩ := threePrimes_spec (f := f) (m := a.rows) (u := b.cols)
    (x := fun i j k => (∑ l ∈ Finset.range a.cols, a.e (i, l) * b.e (l, j)).coeff k) hq hp ⟨rdeg_ge a, rdeg_ge b⟩ hnb
    (fun i j k hi hj => prod_coeff_le hp hab ha hb i j k hi hj)
    (fun i hi => moduloFFTPrime_spec (hq.prime i (by omega)).pos hab ha hb (hf i hi))
  refine ⟨c, e, h1, h2, fun i j k hi hj => ?_, fun i j k hi hj => ?_⟩
  · rw [h i j k (by rw [← h1]; exact hi) (by rw [← h2]; exact hj)]
    exact Nat.mod_lt _ hp
  · rw [h i j k hi hj]
    exact Nat.mod_modEq _ _

/-- **C68 (rejection)**. Sizes that are too large raise an error: a product is never returned from too few
    primes. -/
theorem C68_three_primes_reject {p : Nat} {q : Nat → Nat} {f : Nat → PMat ℕ[X] → PMat ℕ[X] → Option (PMat ℕ[X])} (a b : PMat ℕ[X])
    (h : (q 0 : Int) ≤ a.cols * min (rdeg a + 1) (rdeg b + 1) * (p - 1) * (p - 1))
    (h2 : (q 0 : Int) * q 1 ≤ 2 * (a.cols * min (rdeg a + 1) (rdeg b + 1) * (p - 1) * (p - 1)))
    (h3 : (q 0 : Int) * q 1 * q 2 ≤ 2 * (a.cols * min (rdeg a + 1) (rdeg b + 1) * (p - 1) * (p - 1))) :
    multiply3 f p q a b = none := by
  unfold multiply3 threePrimes nbPrimes
  dsimp only
  rw [if_neg (not_lt.2 h), if_neg (not_lt.2 h2), if_neg (not_lt.2 h3)]
  rfl

/-! ### With matrices over `Z/p` and the FFT product of this library -/

theorem rep_coeff {p : Nat} (a : PMat (ZMod p)[X]) (x : Nat × Nat) (k : Nat) : ((rep a).e x).coeff k = ((a.e x).coeff k).val := by
  unfold rep
  dsimp only
  rw [ofArr_coeff]
  split_ifs with h
  · rfl
  · rw [coeff_eq_zero_of_natDegree_lt (by omega), ZMod.val_zero]

theorem rep_reduced {p : Nat} [NeZero p] (a : PMat (ZMod p)[X]) : Reduced p (rep a) := fun i j k _ _ => by
  rw [rep_coeff]
  exact ZMod.val_lt _

theorem rdeg_rep {p : Nat} [NeZero p] (a : PMat (ZMod p)[X]) : rdeg (rep a) = deg a := by
  have h : ∀ n : Nat, rdeg (rep a) < n ↔ deg a < n := fun n => by
    rw [rdeg_lt_iff, deg_lt_iff]
    simp only [rep_coeff, ZMod.val_eq_zero]
    rfl
  have h1 := rdeg_ge (rep a)
  have h2 := (deg_spec a).1
  have h3 := h (rdeg (rep a) + 1).toNat
  have h4 := h (deg a + 1).toNat
  omega

theorem ofRep_coeff (p : Nat) (a : PMat ℕ[X]) (x : Nat × Nat) (k : Nat) : ((ofRep p a).e x).coeff k = (((a.e x).coeff k : Nat) : ZMod p) := by
  unfold ofRep
  dsimp only
  rw [coeff_map, eq_natCast]

theorem deg_ofRep_le (p : Nat) (a : PMat ℕ[X]) : deg (ofRep p a) ≤ rdeg a := by
  obtain ⟨n, hn⟩ : ∃ n : Nat, rdeg a + 1 = n := ⟨(rdeg a + 1).toNat, by have := rdeg_ge a; omega⟩
  have : deg (ofRep p a) < n := (deg_lt_iff _ n).2 fun i j hi hj k hk => by
    rw [ofRep_coeff, (rdeg_lt_iff a n).1 (by omega) i j hi hj k hk, Nat.cast_zero]
  omega

theorem prodMod_of_product {q : Nat} [NeZero q] {a b : PMat ℕ[X]} {c : PMat (ZMod q)[X]}
    (h : MatMul.IsProduct (ofRep q a) (ofRep q b) c) : IsProdMod q a b (rep c) := by
  obtain ⟨h1, h2, h3⟩ := h
  refine ⟨h1, h2, rep_reduced c, fun i j k hi hj => ?_⟩
  rw [rep_coeff, ← ZMod.natCast_eq_natCast_iff, ZMod.natCast_val, ZMod.cast_id', id, h3 i j hi hj]
  rw [finsetSum_coeff, finsetSum_coeff, Nat.cast_sum]
  refine Finset.sum_congr rfl fun l _ => ?_
  rw [coeff_mul, coeff_mul, Nat.cast_sum]
  refine Finset.sum_congr rfl fun z _ => ?_
  rw [ofRep_coeff, ofRep_coeff, Nat.cast_mul]

theorem product_of_prodMod {p : Nat} [NeZero p] {a b : PMat (ZMod p)[X]} {c : PMat ℕ[X]} (h : IsProdMod p (rep a) (rep b) c) :
    MatMul.IsProduct a b (ofRep p c) := by
  obtain ⟨h1, h2, -, h3⟩ := h
  refine ⟨h1, h2, fun i j hi hj => ?_⟩
  ext k
  have := h3 i j k hi hj
  rw [← ZMod.natCast_eq_natCast_iff] at this
  rw [ofRep_coeff, this, finsetSum_coeff, finsetSum_coeff, Nat.cast_sum]
  refine Finset.sum_congr rfl fun l _ => ?_
  rw [coeff_mul, coeff_mul, Nat.cast_sum]
  refine Finset.sum_congr rfl fun z _ => ?_
  rw [rep_coeff, rep_coeff, Nat.cast_mul, ZMod.natCast_val, ZMod.natCast_val, ZMod.cast_id']
  rfl

/-- `multiply_evaluate_FFT` modulo a prime of at least 25 bits, also for zero matrices. -/
theorem fft_large {pr : Nat} [Fact pr.Prime] (hpr : pr < 2 ^ 60) (hpr2 : 25 ≤ Nat.size pr) (T : MatEval.FFT (ZMod pr))
    (inv : Nat → (Nat × Nat → ZMod pr) → Option (Nat × Nat → ZMod pr)) (a b : PMat (ZMod pr)[X])
    (hT : MatEval.FFTOk T (MatEval.idxK a b)) (hab : a.cols = b.rows) (h0 : 2 ≤ a.cols) (hm : 0 < a.rows) :
    ∃ c, MatEval.mulFFT T inv a b = some c ∧ MatMul.IsProduct a b c := by
  have h1 := MatEval.C67_fft_direct T a b hT hab (by omega)
  have h2 := MatEval.C67_fft_matmul1 T a b hT hab
  have h4 := MatEval.C67_fft_matmul3 T a b hT hab h0
  have h5 := MatEval.C67_fft_ll hpr T a b hT hab (by omega) hm
  let P : Option (PMat (ZMod pr)[X]) → Prop := fun o => ∃ c, o = some c ∧ MatMul.IsProduct a b c
  show P (MatEval.mulFFT T inv a b)
  unfold MatEval.mulFFT
  dsimp only
  exact MatEval.pick (fun h => absurd h (by omega)) fun _ => MatEval.pick (fun _ => h1) fun _ => MatEval.pick (fun _ => h5)
    fun _ => MatEval.pick (fun _ => h2) fun _ => h4

/-- **C68 (this library)**. `multiply_3_primes` over `Z/p`, with `multiply_evaluate_FFT` modulo each FFT
    prime (25 to 60 bits) that has transforms for the size of the product. -/
theorem C68_multiply_3_primes {p : Nat} [NeZero p] {q : Nat → Nat} [∀ i, Fact (q i).Prime]
    (hq : ∀ i j, i < 3 → j < 3 → i ≠ j → q i ≠ q j) (hq2 : ∀ i, i < 3 → q i < 2 ^ 60 ∧ 25 ≤ Nat.size (q i))
    (T : ∀ i, MatEval.FFT (ZMod (q i))) (inv : ∀ i, Nat → (Nat × Nat → ZMod (q i)) → Option (Nat × Nat → ZMod (q i)))
    (a b : PMat (ZMod p)[X]) (hab : a.cols = b.rows) (h0 : 2 ≤ a.cols) (hm : 0 < a.rows)
    (hT : ∀ i, i < 3 → ∀ K, K ≤ nextPow2 (deg a + deg b + 1).toNat → MatEval.FFTOk (T i) K)
    (hnb : (nbPrimes p q a.cols (deg a) (deg b)).isSome) :
    ∃ c, multiply3 (fun i x y => (MatEval.mulFFT (T i) (inv i) (ofRep (q i) x) (ofRep (q i) y)).map rep) p q (rep a) (rep b) = some c ∧
      MatMul.IsProduct a b (ofRep p c) := by
  obtain ⟨nb, hnb⟩ := Option.isSome_iff_exists.1 hnb
  have hp : 0 < p := Nat.pos_of_ne_zero (NeZero.ne p)
  have h3 := (nbPrimes_spec hnb ⟨(deg_spec a).1, (deg_spec b).1⟩ hp).1
  obtain ⟨c, e, hc⟩ := C68_three_primes hp (q := q) ⟨fun i _ => Fact.out, hq⟩ (rep a) (rep b) hab (rep_reduced a) (rep_reduced b) nb
    (by rw [rdeg_rep, rdeg_rep]; exact hnb) (f := fun i x y => (MatEval.mulFFT (T i) (inv i) (ofRep (q i) x) (ofRep (q i) y)).map rep)
    (fun i hi x y hx1 hx2 hy1 hy2 _ _ hdx hdy => by
      have hi3 : i < 3 := by omega
      have : NeZero (q i) := ⟨(Fact.out : (q i).Prime).ne_zero⟩
      have hxy : x.cols = y.rows := hx2.trans hy1.symm
      obtain ⟨z, ez, hz⟩ := fft_large (hq2 i hi3).1 (hq2 i hi3).2 (T i) (inv i) (ofRep (q i) x) (ofRep (q i) y)
        (hT i hi3 _ (by
          rw [rdeg_rep] at hdx hdy
          have d1 := deg_ofRep_le (q i) x
          have d2 := deg_ofRep_le (q i) y
          unfold MatEval.idxK MatEval.lenActual nextPow2
          exact Nat.clog_mono_right 2 (by omega))) hxy (by show 2 ≤ x.cols; rw [hx2]; exact h0) (by show 0 < x.rows; rw [hx1]; exact hm)
      dsimp only
      rw [ez, Option.map_some]
      exact ⟨_, rfl, prodMod_of_product hz⟩)
  exact ⟨c, e, product_of_prodMod hc⟩

/-- **C68 (three 60-bit primes suffice)** for every word-size modulus of NTL and every number of columns and
    degrees that fit in memory. -/
theorem C68_sizes {p : Nat} (hp : 0 < p ∧ p ≤ 2 ^ 60) {q : Nat → Nat} (hq : ∀ i, i < 3 → 2 ^ 59 ≤ q i) (n : Nat) (dA dB : Int)
    (hd : -1 ≤ dA ∧ -1 ≤ dB) (h : n * min (dA + 1) (dB + 1) ≤ 2 ^ 55) : (nbPrimes p q n dA dB).isSome := by
  unfold nbPrimes
  dsimp only
  split_ifs with h1 h2 h3
  · rfl
  · rfl
  · rfl
  · exfalso
    apply h3
    have hx : 0 ≤ (n : Int) * min (dA + 1) (dB + 1) := mul_nonneg (Int.natCast_nonneg _) (by omega)
    have hpp : (0 : Int) ≤ p - 1 ∧ (p - 1 : Int) ≤ 2 ^ 60 := by omega
    have e1 : (n : Int) * min (dA + 1) (dB + 1) * (p - 1) * (p - 1) ≤ 2 ^ 55 * 2 ^ 60 * 2 ^ 60 := by
      refine mul_le_mul (mul_le_mul h hpp.2 hpp.1 (by positivity)) hpp.2 hpp.1 (by positivity)
    have g : ∀ i, i < 3 → (2 ^ 59 : Int) ≤ q i := fun i hi => by exact_mod_cast hq i hi
    have e2 : (2 ^ 59 * 2 ^ 59 * 2 ^ 59 : Int) ≤ q 0 * q 1 * q 2 :=
      mul_le_mul (mul_le_mul (g 0 (by omega)) (g 1 (by omega)) (by positivity) (by positivity)) (g 2 (by omega)) (by positivity) (by positivity)
    refine lt_of_lt_of_le (lt_of_le_of_lt (mul_le_mul_of_nonneg_left e1 (by norm_num)) ?_) e2
    norm_num

/-- **C68 (general product)**: `multiply`, with all the functions of this library: the hypothesis on
    `multiply_3_primes` in `C67_multiply_prime` holds. -/
theorem C68_multiply_prime {p : Nat} [Fact p.Prime] (hpr : p < 2 ^ 60) (T0 : MatEval.FFT (ZMod p))
    {inv0 : Nat → (Nat × Nat → ZMod p) → Option (Nat × Nat → ZMod p)} (hinv : MatEval.InvOk inv0)
    (degTrs : Int) (degWak degEv : Nat → Int) (fftReady : Nat → Bool) (cbrt : Nat → Nat)
    (hT0 : ∀ K, fftReady K = true → MatEval.FFTOk T0 K) {q : Nat → Nat} [∀ i, Fact (q i).Prime]
    (hq : ∀ i j, i < 3 → j < 3 → i ≠ j → q i ≠ q j) (hq2 : ∀ i, i < 3 → q i < 2 ^ 60 ∧ 2 ^ 59 ≤ q i)
    (T : ∀ i, MatEval.FFT (ZMod (q i))) (inv : ∀ i, Nat → (Nat × Nat → ZMod (q i)) → Option (Nat × Nat → ZMod (q i)))
    (al : Bool) (a b : PMat (ZMod p)[X]) (hab : a.cols = b.rows) (h0 : 2 ≤ a.cols) (hm : 0 < a.rows)
    (hT : ∀ i, i < 3 → ∀ K, K ≤ nextPow2 (deg a + deg b + 1).toNat → MatEval.FFTOk (T i) K)
    (hsz : a.cols * min (deg a + 1) (deg b + 1) ≤ 2 ^ 55) :
    ∃ c, MatEval.multiply ⟨p, if p = 2 then none else some 2⁻¹, degTrs, degWak, degEv, fftReady, cbrt, MatEval.mulFFT T0 inv0,
      MatEval.dense inv0, fun a b => (multiply3 (fun i x y => (MatEval.mulFFT (T i) (inv i) (ofRep (q i) x) (ofRep (q i) y)).map rep)
        p q (rep a) (rep b)).map (ofRep p)⟩ al true a b = some c ∧ MatMul.IsProduct a b c := by
  have : NeZero p := ⟨(Fact.out : p.Prime).ne_zero⟩
  refine MatEval.C67_multiply_prime hpr T0 hinv degTrs degWak degEv fftReady cbrt _ hT0 al a b hab ?_
  obtain ⟨c, e, hc⟩ := C68_multiply_3_primes hq
    (fun i hi => ⟨(hq2 i hi).1, le_trans (by decide : 25 ≤ 60) (Nat.lt_size.2 (hq2 i hi).2)⟩) T inv a b hab h0 hm hT
    (C68_sizes ⟨NeZero.pos p, hpr.le⟩ (fun i hi => (hq2 i hi).2) _ _ _ ⟨(deg_spec a).1, (deg_spec b).1⟩ hsz)
  exact ⟨_, by rw [e]; rfl, hc⟩

/-! ### The hypotheses are met -/

/-- Three primes of 25 bits. -/
def q3 : Nat → Nat := fun i => if i = 0 then 16777259 else if i = 1 then 16777289 else 16777291

instance (i : Nat) : Fact (q3 i).Prime := ⟨by
  unfold q3
  split_ifs <;> norm_num⟩

/-- Their transforms of size 2. -/
def fft2 (q : Nat) : MatEval.FFT (ZMod q) := ⟨fun _ r => (-1) ^ r, fun n _ => n⟩

theorem fft2_ok (i K : Nat) (hK : K ≤ 1) : MatEval.FFTOk (fft2 (q3 i)) K := by
  have hq : 2 < q3 i := by unfold q3; split_ifs <;> omega
  have hne : (-1 : ZMod (q3 i)) ≠ 1 := by
    have : Fact (2 < q3 i) := ⟨hq⟩
    exact ZMod.neg_one_ne_one
  have h : K = 0 ∨ K = 1 := by omega
  refine ⟨fun r r' h1 h2 h3 => ?_, fun r h1 => ?_, fun n hn => ⟨le_refl _, hn⟩⟩
  · rcases h with rfl | rfl
    · omega
    · have a1 : r = 0 ∨ r = 1 := by omega
      have a2 : r' = 0 ∨ r' = 1 := by omega
      have h3 : (-1 : ZMod (q3 i)) ^ r = (-1) ^ r' := h3
      rcases a1 with rfl | rfl <;> rcases a2 with rfl | rfl
      · rfl
      · rw [pow_zero, pow_one] at h3; exact absurd h3.symm hne
      · rw [pow_zero, pow_one] at h3; exact absurd h3 hne
      · rfl
  · show ((-1 : ZMod (q3 i)) ^ r) ^ 2 ^ K = 1
    rcases h with rfl | rfl
    · obtain rfl : r = 0 := by omega
      simp
    · rw [← pow_mul, mul_comm, pow_mul]; norm_num

/-- The square root of the identity matrix by which `x I + (1)` is multiplied. -/
noncomputable def one5 : PMat (ZMod 5)[X] := ⟨2, 2, fun x => if x.1 = x.2 then 0 else 1⟩

theorem one5_deg : deg one5 ≤ 0 := by
  have h1 : deg one5 < (1 : Nat) := by
    rw [deg_lt_iff]
    intro i j _ _ k hk
    show (if i = j then 0 else 1 : (ZMod 5)[X]).coeff k = 0
    have h1 : ¬k = 0 := by omega
    split_ifs <;> simp [coeff_one, h1]
  push_cast at h1
  omega

/-- `C68_multiply_3_primes` applies to a product of degree 1 modulo 5. -/
example : ∃ c, multiply3 (fun i x y => (MatEval.mulFFT (fft2 (q3 i)) (fun _ _ => none) (ofRep (q3 i) x) (ofRep (q3 i) y)).map rep) 5 q3
    (rep MatEval.ex5) (rep one5) = some c ∧ MatMul.IsProduct MatEval.ex5 one5 (ofRep 5 c) := by
  refine C68_multiply_3_primes ?_ ?_ (fun i => fft2 (q3 i)) _ MatEval.ex5 one5 rfl (by decide) (by decide) ?_ ?_
  · intro i j hi hj hij
    unfold q3
    split_ifs <;> omega
  · intro i _
    have : 2 ^ 24 ≤ q3 i ∧ q3 i < 2 ^ 60 := by unfold q3; split_ifs <;> omega
    exact ⟨this.2, Nat.lt_size.2 this.1⟩
  · intro i _ K hK
    refine fft2_ok i K (hK.trans ?_)
    have := one5_deg
    rw [MatEval.ex5_deg]
    unfold nextPow2
    exact (Nat.clog_mono_right 2 (by omega : _ ≤ 2)).trans (by decide)
  · have := one5_deg
    have h2 := (deg_spec one5).1
    have e : one5.cols = 2 := rfl
    unfold nbPrimes
    dsimp only
    rw [if_pos, Option.isSome_some]
    rw [MatEval.ex5_deg]
    have h3 : MatEval.ex5.cols = 2 := rfl
    rw [h3]
    have h4 : q3 0 = 16777259 := rfl
    rw [h4]
    have h5 : min ((1 : Int) + 1) (deg one5 + 1) ≤ 1 := by omega
    push_cast
    omega

/-- The sizes of `C68_sizes`: a 60-bit modulus, 100 columns and degree one million. -/
example : ∃ q : Nat → Nat, (∀ i, i < 3 → 2 ^ 59 ≤ q i) ∧ ((100 : Nat) : Int) * min ((10 : Int) ^ 6 + 1) (10 ^ 6 + 1) ≤ 2 ^ 55 :=
  ⟨fun _ => 2 ^ 59, fun _ _ => le_refl _, by norm_num⟩

/-- The rejection: three tiny primes modulo 101. -/
example : ∃ q : Nat → Nat, Primes q ∧ nbPrimes 101 q 2 1 1 = none :=
  ⟨fun i => if i = 0 then 2 else if i = 1 then 3 else 5, ⟨fun i _ => by split_ifs <;> norm_num, fun i j hi hj hij => by
    split_ifs <;> omega⟩, by decide⟩

end PML.Ntl.Three
