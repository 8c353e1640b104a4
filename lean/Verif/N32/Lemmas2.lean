import Verif.N32.Lemmas
import Verif.N32.Spec
import Mathlib.Data.Nat.ModEq

/-!
# Vectors over Z/nZ with entries of 32 bits (lemmas: msolve, IFMA, matrix-vector products)
-/

namespace PML.N32

open PML.Word Finset

/-! ## The dot product of msolve -/

theorem pair_lane {v1 v2 : Nat → Nat} {o l L : Nat} (h1 : Small v1 o (2 * L)) (h2 : Small v2 o (2 * L)) (hl : l < L) :
    pair (load v1 o) (load v2 o) l = T v1 v2 o l % W := by
  have a1 := h1 (o + 2 * l) (by omega) (by omega)
  have a2 := h1 (o + 2 * l + 1) (by omega) (by omega)
  have b1 := h2 (o + 2 * l) (by omega) (by omega)
  have b2 := h2 (o + 2 * l + 1) (by omega) (by omega)
  simp only [pair, add, mulLo, srl]
  rw [load_lo a1, load_lo b1, Nat.shiftRight_eq_div_pow, Nat.shiftRight_eq_div_pow, load_hi a1, load_hi b1,
    Nat.mod_eq_of_lt a2, Nat.mod_eq_of_lt b2, T]

/-- The integer held by the two registers of msolve. -/
def S32 (s : Reg × Reg) : Nat := ∑ l ∈ range 4, (s.1 l + 2 ^ 32 * s.2 l)

theorem low_high (P x y r : Nat) : x + r % P + P * (y + r / P) = x + P * y + r := by
  have := Nat.div_add_mod r P
  rw [mul_add]
  omega

theorem msolve_loop {v1 v2 : Nat → Nat} {len n : Nat} (hn0 : 0 < n) (hn : 8 * ((n - 1) * (n - 1)) < W) (hn32 : n ≤ 2 ^ 32)
    (hr1 : Reduced v1 len n) (hr2 : Reduced v2 len n) (hlen : len ≤ 2 ^ 36) (q : Nat) (hq : q ≤ len / 32) :
    S32 (forN q (fun q => bodyMsolve v1 v2 (32 * q)) (zeroR, zeroR)) = dot v1 v2 (32 * q) ∧
      ∀ l, l < 4 → (forN q (fun q => bodyMsolve v1 v2 (32 * q)) (zeroR, zeroR)).1 l ≤ q * 2 ^ 32 ∧
        (forN q (fun q => bodyMsolve v1 v2 (32 * q)) (zeroR, zeroR)).2 l ≤ q * 2 ^ 32 := by
  induction q with
  | zero => simp [forN, S32, zeroR, dot]
  | succ q ih =>
    obtain ⟨h1, h2⟩ := ih (by omega)
    simp only [forN]
    generalize forN q (fun q => bodyMsolve v1 v2 (32 * q)) (zeroR, zeroR) = s at *
    have hq' : 32 * q + 32 ≤ len := by omega
    have e : ∀ l, l < 4 → ∃ r, r < W ∧ r = T v1 v2 (32 * q) l + T v1 v2 (32 * q + 8) l + T v1 v2 (32 * q + 16) l +
        T v1 v2 (32 * q + 24) l ∧ (bodyMsolve v1 v2 (32 * q) s).1 l = s.1 l + r % 2 ^ 32 ∧
        (bodyMsolve v1 v2 (32 * q) s).2 l = s.2 l + r / 2 ^ 32 := by
      intro l hl
      refine ⟨T v1 v2 (32 * q) l + T v1 v2 (32 * q + 8) l + T v1 v2 (32 * q + 16) l + T v1 v2 (32 * q + 24) l,
        ?_, rfl, ?_⟩
      · have t0 := T_le hn0 hr1 hr2 (o := 32 * q) (l := l) (by omega)
        have t1 := T_le hn0 hr1 hr2 (o := 32 * q + 8) (l := l) (by omega)
        have t2 := T_le hn0 hr1 hr2 (o := 32 * q + 16) (l := l) (by omega)
        have t3 := T_le hn0 hr1 hr2 (o := 32 * q + 24) (l := l) (by omega)
        omega
      · have hr : T v1 v2 (32 * q) l + T v1 v2 (32 * q + 8) l + T v1 v2 (32 * q + 16) l + T v1 v2 (32 * q + 24) l < W := by
          have t0 := T_le hn0 hr1 hr2 (o := 32 * q) (l := l) (by omega)
          have t1 := T_le hn0 hr1 hr2 (o := 32 * q + 8) (l := l) (by omega)
          have t2 := T_le hn0 hr1 hr2 (o := 32 * q + 16) (l := l) (by omega)
          have t3 := T_le hn0 hr1 hr2 (o := 32 * q + 24) (l := l) (by omega)
          omega
        obtain ⟨b1, b2⟩ := h2 l hl
        simp only [bodyMsolve, add, and1, srl]
        rw [pair_lane (L := 4) (small_of_reduced hn32 hr1 (by omega)) (small_of_reduced hn32 hr2 (by omega)) hl,
          pair_lane (L := 4) (small_of_reduced hn32 hr1 (by omega)) (small_of_reduced hn32 hr2 (by omega)) hl,
          pair_lane (L := 4) (small_of_reduced hn32 hr1 (by omega)) (small_of_reduced hn32 hr2 (by omega)) hl,
          pair_lane (L := 4) (small_of_reduced hn32 hr1 (by omega)) (small_of_reduced hn32 hr2 (by omega)) hl]
        rw [Nat.and_two_pow_sub_one_eq_mod, Nat.shiftRight_eq_div_pow]
        simp only [Nat.mod_add_mod, Nat.add_mod_mod]
        rw [Nat.mod_eq_of_lt hr]
        generalize T v1 v2 (32 * q) l + T v1 v2 (32 * q + 8) l + T v1 v2 (32 * q + 16) l + T v1 v2 (32 * q + 24) l = r at *
        have hqb : q * 2 ^ 32 ≤ 2 ^ 31 * 2 ^ 32 := Nat.mul_le_mul_right _ (by omega)
        have hr' : r / 2 ^ 32 < 2 ^ 32 := by simp only [W] at hr; omega
        have hr'' : r % 2 ^ 32 < 2 ^ 32 := Nat.mod_lt _ (by norm_num)
        constructor
        · exact Nat.mod_eq_of_lt (by simp only [W]; omega)
        · exact Nat.mod_eq_of_lt (by simp only [W]; omega)
    constructor
    · rw [show 32 * (q + 1) = 32 * q + (8 + 8 + 8 + 8) by omega, dot_split, dotOff_add, dotOff_add, dotOff_add, ← h1,
        show 8 = 2 * 4 by rfl, ← sum_T, ← sum_T, ← sum_T, ← sum_T, ← sum_add_distrib, ← sum_add_distrib,
        ← sum_add_distrib, S32, S32, ← sum_add_distrib]
      refine sum_congr rfl fun l hl => ?_
      obtain ⟨r, -, hr, e1, e2⟩ := e l (mem_range.1 hl)
      rw [e1, e2, low_high, hr]
    · intro l hl
      obtain ⟨r, hr, -, e1, e2⟩ := e l hl
      obtain ⟨b1, b2⟩ := h2 l hl
      rw [e1, e2, Nat.succ_mul]
      have hr' : r / 2 ^ 32 < 2 ^ 32 := by simp only [W] at hr; omega
      have hr'' : r % 2 ^ 32 < 2 ^ 32 := Nat.mod_lt _ (by norm_num)
      omega

theorem red64_eq {p : Nat} (hp0 : 0 < p) (hp : p ≤ 2 ^ 31) : 2 ^ 63 % p * 2 % 2 ^ 32 % p = 2 ^ 64 % p := by
  have := Nat.mod_lt (2 ^ 63) hp0
  rw [Nat.mod_eq_of_lt (show 2 ^ 63 % p * 2 < 2 ^ 32 by omega), Nat.mod_mul_mod]
  congr 1

/-- The reduction of a lane. -/
theorem lane_red {p x y : Nat} (hp0 : 0 < p) (hp : p ≤ 2 ^ 31) (hx : x ≤ 2 ^ 31 * 2 ^ 32) (hy : y ≤ 2 ^ 31 * 2 ^ 32) :
    ((x + (y >>> 32) * (2 ^ 64 % p) % W % p) % W + (y &&& (2 ^ 32 - 1)) * (2 ^ 32 % p) % W % p) % W % p =
      (x + 2 ^ 32 * y) % p := by
  have h1 := Nat.mod_lt (2 ^ 64) hp0
  have h2 := Nat.mod_lt (2 ^ 32) hp0
  rw [Nat.and_two_pow_sub_one_eq_mod, Nat.shiftRight_eq_div_pow]
  have h3 : y / 2 ^ 32 * (2 ^ 64 % p) < W := by
    have := Nat.mul_le_mul (show y / 2 ^ 32 ≤ 2 ^ 31 by omega) (show 2 ^ 64 % p ≤ 2 ^ 31 by omega)
    simp only [W]; omega
  have h4 : y % 2 ^ 32 * (2 ^ 32 % p) < W := by
    have := Nat.mul_le_mul (show y % 2 ^ 32 ≤ 2 ^ 32 by omega) (show 2 ^ 32 % p ≤ 2 ^ 31 by omega)
    simp only [W]; omega
  rw [Nat.mod_eq_of_lt h3, Nat.mod_eq_of_lt h4]
  have h5 := Nat.mod_lt (y / 2 ^ 32 * (2 ^ 64 % p)) hp0
  have h6 := Nat.mod_lt (y % 2 ^ 32 * (2 ^ 32 % p)) hp0
  rw [Nat.mod_eq_of_lt (show x + y / 2 ^ 32 * (2 ^ 64 % p) % p < W by simp only [W]; omega),
    Nat.mod_eq_of_lt (show x + y / 2 ^ 32 * (2 ^ 64 % p) % p + y % 2 ^ 32 * (2 ^ 32 % p) % p < W by
      simp only [W]; omega)]
  have e : x + 2 ^ 32 * y = x + y / 2 ^ 32 * 2 ^ 64 + y % 2 ^ 32 * 2 ^ 32 := by
    conv_lhs => rw [← Nat.div_add_mod y (2 ^ 32)]
    ring
  rw [e]
  show _ ≡ _ [MOD p]
  have k1 : y / 2 ^ 32 * (2 ^ 64 % p) % p ≡ y / 2 ^ 32 * 2 ^ 64 [MOD p] :=
    (Nat.mod_modEq _ _).trans ((Nat.mod_modEq _ _).mul_left _)
  have k2 : y % 2 ^ 32 * (2 ^ 32 % p) % p ≡ y % 2 ^ 32 * 2 ^ 32 [MOD p] :=
    (Nat.mod_modEq _ _).trans ((Nat.mod_modEq _ _).mul_left _)
  exact (k1.add_left x).add k2

theorem tail_msolve (v1 v2 : Nat → Nat) (o p : Nat) (r : Nat) :
    forN r (fun k tmp => tmp + v1 (o + k) * v2 (o + k) % p) 0 ≡ dotOff v1 v2 o r [MOD p] := by
  induction r with
  | zero => simp [forN, dotOff]; rfl
  | succ r ih =>
    rw [dotOff_succ]
    exact ih.add (Nat.mod_modEq _ _)

theorem four_mods {n : Nat} (hn0 : 0 < n) (hn : n ≤ 2 ^ 31) (a0 a1 a2 a3 : Nat) :
    ((((0 + a0 % n) % W + a1 % n) % W + a2 % n) % W + a3 % n) % W % n = (0 + a0 + a1 + a2 + a3) % n := by
  have q0 := Nat.mod_lt a0 hn0
  have q1 := Nat.mod_lt a1 hn0
  have q2 := Nat.mod_lt a2 hn0
  have q3 := Nat.mod_lt a3 hn0
  simp only [Nat.mod_add_mod]
  rw [Nat.mod_eq_of_lt (show 0 + a0 % n + a1 % n + a2 % n + a3 % n < W by simp only [W]; omega)]
  exact (((((Nat.mod_modEq a0 n).add_left 0).add (Nat.mod_modEq a1 n)).add (Nat.mod_modEq a2 n)).add
    (Nat.mod_modEq a3 n))

theorem dotMsolve_spec {v1 v2 : Nat → Nat} {len n : Nat} (hn0 : 0 < n) (hn : 8 * ((n - 1) * (n - 1)) < W)
    (hr1 : Reduced v1 len n) (hr2 : Reduced v2 len n) (hlen : len ≤ 2 ^ 36) :
    dotMsolve v1 v2 len n = dot v1 v2 len % n := by
  have hn31 : n ≤ 2 ^ 31 := by
    by_contra hc
    have := Nat.mul_le_mul (show 2 ^ 31 ≤ n - 1 by omega) (show 2 ^ 31 ≤ n - 1 by omega)
    simp only [W] at hn
    omega
  obtain ⟨h1, h2⟩ := msolve_loop hn0 hn (by omega) hr1 hr2 hlen (len / 32) le_rfl
  unfold dotMsolve
  dsimp only
  generalize forN (len / 32) (fun q => bodyMsolve v1 v2 (32 * q)) (zeroR, zeroR) = s at *
  rw [red64_eq hn0 hn31]
  have hb : ∀ l, l < 4 → s.1 l ≤ 2 ^ 31 * 2 ^ 32 ∧ s.2 l ≤ 2 ^ 31 * 2 ^ 32 := by
    intro l hl
    have hqb : len / 32 * 2 ^ 32 ≤ 2 ^ 31 * 2 ^ 32 := Nat.mul_le_mul_right _ (by omega)
    exact ⟨(h2 l hl).1.trans hqb, (h2 l hl).2.trans hqb⟩
  have key : forN 4 (fun i acc => (acc + ((s.1 i + (s.2 i >>> 32) * (2 ^ 64 % n) % W % n) % W +
      (s.2 i &&& (2 ^ 32 - 1)) * (2 ^ 32 % n) % W % n) % W % n) % W) 0 % n = dot v1 v2 (32 * (len / 32)) % n := by
    simp only [forN]
    rw [lane_red hn0 hn31 (hb 0 (by omega)).1 (hb 0 (by omega)).2,
      lane_red hn0 hn31 (hb 1 (by omega)).1 (hb 1 (by omega)).2,
      lane_red hn0 hn31 (hb 2 (by omega)).1 (hb 2 (by omega)).2,
      lane_red hn0 hn31 (hb 3 (by omega)).1 (hb 3 (by omega)).2, ← h1]
    simp only [S32, sum_range_succ, sum_range_zero]
    rw [four_mods hn0 hn31]
  rw [key]
  have e : dot v1 v2 len = dot v1 v2 (32 * (len / 32)) + dotOff v1 v2 (32 * (len / 32)) (len % 32) := by
    rw [← dot_split, Nat.div_add_mod]
  rw [e]
  exact (Nat.mod_modEq _ _).add (tail_msolve v1 v2 _ n _)

/-! ## IFMA -/

theorem ifmaStep_lane {v1 v2 : Nat → Nat} {o l L : Nat} (h1 : Small v1 o (2 * L)) (h2 : Small v2 o (2 * L)) (hl : l < L)
    (s : Reg × Reg) :
    (ifmaStep (load v1 o) (load v2 o) s).1 l = (s.1 l + (v1 (o + 2 * l) * v2 (o + 2 * l) % 2 ^ 52 +
      v1 (o + 2 * l + 1) * v2 (o + 2 * l + 1) % 2 ^ 52)) % W ∧
    (ifmaStep (load v1 o) (load v2 o) s).2 l = (s.2 l + (v1 (o + 2 * l) * v2 (o + 2 * l) / 2 ^ 52 +
      v1 (o + 2 * l + 1) * v2 (o + 2 * l + 1) / 2 ^ 52)) % W := by
  have a1 := h1 (o + 2 * l) (by omega) (by omega)
  have a2 := h1 (o + 2 * l + 1) (by omega) (by omega)
  have b1 := h2 (o + 2 * l) (by omega) (by omega)
  have b2 := h2 (o + 2 * l + 1) (by omega) (by omega)
  simp only [ifmaStep, madd52lo, madd52hi, and1, srl]
  rw [Nat.and_two_pow_sub_one_eq_mod, Nat.and_two_pow_sub_one_eq_mod, Nat.shiftRight_eq_div_pow,
    Nat.shiftRight_eq_div_pow, load_lo a1, load_lo b1, load_hi a1, load_hi b1,
    Nat.mod_eq_of_lt (show v1 (o + 2 * l) < 2 ^ 52 by omega), Nat.mod_eq_of_lt (show v2 (o + 2 * l) < 2 ^ 52 by omega),
    Nat.mod_eq_of_lt (show v1 (o + 2 * l + 1) < 2 ^ 52 by omega),
    Nat.mod_eq_of_lt (show v2 (o + 2 * l + 1) < 2 ^ 52 by omega)]
  simp only [Nat.mod_add_mod, add_assoc, and_self]

theorem sum_blocks (v1 v2 : Nat → Nat) (o c : Nat) : ∀ K, ∑ k ∈ range K, dotOff v1 v2 (o + c * k) c = dotOff v1 v2 o (c * K)
  | 0 => by simp [dotOff]
  | K + 1 => by rw [sum_range_succ, sum_blocks v1 v2 o c K, ← dotOff_add, Nat.mul_succ]

/-- Sums over all lanes of all accumulators. -/
def SS (K L : Nat) (f : Nat → Reg) : Nat := ∑ k ∈ range K, ∑ l ∈ range L, f k l

theorem SS_lane {K L : Nat} (f : Nat → Reg) {k l : Nat} (hk : k < K) (hl : l < L) : f k l ≤ SS K L f :=
  (single_le_sum (f := fun l => f k l) (fun _ _ => Nat.zero_le _) (mem_range.2 hl)).trans
    (single_le_sum (f := fun k => ∑ l ∈ range L, f k l) (fun _ _ => Nat.zero_le _) (mem_range.2 hk))

theorem forN_hsum {K L : Nat} {hsum : Reg → Nat} (hh : ∀ a, hsum a = (∑ l ∈ range L, a l) % W) (f : Nat → Reg) :
    forN K (fun k x => (x + hsum (f k)) % W) 0 = SS K L f % W := by
  induction K with
  | zero => rfl
  | succ K ih => rw [forN, ih, hh, Nat.mod_add_mod, Nat.add_mod_mod, SS, SS, sum_range_succ]

theorem ifma_spec {K L : Nat} (hK : 2 * L * K = 32) {hsum : Reg → Nat} (hh : ∀ a, hsum a = (∑ l ∈ range L, a l) % W)
    {v1 v2 : Nat → Nat} {len n : Nat} (hn0 : 0 < n) (hn : n ≤ 2 ^ 32) (hr1 : Reduced v1 len n) (hr2 : Reduced v2 len n)
    (hlen : len ≤ 4096) (hdiv : len % 32 = 0) : ifma K L hsum v1 v2 len n (2 ^ 52 % n) = dot v1 v2 len % n := by
  unfold ifma
  dsimp only
  obtain ⟨⟨a1, a2, a3, a4, a5⟩, a6⟩ := forFrom_inv
    (fun i s => i ≤ len ∧ i % 32 = 0 ∧ SS K L (fun k => (s k).1) + 2 ^ 52 * SS K L (fun k => (s k).2) = dot v1 v2 i ∧
      SS K L (fun k => (s k).1) ≤ i * (2 ^ 52 - 1) ∧ SS K L (fun k => (s k).2) ≤ i * 2 ^ 12)
    (c := 31) (d := 32) (len := len) (f := fun i s => forN K (fun k s =>
      write k (ifmaStep (load v1 (i + 2 * L * k)) (load v2 (i + 2 * L * k)) (s k)) s) s) (i := 0)
    (s := fun _ => (zeroR, zeroR)) (by omega) ⟨by omega, rfl, by simp [SS, zeroR, dot], by simp [SS, zeroR], by
      simp [SS, zeroR]⟩ (by
      rintro i s ⟨h1, h2, h3, h4, h5⟩ hi
      have hk : ∀ k, k < K → i + 2 * L * k + 2 * L ≤ len := by
        intro k hk
        have : 2 * L * (k + 1) ≤ 2 * L * K := Nat.mul_le_mul_left _ (by omega)
        rw [Nat.mul_succ] at this
        omega
      have e0 : ∀ k, k < K → forN K (fun k s =>
          write k (ifmaStep (load v1 (i + 2 * L * k)) (load v2 (i + 2 * L * k)) (s k)) s) s k =
          ifmaStep (load v1 (i + 2 * L * k)) (load v2 (i + 2 * L * k)) (s k) := by
        intro k hk
        rw [PML.Multi.forN_all (fun k s => ifmaStep (load v1 (i + 2 * L * k)) (load v2 (i + 2 * L * k)) s), if_pos hk]
      have hprod : ∀ j, j < len → v1 j * v2 j < 2 ^ 64 := by
        intro j hj
        have := Nat.mul_le_mul (show v1 j ≤ 2 ^ 32 - 1 by have := hr1 j hj; omega)
          (show v2 j ≤ 2 ^ 32 - 1 by have := hr2 j hj; omega)
        omega
      set U : Nat → Nat → Nat := fun o l => v1 (o + 2 * l) * v2 (o + 2 * l) % 2 ^ 52 +
        v1 (o + 2 * l + 1) * v2 (o + 2 * l + 1) % 2 ^ 52 with hU
      set V : Nat → Nat → Nat := fun o l => v1 (o + 2 * l) * v2 (o + 2 * l) / 2 ^ 52 +
        v1 (o + 2 * l + 1) * v2 (o + 2 * l + 1) / 2 ^ 52 with hV
      have hUV : ∀ o l, U o l + 2 ^ 52 * V o l = T v1 v2 o l := by
        intro o l
        simp only [hU, hV, T]
        omega
      have hUb : ∀ o l, U o l ≤ 2 * (2 ^ 52 - 1) := by
        intro o l
        simp only [hU]
        omega
      have hVb : ∀ o l, o + 2 * l + 1 < len → V o l ≤ 2 * 2 ^ 12 := by
        intro o l h
        have := hprod (o + 2 * l) (by omega)
        have := hprod (o + 2 * l + 1) (by omega)
        simp only [hV]
        omega
      have e1 : ∀ k, k < K → ∀ l, l < L →
          (ifmaStep (load v1 (i + 2 * L * k)) (load v2 (i + 2 * L * k)) (s k)).1 l = (s k).1 l + U (i + 2 * L * k) l ∧
          (ifmaStep (load v1 (i + 2 * L * k)) (load v2 (i + 2 * L * k)) (s k)).2 l =
            (s k).2 l + V (i + 2 * L * k) l := by
        intro k hk' l hl
        have hkk := hk k hk'
        obtain ⟨q1, q2⟩ := ifmaStep_lane (L := L) (small_of_reduced hn hr1 hkk) (small_of_reduced hn hr2 hkk) hl (s k)
        have b1 := SS_lane (fun k => (s k).1) hk' hl
        have b2 := SS_lane (fun k => (s k).2) hk' hl
        have b3 := hUb (i + 2 * L * k) l
        have b4 := hVb (i + 2 * L * k) l (by omega)
        rw [q1, q2]
        constructor
        · exact Nat.mod_eq_of_lt (show (s k).1 l + U (i + 2 * L * k) l < W by simp only [W]; omega)
        · exact Nat.mod_eq_of_lt (show (s k).2 l + V (i + 2 * L * k) l < W by simp only [W]; omega)
      have f1 : SS K L (fun k => (forN K (fun k s =>
          write k (ifmaStep (load v1 (i + 2 * L * k)) (load v2 (i + 2 * L * k)) (s k)) s) s k).1) =
          SS K L (fun k => (s k).1) + SS K L fun k => U (i + 2 * L * k) := by
        rw [SS, SS, SS, ← sum_add_distrib]
        refine sum_congr rfl fun k hk' => ?_
        rw [← sum_add_distrib]
        refine sum_congr rfl fun l hl => ?_
        rw [e0 k (mem_range.1 hk'), (e1 k (mem_range.1 hk') l (mem_range.1 hl)).1]
      have f2 : SS K L (fun k => (forN K (fun k s =>
          write k (ifmaStep (load v1 (i + 2 * L * k)) (load v2 (i + 2 * L * k)) (s k)) s) s k).2) =
          SS K L (fun k => (s k).2) + SS K L fun k => V (i + 2 * L * k) := by
        rw [SS, SS, SS, ← sum_add_distrib]
        refine sum_congr rfl fun k hk' => ?_
        rw [← sum_add_distrib]
        refine sum_congr rfl fun l hl => ?_
        rw [e0 k (mem_range.1 hk'), (e1 k (mem_range.1 hk') l (mem_range.1 hl)).2]
      have f3 : SS K L (fun k => U (i + 2 * L * k)) + 2 ^ 52 * SS K L (fun k => V (i + 2 * L * k)) = dotOff v1 v2 i 32 := by
        rw [← hK, ← sum_blocks, SS, SS, mul_sum, ← sum_add_distrib]
        refine sum_congr rfl fun k hk' => ?_
        rw [← sum_T, mul_sum, ← sum_add_distrib]
        exact sum_congr rfl fun l hl => hUV _ _
      have hcount : K * (L * 2) = 32 := by rw [← hK]; ring
      have f4 : SS K L (fun k => U (i + 2 * L * k)) ≤ 32 * (2 ^ 52 - 1) := by
        have : SS K L (fun k => U (i + 2 * L * k)) ≤ ∑ _k ∈ range K, ∑ _l ∈ range L, 2 * (2 ^ 52 - 1) :=
          sum_le_sum fun k _ => sum_le_sum fun l _ => hUb _ _
        rw [sum_const, sum_const, card_range, card_range, smul_eq_mul, smul_eq_mul, ← mul_assoc L, ← mul_assoc K,
          hcount] at this
        exact this
      have f5 : SS K L (fun k => V (i + 2 * L * k)) ≤ 32 * 2 ^ 12 := by
        have : SS K L (fun k => V (i + 2 * L * k)) ≤ ∑ _k ∈ range K, ∑ _l ∈ range L, 2 * 2 ^ 12 :=
          sum_le_sum fun k hk' => sum_le_sum fun l hl => hVb _ _ (by
            have := hk k (mem_range.1 hk')
            have := mem_range.1 hl
            omega)
        rw [sum_const, sum_const, card_range, card_range, smul_eq_mul, smul_eq_mul, ← mul_assoc L, ← mul_assoc K,
          hcount] at this
        exact this
      refine ⟨by omega, by omega, ?_, ?_, ?_⟩
      · rw [f1, f2, dot_split, ← h3, ← f3]
        ring
      · rw [f1]
        omega
      · rw [f2]
        omega)
  generalize forFrom 31 32 len (fun i s => forN K (fun k s =>
      write k (ifmaStep (load v1 (i + 2 * L * k)) (load v2 (i + 2 * L * k)) (s k)) s) s) 0
      (fun _ => (zeroR, zeroR)) = r at *
  have hlast : r.1 = len := by omega
  rw [hlast] at a3 a4 a5
  rw [forN_hsum hh (fun k => (r.2 k).1), forN_hsum hh (fun k => (r.2 k).2),
    Nat.mod_eq_of_lt (show SS K L (fun k => (r.2 k).1) < W by simp only [W]; omega),
    Nat.mod_eq_of_lt (show SS K L (fun k => (r.2 k).2) < W by simp only [W]; omega), ← a3]
  generalize SS K L (fun k => (r.2 k).1) = x at *
  generalize SS K L (fun k => (r.2 k).2) = y at *
  unfold nmod_red
  have h1 : (x % n + 2 ^ 52 % n * (y % n) % n) % n = (x + 2 ^ 52 * y) % n := by
    show _ ≡ _ [MOD n]
    exact (Nat.mod_modEq _ _).add ((Nat.mod_modEq _ _).trans ((Nat.mod_modEq _ _).mul (Nat.mod_modEq _ _)))
  rw [h1]
  exact Nat.mod_eq_of_lt (lt_of_lt_of_le (Nat.mod_lt _ hn0) hn)

theorem ifma_short (K L : Nat) {hsum : Reg → Nat} (hh : ∀ a, hsum a = (∑ l ∈ range L, a l) % W) (v1 v2 : Nat → Nat)
    (len n pow2 : Nat) (hlen : len < 32) : ifma K L hsum v1 v2 len n pow2 = 0 := by
  unfold ifma forFrom
  have : (len - (0 + 31) + (32 - 1)) / 32 = 0 := by omega
  dsimp only
  rw [this]
  simp only [forN]
  rw [forN_hsum hh (fun _ => zeroR)]
  have : SS K L (fun _ => zeroR) = 0 := by simp [SS, zeroR]
  rw [this]
  simp [nmod_red]

/-! ## Matrix-vector products -/

theorem dot_comm (v1 v2 : Nat → Nat) (len : Nat) : dot v1 v2 len = dot v2 v1 len :=
  sum_congr rfl fun _ _ => Nat.mul_comm _ _

theorem mdot1_spec {D : (Nat → Nat) → (Nat → Nat) → Nat} {mv mat vec : Nat → Nat} {nrows len stride n : Nat}
    (hD : ∀ i, i < nrows → D (row mat stride i) vec = dot (row mat stride i) vec len % n) :
    mdot1 D mat vec nrows stride mv = mdotRes mv mat vec nrows len stride n := by
  funext i
  unfold mdot1 mdotRes
  rw [PML.Multi.forN_all (fun i _ => D (row mat stride i) vec)]
  by_cases h : i < nrows
  · rw [if_pos h, if_pos h, hD i h]; rfl
  · rw [if_neg h, if_neg h]

theorem mdot2_spec {D2 : (Nat → Nat) → (Nat → Nat) → (Nat → Nat) → Nat × Nat} {D : (Nat → Nat) → (Nat → Nat) → Nat}
    {mv mat vec : Nat → Nat} {nrows len stride n : Nat}
    (hD : ∀ i, i < nrows → D vec (row mat stride i) = dot (row mat stride i) vec len % n)
    (hD2 : ∀ i i', i < nrows → i' < nrows → D2 vec (row mat stride i) (row mat stride i') =
      (dot (row mat stride i) vec len % n, dot (row mat stride i') vec len % n)) :
    mdot2 D2 D mat vec nrows stride mv = mdotRes mv mat vec nrows len stride n := by
  obtain ⟨⟨a1, a2⟩, a3⟩ := forFrom_inv (fun i s => i ≤ nrows ∧ ∀ j, s j =
      if j < i then dot (row mat stride j) vec len % n else mv j)
    (c := 1) (d := 2) (len := nrows) (f := fun i mv =>
      let r := D2 vec (row mat stride i) (row mat stride (i + 1))
      write (i + 1) r.2 (write i r.1 mv)) (i := 0) (s := mv) (by omega) ⟨by omega, fun j => by simp⟩ (by
      rintro i s ⟨h1, h2⟩ hi
      refine ⟨by omega, fun j => ?_⟩
      dsimp only
      rw [hD2 i (i + 1) (by omega) (by omega)]
      simp only [write, Function.update_apply]
      rw [h2]
      by_cases e1 : j = i + 1
      · rw [if_pos e1, e1, if_pos (by omega)]
      · by_cases e2 : j = i
        · rw [if_neg e1, if_pos e2, e2, if_pos (by omega)]
        · rw [if_neg e1, if_neg e2]
          by_cases e3 : j < i
          · rw [if_pos e3, if_pos (by omega)]
          · rw [if_neg e3, if_neg (by omega)])
  unfold mdot2
  dsimp only at *
  generalize forFrom 1 2 nrows (fun i mv => write (i + 1) (D2 vec (row mat stride i) (row mat stride (i + 1))).2
    (write i (D2 vec (row mat stride i) (row mat stride (i + 1))).1 mv)) 0 mv = s at *
  funext j
  unfold mdotRes
  show _ = if j < nrows then dot (row mat stride j) vec len % n else mv j
  by_cases h : s.1 + 1 = nrows
  · rw [if_pos h, hD s.1 (by omega)]
    simp only [write, Function.update_apply]
    rw [a2]
    by_cases e : j = s.1
    · rw [if_pos e, e, if_pos (by omega)]
    · rw [if_neg e]
      by_cases e3 : j < s.1
      · rw [if_pos e3, if_pos (by omega)]
      · rw [if_neg e3, if_neg (by omega)]
  · rw [if_neg h, a2, show s.1 = nrows by omega]

theorem mdot3_spec {D3 : (Nat → Nat) → (Nat → Nat) → (Nat → Nat) → (Nat → Nat) → Nat × Nat × Nat}
    {D2 : (Nat → Nat) → (Nat → Nat) → (Nat → Nat) → Nat × Nat} {D : (Nat → Nat) → (Nat → Nat) → Nat}
    {mv mat vec : Nat → Nat} {nrows len stride n : Nat}
    (hD : ∀ i, i < nrows → D vec (row mat stride i) = dot (row mat stride i) vec len % n)
    (hD2 : ∀ i i', i < nrows → i' < nrows → D2 vec (row mat stride i) (row mat stride i') =
      (dot (row mat stride i) vec len % n, dot (row mat stride i') vec len % n))
    (hD3 : ∀ i i' i'', i < nrows → i' < nrows → i'' < nrows →
      D3 vec (row mat stride i) (row mat stride i') (row mat stride i'') =
      (dot (row mat stride i) vec len % n, dot (row mat stride i') vec len % n, dot (row mat stride i'') vec len % n)) :
    mdot3 D3 D2 D mat vec nrows stride mv = mdotRes mv mat vec nrows len stride n := by
  obtain ⟨⟨a1, a2⟩, a3⟩ := forFrom_inv (fun i s => i ≤ nrows ∧ ∀ j, s j =
      if j < i then dot (row mat stride j) vec len % n else mv j)
    (c := 2) (d := 3) (len := nrows) (f := fun i mv =>
      let r := D3 vec (row mat stride i) (row mat stride (i + 1)) (row mat stride (i + 2))
      write (i + 2) r.2.2 (write (i + 1) r.2.1 (write i r.1 mv))) (i := 0) (s := mv) (by omega)
    ⟨by omega, fun j => by simp⟩ (by
      rintro i s ⟨h1, h2⟩ hi
      refine ⟨by omega, fun j => ?_⟩
      dsimp only
      rw [hD3 i (i + 1) (i + 2) (by omega) (by omega) (by omega)]
      simp only [write, Function.update_apply]
      rw [h2]
      by_cases e0 : j = i + 2
      · rw [if_pos e0, e0, if_pos (by omega)]
      · by_cases e1 : j = i + 1
        · rw [if_neg e0, if_pos e1, e1, if_pos (by omega)]
        · by_cases e2 : j = i
          · rw [if_neg e0, if_neg e1, if_pos e2, e2, if_pos (by omega)]
          · rw [if_neg e0, if_neg e1, if_neg e2]
            by_cases e3 : j < i
            · rw [if_pos e3, if_pos (by omega)]
            · rw [if_neg e3, if_neg (by omega)])
  unfold mdot3
  dsimp only at *
  generalize forFrom 2 3 nrows (fun i mv =>
    write (i + 2) (D3 vec (row mat stride i) (row mat stride (i + 1)) (row mat stride (i + 2))).2.2
    (write (i + 1) (D3 vec (row mat stride i) (row mat stride (i + 1)) (row mat stride (i + 2))).2.1
    (write i (D3 vec (row mat stride i) (row mat stride (i + 1)) (row mat stride (i + 2))).1 mv))) 0 mv = s at *
  funext j
  unfold mdotRes
  show _ = if j < nrows then dot (row mat stride j) vec len % n else mv j
  by_cases h : nrows - s.1 = 2
  · rw [if_pos h, hD2 s.1 (s.1 + 1) (by omega) (by omega)]
    simp only [write, Function.update_apply]
    rw [a2]
    by_cases e1 : j = s.1 + 1
    · rw [if_pos e1, e1, if_pos (by omega)]
    · by_cases e2 : j = s.1
      · rw [if_neg e1, if_pos e2, e2, if_pos (by omega)]
      · rw [if_neg e1, if_neg e2]
        by_cases e3 : j < s.1
        · rw [if_pos e3, if_pos (by omega)]
        · rw [if_neg e3, if_neg (by omega)]
  · rw [if_neg h]
    by_cases h' : nrows - s.1 = 1
    · rw [if_pos h', hD s.1 (by omega)]
      simp only [write, Function.update_apply]
      rw [a2]
      by_cases e : j = s.1
      · rw [if_pos e, e, if_pos (by omega)]
      · rw [if_neg e]
        by_cases e3 : j < s.1
        · rw [if_pos e3, if_pos (by omega)]
        · rw [if_neg e3, if_neg (by omega)]
    · rw [if_neg h', a2, show s.1 = nrows by omega]

end PML.N32
