import Verif.N32.Model
import Verif.Word.Props
import Verif.Multi.Lemmas
import Mathlib.Tactic.Linarith
import Mathlib.Tactic.NormNum
import Mathlib.Tactic.IntervalCases

/-!
# Vectors over Z/nZ with entries of 32 bits (lemmas)
-/

namespace PML.N32

open PML.Word Finset

theorem forFrom_inv {σ : Type} (P : Nat → σ → Prop) {c d len : Nat} {f : Nat → σ → σ} {i : Nat} {s : σ}
    (hd : 0 < d) (h0 : P i s) (hs : ∀ j t, P j t → j + c < len → P (j + d) (f j t)) :
    P (forFrom c d len f i s).1 (forFrom c d len f i s).2 ∧ len ≤ (forFrom c d len f i s).1 + c := by
  unfold forFrom
  generalize ht : (len - (i + c) + (d - 1)) / d = t
  have h1 : t * d ≤ len - (i + c) + (d - 1) := ht ▸ Nat.div_mul_le_self _ _
  have h2 : len - (i + c) + (d - 1) < (t + 1) * d := by
    rw [← ht, mul_comm]; exact Nat.lt_mul_div_succ _ hd
  rw [Nat.succ_mul] at h2
  dsimp only
  refine ⟨?_, by omega⟩
  have := forN_inv (fun q s => q ≤ t → P (i + q * d) s) (f := fun q => f (i + q * d)) (s := s) (n := t)
    (fun _ => by simpa using h0) (fun q x hq ih _ => by
      have h3 := hs _ _ (ih (by omega)) (by
        have : (q + 1) * d ≤ t * d := Nat.mul_le_mul_right d (by omega)
        rw [Nat.succ_mul] at this
        omega)
      rw [Nat.succ_mul, ← add_assoc]
      exact h3)
  exact this le_rfl

/-! ## Lanes -/

/-- The two products that lane `l` of registers loaded at `o` contributes. -/
def T (v1 v2 : Nat → Nat) (o l : Nat) : Nat :=
  v1 (o + 2 * l) * v2 (o + 2 * l) + v1 (o + 2 * l + 1) * v2 (o + 2 * l + 1)

/-- The entries `o, …, o+k-1` fit in 32 bits. -/
def Small (v : Nat → Nat) (o k : Nat) : Prop := ∀ j, o ≤ j → j < o + k → v j < 2 ^ 32

theorem dotOff_add (v1 v2 : Nat → Nat) (o a b : Nat) :
    dotOff v1 v2 o (a + b) = dotOff v1 v2 o a + dotOff v1 v2 (o + a) b := by
  simp [dotOff, sum_range_add, add_assoc]

theorem sum_T (v1 v2 : Nat → Nat) (o : Nat) : ∀ L, ∑ l ∈ range L, T v1 v2 o l = dotOff v1 v2 o (2 * L)
  | 0 => by simp [dotOff]
  | L + 1 => by
    rw [sum_range_succ, sum_T v1 v2 o L, show 2 * (L + 1) = 2 * L + 1 + 1 from by omega, dotOff_succ, dotOff_succ]
    simp only [T, add_assoc]

theorem load_lo {v : Nat → Nat} {o l : Nat} (h : v (o + 2 * l) < 2 ^ 32) : load v o l % 2 ^ 32 = v (o + 2 * l) := by
  unfold load; omega

theorem load_hi {v : Nat → Nat} {o l : Nat} (h : v (o + 2 * l) < 2 ^ 32) :
    load v o l / 2 ^ 32 = v (o + 2 * l + 1) := by
  unfold load; omega

theorem swap_lo {v : Nat → Nat} {o l : Nat} (h : v (o + 2 * l) < 2 ^ 32) (h' : v (o + 2 * l + 1) < 2 ^ 32) :
    swap (load v o) l % 2 ^ 32 = v (o + 2 * l + 1) := by
  unfold swap
  rw [load_hi h]
  omega

theorem add2_lane {v1 v2 : Nat → Nat} {o l L : Nat} (h1 : Small v1 o (2 * L)) (h2 : Small v2 o (2 * L)) (hl : l < L)
    (lo : Reg) : add2 (load v1 o) (load v2 o) lo l = (lo l + T v1 v2 o l) % W := by
  have a1 := h1 (o + 2 * l) (by omega) (by omega)
  have a2 := h1 (o + 2 * l + 1) (by omega) (by omega)
  have b1 := h2 (o + 2 * l) (by omega) (by omega)
  have b2 := h2 (o + 2 * l + 1) (by omega) (by omega)
  simp only [add2, add, mulLo]
  rw [load_lo a1, load_lo b1, swap_lo a1 a2, swap_lo b1 b2, Nat.mod_add_mod, T, add_assoc]

theorem mul2_lane {v1 v2 : Nat → Nat} {o l L : Nat} (h1 : Small v1 o (2 * L)) (h2 : Small v2 o (2 * L)) (hl : l < L) :
    mul2 (load v1 o) (load v2 o) l = T v1 v2 o l % W := by
  have a1 := h1 (o + 2 * l) (by omega) (by omega)
  have a2 := h1 (o + 2 * l + 1) (by omega) (by omega)
  have b1 := h2 (o + 2 * l) (by omega) (by omega)
  have b2 := h2 (o + 2 * l + 1) (by omega) (by omega)
  simp only [mul2, add, mulLo]
  rw [load_lo a1, load_lo b1, swap_lo a1 a2, swap_lo b1 b2, T]

theorem add4_lane {v1 v2 : Nat → Nat} {o o' l L : Nat} (h1 : Small v1 o (2 * L)) (h2 : Small v2 o (2 * L))
    (h1' : Small v1 o' (2 * L)) (h2' : Small v2 o' (2 * L)) (hl : l < L) (lo : Reg) :
    add4 (load v1 o) (load v2 o) (load v1 o') (load v2 o') lo l = (lo l + (T v1 v2 o l + T v1 v2 o' l)) % W := by
  have a1 := h1 (o + 2 * l) (by omega) (by omega)
  have a2 := h1 (o + 2 * l + 1) (by omega) (by omega)
  have b1 := h2 (o + 2 * l) (by omega) (by omega)
  have b2 := h2 (o + 2 * l + 1) (by omega) (by omega)
  have c1 := h1' (o' + 2 * l) (by omega) (by omega)
  have c2 := h1' (o' + 2 * l + 1) (by omega) (by omega)
  have d1 := h2' (o' + 2 * l) (by omega) (by omega)
  have d2 := h2' (o' + 2 * l + 1) (by omega) (by omega)
  simp only [add4, add, mulLo]
  rw [load_lo a1, load_lo b1, swap_lo a1 a2, swap_lo b1 b2, load_lo c1, load_lo d1, swap_lo c1 c2, swap_lo d1 d2]
  simp only [Nat.mod_add_mod, T]
  congr 1
  ring

/-- `body` adds the products of the `8 L` entries at `i` to the lanes, modulo `2^64`. -/
def BodyOK (L : Nat) (body : (Nat → Nat) → (Nat → Nat) → Nat → Reg → Reg) : Prop :=
  ∀ v1 v2 i lo, Small v1 i (8 * L) → Small v2 i (8 * L) → ∀ l, l < L →
    body v1 v2 i lo l =
      (lo l + (T v1 v2 i l + T v1 v2 (i + 2 * L) l + T v1 v2 (i + 4 * L) l + T v1 v2 (i + 6 * L) l)) % W

theorem Small.sub {v : Nat → Nat} {o k : Nat} (h : Small v o k) (o' k' : Nat) (h1 : o ≤ o' := by omega)
    (h2 : o' + k' ≤ o + k := by omega) : Small v o' k' := fun j a b => h j (by omega) (by omega)

theorem bodyDot_ok (L : Nat) : BodyOK L (bodyDot L) := by
  intro v1 v2 i lo h1 h2 l hl
  simp only [bodyDot]
  unfold add
  rw [add2_lane (L := L) (h1.sub i _) (h2.sub i _) hl,
    mul2_lane (L := L) (h1.sub (i + 2 * L) _) (h2.sub (i + 2 * L) _) hl,
    mul2_lane (L := L) (h1.sub (i + 4 * L) _) (h2.sub (i + 4 * L) _) hl,
    mul2_lane (L := L) (h1.sub (i + 6 * L) _) (h2.sub (i + 6 * L) _) hl]
  simp only [Nat.mod_add_mod, Nat.add_mod_mod]
  congr 1
  ring

theorem bodyDot2_ok (L : Nat) : BodyOK L (bodyDot2 L) := by
  intro v1 v2 i lo h1 h2 l hl
  simp only [bodyDot2]
  unfold add
  rw [add2_lane (L := L) (h1.sub (i + 4 * L) _) (h2.sub (i + 4 * L) _) hl,
    add2_lane (L := L) (h1.sub i _) (h2.sub i _) hl,
    add2_lane (L := L) (h1.sub (i + 6 * L) _) (h2.sub (i + 6 * L) _) hl,
    mul2_lane (L := L) (h1.sub (i + 2 * L) _) (h2.sub (i + 2 * L) _) hl]
  simp only [Nat.mod_add_mod, Nat.add_mod_mod]
  congr 1
  ring

theorem bodyDot3_ok : BodyOK 4 bodyDot3 := by
  intro v1 v2 i lo h1 h2 l hl
  simp only [bodyDot3]
  rw [add2_lane (L := 4) (h1.sub (i + 24) _) (h2.sub (i + 24) _) hl,
    add2_lane (L := 4) (h1.sub (i + 16) _) (h2.sub (i + 16) _) hl,
    add2_lane (L := 4) (h1.sub (i + 8) _) (h2.sub (i + 8) _) hl,
    add2_lane (L := 4) (h1.sub i _) (h2.sub i _) hl]
  simp only [Nat.mod_add_mod]
  congr 1
  ring

theorem bodyDot3x_ok : BodyOK 8 bodyDot3x := by
  intro v1 v2 i lo h1 h2 l hl
  simp only [bodyDot3x]
  rw [add4_lane (L := 8) (h1.sub (i + 32) _) (h2.sub (i + 32) _) (h1.sub (i + 48) _) (h2.sub (i + 48) _) hl,
    add4_lane (L := 8) (h1.sub i _) (h2.sub i _) (h1.sub (i + 16) _) (h2.sub (i + 16) _) hl]
  simp only [Nat.mod_add_mod]
  congr 1
  ring

/-! ## The split -/

/-- The integer held by the two registers. -/
def S (L : Nat) (s : Reg × Reg) : Nat := ∑ l ∈ range L, (s.1 l * 2 ^ 56 + s.2 l)

theorem S_lane {L : Nat} (s : Reg × Reg) {l : Nat} (hl : l < L) : s.1 l * 2 ^ 56 + s.2 l ≤ S L s :=
  single_le_sum (f := fun l => s.1 l * 2 ^ 56 + s.2 l) (fun _ _ => Nat.zero_le _) (mem_range.2 hl)

theorem S_zero (L : Nat) : S L (zeroR, zeroR) = 0 := by
  have h : ∀ k l, zeroR l * k + zeroR l = 0 := fun k l => by simp [zeroR]
  exact sum_eq_zero fun l _ => h _ l

theorem MASK_eq : MASK = 2 ^ 56 - 1 := rfl

theorem split_S {L : Nat} (s : Reg × Reg) (h : S L s < 2 ^ 100) :
    S L (split s) = S L s ∧ ∀ l, l < L → (split s).2 l < 2 ^ 56 := by
  have key : ∀ l, l < L → (split s).1 l * 2 ^ 56 + (split s).2 l = s.1 l * 2 ^ 56 + s.2 l ∧ (split s).2 l < 2 ^ 56 := by
    intro l hl
    have hb := S_lane s hl
    simp only [split, add, srl, and1]
    rw [MASK_eq, Nat.and_two_pow_sub_one_eq_mod, Nat.shiftRight_eq_div_pow]
    simp only [SB, W]
    generalize s.1 l = x at *
    generalize s.2 l = y at *
    omega
  exact ⟨sum_congr rfl fun l hl => (key l (mem_range.1 hl)).1, fun l hl => (key l hl).2⟩

theorem bound_M {n : Nat} (hn : n ≤ maxModulus) : (n - 1) * (n - 1) ≤ 1515531527 * 1515531527 :=
  Nat.mul_le_mul (by simp only [maxModulus] at hn; omega) (by simp only [maxModulus] at hn; omega)

section

variable {v1 v2 : Nat → Nat} {len n : Nat}

theorem T_le (hn0 : 0 < n) (hr1 : Reduced v1 len n) (hr2 : Reduced v2 len n) {o l : Nat}
    (h : o + 2 * l + 1 < len) : T v1 v2 o l ≤ 2 * ((n - 1) * (n - 1)) := by
  have a1 := hr1 (o + 2 * l) (by omega)
  have a2 := hr1 (o + 2 * l + 1) (by omega)
  have b1 := hr2 (o + 2 * l) (by omega)
  have b2 := hr2 (o + 2 * l + 1) (by omega)
  have := Nat.mul_le_mul (show v1 (o + 2 * l) ≤ n - 1 by omega) (show v2 (o + 2 * l) ≤ n - 1 by omega)
  have := Nat.mul_le_mul (show v1 (o + 2 * l + 1) ≤ n - 1 by omega) (show v2 (o + 2 * l + 1) ≤ n - 1 by omega)
  unfold T
  omega

theorem small_of_reduced (hn : n ≤ 2 ^ 32) {v : Nat → Nat} (hr : Reduced v len n) {o k : Nat} (h : o + k ≤ len) :
    Small v o k := fun j _ b => lt_of_lt_of_le (hr j (by omega)) hn

theorem dot_le (hn0 : 0 < n) (hr1 : Reduced v1 len n) (hr2 : Reduced v2 len n) {i : Nat} (hi : i ≤ len) :
    dot v1 v2 i ≤ len * ((n - 1) * (n - 1)) := by
  have h := dotOff_le v1 v2 0 i (n - 1) (n - 1) (fun j hj => by have := hr1 j (by omega); rw [Nat.zero_add]; omega)
    (fun j hj => by have := hr2 j (by omega); rw [Nat.zero_add]; omega)
  have e : dot v1 v2 i = dotOff v1 v2 0 i := by simp [dot, dotOff]
  rw [e]
  exact h.trans (Nat.mul_le_mul_right _ hi)

theorem dot_lt (hn0 : 0 < n) (hn : n ≤ maxModulus) (hlen : len ≤ maxLen) (hr1 : Reduced v1 len n)
    (hr2 : Reduced v2 len n) {i : Nat} (hi : i ≤ len) : dot v1 v2 i ≤ 380368697 * (1515531527 * 1515531527) :=
  (dot_le hn0 hr1 hr2 hi).trans (Nat.mul_le_mul hlen (bound_M hn))

theorem loops_spec {L : Nat} (hL : 0 < L) {body : (Nat → Nat) → (Nat → Nat) → Nat → Reg → Reg} (hb : BodyOK L body)
    (hn0 : 0 < n) (hn : n ≤ maxModulus) (hlen : len ≤ maxLen) (hr1 : Reduced v1 len n) (hr2 : Reduced v2 len n) :
    (loops L body v1 v2 len).1 ≤ len ∧ len < (loops L body v1 v2 len).1 + 2 * L ∧
      S L (loops L body v1 v2 len).2 = dot v1 v2 (loops L body v1 v2 len).1 ∧
      ∀ l, l < L → (loops L body v1 v2 len).2.2 l < 2 ^ 56 + 6 * (1515531527 * 1515531527) := by
  have hM := bound_M hn
  have hn32 : n ≤ 2 ^ 32 := by simp only [maxModulus] at hn; omega
  unfold loops
  dsimp only
  obtain ⟨⟨a1, a2, a3⟩, a4⟩ := forFrom_inv
    (fun i s => i ≤ len ∧ S L s = dot v1 v2 i ∧ ∀ l, l < L → s.2 l < 2 ^ 56)
    (f := fun i s => split (s.1, body v1 v2 i s.2)) (c := 8 * L - 1) (d := 8 * L) (len := len) (i := 0)
    (s := (zeroR, zeroR)) (by omega) ⟨Nat.zero_le _, S_zero L, fun l _ => Nat.two_pow_pos 56⟩
    (by
      rintro i s ⟨h1, h2, h3⟩ hi
      have e1 : ∀ l, l < L → body v1 v2 i s.2 l =
          s.2 l + (T v1 v2 i l + T v1 v2 (i + 2 * L) l + T v1 v2 (i + 4 * L) l + T v1 v2 (i + 6 * L) l) := by
        intro l hl
        rw [hb v1 v2 i s.2 (small_of_reduced hn32 hr1 (by omega)) (small_of_reduced hn32 hr2 (by omega)) l hl]
        have t0 := T_le hn0 hr1 hr2 (o := i) (l := l) (by omega)
        have t1 := T_le hn0 hr1 hr2 (o := i + 2 * L) (l := l) (by omega)
        have t2 := T_le hn0 hr1 hr2 (o := i + 4 * L) (l := l) (by omega)
        have t3 := T_le hn0 hr1 hr2 (o := i + 6 * L) (l := l) (by omega)
        have := h3 l hl
        rw [Nat.mod_eq_of_lt]
        simp only [W]
        omega
      have e2 : S L (s.1, body v1 v2 i s.2) = dot v1 v2 (i + 8 * L) := by
        rw [dot_split, ← h2, show 8 * L = 2 * L + 2 * L + 2 * L + 2 * L by omega, dotOff_add, dotOff_add, dotOff_add,
          ← sum_T, ← sum_T, ← sum_T, ← sum_T, ← sum_add_distrib, ← sum_add_distrib, ← sum_add_distrib, S, S,
          ← sum_add_distrib]
        refine sum_congr rfl fun l hl => ?_
        dsimp only
        rw [e1 l (mem_range.1 hl), show i + (2 * L + 2 * L) = i + 4 * L by omega,
          show i + (2 * L + 2 * L + 2 * L) = i + 6 * L by omega]
        ring
      have e3 := split_S (L := L) (s.1, body v1 v2 i s.2) (by
        rw [e2]
        exact lt_of_le_of_lt (dot_lt hn0 hn hlen hr1 hr2 (by omega)) (by norm_num))
      exact ⟨by omega, e3.1.trans e2, e3.2⟩)
  generalize forFrom (8 * L - 1) (8 * L) len (fun i s => split (s.1, body v1 v2 i s.2)) 0 (zeroR, zeroR) = r at *
  obtain ⟨⟨⟨j, b1, b2, b3⟩, b4⟩, b5⟩ := forFrom_inv
    (fun i s => (∃ j, i = r.1 + 2 * L * j ∧ S L s = dot v1 v2 i ∧
      ∀ l, l < L → s.2 l < 2 ^ 56 + 2 * j * ((n - 1) * (n - 1))) ∧ i ≤ len)
    (f := fun i s => (s.1, add2 (load v1 i) (load v2 i) s.2)) (c := 2 * L - 1) (d := 2 * L) (len := len) (i := r.1)
    (s := r.2) (by omega) ⟨⟨0, by omega, a2, fun l hl => by simpa using a3 l hl⟩, a1⟩
    (by
      rintro i s ⟨⟨j, h1, h2, h3⟩, h4⟩ hi
      have hj : j < 3 := by
        by_contra hc
        have : 2 * L * 3 ≤ 2 * L * j := Nat.mul_le_mul_left _ (by omega)
        omega
      have e1 : ∀ l, l < L → add2 (load v1 i) (load v2 i) s.2 l = s.2 l + T v1 v2 i l := by
        intro l hl
        rw [add2_lane (L := L) (small_of_reduced hn32 hr1 (by omega)) (small_of_reduced hn32 hr2 (by omega)) hl]
        have t0 := T_le hn0 hr1 hr2 (o := i) (l := l) (by omega)
        have := h3 l hl
        rw [Nat.mod_eq_of_lt]
        simp only [W]
        interval_cases j <;> omega
      refine ⟨⟨j + 1, by rw [h1]; ring, ?_, ?_⟩, by omega⟩
      · rw [dot_split, ← h2, ← sum_T, S, S, ← sum_add_distrib]
        refine sum_congr rfl fun l hl => ?_
        dsimp only
        rw [e1 l (mem_range.1 hl)]
        ring
      · intro l hl
        dsimp only
        rw [e1 l hl]
        have t0 := T_le hn0 hr1 hr2 (o := i) (l := l) (by omega)
        have := h3 l hl
        rw [show 2 * (j + 1) * ((n - 1) * (n - 1)) = 2 * j * ((n - 1) * (n - 1)) + 2 * ((n - 1) * (n - 1)) by ring]
        omega)
  have hj : j ≤ 3 := by
    by_contra hc
    have : 2 * L * 4 ≤ 2 * L * j := Nat.mul_le_mul_left _ (by omega)
    omega
  refine ⟨b4, by omega, b2, fun l hl => lt_of_lt_of_le (b3 l hl) ?_⟩
  have : 2 * j * ((n - 1) * (n - 1)) ≤ 6 * (1515531527 * 1515531527) := Nat.mul_le_mul (by omega) hM
  omega

theorem hsum256_eq (a : Reg) : hsum256 a = (∑ l ∈ range 4, a l) % W := by
  simp only [hsum256, add, shuf14, sum_range_succ, sum_range_zero]
  simp only [Nat.mod_add_mod, Nat.add_mod_mod, if_true]
  congr 1
  ring

theorem hsum512_eq (a : Reg) : hsum512 a = (∑ l ∈ range 8, a l) % W := by
  simp only [hsum512, forN, sum_range_succ, sum_range_zero]
  simp only [Nat.mod_add_mod]

/-- The sums of the two registers after the split. -/
theorem hsum_spec {L : Nat} {hsum : Reg → Nat} (hh : ∀ a, hsum a = (∑ l ∈ range L, a l) % W) (hL : L ≤ 8)
    {s : Reg × Reg} (h : S L s < 2 ^ 100) :
    hsum (split s).1 * 2 ^ 56 + hsum (split s).2 = S L s ∧ hsum (split s).2 < 8 * 2 ^ 56 := by
  obtain ⟨e1, e2⟩ := split_S s h
  have e3 : (∑ l ∈ range L, (split s).1 l) * 2 ^ 56 + ∑ l ∈ range L, (split s).2 l = S L s := by
    rw [← e1, S, sum_add_distrib, sum_mul]
  have e4 : ∑ l ∈ range L, (split s).2 l ≤ ∑ _l ∈ range L, (2 ^ 56 - 1) :=
    sum_le_sum fun l hl => by have := e2 l (mem_range.1 hl); omega
  rw [sum_const, card_range, smul_eq_mul] at e4
  rw [hh, hh]
  generalize (∑ l ∈ range L, (split s).1 l) = x at *
  generalize (∑ l ∈ range L, (split s).2 l) = y at *
  have : L * (2 ^ 56 - 1) ≤ 8 * (2 ^ 56 - 1) := Nat.mul_le_mul_right _ hL
  simp only [W]
  omega

theorem final_spec (hn0 : 0 < n) (hn : n ≤ maxModulus) {hi lo D : Nat} (h : hi * 2 ^ 56 + lo = D) (hlo : lo < 2 ^ 56)
    (hD : D ≤ 380368697 * (1515531527 * 1515531527)) : final n (2 ^ 56 % n) hi lo = D % n := by
  have h1 : 2 ^ 56 % n ≤ 1515531527 := by
    have := Nat.mod_lt (2 ^ 56) hn0
    simp only [maxModulus] at hn
    omega
  have h2 : hi ≤ 380368697 * (1515531527 * 1515531527) / 2 ^ 56 := by omega
  have h3 := Nat.mul_le_mul h1 h2
  unfold final
  have h4 := pow2_combine hi lo n D (by simpa only [SB] using h) (by
    simp only [SB, W]
    norm_num at h3 ⊢
    omega)
  simp only [SB] at h4
  rw [h4]
  have := Nat.mod_lt D hn0
  simp only [maxModulus] at hn
  exact Nat.mod_eq_of_lt (by omega)

theorem carry_aux {P x y z w A B C D : Nat} (q1 : P * A + B = C + z) (q2 : P * D + C = y) (e1 : x * P + y = w) :
    (x + D + A) * P + B = w + z := by
  have : (x + D + A) * P = x * P + P * D + P * A := by ring
  omega

theorem carry {x y z w : Nat} (e1 : x * 2 ^ 56 + y = w) (e2 : y < 8 * 2 ^ 56)
    (hz : z ≤ 7 * (1515531527 * 1515531527)) (hw : w ≤ 380368697 * (1515531527 * 1515531527)) :
    ((x + y / 2 ^ SB) % W + (y % 2 ^ 56 + z) / 2 ^ SB) % W * 2 ^ 56 + (y % 2 ^ 56 + z) % 2 ^ 56 = w + z := by
  have hx : x < 2 ^ 40 := by
    by_contra hc
    have : 2 ^ 40 * 2 ^ 56 ≤ x * 2 ^ 56 := Nat.mul_le_mul_right _ (by omega)
    norm_num at this hw
    omega
  have hy : y / 2 ^ SB < 8 := by simp only [SB]; omega
  have hz' : (y % 2 ^ 56 + z) / 2 ^ SB < 2 ^ 10 := by
    have := Nat.mod_lt y (Nat.two_pow_pos 56)
    rw [Nat.div_lt_iff_lt_mul (Nat.two_pow_pos _)]
    simp only [SB]
    norm_num at hz this ⊢
    omega
  rw [Nat.mod_eq_of_lt (show x + y / 2 ^ SB < W by simp only [W]; omega),
    Nat.mod_eq_of_lt (show x + y / 2 ^ SB + (y % 2 ^ 56 + z) / 2 ^ SB < W by simp only [W]; omega)]
  exact carry_aux (Nat.div_add_mod (y % 2 ^ 56 + z) (2 ^ 56)) (Nat.div_add_mod y (2 ^ 56)) e1

theorem finish256_spec {s : Nat × Reg × Reg}
    (hn0 : 0 < n) (hn : n ≤ maxModulus) (hlen : len ≤ maxLen) (hr1 : Reduced v1 len n) (hr2 : Reduced v2 len n)
    (h1 : s.1 ≤ len) (h2 : len < s.1 + 8) (h3 : S 4 s.2 = dot v1 v2 s.1) :
    finish256 v1 v2 len n (2 ^ 56 % n) s = dot v1 v2 len % n := by
  have hM := bound_M hn
  have hd := dot_lt hn0 hn hlen hr1 hr2 h1
  obtain ⟨e1, e2⟩ := hsum_spec hsum256_eq (by omega) (s := s.2) (by
    rw [h3]; exact lt_of_le_of_lt hd (by norm_num))
  rw [h3] at e1
  unfold finish256
  dsimp only
  generalize hsum256 (split s.2).1 = x at *
  generalize hsum256 (split s.2).2 = y at *
  rw [MASK_eq, Nat.and_two_pow_sub_one_eq_mod, Nat.shiftRight_eq_div_pow]
  obtain ⟨⟨b1, b2, b3⟩, b4⟩ := forFrom_inv (fun i lo => s.1 ≤ i ∧ i ≤ len ∧ lo = y % 2 ^ 56 + dotOff v1 v2 s.1 (i - s.1))
    (c := 0) (d := 1) (len := len) (f := fun i lo => (lo + v1 i * v2 i % W) % W) (i := s.1) (s := y % 2 ^ 56) (by omega)
    ⟨le_rfl, h1, by simp [dotOff]⟩ (by
      rintro i lo ⟨c1, c2, c3⟩ hi
      refine ⟨by omega, by omega, ?_⟩
      rw [show i + 1 - s.1 = i - s.1 + 1 by omega, dotOff_succ, Nat.add_sub_cancel' c1, c3, Nat.add_mod_mod, add_assoc,
        Nat.mod_eq_of_lt]
      have q1 := dotOff_le v1 v2 s.1 (i - s.1) (n - 1) (n - 1) (fun j hj => by have := hr1 (s.1 + j) (by omega); omega)
        (fun j hj => by have := hr2 (s.1 + j) (by omega); omega)
      have q2 : (i - s.1) * ((n - 1) * (n - 1)) ≤ 7 * (1515531527 * 1515531527) := Nat.mul_le_mul (by omega) hM
      have q3 := hr1 i (by omega)
      have q4 := hr2 i (by omega)
      have q5 := Nat.mul_le_mul (show v1 i ≤ n - 1 by omega) (show v2 i ≤ n - 1 by omega)
      simp only [W]
      omega)
  rw [b3]
  generalize (forFrom 0 1 len (fun i lo => (lo + v1 i * v2 i % W) % W) s.1 (y % 2 ^ 56)).1 = i at *
  obtain rfl : i = len := by omega
  have q1 := dotOff_le v1 v2 s.1 (i - s.1) (n - 1) (n - 1) (fun j hj => by have := hr1 (s.1 + j) (by omega); omega)
    (fun j hj => by have := hr2 (s.1 + j) (by omega); omega)
  have q2 : (i - s.1) * ((n - 1) * (n - 1)) ≤ 7 * (1515531527 * 1515531527) := Nat.mul_le_mul (by omega) hM
  have q3 : dot v1 v2 i = dot v1 v2 s.1 + dotOff v1 v2 s.1 (i - s.1) := by
    rw [← dot_split, Nat.add_sub_cancel' h1]
  rw [Nat.and_two_pow_sub_one_eq_mod, Nat.shiftRight_eq_div_pow]
  refine final_spec hn0 hn ?_ (Nat.mod_lt _ (by norm_num)) (dot_lt hn0 hn hlen hr1 hr2 le_rfl)
  rw [q3]
  exact carry e1 e2 (q1.trans q2) hd

theorem mask_load {v : Nat → Nat} {i l : Nat} :
    maskLoad (1 <<< (len - i) - 1) v i l = load (fun k => if k < len then v k else 0) i l := by
  have key : ∀ k, i ≤ k → (if (1 <<< (len - i) - 1).testBit (k - i) = true then v k else 0) =
      if k < len then v k else 0 := by
    intro k hk
    rw [Nat.one_shiftLeft, Nat.testBit_two_pow_sub_one]
    by_cases h : k < len
    · rw [if_pos h, if_pos (by simp; omega)]
    · rw [if_neg h, if_neg (by simp; omega)]
  simp only [maskLoad, load]
  rw [key _ (by omega), key _ (by omega)]

theorem finish512_spec {s : Nat × Reg × Reg}
    (hn0 : 0 < n) (hn : n ≤ maxModulus) (hlen : len ≤ maxLen) (hr1 : Reduced v1 len n) (hr2 : Reduced v2 len n)
    (h1 : s.1 ≤ len) (h2 : len < s.1 + 16) (h3 : S 8 s.2 = dot v1 v2 s.1)
    (h4 : ∀ l, l < 8 → s.2.2 l < 2 ^ 56 + 6 * (1515531527 * 1515531527)) :
    finish512 v1 v2 len n (2 ^ 56 % n) s = dot v1 v2 len % n := by
  have hM := bound_M hn
  have hn32 : n ≤ 2 ^ 32 := by simp only [maxModulus] at hn; omega
  have hd := dot_lt hn0 hn hlen hr1 hr2 le_rfl
  have key : S 8 (s.2.1, if s.1 < len
      then add2 (maskLoad (1 <<< (len - s.1) - 1) v1 s.1) (maskLoad (1 <<< (len - s.1) - 1) v2 s.1) s.2.2
      else s.2.2) = dot v1 v2 len := by
    by_cases hc : s.1 < len
    · rw [if_pos hc]
      set w1 : Nat → Nat := fun k => if k < len then v1 k else 0 with hw1
      set w2 : Nat → Nat := fun k => if k < len then v2 k else 0 with hw2
      have m1 : maskLoad (1 <<< (len - s.1) - 1) v1 s.1 = load w1 s.1 := funext fun l => mask_load
      have m2 : maskLoad (1 <<< (len - s.1) - 1) v2 s.1 = load w2 s.1 := funext fun l => mask_load
      have r1 : Reduced w1 (len + 16) n := by
        intro k _
        simp only [hw1]
        split
        · exact hr1 k (by assumption)
        · omega
      have r2 : Reduced w2 (len + 16) n := by
        intro k _
        simp only [hw2]
        split
        · exact hr2 k (by assumption)
        · omega
      rw [m1, m2]
      have e1 : ∀ l, l < 8 → add2 (load w1 s.1) (load w2 s.1) s.2.2 l = s.2.2 l + T w1 w2 s.1 l := by
        intro l hl
        rw [add2_lane (L := 8) (small_of_reduced hn32 r1 (by omega)) (small_of_reduced hn32 r2 (by omega)) hl]
        have t0 := T_le hn0 r1 r2 (o := s.1) (l := l) (by omega)
        have := h4 l hl
        rw [Nat.mod_eq_of_lt]
        simp only [W]
        omega
      have e2 : dotOff w1 w2 s.1 16 = dotOff v1 v2 s.1 (len - s.1) := by
        rw [show 16 = (len - s.1) + (16 - (len - s.1)) by omega, dotOff_add, Nat.add_sub_cancel' h1,
          show dotOff w1 w2 len (16 - (len - s.1)) = 0 from sum_eq_zero fun j _ => by
            simp only [hw1]
            rw [if_neg (by omega), Nat.zero_mul], Nat.add_zero]
        refine sum_congr rfl fun j hj => ?_
        have := mem_range.1 hj
        simp only [hw1, hw2]
        rw [if_pos (by omega), if_pos (by omega)]
      have e3 : dot v1 v2 len = dot v1 v2 s.1 + dotOff v1 v2 s.1 (len - s.1) := by
        rw [← dot_split, Nat.add_sub_cancel' h1]
      rw [e3, ← h3, ← e2, show 16 = 2 * 8 by omega, ← sum_T, S, S, ← sum_add_distrib]
      refine sum_congr rfl fun l hl => ?_
      dsimp only
      rw [e1 l (mem_range.1 hl)]
      ring
    · rw [if_neg hc]
      have : s.1 = len := by omega
      rw [← this]
      exact h3
  obtain ⟨e1, e2⟩ := hsum_spec hsum512_eq (by omega) (by rw [key]; exact lt_of_le_of_lt hd (by norm_num))
  rw [key] at e1
  unfold finish512
  dsimp only
  generalize hsum512 (split _).1 = x at *
  generalize hsum512 (split _).2 = y at *
  rw [MASK_eq, Nat.and_two_pow_sub_one_eq_mod, Nat.shiftRight_eq_div_pow]
  refine final_spec hn0 hn ?_ (Nat.mod_lt _ (by norm_num)) hd
  have := carry e1 e2 (Nat.zero_le _) hd
  rw [Nat.add_zero, Nat.add_zero, Nat.div_eq_of_lt (Nat.mod_lt y (by norm_num)), Nat.add_zero, Nat.mod_mod,
    Nat.mod_mod] at this
  exact this

end

theorem avx2_spec {body : (Nat → Nat) → (Nat → Nat) → Nat → Reg → Reg} (hb : BodyOK 4 body) {v1 v2 : Nat → Nat}
    {len n : Nat} (hn0 : 0 < n) (hn : n ≤ maxModulus) (hlen : len ≤ maxLen) (hr1 : Reduced v1 len n)
    (hr2 : Reduced v2 len n) :
    finish256 v1 v2 len n (2 ^ 56 % n) (loops 4 body v1 v2 len) = dot v1 v2 len % n := by
  obtain ⟨a, b, c, _⟩ := loops_spec (by omega) hb hn0 hn hlen hr1 hr2
  exact finish256_spec hn0 hn hlen hr1 hr2 a b c

theorem avx512_spec {body : (Nat → Nat) → (Nat → Nat) → Nat → Reg → Reg} (hb : BodyOK 8 body) {v1 v2 : Nat → Nat}
    {len n : Nat} (hn0 : 0 < n) (hn : n ≤ maxModulus) (hlen : len ≤ maxLen) (hr1 : Reduced v1 len n)
    (hr2 : Reduced v2 len n) :
    finish512 v1 v2 len n (2 ^ 56 % n) (loops 8 body v1 v2 len) = dot v1 v2 len % n := by
  obtain ⟨a, b, c, d⟩ := loops_spec (by omega) hb hn0 hn hlen hr1 hr2
  exact finish512_spec hn0 hn hlen hr1 hr2 a b c d

end PML.N32
