import Verif.Ntl.MiddleModel

namespace PML.Ntl.Middle

open Polynomial

set_option linter.unusedSectionVars false

variable {p : Nat} [NeZero p]

/-- `reduce` is right for integers below `NTL_SP_BOUND`. -/
def RedOK (red : Nat → ZMod p) : Prop := ∀ n, n < SP_BOUND → red n = (n : ZMod p)

/-- Transposed product. -/
def conv (a c : Nat → ZMod p) (sa j : Nat) : ZMod p := ∑ i ∈ Finset.range sa, a i * c (i + j)

theorem addRow_spec (b : Nat → ZMod p) (ai : ZMod p) (c : Nat → ZMod p) (sc i n : Nat) (h : ∀ j, j < n → i + j < sc) :
    ∃ b', addRow b ai c sc i n = some b' ∧ ∀ j, b' j = if j < n then c (i + j) * ai + b j else b j := by
  induction n with
  | zero => exact ⟨b, rfl, fun j => by rw [if_neg (by omega)]⟩
  | succ n ih =>
    obtain ⟨b', h1, h2⟩ := ih fun j hj => h j (by omega)
    have hn := h n (by omega)
    refine ⟨Function.update b' n (c (i + n) * ai + b' n), ?_, fun j => ?_⟩
    · show (match addRow b ai c sc i n with
        | none => none
        | some b' => if sc ≤ i + n then none else some (Function.update b' n (c (i + n) * ai + b' n))) = _
      rw [h1]
      exact if_neg (by omega)
    · by_cases hj : j = n
      · subst hj
        rw [Function.update_self, if_pos (by omega), h2, if_neg (by omega)]
      · rw [Function.update_of_ne hj, h2]
        by_cases hj' : j < n
        · rw [if_pos hj', if_pos (by omega)]
        · rw [if_neg hj', if_neg (by omega)]

theorem rowLoop_spec (b a c : Nat → ZMod p) (sb sc n : Nat) (h : ∀ i j, i < n → j < sb → i + j < sc) :
    ∃ b', rowLoop b a c sb sc n = some b' ∧ ∀ j, b' j = if j < sb then b j + conv a c n j else b j := by
  induction n with
  | zero => exact ⟨b, rfl, fun j => by simp [conv]⟩
  | succ n ih =>
    obtain ⟨b', h1, h2⟩ := ih fun i j hi hj => h i j (by omega) hj
    obtain ⟨b'', h3, h4⟩ := addRow_spec b' (a n) c sc n sb fun j hj => h n j (by omega) hj
    refine ⟨b'', ?_, fun j => ?_⟩
    · show (match rowLoop b a c sb sc n with
        | none => none
        | some b' => addRow b' (a n) c sc n sb) = _
      rw [h1]
      exact h3
    · rw [h4, h2]
      by_cases hj : j < sb
      · simp only [if_pos hj, conv, Finset.sum_range_succ]
        ring
      · simp only [if_neg hj]

theorem accLoop_spec (a c : Nat → ZMod p) (sc j n : Nat) (h : ∀ i, i < n → i + j < sc)
    (hb : n * (p - 1) ^ 2 < LONG_BOUND) : ∃ s, accLoop a c sc j n = some s ∧ (s : ZMod p) = conv a c n j ∧
      s ≤ n * (p - 1) ^ 2 := by
  induction n with
  | zero => exact ⟨0, rfl, by simp [conv], by omega⟩
  | succ n ih =>
    obtain ⟨s, h1, h2, h3⟩ := ih (fun i hi => h i (by omega)) (by
      refine lt_of_le_of_lt (Nat.mul_le_mul_right _ (by omega)) hb)
    have hn := h n (by omega)
    have hm : (c (n + j)).val * (a n).val ≤ (p - 1) ^ 2 := by
      rw [pow_two]
      have := ZMod.val_lt (c (n + j))
      have := ZMod.val_lt (a n)
      exact Nat.mul_le_mul (by omega) (by omega)
    have hle : s + (c (n + j)).val * (a n).val ≤ (n + 1) * (p - 1) ^ 2 := by
      rw [Nat.succ_mul]; omega
    refine ⟨s + (c (n + j)).val * (a n).val, ?_, ?_, hle⟩
    · show (match accLoop a c sc j n with
        | none => none
        | some s => if sc ≤ n + j then none
          else if LONG_BOUND ≤ s + (c (n + j)).val * (a n).val then none
          else some (s + (c (n + j)).val * (a n).val)) = _
      rw [h1]
      show (if sc ≤ n + j then none
          else if LONG_BOUND ≤ s + (c (n + j)).val * (a n).val then none
          else some (s + (c (n + j)).val * (a n).val)) = _
      rw [if_neg (by omega), if_neg (by omega)]
    · push_cast
      rw [h2, ZMod.natCast_zmod_val, ZMod.natCast_zmod_val, conv, conv, Finset.sum_range_succ]
      ring

theorem accRows_spec {red : Nat → ZMod p} (hred : RedOK red) (b a c : Nat → ZMod p) (sa sc n : Nat)
    (h : ∀ i j, i < sa → j < n → i + j < sc) (hb : sa * (p - 1) ^ 2 < SP_BOUND) :
    ∃ b', accRows red b a c sa sc n = some b' ∧ ∀ j, b' j = if j < n then conv a c sa j else b j := by
  induction n with
  | zero => exact ⟨b, rfl, fun j => by rw [if_neg (by omega)]⟩
  | succ n ih =>
    obtain ⟨b', h1, h2⟩ := ih fun i j hi hj => h i j hi (by omega)
    obtain ⟨s, h3, h4, h5⟩ := accLoop_spec a c sc n sa (fun i hi => h i n hi (by omega))
      (lt_of_lt_of_le hb (by norm_num))
    refine ⟨Function.update b' n (red s), ?_, fun j => ?_⟩
    · show (match accRows red b a c sa sc n with
        | none => none
        | some b' => match accLoop a c sc n sa with
          | none => none
          | some s => some (Function.update b' n (red s))) = _
      rw [h1, h3]
    · by_cases hj : j = n
      · subst hj
        rw [Function.update_self, if_pos (by omega), hred s (by omega), h4]
      · rw [Function.update_of_ne hj, h2]
        by_cases hj' : j < n
        · rw [if_pos hj', if_pos (by omega)]
        · rw [if_neg hj', if_neg (by omega)]

/-- The condition under which delayed reductions are safe for `n` products. -/
def Safe (ul : Bool) (p n : Nat) : Prop := ul = true → n * (p - 1) ^ 2 < SP_BOUND

theorem Safe.mono {ul : Bool} {p n m : Nat} (h : Safe ul p n) (hm : m ≤ n) : Safe ul p m := fun hu =>
  lt_of_le_of_lt (Nat.mul_le_mul_right _ hm) (h hu)

theorem tPlainMul2_spec {red : Nat → ZMod p} (hred : RedOK red) (b a c : Nat → ZMod p) (sa sb sc : Nat) (ul : Bool)
    (h : ∀ i j, i < sa → j < sb → i + j < sc) (hs : Safe ul p sa) :
    ∃ b', tPlainMul2 red b sb a sa c sc ul = some b' ∧ ∀ j, b' j = if j < sb then conv a c sa j else b j := by
  unfold tPlainMul2
  cases ul with
  | true =>
    simp only [if_true]
    exact accRows_spec hred b a c sa sc sb h (hs rfl)
  | false =>
    simp only [Bool.false_eq_true, if_false]
    obtain ⟨b', h1, h2⟩ := rowLoop_spec (fun i => if i < sb then 0 else b i) a c sb sc sa h
    refine ⟨b', h1, fun j => ?_⟩
    rw [h2]
    by_cases hj : j < sb
    · simp only [if_pos hj, zero_add]
    · simp only [if_neg hj]

/-! ### The extra storage -/

theorem stkLoop_fuel : ∀ n f, n < f → stkLoop f n = stkLoop (n + 1) n := by
  intro n
  induction n using Nat.strong_induction_on with
  | _ n ih =>
    intro f hf
    obtain ⟨f, rfl⟩ : ∃ g, f = g + 1 := ⟨f - 1, by omega⟩
    show (n + 1) / 2 * 4 - 1 + (if KARX ≤ (n + 1) / 2 then stkLoop f ((n + 1) / 2) else 0) =
      (n + 1) / 2 * 4 - 1 + (if KARX ≤ (n + 1) / 2 then stkLoop n ((n + 1) / 2) else 0)
    by_cases hk : KARX ≤ (n + 1) / 2
    · rw [if_pos hk, if_pos hk, ih ((n + 1) / 2) (by simp only [KARX] at hk; omega) f (by simp only [KARX] at hk; omega),
        ih ((n + 1) / 2) (by simp only [KARX] at hk; omega) n (by simp only [KARX] at hk; omega)]
    · rw [if_neg hk, if_neg hk]

/-- Storage needed for sizes at most `n`. -/
def need (n : Nat) : Nat := if n < KARX then 0 else karStkSize n

theorem need_rec (n : Nat) (h : KARX ≤ n) : need n = (n + 1) / 2 * 4 - 1 + need ((n + 1) / 2) := by
  simp only [need, if_neg (Nat.not_lt.2 h), karStkSize]
  show (n + 1) / 2 * 4 - 1 + (if KARX ≤ (n + 1) / 2 then stkLoop n ((n + 1) / 2) else 0) = _
  congr 1
  by_cases hk : KARX ≤ (n + 1) / 2
  · rw [if_pos hk, if_neg (by omega), stkLoop_fuel ((n + 1) / 2) n (by simp only [KARX] at h; omega)]
  · rw [if_neg hk, if_pos (by omega)]

theorem need_mono : ∀ n m, m ≤ n → need m ≤ need n := by
  intro n
  induction n using Nat.strong_induction_on with
  | _ n ih =>
    intro m hm
    by_cases h : KARX ≤ m
    · rw [need_rec m h, need_rec n (by omega)]
      have := ih ((n + 1) / 2) (by simp only [KARX] at h; omega) ((m + 1) / 2) (by omega)
      omega
    · have : need m = 0 := by simp only [need, if_pos (Nat.lt_of_not_le h)]
      omega

theorem need_le (n : Nat) : need n ≤ karStkSize n := by
  unfold need
  split_ifs <;> omega

/-! ### Karatsuba -/

theorem conv_split (a c : Nat → ZMod p) (sa h j : Nat) (hh : h ≤ sa) :
    conv a c sa j = conv a c h j + conv (from_ h a) (from_ h c) (sa - h) j := by
  unfold conv
  rw [← Finset.sum_range_add_sum_Ico _ hh, Finset.sum_Ico_eq_sum_range]
  congr 1
  refine Finset.sum_congr rfl fun i _ => ?_
  show a (h + i) * c (h + i + j) = a (h + i) * c (h + (i + j))
  rw [Nat.add_assoc]

theorem conv_congr {a a' c c' : Nat → ZMod p} {sa j : Nat} (ha : ∀ i, i < sa → a i = a' i)
    (hc : ∀ i, i < sa → c (i + j) = c' (i + j)) : conv a c sa j = conv a' c' sa j :=
  Finset.sum_congr rfl fun i hi => by
    have hi := Finset.mem_range.1 hi
    rw [ha i hi, hc i hi]

theorem conv_from (a c : Nat → ZMod p) (sa h j : Nat) : conv a (from_ h c) sa j = conv a c sa (h + j) :=
  Finset.sum_congr rfl fun i _ => by
    show a i * c (h + (i + j)) = a i * c (i + (h + j))
    rw [show h + (i + j) = i + (h + j) by omega]

/-- Main lemma: no undefined behaviour, and the transposed product is computed. -/
theorem tKar_spec {red : Nat → ZMod p} (hred : RedOK red) (ul : Bool) : ∀ (fuel : Nat) (b : Nat → ZMod p) (sb : Nat)
    (a : Nat → ZMod p) (sa : Nat) (c : Nat → ZMod p) (sc stk : Nat), sa + sb ≤ fuel → 1 ≤ sa → 1 ≤ sb →
    sc = sa + sb - 1 → need (max sa sb) ≤ stk → Safe ul p sa →
    ∃ b', tKar red ul fuel b sb a sa c sc stk = some b' ∧ ∀ j, b' j = if j < sb then conv a c sa j else b j := by
  intro fuel
  induction fuel with
  | zero => intro b sb a sa c sc stk h h1 h2; omega
  | succ fuel ih =>
    intro b sb a sa c sc stk hf hsa hsb hsc hstk hsafe
    unfold tKar
    by_cases hplain : sa < KARX ∨ sb < KARX
    · rw [if_pos hplain]
      exact tPlainMul2_spec hred b a c sa sb sc ul (fun i j hi hj => by omega) hsafe
    · rw [if_neg hplain]
      have hK1 : KARX ≤ sa := by omega
      have hK2 : KARX ≤ sb := by omega
      dsimp only
      have hkx : KARX = 32 := rfl
      by_cases hd1 : sb ≤ sa ∧ sb ≤ (sa + 1) / 2
      · rw [if_pos hd1]
        have hmx : max sa sb = sa := max_eq_left hd1.1
        have hn := need_rec sa hK1
        rw [hmx] at hstk
        rw [if_neg (by omega)]
        have hstk' : need ((sa + 1) / 2) ≤ stk - sb := by omega
        obtain ⟨b1, e1, s1⟩ := ih b sb (from_ ((sa + 1) / 2) a) (sa - (sa + 1) / 2) (from_ ((sa + 1) / 2) c)
          (sc - (sa + 1) / 2) (stk - sb) (by omega) (by omega) hsb (by omega)
          (le_trans (need_mono _ _ (by omega)) hstk') (hsafe.mono (by omega))
        obtain ⟨T, e2, s2⟩ := ih 0 sb a ((sa + 1) / 2) c (min (sb + (sa + 1) / 2 - 1) sc) (stk - sb) (by omega)
          (by omega) hsb (by omega) (le_trans (need_mono _ _ (by omega)) hstk') (hsafe.mono (by omega))
        rw [e1]
        dsimp only
        rw [e2]
        refine ⟨_, rfl, fun j => ?_⟩
        unfold karAdd
        by_cases hj : j < sb
        · rw [if_pos hj, if_pos hj, s1, s2, if_pos hj, if_pos hj, conv_split a c sa ((sa + 1) / 2) j (by omega), add_comm]
        · rw [if_neg hj, if_neg hj, s1, if_neg hj]
      · rw [if_neg hd1]
        by_cases hd2 : sa < sb ∧ sa ≤ (sb + 1) / 2
        · rw [if_pos hd2]
          have hmx : max sa sb = sb := max_eq_right (by omega)
          have hn := need_rec sb hK2
          rw [hmx] at hstk
          have hstk' : need ((sb + 1) / 2) ≤ stk := by omega
          obtain ⟨b1, e1, s1⟩ := ih b ((sb + 1) / 2) a sa c (min (sa + (sb + 1) / 2 - 1) sc) stk (by omega) hsa
            (by omega) (by omega) (le_trans (need_mono _ _ (by omega)) hstk') hsafe
          obtain ⟨b2, e2, s2⟩ := ih (from_ ((sb + 1) / 2) b1) (sb - (sb + 1) / 2) a sa (from_ ((sb + 1) / 2) c)
            (sc - (sb + 1) / 2) stk (by omega) hsa (by omega) (by omega) (le_trans (need_mono _ _ (by omega)) hstk') hsafe
          rw [e1]
          dsimp only
          rw [e2]
          refine ⟨_, rfl, fun j => ?_⟩
          unfold place
          by_cases hj : j < (sb + 1) / 2
          · rw [if_neg (by omega), s1, if_pos hj, if_pos (by omega)]
          · by_cases hj2 : j < sb
            · rw [if_pos (by omega), s2, if_pos (by omega), if_pos hj2, conv_from]
              congr 1
              omega
            · rw [if_neg (by omega), s1, if_neg hj, if_neg hj2]
        · rw [if_neg hd2]
          generalize hhs : (if sa < sb then (sb + 1) / 2 else (sa + 1) / 2) = hs
          have hhs' : hs = (max sa sb + 1) / 2 := by
            rw [← hhs]
            by_cases hlt : sa < sb
            · rw [if_pos hlt, max_eq_right (by omega)]
            · rw [if_neg hlt, max_eq_left (by omega)]
          have hlt1 : hs < sa := by
            by_cases hlt : sa < sb
            · rw [max_eq_right (by omega)] at hhs'; omega
            · rw [max_eq_left (by omega)] at hhs'; omega
          have hlt2 : hs < sb := by
            by_cases hlt : sa < sb
            · rw [max_eq_right (by omega)] at hhs'; omega
            · rw [max_eq_left (by omega)] at hhs'; omega
          have hn := need_rec (max sa sb) (by omega)
          rw [← hhs'] at hn
          rw [if_neg (by omega)]
          have hstk' : need hs ≤ stk - (hs * 2 + hs) := by omega
          obtain ⟨b1, e1, s1⟩ := ih b hs (karFoldSub 0 a sa hs) hs (from_ hs c) (min (hs * 2 - 1) (sc - hs))
            (stk - (hs * 2 + hs)) (by omega) (by omega) (by omega) (by omega)
            (le_trans (need_mono _ _ (by omega)) hstk') (hsafe.mono (by omega))
          rw [e1]
          dsimp only
          rw [if_neg (by omega)]
          -- the array T
          generalize hT : (fun i => if i < sc - hs then karAdd2 (karFoldSub 0 a sa hs) (from_ hs c) c (sc - hs) i
              else if i < min sc (sa + sb - 1 - hs) then c i
              else if i < sa + sb - 1 - hs then 0 else karFoldSub 0 a sa hs i) = T'
          have hTv : ∀ i, i < sc - hs → T' i = c (hs + i) + c i := by
            intro i hi
            rw [← hT]
            simp only [if_pos hi, karAdd2, from_]
          obtain ⟨b2, e2, s2⟩ := ih (from_ hs b1) (sb - hs) (from_ hs a) (sa - hs) (from_ hs T') (sa + sb - 1 - hs * 2)
            (stk - (hs * 2 + hs)) (by omega) (by omega) (by omega) (by omega)
            (le_trans (need_mono _ _ (by omega)) hstk') (hsafe.mono (by omega))
          obtain ⟨T2, e3, s3⟩ := ih (from_ (hs * 2) T') hs a hs T' (hs * 2 - 1) (stk - (hs * 2 + hs)) (by omega) (by omega)
            (by omega) (by omega) (le_trans (need_mono _ _ (by omega)) hstk') (hsafe.mono (by omega))
          rw [e2]
          dsimp only
          rw [e3]
          refine ⟨_, rfl, fun j => ?_⟩
          -- product of the folded sum
          have hfold : ∀ j, conv (karFoldSub 0 a sa hs) (from_ hs c) hs j =
              conv (from_ hs a) (from_ hs c) (sa - hs) j - conv a (from_ hs c) hs j := by
            intro j
            have h1 : conv (karFoldSub 0 a sa hs) (from_ hs c) hs j =
                conv (fun i => if i < sa - hs then a (hs + i) else 0) (from_ hs c) hs j - conv a (from_ hs c) hs j := by
              unfold conv
              rw [← Finset.sum_sub_distrib]
              refine Finset.sum_congr rfl fun i hi => ?_
              have hi := Finset.mem_range.1 hi
              unfold karFoldSub
              by_cases h : i < sa - hs
              · simp only [if_pos h]; ring
              · simp only [if_neg h, if_pos hi]; ring
            rw [h1]
            congr 1
            unfold conv
            rw [← Finset.sum_range_add_sum_Ico _ (show sa - hs ≤ hs by omega)]
            rw [Finset.sum_eq_zero (s := Finset.Ico (sa - hs) hs) fun i hi => by
              have := (Finset.mem_Ico.1 hi).1
              simp only [if_neg (show ¬ i < sa - hs by omega), zero_mul], add_zero]
            refine Finset.sum_congr rfl fun i hi => ?_
            simp only [if_pos (Finset.mem_range.1 hi)]
            rfl
          have hadd : ∀ (u : Nat → ZMod p) (n o j : Nat), (∀ i, i < n → o + (i + j) < sc - hs) →
              conv u (from_ o T') n j = conv u (from_ o (from_ hs c)) n j + conv u (from_ o c) n j := by
            intro u n o j h
            unfold conv
            rw [← Finset.sum_add_distrib]
            refine Finset.sum_congr rfl fun i hi => ?_
            show u i * T' (o + (i + j)) = u i * c (hs + (o + (i + j))) + u i * c (o + (i + j))
            rw [hTv _ (h i (Finset.mem_range.1 hi))]
            ring
          unfold karAdd place karSub
          by_cases hj : j < hs
          · rw [if_pos hj, if_neg (by omega), s1, if_pos hj, s3, if_pos hj, hfold, if_pos (by omega)]
            have := hadd a hs 0 j (fun i hi => by omega)
            have h0 : ∀ u : Nat → ZMod p, from_ 0 u = u := fun u => by funext i; simp [from_]
            rw [h0, h0, h0] at this
            rw [this, conv_split a c sa hs j (by omega)]
            ring
          · rw [if_neg hj]
            by_cases hj2 : j < sb
            · rw [if_pos (by omega), if_pos (by omega), s2, if_pos (by omega), s1, if_pos (by omega), hfold,
                if_pos hj2, hadd _ _ _ _ (fun i hi => by omega)]
              obtain ⟨t, rfl⟩ : ∃ t, j = hs + t := ⟨j - hs, by omega⟩
              rw [show hs + t - hs = t by omega]
              rw [conv_split a c sa hs (hs + t) (by omega), conv_from a c hs hs t, conv_from _ (from_ hs c) (sa - hs) hs t,
                conv_from _ c (sa - hs) hs t, conv_from _ c (sa - hs) hs (hs + t)]
              ring
            · rw [if_neg (by omega), s1, if_neg hj, if_neg hj2]

end PML.Ntl.Middle
