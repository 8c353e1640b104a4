import Verif.Ntl.ParlinSpec
import Verif.Ntl.DivProps
import Verif.Ntl.LiftProps

/-!
# C75: partial linearization
-/

namespace PML.Ntl.Parlin

open Polynomial PML.Ntl.Utils PML.Ntl.Inv PML.Ntl.Solve

variable {F : Type} [Field F]

theorem write_eq {ι α : Type} [DecidableEq ι] (x : ι) (w : α) (a : ι → α) : write x w a x = w := Function.update_self _ _ _

theorem write_ne {ι α : Type} [DecidableEq ι] {x y : ι} (w : α) (a : ι → α) (h : y ≠ x) : write x w a y = a y := Function.update_of_ne h _ _

/-! ### Numbers of pieces -/

theorem ceil_rd {rd : Rat → Rat} (h : Rounding rd) (a p : Nat) (ha : a < 2 ^ 53) : ⌈rd ((a : Rat) / ((p : Rat) + 1))⌉ = (((a + p) / (p + 1) : Nat) : Int) := by
  have hb : (0 : Rat) < (p : Rat) + 1 := by positivity
  generalize hk : (a + p) / (p + 1) = k
  have k1 : k * (p + 1) ≤ a + p := by rw [← hk]; exact Nat.div_mul_le_self _ _
  have k2 : a + p < (k + 1) * (p + 1) := by
    rw [← hk]
    have := Nat.lt_mul_div_succ (a + p) (Nat.succ_pos p)
    rw [Nat.mul_comm]
    exact this
  have k3 : a ≤ k * (p + 1) := by rw [Nat.add_mul, Nat.one_mul] at k2; omega
  have ka : k ≤ a := by
    rcases Nat.eq_zero_or_pos k with h0 | h0
    · omega
    · have : p ≤ k * p := Nat.le_mul_of_pos_left p h0
      rw [Nat.mul_add, Nat.mul_one] at k1
      omega
  rw [Int.ceil_eq_iff]
  constructor
  · rcases Nat.eq_zero_or_pos k with h0 | h0
    · have := h.mono (show (0 : Rat) ≤ (a : Rat) / ((p : Rat) + 1) by positivity)
      have e0 := h.int 0 (Nat.zero_le _)
      rw [Nat.cast_zero] at e0
      rw [e0] at this
      subst h0
      push_cast
      linarith
    · have hx : (0 : Rat) ≤ (a : Rat) / ((p : Rat) + 1) := by positivity
      have he := h.err _ hx
      have h1 : (a : Rat) / ((p : Rat) + 1) / 2 ^ 53 < 1 / ((p : Rat) + 1) := by
        rw [div_div, div_lt_div_iff₀ (by positivity) hb]
        have : (a : Rat) < 2 ^ 53 := by exact_mod_cast ha
        nlinarith
      have h2 : ((k : Rat) - 1) + 1 / ((p : Rat) + 1) ≤ (a : Rat) / ((p : Rat) + 1) := by
        rw [le_div_iff₀ hb, add_mul, div_mul_cancel₀ _ (ne_of_gt hb)]
        have : ((k * (p + 1) : Nat) : Rat) ≤ ((a + p : Nat) : Rat) := by exact_mod_cast k1
        push_cast at this
        linarith
      push_cast
      linarith
  · have h1 : (a : Rat) / ((p : Rat) + 1) ≤ (k : Rat) := by
      rw [div_le_iff₀ hb]
      exact_mod_cast k3
    have h2 := h.mono h1
    rw [h.int k (by omega)] at h2
    exact_mod_cast h2

/-- Where the columns of the partial linearization start. -/
def starts (p : Nat → Nat) (t : Nat → Int) (j : Nat) : Nat := ∑ l ∈ Finset.range j, pieces (p l) (t l)

theorem starts_succ (p : Nat → Nat) (t : Nat → Int) (j : Nat) : starts p t (j + 1) = starts p t j + pieces (p j) (t j) := Finset.sum_range_succ _ _

theorem pieces_pos {p : Nat} {t : Int} (h : 0 ≤ t) : 0 < pieces p t := Nat.div_pos (by omega) (by omega)

theorem pieces_bound {p : Nat} {t : Int} (h : -1 ≤ t) : t < (pieces p t * (p + 1) : Nat) ∧ ((pieces p t * (p + 1) : Nat) : Int) ≤ t + 1 + p := by
  unfold pieces
  have h1 := Nat.div_mul_le_self ((t + 1).toNat + p) (p + 1)
  have h2 := Nat.lt_mul_div_succ ((t + 1).toNat + p) (Nat.succ_pos p)
  rw [Nat.mul_comm, Nat.add_mul, Nat.one_mul] at h2
  generalize ((t + 1).toNat + p) / (p + 1) * (p + 1) = v at *
  omega

theorem parlinCols_spec {rd : Rat → Rat} (h : Rounding rd) (n : Nat) (p : Nat → Nat) (t : Nat → Int) (ht : ∀ j, j < n → -1 ≤ t j ∧ t j + 1 < 2 ^ 53) :
    ∀ j, j ≤ n → parlinCols rd n p t j = (starts p t j : Nat) := by
  unfold parlinCols
  have key : ∀ n', n' ≤ n → ∀ j, j ≤ n' → forN n' (fun j pc => write (j + 1) (pc j + ⌈rd (((t j : Rat) + 1) / ((p j : Rat) + 1))⌉) pc) (fun _ => 0) j = ((starts p t j : Nat) : Int) := by
    intro n'
    induction n' with
    | zero =>
      intro _ j hj
      obtain rfl : j = 0 := by omega
      rfl
    | succ n' ih =>
      intro hn j hj
      rw [forN]
      by_cases hjn : j = n' + 1
      · subst hjn
        rw [write_eq, ih (by omega) n' (le_refl _), starts_succ]
        obtain ⟨t1, t2⟩ := ht n' (by omega)
        have := ceil_rd h (t n' + 1).toNat (p n') (by omega)
        have e1 : (((t n' + 1).toNat : Nat) : Rat) = (t n' : Rat) + 1 := by
          have : (((t n' + 1).toNat : Nat) : Int) = t n' + 1 := by omega
          have := congrArg (fun z : Int => (z : Rat)) this
          push_cast at this
          exact this
        rw [e1] at this
        rw [this]
        push_cast [pieces]
        rfl
      · rw [write_ne _ _ hjn]
        exact ih (by omega) j (by omega)
  exact key n (le_refl n)

/-! ### Expansion of a polynomial -/

/-- The pieces of a polynomial, as stored. -/
theorem sum_pieces (f : F[X]) (q : Nat) (hq : 0 < q) (d0 n : Nat) (hn : 0 < n) (g : Nat → F[X])
    (hg : ∀ m, m < n → ∀ t, (g m).coeff t = if m + 1 < n ∧ q ≤ t then 0 else f.coeff (d0 + m * q + t)) (k : Nat) :
    (∑ m ∈ Finset.range n, g m * X ^ (m * q)).coeff k = f.coeff (d0 + k) := by
  rw [finsetSum_coeff]
  have hdm := Nat.div_add_mod k q
  have hml := Nat.mod_lt k hq
  have hone : ∀ m0, m0 < n → m0 * q ≤ k → (m0 + 1 = n ∨ k < m0 * q + q) → ∑ m ∈ Finset.range n, (g m * X ^ (m * q)).coeff k = f.coeff (d0 + k) := by
    intro m0 h0 h1 h2
    rw [Finset.sum_eq_single m0]
    · rw [coeff_mul_X_pow', if_pos h1, hg m0 h0, if_neg (by omega)]
      congr 1
      omega
    · intro m hm hne
      have hm : m < n := Finset.mem_range.1 hm
      rw [coeff_mul_X_pow']
      split
      · rename_i hle
        rcases Nat.lt_or_gt_of_ne hne with h3 | h3
        · have : (m + 1) * q ≤ m0 * q := Nat.mul_le_mul_right q h3
          rw [Nat.add_mul, Nat.one_mul] at this
          rw [hg m hm, if_pos ⟨by omega, by omega⟩]
        · have : (m0 + 1) * q ≤ m * q := Nat.mul_le_mul_right q h3
          rw [Nat.add_mul, Nat.one_mul] at this
          omega
      · rfl
    · intro h; exact absurd (Finset.mem_range.2 h0) h
  by_cases hc : k / q < n
  · refine hone (k / q) hc (Nat.div_mul_le_self k q) (Or.inr ?_)
    rw [Nat.mul_comm]
    omega
  · refine hone (n - 1) (by omega) ?_ (Or.inl (by omega))
    exact le_trans (Nat.mul_le_mul_right q (show n - 1 ≤ k / q by omega)) (Nat.div_mul_le_self k q)

theorem fill_coeff (n : Nat) (v : Nat → F) (mem : Nat → F) (k : Nat) : forN n (fun dd => write dd (v dd)) mem k = if k < n then v k else mem k := by
  refine forN_inv (P := fun (n : Nat) (t : Nat → F) => t k = if k < n then v k else mem k) (by rw [if_neg (Nat.not_lt_zero k)]) ?_
  intro i t _ h
  unfold write
  by_cases hk : k = i
  · subst hk
    rw [Function.update_self, if_pos (Nat.lt_succ_self _)]
  · rw [Function.update_of_ne hk, h]
    by_cases h2 : k < i
    · rw [if_pos h2, if_pos (by omega)]
    · rw [if_neg h2, if_neg (by omega)]

theorem coeffZ_nat (f : F[X]) (d : Nat) : coeffZ f (d : Int) = f.coeff d := by
  unfold coeffZ
  rw [if_neg (by omega), Int.toNat_natCast]

/-- The columns used for an entry. -/
theorem parlinEntry_spec (p : Nat → Nat) (d0 : Nat) (pc : Nat → Int) (s : Nat → Nat) (cols : Nat) (f : F[X]) (i j : Nat) (e : Nat × Nat → Sto F)
    (h1 : pc j = s j) (h2 : pc (j + 1) = s (j + 1)) (hlt : s j < s (j + 1)) (hc : s (j + 1) ≤ cols) :
    (pdeg f + 1 < (d0 + (s (j + 1) - s j - 1) * (p j + 1) : Nat) ∧ parlinEntry p d0 pc cols f i j e = .error) ∨
    (((d0 + (s (j + 1) - s j - 1) * (p j + 1) : Nat) : Int) ≤ pdeg f + 1 ∧ ∃ e', parlinEntry p d0 pc cols f i j e = .ok e' ∧
      (∀ m, m < s (j + 1) - s j → ∀ t, (e' (i, s j + m)).val.coeff t = if m + 1 < s (j + 1) - s j ∧ p j + 1 ≤ t then 0 else f.coeff (d0 + m * (p j + 1) + t)) ∧
      ∀ x : Nat × Nat, ¬(x.1 = i ∧ s j ≤ x.2 ∧ x.2 < s (j + 1)) → e' x = e x) := by
  unfold parlinEntry
  dsimp only
  rw [h1, h2]
  have ek : (((s (j + 1) : Nat) : Int) - 1 - (s j : Nat)).toNat = s (j + 1) - s j - 1 := by omega
  rw [ek, Int.toNat_natCast]
  obtain ⟨k, hk⟩ : ∃ k, s (j + 1) = s j + k + 1 := ⟨s (j + 1) - s j - 1, by omega⟩
  have ek2 : s (j + 1) - s j - 1 = k := by omega
  have ek3 : s (j + 1) - s j = k + 1 := by omega
  rw [ek2, ek3]
  rw [if_neg (by omega), ← Nat.cast_add]
  generalize hR : k * (p j + 1) = R
  by_cases hd : pdeg f + 1 < ((d0 + R : Nat) : Int)
  · left
    exact ⟨hd, if_pos (by omega)⟩
  right
  rw [if_neg (by omega)]
  refine ⟨by omega, _, rfl, ?_, ?_⟩
  · set W : Nat → (Nat × Nat → Sto F) → Nat × Nat → Sto F := fun m e =>
      write (i, s j + m) ⟨p j + 1, forN (p j + 1) (fun dd => write dd (coeffZ f ((d0 : Int) + (m * (p j + 1) + dd : Nat)))) (e (i, s j + m)).mem⟩ e
    have hloop : ∀ n, ∀ m, m < n → ∀ t, (forN n W e (i, s j + m)).val.coeff t = if p j + 1 ≤ t then 0 else f.coeff (d0 + m * (p j + 1) + t) := by
      intro n
      refine forN_inv (P := fun (n : Nat) (x : Nat × Nat → Sto F) => ∀ m, m < n → ∀ t, (x (i, s j + m)).val.coeff t = if p j + 1 ≤ t then 0 else f.coeff (d0 + m * (p j + 1) + t))
        (fun m hm => absurd hm (Nat.not_lt_zero m)) ?_
      intro n x _ ih m hm t
      show (write (i, s j + n) _ x (i, s j + m)).val.coeff t = _
      by_cases hmn : m = n
      · subst hmn
        rw [write_eq]
        unfold Sto.val
        rw [ofCoeffs_coeff]
        dsimp only
        by_cases ht : t < p j + 1
        · rw [if_pos ht, if_neg (by omega)]
          rw [fill_coeff, if_pos ht, ← Nat.cast_add, coeffZ_nat, Nat.add_assoc]
        · rw [if_neg ht, if_pos (by omega)]
      · rw [write_ne _ _ (fun h => hmn (by have := congrArg Prod.snd h; dsimp only at this; omega))]
        exact ih m (by omega) t
    intro m hm t
    unfold write
    by_cases hmk : m = k
    · subst hmk
      rw [Function.update_self, if_neg (by omega)]
      unfold Sto.val
      rw [ofCoeffs_coeff]
      dsimp only
      by_cases ht : t < (pdeg f - ((d0 + R : Nat) : Int) + 1).toNat
      · rw [if_pos ht]
        have := fill_coeff (pdeg f - ((d0 + R : Nat) : Int) + 1).toNat (fun dd => coeffZ f (((d0 + R : Nat) : Int) + (dd : Nat))) (forN m W e (i, s j + m)).mem t
        refine this.trans ?_
        rw [if_pos ht, ← Nat.cast_add, coeffZ_nat, hR]
      · rw [if_neg ht, coeff_gt_pdeg]
        rw [hR]
        omega
    · rw [Function.update_of_ne (fun h => hmk (by have := congrArg Prod.snd h; dsimp only at this; omega)), hloop k m (by omega) t]
      by_cases ht : p j + 1 ≤ t
      · rw [if_pos ht, if_pos ⟨by omega, ht⟩]
      · rw [if_neg ht, if_neg (by omega)]
  · intro x hx
    unfold write
    rw [Function.update_of_ne (fun h => hx (by rw [h]; dsimp only; omega))]
    refine forN_inv (P := fun (n : Nat) (y : Nat × Nat → Sto F) => n ≤ k → y x = e x) (fun _ => rfl) ?_ (le_refl k)
    intro n y _ ih hn
    rw [Function.update_of_ne (fun h => hx (by rw [h]; dsimp only; omega))]
    exact ih (by omega)

theorem parlinFill_spec (a : PMat F[X]) (p : Nat → Nat) (d0 : Nat) (pc : Nat → Int) (s : Nat → Nat) (e : Nat × Nat → Sto F)
    (hpc : ∀ j, j ≤ a.cols → pc j = s j) (hs : ∀ j, j < a.cols → s j < s (j + 1)) :
    ((∃ i j, i < a.rows ∧ j < a.cols ∧ pdeg (a.e (i, j)) + 1 < (d0 + (s (j + 1) - s j - 1) * (p j + 1) : Nat)) ∧ parlinFill a p d0 pc (s a.cols) e = .error) ∨
    ((∀ i j, i < a.rows → j < a.cols → ((d0 + (s (j + 1) - s j - 1) * (p j + 1) : Nat) : Int) ≤ pdeg (a.e (i, j)) + 1) ∧
      ∃ e', parlinFill a p d0 pc (s a.cols) e = .ok e' ∧ ∀ i j, i < a.rows → j < a.cols → ∀ m, m < s (j + 1) - s j → ∀ t,
        (e' (i, s j + m)).val.coeff t = if m + 1 < s (j + 1) - s j ∧ p j + 1 ≤ t then 0 else (a.e (i, j)).coeff (d0 + m * (p j + 1) + t)) := by
  have hmono : ∀ j j', j ≤ j' → j' ≤ a.cols → s j ≤ s j' := by
    intro j j' h
    induction j', h using Nat.le_induction with
    | base => exact fun _ => le_refl _
    | succ j' h ih =>
      intro h2
      exact le_trans (ih (by omega)) (le_of_lt (hs j' (by omega)))
  unfold parlinFill
  -- the invariant, with `n` rows and `c` columns of row `n` done
  let good : Nat → Nat → (Nat × Nat → Sto F) → Prop := fun n c x => ∀ i j, (i < n ∨ i = n ∧ j < c) → j < a.cols →
    ((d0 + (s (j + 1) - s j - 1) * (p j + 1) : Nat) : Int) ≤ pdeg (a.e (i, j)) + 1 ∧ ∀ m, m < s (j + 1) - s j → ∀ t,
        (x (i, s j + m)).val.coeff t = if m + 1 < s (j + 1) - s j ∧ p j + 1 ≤ t then 0 else (a.e (i, j)).coeff (d0 + m * (p j + 1) + t)
  let bad : Prop := ∃ i j, i < a.rows ∧ j < a.cols ∧ pdeg (a.e (i, j)) + 1 < (d0 + (s (j + 1) - s j - 1) * (p j + 1) : Nat)
  suffices h : (bad ∧ forN a.rows (fun i o => forN a.cols (fun j o => andThen o (parlinEntry p d0 pc (s a.cols) (a.e (i, j)) i j)) o) (.ok e) = .error) ∨
      ∃ x, forN a.rows (fun i o => forN a.cols (fun j o => andThen o (parlinEntry p d0 pc (s a.cols) (a.e (i, j)) i j)) o) (.ok e) = .ok x ∧ good a.rows 0 x by
    rcases h with h | ⟨x, hx, hg⟩
    · exact Or.inl h
    · exact Or.inr ⟨fun i j hi hj => (hg i j (Or.inl hi) hj).1, x, hx, fun i j hi hj => (hg i j (Or.inl hi) hj).2⟩
  refine forN_inv (P := fun (n : Nat) (o : Out (Nat × Nat → Sto F)) => n ≤ a.rows → (bad ∧ o = .error) ∨ ∃ x, o = .ok x ∧ good n 0 x)
    (fun _ => Or.inr ⟨e, rfl, fun i j h => absurd h (by omega)⟩) ?_ (le_refl _)
  intro n o _ ih hn
  have hrow : ∀ c, c ≤ a.cols → (bad ∧ forN c (fun j o => andThen o (parlinEntry p d0 pc (s a.cols) (a.e (n, j)) n j)) o = .error) ∨
      ∃ x, forN c (fun j o => andThen o (parlinEntry p d0 pc (s a.cols) (a.e (n, j)) n j)) o = .ok x ∧ good n c x := by
    intro c
    refine forN_inv (P := fun (c : Nat) (o : Out (Nat × Nat → Sto F)) => c ≤ a.cols → (bad ∧ o = .error) ∨ ∃ x, o = .ok x ∧ good n c x) (fun _ => ih (by omega)) ?_
    intro c o _ ih hc
    rcases ih (by omega) with ⟨hb, rfl⟩ | ⟨x, rfl, hg⟩
    · exact Or.inl ⟨hb, rfl⟩
    · show (bad ∧ parlinEntry p d0 pc (s a.cols) (a.e (n, c)) n c x = .error) ∨ ∃ y, parlinEntry p d0 pc (s a.cols) (a.e (n, c)) n c x = .ok y ∧ _
      rcases parlinEntry_spec p d0 pc s (s a.cols) (a.e (n, c)) n c x (hpc c (by omega)) (hpc (c + 1) (by omega)) (hs c (by omega)) (hmono _ _ hc (le_refl _))
        with ⟨h1, h2⟩ | ⟨h1, y, h2, h3, h4⟩
      · exact Or.inl ⟨⟨n, c, by omega, by omega, h1⟩, h2⟩
      · refine Or.inr ⟨y, h2, fun i j hij hj => ?_⟩
        by_cases hic : i = n ∧ j = c
        · obtain ⟨rfl, rfl⟩ := hic
          exact ⟨h1, h3⟩
        · obtain ⟨g1, g2⟩ := hg i j (by omega) hj
          refine ⟨g1, fun m hm t => ?_⟩
          rw [h4 (i, s j + m) ?_]
          · exact g2 m hm t
          · intro hx
            have hx1 : i = n := hx.1
            have hx2 : s c ≤ s j + m := hx.2.1
            have hjc : j < c := by clear g1 h1; omega
            have := hmono (j + 1) c hjc (by clear g1 h1; omega)
            clear g1 h1 h3 h4 g2
            omega
  rcases hrow a.cols (le_refl _) with h | ⟨x, hx, hg⟩
  · exact Or.inl h
  · exact Or.inr ⟨x, hx, fun i j hij hj => hg i j (by omega) hj⟩

/-! ### The partial linearization -/

theorem reaches_iff (f : F[X]) (n : Nat) : Reaches f n ↔ (n : Int) ≤ pdeg f + 1 := by
  constructor
  · rintro (rfl | ⟨k, h1, h2⟩)
    · have := pdeg_ge f; omega
    · have : ¬pdeg f < (k : Int) := fun h => h2 (coeff_gt_pdeg f k h)
      omega
  · intro h
    rcases Nat.eq_zero_or_pos n with h0 | h0
    · exact Or.inl h0
    · right
      have hf : f ≠ 0 := by
        rintro rfl
        rw [pdeg_zero] at h
        omega
      rw [pdeg_ne f hf] at h
      exact ⟨f.natDegree, by omega, leadingCoeff_ne_zero.2 hf⟩

/-- The common part of the two functions. -/
theorem parlin_core {rd : Rat → Rat} (h : Rounding rd) (P0 : PMat (Sto F)) (a : PMat F[X]) (p : Nat → Nat) (t : Nat → Int) (d0 : Nat)
    (ht : ∀ j, j < a.cols → 0 ≤ t j ∧ t j + 1 < 2 ^ 53) :
    let pc := parlinCols rd a.cols p t
    let P := P0.setDims a.rows (pc a.cols).toNat
    (¬NoShortEntry a p t d0 ∧ parlinFill a p d0 pc P.cols P.e = .error) ∨
    (NoShortEntry a p t d0 ∧ ∃ e, parlinFill a p d0 pc P.cols P.e = .ok e ∧ ∀ i j, i < a.rows → j < a.cols → ∀ m, m < pieces (p j) (t j) → ∀ k,
        (e (i, starts p t j + m)).val.coeff k = if m + 1 < pieces (p j) (t j) ∧ p j + 1 ≤ k then 0 else (a.e (i, j)).coeff (d0 + m * (p j + 1) + k)) := by
  intro pc P
  have hpc := parlinCols_spec h a.cols p t fun j hj => ⟨by have := ht j hj; omega, (ht j hj).2⟩
  have hcnt : ∀ j, starts p t (j + 1) - starts p t j = pieces (p j) (t j) := fun j => by rw [starts_succ]; omega
  have hPc : P.cols = starts p t a.cols := by
    show (parlinCols rd a.cols p t a.cols).toNat = _
    rw [hpc a.cols (le_refl _), Int.toNat_natCast]
  have hns : NoShortEntry a p t d0 ↔ ∀ i j, i < a.rows → j < a.cols →
      ((d0 + (starts p t (j + 1) - starts p t j - 1) * (p j + 1) : Nat) : Int) ≤ pdeg (a.e (i, j)) + 1 := by
    constructor
    · intro hn i j hi hj
      rw [hcnt]
      exact (reaches_iff _ _).1 (hn i j hi hj)
    · intro hn i j hi hj
      have := hn i j hi hj
      rw [hcnt] at this
      exact (reaches_iff _ _).2 this
  rw [hPc]
  rcases parlinFill_spec a p d0 pc (starts p t) P.e hpc fun j hj => by
    have := pieces_pos (p := p j) (ht j hj).1
    rw [starts_succ]
    omega
  with ⟨⟨i, j, hi, hj, h1⟩, h2⟩ | ⟨h1, e, h2, h3⟩
  · exact Or.inl ⟨fun hn => absurd (hns.1 hn i j hi hj) (by omega), h2⟩
  · refine Or.inr ⟨hns.2 h1, e, h2, fun i j hi hj m hm k => ?_⟩
    rw [h3 i j hi hj m (by rw [hcnt]; exact hm) k, hcnt]

theorem isParlin_of {a : PMat F[X]} {p : Nat → Nat} {t : Nat → Int} {d0 : Nat} (ht : ∀ j, j < a.cols → 0 ≤ t j) {e : Nat × Nat → Sto F}
    (he : ∀ i j, i < a.rows → j < a.cols → ∀ m, m < pieces (p j) (t j) → ∀ k,
        (e (i, starts p t j + m)).val.coeff k = if m + 1 < pieces (p j) (t j) ∧ p j + 1 ≤ k then 0 else (a.e (i, j)).coeff (d0 + m * (p j + 1) + k))
    (x : PMat (Sto F)) (hx : x = ⟨a.rows, starts p t a.cols, e⟩) : IsParlin a p d0 (starts p t) (vals x) := by
  subst hx
  refine ⟨rfl, rfl, rfl, fun j hj => by rw [starts_succ]; omega, fun i j hi hj k => ?_, fun i j hi hj m hm k hk => ?_⟩
  · rw [starts_succ, Nat.add_sub_cancel_left]
    exact sum_pieces (a.e (i, j)) (p j + 1) (Nat.succ_pos _) d0 (pieces (p j) (t j)) (pieces_pos (ht j hj)) (fun m => (e (i, starts p t j + m)).val) (he i j hi hj) k
  · rw [starts_succ] at hm
    show (e (i, starts p t j + m)).val.coeff k = 0
    rw [he i j hi hj m (by omega), if_pos ⟨by omega, hk⟩]

/-- With a bound on the degrees of the columns, no piece is too long. -/
theorem piece_deg {f : F[X]} {p : Nat} {t : Int} {d0 m k : Nat} (hf : ∀ k : Nat, t + d0 < k → f.coeff k = 0) (ht : 0 ≤ t) (hm : m < pieces p t) (hk : p < k)
    {v : F} (hv : v = if m + 1 < pieces p t ∧ p + 1 ≤ k then 0 else f.coeff (d0 + m * (p + 1) + k)) : v = 0 := by
  rw [hv]
  split
  · rfl
  · rename_i h
    refine hf _ ?_
    have h1 := (pieces_bound (p := p) (t := t) (by omega)).1
    obtain ⟨n, hn⟩ : ∃ n, pieces p t = n + 1 := ⟨pieces p t - 1, by omega⟩
    obtain rfl : m = n := by omega
    rw [hn, Nat.add_mul, Nat.one_mul] at h1
    generalize m * (p + 1) = u at *
    omega

/-- **C75**. `column_partial_linearization` gives a partial linearization, if no entry of the matrix is too short for the target
    degrees, whatever `parlin` contains before.  If the target degrees bound those of the columns, all the columns of the result
    have degree at most the given ones.  Full statement: for every matrix. -/
theorem C75_parlin_partial {rd : Rat → Rat} (h : Rounding rd) (P0 : PMat (Sto F)) (a : PMat F[X]) (p : Nat → Nat) (t : Nat → Int)
    (ht : ∀ j, j < a.cols → 0 ≤ t j ∧ t j + 1 < 2 ^ 53) (hs : NoShortEntry a p t 0) :
    ∃ pc P, colParlin rd P0 a p t = .ok (pc, P) ∧ ∃ start : Nat → Nat, (∀ j, j ≤ a.cols → pc j = start j) ∧
      (∀ j, j < a.cols → start (j + 1) = start j + pieces (p j) (t j)) ∧ IsParlin a p 0 start (vals P) ∧
      (ColBound a t → ∀ i j, i < a.rows → j < a.cols → ∀ m, m < pieces (p j) (t j) → ∀ k, p j < k → ((vals P).e (i, start j + m)).coeff k = 0) := by
  rcases parlin_core h P0 a p t 0 ht with ⟨h1, -⟩ | ⟨-, e, h2, h3⟩
  · exact absurd hs h1
  · have hpc := parlinCols_spec h a.cols p t fun j hj => ⟨by have := ht j hj; omega, (ht j hj).2⟩
    refine ⟨_, ⟨a.rows, starts p t a.cols, e⟩, ?_, starts p t, hpc, fun j _ => starts_succ p t j, isParlin_of (fun j hj => (ht j hj).1) h3 _ rfl, ?_⟩
    · unfold colParlin
      dsimp only
      rw [show ((0 : Nat) : Int) = 0 from rfl] at h2
      rw [h2]
      dsimp only [andThen, PMat.setDims]
      rw [hpc a.cols (le_refl _), Int.toNat_natCast]
    · intro hb i j hi hj m hm k hk
      exact piece_deg (fun k hk => hb i j hi hj k (by omega)) (ht j hj).1 hm hk (h3 i j hi hj m hm k)

/-- **C75, negation**. If an entry is too short, the length it computes for the last piece is negative and NTL reports an error. -/
theorem C75_short_entry_fails {rd : Rat → Rat} (h : Rounding rd) (P0 : PMat (Sto F)) (a : PMat F[X]) (p : Nat → Nat) (t : Nat → Int)
    (ht : ∀ j, j < a.cols → 0 ≤ t j ∧ t j + 1 < 2 ^ 53) (hs : ¬NoShortEntry a p t 0) : colParlin rd P0 a p t = .error := by
  rcases parlin_core h P0 a p t 0 ht with ⟨-, h1⟩ | ⟨h2, -⟩
  · unfold colParlin
    dsimp only
    rw [show ((0 : Nat) : Int) = 0 from rfl] at h1
    rw [h1]
    rfl
  · exact absurd h2 hs

theorem inf_target {a : PMat F[X]} {t : Nat → Int} {d0 : Nat} (ht : ∀ j, j < a.cols → t j - d0 + 1 < 2 ^ 53) :
    ∀ j, j < a.cols → 0 ≤ max 0 (t j - (d0 : Int)) ∧ max 0 (t j - (d0 : Int)) + 1 < 2 ^ 53 := by
  intro j hj
  have := ht j hj
  omega

/-- **C75**. The same for the function with the parameter `d_inf`, which ignores the coefficients of degree less than `d_inf`. -/
theorem C75_parlin_inf_partial {rd : Rat → Rat} (h : Rounding rd) (P0 : PMat (Sto F)) (a : PMat F[X]) (p : Nat → Nat) (t : Nat → Int) (d0 : Nat)
    (ht : ∀ j, j < a.cols → t j - d0 + 1 < 2 ^ 53) (hs : NoShortEntry a p (fun j => max 0 (t j - d0)) d0) :
    ∃ pc P, colParlinInf rd P0 a p t d0 = .ok (pc, P) ∧ ∃ start : Nat → Nat, (∀ j, j ≤ a.cols → pc j = start j) ∧
      (∀ j, j < a.cols → start (j + 1) = start j + pieces (p j) (max 0 (t j - d0))) ∧ IsParlin a p d0 start (vals P) ∧
      (ColBound a t → ∀ i j, i < a.rows → j < a.cols → ∀ m, m < pieces (p j) (max 0 (t j - d0)) → ∀ k, p j < k →
        ((vals P).e (i, start j + m)).coeff k = 0) := by
  have ht' := inf_target ht
  rcases parlin_core h P0 a p (fun j => max 0 (t j - d0)) d0 ht' with ⟨h1, -⟩ | ⟨-, e, h2, h3⟩
  · exact absurd hs h1
  · have hpc := parlinCols_spec h a.cols p (fun j => max 0 (t j - d0)) fun j hj => ⟨by have := ht' j hj; omega, (ht' j hj).2⟩
    refine ⟨_, ⟨a.rows, starts p (fun j => max 0 (t j - d0)) a.cols, e⟩, ?_, starts p (fun j => max 0 (t j - d0)), hpc,
      fun j _ => starts_succ p _ j, isParlin_of (fun j hj => (ht' j hj).1) h3 _ rfl, ?_⟩
    · unfold colParlinInf
      dsimp only
      rw [h2]
      dsimp only [andThen, PMat.setDims]
      rw [hpc a.cols (le_refl _), Int.toNat_natCast]
    · intro hb i j hi hj m hm k hk
      exact piece_deg (fun k hk => hb i j hi hj k (by omega)) (ht' j hj).1 hm hk (h3 i j hi hj m hm k)

/-- **C75, negation**. For a positive `d_inf`, a single zero entry is enough for the function to fail. -/
theorem C75_short_entry_inf_fails {rd : Rat → Rat} (h : Rounding rd) (P0 : PMat (Sto F)) (a : PMat F[X]) (p : Nat → Nat) (t : Nat → Int) (d0 : Nat)
    (ht : ∀ j, j < a.cols → t j - d0 + 1 < 2 ^ 53) (hs : ¬NoShortEntry a p (fun j => max 0 (t j - d0)) d0) : colParlinInf rd P0 a p t d0 = .error := by
  rcases parlin_core h P0 a p (fun j => max 0 (t j - d0)) d0 (inf_target ht) with ⟨-, h1⟩ | ⟨h2, -⟩
  · unfold colParlinInf
    dsimp only
    rw [h1]
    rfl
  · exact absurd h2 hs

/-- **C75, negation**. If the last column has target degree -1, as `column_partial_linearization_cdeg` gives it when it is zero, an entry is accessed
    outside of the matrix. -/
theorem C75_zero_column_fails {rd : Rat → Rat} (h : Rounding rd) (P0 : PMat (Sto F)) (n r : Nat) (hr : 0 < r) (A : Nat × Nat → F[X]) (p : Nat → Nat) (t : Nat → Int)
    (ht : ∀ j, j < n → 0 ≤ t j ∧ t j + 1 < 2 ^ 53) (h1 : t n = -1) (hz : ∀ i, i < r → A (i, n) = 0) (hs : NoShortEntry ⟨r, n, A⟩ p t 0) :
    colParlin rd P0 ⟨r, n + 1, A⟩ p t = .ub := by
  have ht' : ∀ j, j < n + 1 → -1 ≤ t j ∧ t j + 1 < 2 ^ 53 := by
    intro j hj
    by_cases hjn : j = n
    · subst hjn; omega
    · have := ht j (by omega); omega
  have hpc := parlinCols_spec h (n + 1) p t ht'
  have hpn : pieces (p n) (t n) = 0 := by
    unfold pieces
    rw [h1]
    exact Nat.div_eq_of_lt (by show 0 + p n < p n + 1; omega)
  have hst : starts p t (n + 1) = starts p t n := by rw [starts_succ, hpn, Nat.add_zero]
  unfold colParlin parlinFill
  dsimp only [PMat.setDims]
  generalize hpcd : parlinCols rd (n + 1) p t = pc at *
  rw [hpc (n + 1) (le_refl _), Int.toNat_natCast, hst]
  generalize (if P0.cols = starts p t n then P0.e else fun _ => 0) = e0
  obtain ⟨r', rfl⟩ : ∃ r', r = r' + 1 := ⟨r - 1, by omega⟩
  have hub : ∀ k (f : Nat → Out (Nat × Nat → Sto F) → Out (Nat × Nat → Sto F)), (∀ i, f i .ub = .ub) → forN k f .ub = .ub := by
    intro k f hf
    induction k with
    | zero => rfl
    | succ k ih => rw [forN, ih, hf]
  have hcnt : ∀ j, starts p t (j + 1) - starts p t j = pieces (p j) (t j) := fun j => by rw [starts_succ]; omega
  -- the first row fails
  have hrow : forN (n + 1) (fun j o => andThen o (parlinEntry p 0 pc (starts p t n) (A (0, j)) 0 j)) (.ok e0) = .ub := by
    rw [forN]
    rcases parlinFill_spec ⟨1, n, A⟩ p 0 pc (starts p t) e0 (fun j hj => hpc j (by have : j ≤ n := hj; omega)) (fun j hj => by
      have := pieces_pos (p := p j) (ht j hj).1
      rw [starts_succ]
      omega) with ⟨⟨i, j, hi, hj, h2⟩, -⟩ | ⟨-, e, h2, -⟩
    · obtain rfl : i = 0 := by have : i < 1 := hi; omega
      have := (reaches_iff _ _).1 (hs 0 j (Nat.succ_pos _) hj)
      rw [hcnt] at h2
      exact absurd this (by dsimp only at h2 ⊢; omega)
    · have h2 : forN n (fun j o => andThen o (parlinEntry p 0 pc (starts p t n) (A (0, j)) 0 j)) (.ok e0) = .ok e := h2
      rw [h2]
      show parlinEntry p 0 pc (starts p t n) (A (0, n)) 0 n e = .ub
      unfold parlinEntry
      dsimp only
      rw [hpc n (by omega), hpc (n + 1) (le_refl _), hst]
      rw [if_pos (by omega)]
  have hall : ∀ k, forN (k + 1) (fun i o => forN (n + 1) (fun j o => andThen o (parlinEntry p 0 pc (starts p t n) (A (i, j)) i j)) o) (.ok e0) = .ub := by
    intro k
    induction k with
    | zero => exact hrow
    | succ k ih =>
      rw [forN, ih]
      exact hub _ _ fun _ => rfl
  rw [hall r']
  rfl

/-! ### Compression -/

theorem addPiece_spec (q len m : Nat) (g : F[X]) (mem : Nat → F) (hg : ∀ k, g.coeff k ≠ 0 → m * q + k < len) :
    ∃ mem', addPiece q len m g mem = .ok mem' ∧ ∀ s, mem' s = mem s + (g * X ^ (m * q)).coeff s := by
  unfold addPiece
  have h1 : ¬(0 ≤ pdeg g ∧ (len : Int) ≤ (m * q : Nat) + pdeg g) := by
    rintro ⟨h1, h2⟩
    have hne : g ≠ 0 := fun h => by rw [h, pdeg_zero] at h1; omega
    rw [pdeg_ne g hne] at h2
    have := hg g.natDegree (leadingCoeff_ne_zero.2 hne)
    omega
  rw [if_neg h1]
  refine ⟨_, rfl, fun s => ?_⟩
  have key : ∀ n, forN n (fun d mem => write (m * q + d) (mem (m * q + d) + g.coeff d) mem) mem s =
      if m * q ≤ s ∧ s - m * q < n then mem s + g.coeff (s - m * q) else mem s := by
    intro n
    refine forN_inv (P := fun (n : Nat) (x : Nat → F) => x s = if m * q ≤ s ∧ s - m * q < n then mem s + g.coeff (s - m * q) else mem s)
      (by rw [if_neg (by omega)]) ?_
    intro n x _ ih
    by_cases hs : s = m * q + n
    · subst hs
      rw [write_eq, ih, if_neg (by omega), if_pos (by omega), Nat.add_sub_cancel_left]
    · rw [write_ne _ _ hs, ih]
      by_cases h2 : m * q ≤ s ∧ s - m * q < n
      · rw [if_pos h2, if_pos (by omega)]
      · rw [if_neg h2, if_neg (by omega)]
  rw [key, coeff_mul_X_pow']
  by_cases hs : m * q ≤ s
  · rw [if_pos hs]
    by_cases hs2 : s - m * q < (pdeg g + 1).toNat
    · rw [if_pos ⟨hs, hs2⟩]
    · rw [if_neg (by omega), coeff_gt_pdeg g _ (by have := pdeg_ge g; omega), add_zero]
  · rw [if_neg (by omega), if_neg hs, add_zero]

theorem compress_spec (q : Nat) (len : Nat) (k : Nat) (g : Nat → F[X]) (x : Sto F) (hg : ∀ m, m < k → ∀ s, (g m).coeff s ≠ 0 → m * q + s < len) :
    ∃ y, compress q len k g x = .ok y ∧ ∀ s, y.val.coeff s = (if s < len then x.mem s else 0) + (∑ m ∈ Finset.range k, g m * X ^ (m * q)).coeff s := by
  unfold compress
  rw [if_neg (by omega), Int.toNat_natCast]
  obtain ⟨mem, e1, e2⟩ : ∃ mem, forN k (fun m o => andThen o (addPiece q len m (g m))) (.ok x.mem) = .ok mem ∧
      ∀ s, mem s = x.mem s + (∑ m ∈ Finset.range k, g m * X ^ (m * q)).coeff s := by
    refine forN_inv (P := fun (n : Nat) (o : Out (Nat → F)) => n ≤ k → ∃ mem, o = .ok mem ∧ ∀ s, mem s = x.mem s + (∑ m ∈ Finset.range n, g m * X ^ (m * q)).coeff s)
      (fun _ => ⟨x.mem, rfl, fun s => by rw [Finset.sum_range_zero, coeff_zero, add_zero]⟩) ?_ (le_refl k)
    intro n o _ ih hn
    obtain ⟨mem, rfl, h1⟩ := ih (by omega)
    obtain ⟨mem', h2, h3⟩ := addPiece_spec q len n (g n) mem (hg n (by omega))
    exact ⟨mem', h2, fun s => by rw [h3, h1, Finset.sum_range_succ, coeff_add, add_assoc]⟩
  rw [e1]
  refine ⟨_, rfl, fun s => ?_⟩
  unfold Sto.val
  rw [ofCoeffs_coeff]
  dsimp only
  by_cases hs : s < len
  · rw [if_pos hs, if_pos hs, e2]
  · rw [if_neg hs, if_neg hs, zero_add, finsetSum_coeff, Finset.sum_eq_zero]
    intro m hm
    rw [coeff_mul_X_pow']
    split
    · by_contra hc
      have := hg m (Finset.mem_range.1 hm) _ hc
      omega
    · rfl

theorem fillOut_spec (r c : Nat) (f : Nat → Nat → Sto F → Out (Sto F)) (e : Nat × Nat → Sto F) (y : Nat × Nat → Sto F)
    (h : ∀ i j, i < r → j < c → f i j (e (i, j)) = .ok (y (i, j))) : ∃ e', fillOut r c f e = .ok e' ∧ ∀ i j, i < r → j < c → e' (i, j) = y (i, j) := by
  unfold fillOut
  obtain ⟨e', h1, h2⟩ : ∃ e', forN r (fun i o => forN c (fun j o => andThen o fun e => andThen (f i j (e (i, j))) fun y => .ok (write (i, j) y e)) o) (.ok e) = .ok e' ∧
      ∀ i j, j < c → e' (i, j) = if i < r then y (i, j) else e (i, j) := by
    refine forN_inv (P := fun (n : Nat) (o : Out (Nat × Nat → Sto F)) => n ≤ r → ∃ e', o = .ok e' ∧ ∀ i j, j < c → e' (i, j) = if i < n then y (i, j) else e (i, j))
      (fun _ => ⟨e, rfl, fun i j _ => by rw [if_neg (by omega)]⟩) ?_ (le_refl r)
    intro n o _ ih hn
    obtain ⟨e1, rfl, g1⟩ := ih (by omega)
    obtain ⟨e2, h2, g2⟩ : ∃ e2, forN c (fun j o => andThen o fun e => andThen (f n j (e (n, j))) fun y => .ok (write (n, j) y e)) (.ok e1) = .ok e2 ∧
        ∀ i j, j < c → e2 (i, j) = if i < n ∨ i = n ∧ j < c then y (i, j) else e (i, j) := by
      refine forN_inv (P := fun (l : Nat) (o : Out (Nat × Nat → Sto F)) => l ≤ c → ∃ e', o = .ok e' ∧ ∀ i j, j < c → e' (i, j) = if i < n ∨ i = n ∧ j < l then y (i, j) else e (i, j))
        (fun _ => ⟨e1, rfl, fun i j hj => by
          rw [g1 i j hj]
          by_cases hi : i < n
          · rw [if_pos hi, if_pos (Or.inl hi)]
          · rw [if_neg hi, if_neg (by omega)]⟩) ?_ (le_refl c)
      intro l o _ ih hl
      obtain ⟨e3, rfl, g3⟩ := ih (by omega)
      have := g3 n l (by omega)
      rw [if_neg (by omega)] at this
      refine ⟨write (n, l) (y (n, l)) e3, ?_, fun i j hj => ?_⟩
      · show andThen (f n l (e3 (n, l))) _ = _
        rw [this, h n l (by omega) (by omega)]
        rfl
      · by_cases hij : i = n ∧ j = l
        · obtain ⟨rfl, rfl⟩ := hij
          rw [write_eq, if_pos (by omega)]
        · rw [write_ne _ _ (fun h => hij (by rw [Prod.mk.injEq] at h; exact h)), g3 i j hj]
          by_cases h5 : i < n ∨ i = n ∧ j < l
          · rw [if_pos h5, if_pos (by omega)]
          · rw [if_neg h5, if_neg (by omega)]
    refine ⟨e2, h2, fun i j hj => ?_⟩
    rw [g2 i j hj]
    by_cases hi : i < n + 1
    · rw [if_pos hi, if_pos (by omega)]
    · rw [if_neg hi, if_neg (by omega)]
  exact ⟨e', h1, fun i j hi hj => by rw [h2 i j hj, if_pos hi]⟩

/-! ### Products -/

/-- What is added to an entry of the result, for the products by the columns of a partial linearization. -/
theorem product_pieces (a b : PMat F[X]) (hab : a.cols = b.rows) (p : Nat) (t : Nat → Int) (d0 : Nat) (ht : ∀ j, j < b.cols → 0 ≤ t j) {e : Nat × Nat → Sto F}
    (he : ∀ i j, i < b.rows → j < b.cols → ∀ m, m < pieces p (t j) → ∀ k,
        (e (i, starts (fun _ => p) t j + m)).val.coeff k = if m + 1 < pieces p (t j) ∧ p + 1 ≤ k then 0 else (b.e (i, j)).coeff (d0 + m * (p + 1) + k))
    (cp : PMat F[X]) (hcp : MatMul.IsProduct a (vals ⟨b.rows, starts (fun _ => p) t b.cols, e⟩) cp) (hbound : ColBound b fun j => t j + d0) (i j : Nat) (hi : i < a.rows) (hj : j < b.cols) :
    (∀ m, m < pieces p (t j) → ∀ s : Nat, (cp.e (i, starts (fun _ => p) t j + m)).coeff s ≠ 0 → ((m * (p + 1) + s : Nat) : Int) < Div.rowDegree a i + t j + 1) ∧
    ∃ B : Nat → F[X], (∀ l, l < a.cols → ∀ k, (B l).coeff k = (b.e (l, j)).coeff (d0 + k)) ∧
      ∑ m ∈ Finset.range (pieces p (t j)), cp.e (i, starts (fun _ => p) t j + m) * X ^ (m * (p + 1)) = ∑ l ∈ Finset.range a.cols, a.e (i, l) * B l := by
  have hle : ∀ m, m < pieces p (t j) → starts (fun _ => p) t j + m < starts (fun _ => p) t b.cols := by
    intro m hm
    have h1 : starts (fun _ => p) t (j + 1) ≤ starts (fun _ => p) t b.cols := Finset.sum_le_sum_of_subset (Finset.range_subset_range.2 (by omega))
    rw [starts_succ] at h1
    omega
  obtain ⟨-, -, h3⟩ := hcp
  have hcp : ∀ m, m < pieces p (t j) → cp.e (i, starts (fun _ => p) t j + m) = ∑ l ∈ Finset.range a.cols, a.e (i, l) * (e (l, starts (fun _ => p) t j + m)).val :=
    fun m hm => h3 i _ hi (hle m hm)
  obtain ⟨r1, r2, -⟩ := Div.C73_row_degree a i
  constructor
  · intro m hm s hs
    rw [hcp m hm, finsetSum_coeff] at hs
    obtain ⟨l, hl, hne⟩ := Finset.exists_ne_zero_of_sum_ne_zero hs
    have hl : l < a.cols := Finset.mem_range.1 hl
    rw [coeff_mul] at hne
    obtain ⟨⟨u, v⟩, huv, hne⟩ := Finset.exists_ne_zero_of_sum_ne_zero hne
    rw [Finset.mem_antidiagonal] at huv
    dsimp only at huv hne
    have h4 : ¬Div.rowDegree a i < (u : Int) := fun h => (left_ne_zero_of_mul hne) (r2 l hl u h)
    have h5 := right_ne_zero_of_mul hne
    rw [he l j (by omega) hj m hm] at h5
    have h6 : ¬(t j + d0 < ((d0 + m * (p + 1) + v : Nat) : Int)) := by
      intro h
      apply h5
      rw [hbound l j (by omega) hj _ h, ite_self]
    push_cast at h6 ⊢
    generalize (m : Int) * ((p : Int) + 1) = w at *
    omega
  · refine ⟨fun l => ∑ m ∈ Finset.range (pieces p (t j)), (e (l, starts (fun _ => p) t j + m)).val * X ^ (m * (p + 1)), fun l hl k => ?_, ?_⟩
    · exact sum_pieces (b.e (l, j)) (p + 1) (Nat.succ_pos _) d0 (pieces p (t j)) (pieces_pos (ht j hj)) (fun m => (e (l, starts (fun _ => p) t j + m)).val)
        (he l j (by omega) hj) k
    · rw [Finset.sum_congr rfl fun m hm => by rw [hcp m (Finset.mem_range.1 hm), Finset.sum_mul], Finset.sum_comm]
      refine Finset.sum_congr rfl fun l _ => ?_
      rw [Finset.mul_sum]
      exact Finset.sum_congr rfl fun m _ => mul_assoc _ _ _

theorem colParlin_fresh {rd : Rat → Rat} (h : Rounding rd) (b : PMat F[X]) (p : Nat) (t : Nat → Int)
    (ht : ∀ j, j < b.cols → 0 ≤ t j ∧ t j + 1 < 2 ^ 53) (hs : NoShortEntry b (fun _ => p) t 0) :
    ∃ e pc, colParlin rd (fresh F) b (fun _ => p) t = .ok (pc, ⟨b.rows, starts (fun _ => p) t b.cols, e⟩) ∧ (∀ j, j ≤ b.cols → pc j = (starts (fun _ => p) t j : Nat)) ∧
      ∀ i j, i < b.rows → j < b.cols → ∀ m, m < pieces p (t j) → ∀ k,
        (e (i, starts (fun _ => p) t j + m)).val.coeff k = if m + 1 < pieces p (t j) ∧ p + 1 ≤ k then 0 else (b.e (i, j)).coeff (0 + m * (p + 1) + k) := by
  rcases parlin_core h (fresh F) b (fun _ => p) t 0 ht with ⟨h1, -⟩ | ⟨-, e, h2, h3⟩
  · exact absurd hs h1
  · have hpc := parlinCols_spec h b.cols (fun _ => p) t fun j hj => ⟨by have := ht j hj; omega, (ht j hj).2⟩
    refine ⟨e, _, ?_, hpc, h3⟩
    unfold colParlin
    dsimp only
    rw [show ((0 : Nat) : Int) = 0 from rfl] at h2
    rw [h2]
    dsimp only [andThen, PMat.setDims]
    rw [hpc b.cols (le_refl _), Int.toNat_natCast]

/-- What `right_parlin_multiply` computes: the coefficients stored in the entries of `c` are added to those of the product. -/
theorem multiply_core {rd : Rat → Rat} (h : Rounding rd) {mul : PMat F[X] → PMat F[X] → Option (PMat F[X])} (hmul : MulOk mul) (c : PMat (Sto F)) (a b : PMat F[X])
    (p : Nat) (t : Nat → Int) (hab : a.cols = b.rows) (hn : 0 < a.cols) (ht : ∀ j, j < b.cols → 0 ≤ t j ∧ t j + 1 < 2 ^ 53) (hb : ColBound b t)
    (hs : NoShortEntry b (fun _ => p) t 0) :
    ∃ y, rightParlinMultiply rd mul c a b p t = .ok y ∧ y.rows = a.rows ∧ y.cols = b.cols ∧ ∀ i j, i < a.rows → j < b.cols → ∀ s : Nat,
      ((vals y).e (i, j)).coeff s = (if (s : Int) < Div.rowDegree a i + t j + 1 then ((c.setDims a.rows b.cols).e (i, j)).mem s else 0) +
        (∑ l ∈ Finset.range a.cols, a.e (i, l) * b.e (l, j)).coeff s := by
  obtain ⟨e, pc, h1, hpc, he⟩ := colParlin_fresh h b p t ht hs
  unfold rightParlinMultiply
  rw [h1]
  dsimp only [andThen]
  obtain ⟨cp, ecp, hcp⟩ := hmul a (vals ⟨b.rows, starts (fun _ => p) t b.cols, e⟩) hab hn
  rw [ecp]
  dsimp only [ofOpt]
  have hx : ∀ i j, i < a.rows → j < b.cols → ∃ y, compress (p + 1) (Div.rowDegree a i + t j + 1) (pc (j + 1) - pc j).toNat (fun m => cp.e (i, (pc j).toNat + m))
      ((c.setDims a.rows b.cols).e (i, j)) = .ok y ∧ ∀ s : Nat, y.val.coeff s = (if (s : Int) < Div.rowDegree a i + t j + 1 then ((c.setDims a.rows b.cols).e (i, j)).mem s else 0) +
        (∑ l ∈ Finset.range a.cols, a.e (i, l) * b.e (l, j)).coeff s := by
    intro i j hi hj
    obtain ⟨q1, B, q2, q3⟩ := product_pieces a b hab p t 0 (fun j hj => (ht j hj).1) he cp hcp (fun i j hi hj k hk => hb i j hi hj k (by dsimp only at hk; omega)) i j hi hj
    have r1 := (Div.C73_row_degree a i).1
    have t1 := (ht j hj).1
    rw [hpc j (by omega), hpc (j + 1) (by omega), starts_succ]
    have e1 : (((starts (fun _ => p) t j + pieces p (t j) : Nat) : Int) - (starts (fun _ => p) t j : Nat)).toNat = pieces p (t j) := by omega
    rw [e1, Int.toNat_natCast]
    obtain ⟨len, hlen⟩ : ∃ len : Nat, Div.rowDegree a i + t j + 1 = len := ⟨(Div.rowDegree a i + t j + 1).toNat, by omega⟩
    rw [hlen] at q1 ⊢
    obtain ⟨y, y1, y2⟩ := compress_spec (p + 1) len (pieces p (t j)) (fun m => cp.e (i, starts (fun _ => p) t j + m)) ((c.setDims a.rows b.cols).e (i, j))
      fun m hm s hs => by have := q1 m hm s hs; omega
    refine ⟨y, y1, fun s => ?_⟩
    rw [y2 s, q3]
    have e2 : ∀ l, l < a.cols → B l = b.e (l, j) := fun l hl => by
      ext k
      rw [q2 l hl, Nat.zero_add]
    rw [Finset.sum_congr rfl fun l hl => by rw [e2 l (Finset.mem_range.1 hl)]]
    congr 1
    by_cases hsl : s < len
    · rw [if_pos hsl, if_pos (by omega)]
    · rw [if_neg hsl, if_neg (by omega)]
  choose! y hy1 hy2 using hx
  obtain ⟨e', g1, g2⟩ := fillOut_spec a.rows b.cols (fun i j x => compress (p + 1) (Div.rowDegree a i + t j + 1) (pc (j + 1) - pc j).toNat (fun m => cp.e (i, (pc j).toNat + m)) x)
    (c.setDims a.rows b.cols).e (fun ij => y ij.1 ij.2) hy1
  rw [g1]
  refine ⟨_, rfl, rfl, rfl, fun i j hi hj s => ?_⟩
  show (e' (i, j)).val.coeff s = _
  rw [g2 i j hi hj]
  exact hy2 i j hi hj s

/-- **C75**. If `c` is a new matrix, or if its entries only store zeros, if the given degrees bound those of the columns of `b`, and if no entry
    of `b` is too short for them, `right_parlin_multiply` computes the product `a b`.  Full statement: without the conditions on `c` and on the
    entries of `b`. -/
theorem C75_multiply_partial {rd : Rat → Rat} (h : Rounding rd) {mul : PMat F[X] → PMat F[X] → Option (PMat F[X])} (hmul : MulOk mul) (c : PMat (Sto F)) (a b : PMat F[X])
    (p : Nat) (t : Nat → Int) (hab : a.cols = b.rows) (hn : 0 < a.cols) (ht : ∀ j, j < b.cols → 0 ≤ t j ∧ t j + 1 < 2 ^ 53) (hb : ColBound b t)
    (hs : NoShortEntry b (fun _ => p) t 0) (hc : ∀ ij s, (c.e ij).mem s = 0) :
    ∃ y, rightParlinMultiply rd mul c a b p t = .ok y ∧ MatMul.IsProduct a b (vals y) := by
  obtain ⟨y, y1, y2, y3, y4⟩ := multiply_core h hmul c a b p t hab hn ht hb hs
  refine ⟨y, y1, y2, y3, fun i j hi hj => ?_⟩
  ext s
  rw [y4 i j hi hj s]
  have : ((c.setDims a.rows b.cols).e (i, j)).mem s = 0 := by
    unfold PMat.setDims
    dsimp only
    split
    · exact hc (i, j) s
    · rfl
  rw [this, ite_self, zero_add]

/-- **C75, negation**. If `c` already has as many columns as `b`, what its entries store is added to the result: with a nonzero coefficient of index 0
    stored in some entry, the result is not the product (for a nonzero row of `a`). -/
theorem C75_multiply_reused_wrong {rd : Rat → Rat} (h : Rounding rd) {mul : PMat F[X] → PMat F[X] → Option (PMat F[X])} (hmul : MulOk mul) (c : PMat (Sto F)) (a b : PMat F[X])
    (p : Nat) (t : Nat → Int) (hab : a.cols = b.rows) (hn : 0 < a.cols) (ht : ∀ j, j < b.cols → 0 ≤ t j ∧ t j + 1 < 2 ^ 53) (hb : ColBound b t)
    (hs : NoShortEntry b (fun _ => p) t 0) (hcc : c.cols = b.cols) (i j l : Nat) (hi : i < a.rows) (hj : j < b.cols) (hl : l < a.cols) (hal : a.e (i, l) ≠ 0)
    (hc : (c.e (i, j)).mem 0 ≠ 0) :
    ∃ y, rightParlinMultiply rd mul c a b p t = .ok y ∧ ¬MatMul.IsProduct a b (vals y) := by
  obtain ⟨y, y1, y2, y3, y4⟩ := multiply_core h hmul c a b p t hab hn ht hb hs
  refine ⟨y, y1, fun hp => ?_⟩
  have h1 := y4 i j hi hj 0
  rw [hp.2.2 i j hi hj] at h1
  have h2 : ((c.setDims a.rows b.cols).e (i, j)).mem 0 = (c.e (i, j)).mem 0 := by
    unfold PMat.setDims
    dsimp only
    rw [if_pos hcc]
  have h3 : ¬Div.rowDegree a i < 0 := by
    intro h
    exact hal (Polynomial.ext fun k => by rw [(Div.C73_row_degree a i).2.1 l hl k (by omega), coeff_zero])
  rw [if_pos (by have := (ht j hj).1; omega), h2] at h1
  exact hc (by simpa using h1)

/-- **C75, negation**. If an entry of `b` is too short, `right_parlin_multiply` fails. -/
theorem C75_multiply_fails {rd : Rat → Rat} (h : Rounding rd) (mul : PMat F[X] → PMat F[X] → Option (PMat F[X])) (c : PMat (Sto F)) (a b : PMat F[X]) (p : Nat) (t : Nat → Int)
    (ht : ∀ j, j < b.cols → 0 ≤ t j ∧ t j + 1 < 2 ^ 53) (hs : ¬NoShortEntry b (fun _ => p) t 0) : rightParlinMultiply rd mul c a b p t = .error := by
  unfold rightParlinMultiply
  rw [C75_short_entry_fails h (fresh F) b (fun _ => p) t ht hs]
  rfl

theorem shiftTrunc_spec (n : Int) (k : Nat) (x : Sto F) (s : Nat) : (shiftTrunc n k x).val.coeff s = if s < k then coeffZ x.val (s + n) else 0 := by
  unfold shiftTrunc Sto.val
  rw [ofCoeffs_coeff]
  dsimp only
  by_cases hs : s < k
  · rw [if_pos hs, if_pos hs, ofCoeffs_coeff, if_pos hs]
  · rw [if_neg hs, if_neg hs]

/-- **C75**. Under the same conditions, `right_parlin_middle_product` computes the middle product: the coefficients of degree `dA, ..., dA + dB` of
    `a b`; `a` has degree at most `dA`, and the target degrees are at least `dA - deg a`. -/
theorem C75_middle_partial {rd : Rat → Rat} (h : Rounding rd) {mul : PMat F[X] → PMat F[X] → Option (PMat F[X])} (hmul : MulOk mul) (c : PMat (Sto F)) (a b : PMat F[X])
    (p : Nat) (t : Nat → Int) (dA dB d0 : Nat) (hab : a.cols = b.rows) (hn : 0 < a.cols) (hd0 : deg a + d0 = dA) (ht : ∀ j, j < b.cols → (d0 : Int) ≤ t j ∧ t j - d0 + 1 < 2 ^ 53)
    (hb : ColBound b t) (hs : NoShortEntry b (fun _ => p) (fun j => max 0 (t j - d0)) d0) (hc : ∀ ij s, (c.e ij).mem s = 0) :
    ∃ y, rightParlinMiddle rd mul c a b p t dA dB = .ok y ∧ y.rows = a.rows ∧ y.cols = b.cols ∧ ∀ i j, i < a.rows → j < b.cols → ∀ k,
      ((vals y).e (i, j)).coeff k = if k ≤ dB then (∑ l ∈ Finset.range a.cols, a.e (i, l) * b.e (l, j)).coeff (dA + k) else 0 := by
  have ht' := inf_target (a := b) (t := t) (d0 := d0) fun j hj => (ht j hj).2
  have hdinf : (dA : Int) - deg a = d0 := by omega
  have hcore : ∃ e pc, colParlinInf rd (fresh F) b (fun _ => p) t d0 = .ok (pc, ⟨b.rows, starts (fun _ => p) (fun j => max 0 (t j - d0)) b.cols, e⟩) ∧
      (∀ j, j ≤ b.cols → pc j = (starts (fun _ => p) (fun j => max 0 (t j - d0)) j : Nat)) ∧
      ∀ i j, i < b.rows → j < b.cols → ∀ m, m < pieces p (max 0 (t j - d0)) → ∀ k,
        (e (i, starts (fun _ => p) (fun j => max 0 (t j - d0)) j + m)).val.coeff k =
          if m + 1 < pieces p (max 0 (t j - d0)) ∧ p + 1 ≤ k then 0 else (b.e (i, j)).coeff (d0 + m * (p + 1) + k) := by
    rcases parlin_core h (fresh F) b (fun _ => p) (fun j => max 0 (t j - d0)) d0 ht' with ⟨h1, -⟩ | ⟨-, e, h2, h3⟩
    · exact absurd hs h1
    · have hpc := parlinCols_spec h b.cols (fun _ => p) (fun j => max 0 (t j - d0)) fun j hj => ⟨by have := ht' j hj; omega, (ht' j hj).2⟩
      refine ⟨e, _, ?_, hpc, h3⟩
      unfold colParlinInf
      dsimp only
      rw [h2]
      dsimp only [andThen, PMat.setDims]
      rw [hpc b.cols (le_refl _), Int.toNat_natCast]
  obtain ⟨e, pc, h1, hpc, he⟩ := hcore
  unfold rightParlinMiddle
  dsimp only
  rw [hdinf, h1]
  dsimp only [andThen]
  obtain ⟨cp, ecp, hcp⟩ := hmul a (vals ⟨b.rows, starts (fun _ => p) (fun j => max 0 (t j - d0)) b.cols, e⟩) hab hn
  rw [ecp]
  dsimp only [ofOpt]
  have hx : ∀ i j, i < a.rows → j < b.cols → ∃ y, (andThen (compress (p + 1) (Div.rowDegree a i + t j - d0 + 1) (pc (j + 1) - pc j).toNat (fun m => cp.e (i, (pc j).toNat + m))
      ((c.setDims a.rows b.cols).e (i, j))) fun x => .ok (shiftTrunc (deg a) (dB + 1) x)) = .ok y ∧
      ∀ k : Nat, y.val.coeff k = if k ≤ dB then (∑ l ∈ Finset.range a.cols, a.e (i, l) * b.e (l, j)).coeff (dA + k) else 0 := by
    intro i j hi hj
    obtain ⟨q1, B, q2, q3⟩ := product_pieces a b hab p (fun j => max 0 (t j - d0)) d0 (fun j hj => (ht' j hj).1) he cp hcp
      (fun i j hi hj k hk => hb i j hi hj k (by have := (ht j hj).1; dsimp only at hk; omega)) i j hi hj
    have r1 := (Div.C73_row_degree a i).1
    have t1 := (ht j hj).1
    have tmax : max 0 (t j - (d0 : Int)) = t j - d0 := by omega
    rw [hpc j (by omega), hpc (j + 1) (by omega), starts_succ]
    generalize starts (fun _ => p) (fun j => max 0 (t j - (d0 : Int))) j = S at *
    rw [tmax] at q1 q3 ⊢
    have e1 : (((S + pieces p (t j - d0) : Nat) : Int) - (S : Nat)).toNat = pieces p (t j - d0) := by omega
    rw [e1, Int.toNat_natCast]
    obtain ⟨len, hlen⟩ : ∃ len : Nat, Div.rowDegree a i + t j - d0 + 1 = len := ⟨(Div.rowDegree a i + t j - d0 + 1).toNat, by omega⟩
    rw [hlen]
    obtain ⟨y, y1, y2⟩ := compress_spec (p + 1) len (pieces p (t j - d0)) (fun m => cp.e (i, S + m)) ((c.setDims a.rows b.cols).e (i, j))
      fun m hm s hs => by have := q1 m hm s hs; omega
    rw [y1]
    refine ⟨_, rfl, fun k => ?_⟩
    rw [shiftTrunc_spec]
    by_cases hk : k ≤ dB
    · rw [if_pos (by omega), if_pos hk]
      have hy : ∀ s, y.val.coeff s = (∑ l ∈ Finset.range a.cols, a.e (i, l) * B l).coeff s := by
        intro s
        have : ((c.setDims a.rows b.cols).e (i, j)).mem s = 0 := by
          unfold PMat.setDims
          dsimp only
          split
          · exact hc (i, j) s
          · rfl
        rw [y2 s, q3, this, ite_self, zero_add]
      have hdeg := (deg_spec a).2.1
      have hdm := (deg_spec a).1
      -- the contribution of each column of `a`
      have hterm : ∀ l, l < a.cols → (a.e (i, l) * b.e (l, j)).coeff (dA + k) = if (k : Int) + deg a < 0 then 0 else (a.e (i, l) * B l).coeff ((k : Int) + deg a).toNat := by
        intro l hl
        by_cases hda : deg a < 0
        · have ha0 : a.e (i, l) = 0 := (pdeg_neg_iff _).1 (by have := hdeg i l hi hl; have := pdeg_ge (a.e (i, l)); omega)
          rw [ha0, zero_mul, zero_mul, coeff_zero, coeff_zero, ite_self]
        · obtain ⟨D, hD⟩ : ∃ D : Nat, deg a = D := ⟨(deg a).toNat, by omega⟩
          rw [if_neg (by omega)]
          have e2 : ((k : Int) + deg a).toNat = D + k := by omega
          have e3 : dA + k = d0 + (D + k) := by omega
          rw [e2, e3, coeff_mul, coeff_mul, Finset.Nat.sum_antidiagonal_eq_sum_range_succ (fun u v => (a.e (i, l)).coeff u * (b.e (l, j)).coeff v),
            Finset.Nat.sum_antidiagonal_eq_sum_range_succ (fun u v => (a.e (i, l)).coeff u * (B l).coeff v)]
          have hbig : ∀ u : Nat, D < u → (a.e (i, l)).coeff u = 0 := fun u hu => coeff_gt_pdeg _ _ (by have := hdeg i l hi hl; omega)
          have hcut : ∀ (N : Nat) (w : Nat → F), D ≤ N → ∑ u ∈ Finset.range (N + 1), (a.e (i, l)).coeff u * w u = ∑ u ∈ Finset.range (D + 1), (a.e (i, l)).coeff u * w u := by
            intro N w hN
            refine (Finset.sum_subset (Finset.range_subset_range.2 (by omega)) fun u _ hu => ?_).symm
            rw [hbig u (by rw [Finset.mem_range] at hu; omega), zero_mul]
          have c1 := hcut (d0 + (D + k)) (fun u => (b.e (l, j)).coeff (d0 + (D + k) - u)) (by omega)
          have c2 := hcut (D + k) (fun u => (B l).coeff (D + k - u)) (by omega)
          rw [Nat.succ_eq_add_one, Nat.succ_eq_add_one, c1, c2]
          refine Finset.sum_congr rfl fun u hu => ?_
          have hu : u < D + 1 := Finset.mem_range.1 hu
          rw [q2 l hl, show d0 + (D + k - u) = d0 + (D + k) - u by omega]
      rw [finsetSum_coeff, Finset.sum_congr rfl fun l hl => hterm l (Finset.mem_range.1 hl)]
      unfold coeffZ
      by_cases hneg : (k : Int) + deg a < 0
      · rw [if_pos hneg]
        simp only [if_pos hneg, Finset.sum_const_zero]
      · rw [if_neg hneg, hy, finsetSum_coeff]
        simp only [if_neg hneg]
    · rw [if_neg (by omega), if_neg hk]
  choose! y hy1 hy2 using hx
  obtain ⟨e', g1, g2⟩ := fillOut_spec a.rows b.cols (fun i j x =>
      andThen (compress (p + 1) (Div.rowDegree a i + t j - d0 + 1) (pc (j + 1) - pc j).toNat (fun m => cp.e (i, (pc j).toNat + m)) x) fun x =>
      .ok (shiftTrunc (deg a) (dB + 1) x)) (c.setDims a.rows b.cols).e (fun ij => y ij.1 ij.2) hy1
  dsimp only [andThen] at g1
  rw [g1]
  refine ⟨_, rfl, rfl, rfl, fun i j hi hj s => ?_⟩
  show (e' (i, j)).val.coeff s = _
  rw [g2 i j hi hj]
  exact hy2 i j hi hj s

/-- **C75, negation**. If an entry of `b` is too short, `right_parlin_middle_product` fails: for instance if `deg a < dA` and an entry of `b` is zero. -/
theorem C75_middle_fails {rd : Rat → Rat} (h : Rounding rd) (mul : PMat F[X] → PMat F[X] → Option (PMat F[X])) (c : PMat (Sto F)) (a b : PMat F[X]) (p : Nat) (t : Nat → Int)
    (dA dB d0 : Nat) (hd0 : deg a + d0 = dA) (ht : ∀ j, j < b.cols → t j - d0 + 1 < 2 ^ 53) (hs : ¬NoShortEntry b (fun _ => p) (fun j => max 0 (t j - d0)) d0) :
    rightParlinMiddle rd mul c a b p t dA dB = .error := by
  unfold rightParlinMiddle
  dsimp only
  rw [show (dA : Int) - deg a = d0 by omega, C75_short_entry_inf_fails h (fresh F) b (fun _ => p) t d0 ht hs]
  rfl

/-! ### The hypotheses can be met -/

theorem rounding_id : Rounding id := ⟨monotone_id, fun _ _ => rfl, fun x hx => sub_le_self x (by positivity)⟩

/-- Two rows and two columns of `X^3`. -/
noncomputable def cubes : PMat (ZMod 5)[X] := ⟨2, 2, fun _ => X ^ 3⟩

theorem cubes_reaches (p : Nat → Nat) (d0 : Nat) (t : Nat → Int) (h : ∀ j, d0 + (pieces (p j) (t j) - 1) * (p j + 1) ≤ 4) : NoShortEntry cubes p t d0 :=
  fun _ j _ _ => Or.inr ⟨3, h j, by show (X ^ 3 : (ZMod 5)[X]).coeff 3 ≠ 0; rw [coeff_X_pow_self]; exact one_ne_zero⟩

theorem cubes_bound : ColBound cubes fun _ => 3 := fun i j _ _ k hk => by
  show (X ^ 3 : (ZMod 5)[X]).coeff k = 0
  rw [coeff_X_pow, if_neg (by dsimp only at hk; omega)]

example (P0 : PMat (Sto (ZMod 5))) := C75_parlin_partial rounding_id P0 cubes (fun _ => 1) (fun _ => 3) (fun _ _ => by omega) (cubes_reaches _ _ _ fun _ => by decide)
example (P0 : PMat (Sto (ZMod 5))) := C75_parlin_inf_partial rounding_id P0 cubes (fun _ => 1) (fun _ => 3) 2 (fun _ _ => by omega) (cubes_reaches _ _ _ fun _ => by decide)

example : ∃ (mul : PMat (ZMod 5)[X] → PMat (ZMod 5)[X] → Option (PMat (ZMod 5)[X])) (y : _),
    rightParlinMultiply id mul (fresh (ZMod 5)) inv5 cubes 1 (fun _ => 3) = .ok y ∧ MatMul.IsProduct inv5 cubes (vals y) :=
  let ⟨mul, hm⟩ := mulOk_exists (F := ZMod 5)
  ⟨mul, C75_multiply_partial rounding_id hm (fresh _) inv5 cubes 1 (fun _ => 3) rfl (Nat.succ_pos 1) (fun _ _ => by omega) cubes_bound (cubes_reaches _ _ _ fun _ => by decide) fun _ _ => rfl⟩

/-- The same call on a matrix `c` whose entries are 1. -/
example : ∃ (mul : PMat (ZMod 5)[X] → PMat (ZMod 5)[X] → Option (PMat (ZMod 5)[X])) (y : _),
    rightParlinMultiply id mul ⟨2, 2, fun _ => ⟨1, fun _ => 1⟩⟩ inv5 cubes 1 (fun _ => 3) = .ok y ∧ ¬MatMul.IsProduct inv5 cubes (vals y) :=
  let ⟨mul, hm⟩ := mulOk_exists (F := ZMod 5)
  ⟨mul, C75_multiply_reused_wrong rounding_id hm _ inv5 cubes 1 (fun _ => 3) rfl (Nat.succ_pos 1) (fun _ _ => by omega) cubes_bound (cubes_reaches _ _ _ fun _ => by decide)
    rfl 1 1 1 (by decide) (by decide) (by decide) (by show (C 2 : (ZMod 5)[X]) ≠ 0; rw [Ne, C_eq_zero]; decide) one_ne_zero⟩

example : ∃ (mul : PMat (ZMod 5)[X] → PMat (ZMod 5)[X] → Option (PMat (ZMod 5)[X])) (y : _), rightParlinMiddle id mul (fresh (ZMod 5)) inv5 cubes 1 (fun _ => 3) 2 1 = .ok y :=
  let ⟨mul, hm⟩ := mulOk_exists (F := ZMod 5)
  let ⟨y, h, _⟩ := C75_middle_partial rounding_id hm (fresh _) inv5 cubes 1 (fun _ => 3) 2 1 1 rfl (Nat.succ_pos 1) (by rw [Lift.inv5_deg1]; rfl) (fun _ _ => by omega) cubes_bound
    (cubes_reaches _ _ _ fun _ => by decide) fun _ _ => rfl
  ⟨mul, y, h⟩

/-- The row `(X^3, 0)`: the second entry is zero, but the degree given is 3. -/
noncomputable def short5 : PMat (ZMod 5)[X] := ⟨1, 2, fun ij => if ij.2 = 0 then X ^ 3 else 0⟩

theorem short5_short (p : Nat → Nat) (d0 : Nat) (t : Nat → Int) (h : 0 < d0 + (pieces (p 1) (t 1) - 1) * (p 1 + 1)) : ¬NoShortEntry short5 p t d0 := by
  intro hn
  rcases hn 0 1 Nat.one_pos (Nat.lt_succ_self 1) with h1 | ⟨k, -, h2⟩
  · omega
  · exact h2 (by show (0 : (ZMod 5)[X]).coeff k = 0; exact coeff_zero k)

example (P0 : PMat (Sto (ZMod 5))) : colParlin id P0 short5 (fun _ => 1) (fun _ => 3) = .error :=
  C75_short_entry_fails rounding_id P0 short5 _ _ (fun _ _ => by omega) (short5_short _ _ _ (by decide))
example (P0 : PMat (Sto (ZMod 5))) : colParlinInf id P0 short5 (fun _ => 1) (fun _ => 3) (1 : Nat) = .error :=
  C75_short_entry_inf_fails rounding_id P0 short5 _ _ 1 (fun _ _ => by omega) (short5_short _ _ _ (by decide))
example (c : PMat (Sto (ZMod 5))) (mul : PMat (ZMod 5)[X] → PMat (ZMod 5)[X] → Option (PMat (ZMod 5)[X])) (a : PMat (ZMod 5)[X]) :
    rightParlinMultiply id mul c a short5 1 (fun _ => 3) = .error :=
  C75_multiply_fails rounding_id mul c a short5 1 _ (fun _ _ => by omega) (short5_short _ _ _ (by decide))
example (c : PMat (Sto (ZMod 5))) (mul : PMat (ZMod 5)[X] → PMat (ZMod 5)[X] → Option (PMat (ZMod 5)[X])) :
    rightParlinMiddle id mul c inv5 short5 1 (fun _ => 3) 2 1 = .error :=
  C75_middle_fails rounding_id mul c inv5 short5 1 _ 2 1 1 (by rw [Lift.inv5_deg1]; rfl) (fun _ _ => by omega) (short5_short _ _ _ (by decide))

/-- A zero column, with its degree -1, as the last one. -/
example (P0 : PMat (Sto (ZMod 5))) : colParlin id P0 ⟨1, 2, short5.e⟩ (fun _ => 1) (fun j => if j = 0 then 3 else -1) = .ub :=
  C75_zero_column_fails rounding_id P0 1 1 Nat.one_pos short5.e _ _ (fun j hj => by rw [if_pos (by omega)]; omega) rfl (fun _ _ => rfl)
    fun i j hi hj => by
      obtain rfl : j = 0 := by have : j < 1 := hj; omega
      exact Or.inr ⟨3, by decide, by show (X ^ 3 : (ZMod 5)[X]).coeff 3 ≠ 0; rw [coeff_X_pow_self]; exact one_ne_zero⟩

end PML.Ntl.Parlin
