import Verif.Ntl.MatMulModel
import Verif.Ntl.MatMulSpec
import Verif.Ntl.MatUtilsLemmas
import Mathlib.Tactic.Ring
import Mathlib.Tactic.LinearCombination
import Mathlib.Tactic.IntervalCases
import Mathlib.Tactic.Linarith
import Mathlib.Algebra.Order.Antidiag.Prod
import Mathlib.Algebra.BigOperators.NatAntidiagonal

/-! # Lemmas for the products of polynomial matrices without evaluation -/

namespace PML.Ntl.MatMul

open Polynomial PML.Ntl.Utils

set_option linter.unusedSectionVars false

variable {R : Type} [CommRing R]

/-- A sum accumulated from its first term. -/
theorem forN_sum_from (v : Nat → R[X]) (n : Nat) (hn : 0 < n) :
    forN (n - 1) (fun k acc => acc + v (k + 1)) (v 0) = ∑ k ∈ Finset.range n, v k := by
  obtain ⟨n, rfl⟩ : ∃ m, n = m + 1 := ⟨n - 1, by omega⟩
  rw [Nat.add_sub_cancel, forN_add, Finset.sum_range_succ', add_comm]

/-! ### Waksman -/

/-- The values of the three arrays on the indices in use. -/
def WakIs (m p : Nat) (c : Nat → Nat → R[X]) (d e : Nat → R[X]) (w : Wak R) : Prop :=
  (∀ l k, l < m → k < p → w.c (l, k) = c l k) ∧ (∀ k, k < p → w.d k = d k) ∧
    ∀ l, 0 < l → l < m → w.e l = e l

theorem wakPass_spec (first : Bool) (a b : Nat × Nat → R[X]) (m p j2 : Nat) (hm : 0 < m) (hp : 0 < p) (w : Wak R) :
    WakIs m p (fun l k => acc first (w.c (l, k)) (wakP a b j2 l k)) (fun k => acc first (w.d k) (wakM a b j2 0 k))
      (fun l => acc first (w.e l) (wakM a b j2 l 0)) (wakPass first a b m p j2 w) := by
  let gc : Nat × Nat → R[X] → R[X] := fun x v => acc first v (wakP a b j2 x.1 x.2)
  let gd : Nat → R[X] → R[X] := fun k v => acc first v (wakM a b j2 0 k)
  let ge : Nat → R[X] → R[X] := fun l v => acc first v (wakM a b j2 l 0)
  -- the arrays evolve separately
  let f1 : Nat → Wak R → Wak R := fun k w => { w with
    c := write (0, k) (acc first (w.c (0, k)) (wakP a b j2 0 k)) w.c
    d := write k (acc first (w.d k) (wakM a b j2 0 k)) w.d }
  let f2 : Nat → Wak R → Wak R := fun l w => { w with
    c := write (l + 1, 0) (acc first (w.c (l + 1, 0)) (wakP a b j2 (l + 1) 0)) w.c
    e := write (l + 1) (acc first (w.e (l + 1)) (wakM a b j2 (l + 1) 0)) w.e }
  let c1 : Nat → (Nat × Nat → R[X]) → Nat × Nat → R[X] := fun k c => write (0, k) (gc (0, k) (c (0, k))) c
  let c2 : Nat → (Nat × Nat → R[X]) → Nat × Nat → R[X] := fun l c => write (l + 1, 0) (gc (l + 1, 0) (c (l + 1, 0))) c
  let c3 : Nat → (Nat × Nat → R[X]) → Nat × Nat → R[X] := fun l => forN (p - 1) fun k c =>
    write (l + 1, k + 1) (gc (l + 1, k + 1) (c (l + 1, k + 1))) c
  have hc : (wakPass first a b m p j2 w).c = forN (m - 1) c3 (forN (m - 1) c2 (forN p c1 w.c)) := by
    show forN (m - 1) c3 (forN (m - 1) f2 (forN p f1 w)).c = _
    rw [forN_proj (fun w : Wak R => w.c) (g := c2) (fun _ _ _ => rfl),
      forN_proj (fun w : Wak R => w.c) (g := c1) (fun _ _ _ => rfl)]
  have hd : (wakPass first a b m p j2 w).d = forN p (fun k d => write k (gd k (d k)) d) w.d := by
    show (forN (m - 1) f2 (forN p f1 w)).d = _
    rw [forN_proj (fun w : Wak R => w.d) (f := f2) (g := fun _ d => d) (fun _ _ _ => rfl),
      forN_proj (fun w : Wak R => w.d) (f := f1) (g := fun k d => write k (gd k (d k)) d) (fun _ _ _ => rfl)]
    have : ∀ n (x : Nat → R[X]), forN n (fun _ d => d) x = x := by
      intro n x
      induction n with
      | zero => rfl
      | succ n ih => exact ih
    rw [this]
  have he : (wakPass first a b m p j2 w).e = forN (m - 1) (fun l e => write (l + 1) (ge (l + 1) (e (l + 1))) e) w.e := by
    show (forN (m - 1) f2 (forN p f1 w)).e = _
    rw [forN_proj (fun w : Wak R => w.e) (f := f2) (g := fun l e => write (l + 1) (ge (l + 1) (e (l + 1))) e) (fun _ _ _ => rfl),
      forN_proj (fun w : Wak R => w.e) (f := f1) (g := fun _ d => d) (fun _ _ _ => rfl)]
    have : ∀ n (x : Nat → R[X]), forN n (fun _ d => d) x = x := by
      intro n x
      induction n with
      | zero => rfl
      | succ n ih => exact ih
    rw [this]
  refine ⟨?_, ?_, ?_⟩
  · have m1 : Maps {x | ∃ k, k < p ∧ x ∈ ({(0, k)} : Set (Nat × Nat))} gc (forN p c1) :=
      Maps.forN (fun k _ => Maps.write (0, k) _ fun _ => rfl) (by
        intro i j hij _ x hx hx'
        rw [Set.mem_singleton_iff] at hx hx'
        rw [hx, Prod.mk.injEq] at hx'
        omega)
    have m2 : Maps {x | ∃ l, l < m - 1 ∧ x ∈ ({(l + 1, 0)} : Set (Nat × Nat))} gc (forN (m - 1) c2) :=
      Maps.forN (fun l _ => Maps.write (l + 1, 0) _ fun _ => rfl) (by
        intro i j hij _ x hx hx'
        rw [Set.mem_singleton_iff] at hx hx'
        rw [hx, Prod.mk.injEq] at hx'
        omega)
    have m3 : Maps {x | ∃ l, l < m - 1 ∧ x ∈ {x | ∃ k, k < p - 1 ∧ x ∈ ({(l + 1, k + 1)} : Set (Nat × Nat))}} gc (forN (m - 1) c3) := by
      refine Maps.forN (fun l _ => Maps.forN (fun k _ => Maps.write (l + 1, k + 1) _ fun _ => rfl) ?_) ?_
      · intro i j hij _ x hx hx'
        rw [Set.mem_singleton_iff] at hx hx'
        rw [hx, Prod.mk.injEq] at hx'
        omega
      · rintro i j hij _ x ⟨k, _, hx⟩ ⟨k', _, hx'⟩
        rw [Set.mem_singleton_iff] at hx hx'
        rw [hx, Prod.mk.injEq] at hx'
        omega
    have m4 := (m1.comp m2 (by
      rintro x ⟨k, _, hx⟩ ⟨l, _, hx'⟩
      rw [Set.mem_singleton_iff] at hx hx'
      rw [hx, Prod.mk.injEq] at hx'
      omega)).comp m3 (by
      rintro x (⟨k, _, hx⟩ | ⟨l, _, hx⟩) ⟨l', _, k', _, hx'⟩ <;>
      · rw [Set.mem_singleton_iff] at hx hx'
        rw [hx, Prod.mk.injEq] at hx'
        omega)
    intro l k hl hk
    rw [hc]
    refine (m4 w.c (l, k)).1 ?_
    by_cases h0 : l = 0
    · subst h0
      exact Or.inl (Or.inl ⟨k, hk, rfl⟩)
    · by_cases k0 : k = 0
      · subst k0
        exact Or.inl (Or.inr ⟨l - 1, by omega, by rw [Set.mem_singleton_iff, Nat.sub_add_cancel (by omega)]⟩)
      · exact Or.inr ⟨l - 1, by omega, k - 1, by omega, by
          rw [Set.mem_singleton_iff, Nat.sub_add_cancel (by omega), Nat.sub_add_cancel (by omega)]⟩
  · intro k hk
    rw [hd]
    have m1 : Maps {x | ∃ k, k < p ∧ x ∈ ({k} : Set Nat)} gd (forN p fun k d => write k (gd k (d k)) d) :=
      Maps.forN (fun k _ => Maps.write k _ fun _ => rfl) (by
        intro i j hij _ x hx hx'
        rw [Set.mem_singleton_iff] at hx hx'
        omega)
    exact (m1 w.d k).1 ⟨k, hk, rfl⟩
  · intro l h0 hl
    rw [he]
    have m1 : Maps {x | ∃ l, l < m - 1 ∧ x ∈ ({l + 1} : Set Nat)} ge (forN (m - 1) fun l e => write (l + 1) (ge (l + 1) (e (l + 1))) e) :=
      Maps.forN (fun l _ => Maps.write (l + 1) _ fun _ => rfl) (by
        intro i j hij _ x hx hx'
        rw [Set.mem_singleton_iff] at hx hx'
        omega)
    exact (m1 w.e l).1 ⟨l - 1, by omega, by rw [Set.mem_singleton_iff, Nat.sub_add_cancel (by omega)]⟩

/-- After all the passes: the sums over the pairs of columns. -/
theorem wakPasses_spec (a b : Nat × Nat → R[X]) (m p : Nat) (hm : 0 < m) (hp : 0 < p) (w0 : Wak R) (N : Nat) :
    WakIs m p (fun l k => ∑ q ∈ Finset.range (N + 1), wakP a b (2 * q + 1) l k)
      (fun k => ∑ q ∈ Finset.range (N + 1), wakM a b (2 * q + 1) 0 k)
      (fun l => ∑ q ∈ Finset.range (N + 1), wakM a b (2 * q + 1) l 0)
      (forN N (fun j => wakPass false a b m p (2 * (j + 2) - 1)) (wakPass true a b m p 1 w0)) := by
  refine forN_inv (P := fun (N : Nat) (w : Wak R) => WakIs m p (fun l k => ∑ q ∈ Finset.range (N + 1), wakP a b (2 * q + 1) l k)
      (fun k => ∑ q ∈ Finset.range (N + 1), wakM a b (2 * q + 1) 0 k)
      (fun l => ∑ q ∈ Finset.range (N + 1), wakM a b (2 * q + 1) l 0) w) ?_ ?_
  · obtain ⟨h1, h2, h3⟩ := wakPass_spec true a b m p 1 hm hp w0
    refine ⟨fun l k hl hk => ?_, fun k hk => ?_, fun l h0 hl => ?_⟩
    · refine (h1 l k hl hk).trans ?_
      dsimp only
      rw [Finset.sum_range_one]; rfl
    · refine (h2 k hk).trans ?_
      dsimp only
      rw [Finset.sum_range_one]; rfl
    · refine (h3 l h0 hl).trans ?_
      dsimp only
      rw [Finset.sum_range_one]; rfl
  · intro j w _ ⟨g1, g2, g3⟩
    obtain ⟨h1, h2, h3⟩ := wakPass_spec false a b m p (2 * (j + 2) - 1) hm hp w
    have hj : 2 * (j + 2) - 1 = 2 * (j + 1) + 1 := by omega
    rw [hj] at h1 h2 h3 ⊢
    refine ⟨fun l k hl hk => ?_, fun k hk => ?_, fun l h0 hl => ?_⟩
    · refine (h1 l k hl hk).trans ?_
      dsimp only
      rw [Finset.sum_range_succ _ (j + 1)]
      exact congrArg (· + _) (g1 l k hl hk)
    · refine (h2 k hk).trans ?_
      dsimp only
      rw [Finset.sum_range_succ _ (j + 1)]
      exact congrArg (· + _) (g2 k hk)
    · refine (h3 l h0 hl).trans ?_
      dsimp only
      rw [Finset.sum_range_succ _ (j + 1)]
      exact congrArg (· + _) (g3 l h0 hl)

theorem wakCol_spec (inv2 : R) (m : Nat) (w : Wak R) :
    (wakCol inv2 m w).d = w.d ∧
    (∀ l, 0 < l → l < m → (wakCol inv2 m w).e l = (w.e l + w.c (l, 0)) * C inv2) ∧
    (∀ l, 0 < l → l < m → (wakCol inv2 m w).c (l, 0) = w.c (l, 0) - (w.e l + w.c (l, 0)) * C inv2) ∧
    (∀ l k, (l = 0 ∨ 0 < k) → (wakCol inv2 m w).c (l, k) = w.c (l, k)) := by
  have key := forN_inv (P := fun (n : Nat) (t : Wak R) => t.d = w.d ∧
    (∀ l, t.e l = if 0 < l ∧ l < n + 1 then (w.e l + w.c (l, 0)) * C inv2 else w.e l) ∧
    (∀ l k, t.c (l, k) = if 0 < l ∧ l < n + 1 ∧ k = 0 then w.c (l, 0) - (w.e l + w.c (l, 0)) * C inv2 else w.c (l, k)))
    (f := fun l (w : Wak R) =>
      let el := (w.e (l + 1) + w.c (l + 1, 0)) * C inv2
      { w with e := write (l + 1) el w.e, c := write (l + 1, 0) (w.c (l + 1, 0) - el) w.c }) (s := w) (n := m - 1)
    ⟨rfl, fun l => by rw [if_neg (by omega)], fun l k => by rw [if_neg (by omega)]⟩ (by
      rintro i t _ ⟨h1, h2, h3⟩
      have hel : t.e (i + 1) = w.e (i + 1) := by rw [h2, if_neg (by omega)]
      have hcl : t.c (i + 1, 0) = w.c (i + 1, 0) := by rw [h3, if_neg (by omega)]
      refine ⟨h1, fun l => ?_, fun l k => ?_⟩
      · show write (i + 1) ((t.e (i + 1) + t.c (i + 1, 0)) * C inv2) t.e l = _
        unfold write
        by_cases hl : l = i + 1
        · subst hl
          rw [Function.update_self, if_pos (by omega), hel, hcl]
        · rw [Function.update_of_ne hl, h2]
          by_cases hc : 0 < l ∧ l < i + 1
          · rw [if_pos hc, if_pos (by omega)]
          · rw [if_neg hc, if_neg (by omega)]
      · show write (i + 1, 0) (t.c (i + 1, 0) - (t.e (i + 1) + t.c (i + 1, 0)) * C inv2) t.c (l, k) = _
        by_cases hl : l = i + 1 ∧ k = 0
        · obtain ⟨rfl, rfl⟩ := hl
          rw [write_self, if_pos (by omega), hel, hcl]
        · rw [write_ne _ _ _ _ _ _ (by omega), h3]
          by_cases hc : 0 < l ∧ l < i + 1 ∧ k = 0
          · rw [if_pos hc, if_pos (by omega)]
          · rw [if_neg hc, if_neg (by omega)])
  obtain ⟨h1, h2, h3⟩ := key
  refine ⟨h1, fun l h0 hl => ?_, fun l h0 hl => ?_, fun l k h => ?_⟩
  · exact (h2 l).trans (by rw [if_pos (by omega)])
  · exact (h3 l 0).trans (by rw [if_pos (by omega)])
  · exact (h3 l k).trans (by rw [if_neg (by omega)])

theorem wakRows_spec (inv2 : R) (m p : Nat) (w : Wak R) :
    (wakRows inv2 m p w (0, 0) = w.c (0, 0) - (w.d 0 + w.c (0, 0)) * C inv2) ∧
    (∀ l, 0 < l → wakRows inv2 m p w (l, 0) = w.c (l, 0)) ∧
    (∀ k, 0 < k → k < p → wakRows inv2 m p w (0, k) = w.c (0, k) - (w.d k + w.c (0, k)) * C inv2) ∧
    (∀ l k, 0 < l → l < m → 0 < k → k < p → wakRows inv2 m p w (l, k) =
      w.c (l, k) - ((w.d k + w.c (0, k)) * C inv2 - (w.d 0 + w.c (0, 0)) * C inv2 + w.e l)) := by
  let buf0 := (w.d 0 + w.c (0, 0)) * C inv2
  let buf1 : Nat → R[X] := fun k => (w.d k + w.c (0, k)) * C inv2
  let final : Nat × Nat → R[X] := fun x =>
    if x.1 = 0 then w.c x - buf1 x.2 else w.c x - (buf1 x.2 - buf0 + w.e x.1)
  let c0 := write (0, 0) (w.c (0, 0) - buf0) w.c
  have key := forN_inv (P := fun (n : Nat) (t : Nat × Nat → R[X]) => ∀ l k, t (l, k) =
      if 0 < k ∧ k < n + 1 ∧ l < max m 1 then final (l, k) else c0 (l, k))
    (f := fun k c =>
      let buf1 := (w.d (k + 1) + c (0, k + 1)) * C inv2
      let c := write (0, k + 1) (c (0, k + 1) - buf1) c
      let buf1 := buf1 - buf0
      forN (m - 1) (fun l c => write (l + 1, k + 1) (c (l + 1, k + 1) - (buf1 + w.e (l + 1))) c) c) (s := c0) (n := p - 1)
    (fun l k => by rw [if_neg (by omega)]) (by
      intro k t _ ht l v
      have ht0 : t (0, k + 1) = w.c (0, k + 1) := by
        rw [ht, if_neg (by omega)]
        exact write_ne _ _ _ _ _ _ (by omega)
      dsimp only
      rw [ht0]
      have hm : Maps {x | ∃ l, l < m - 1 ∧ x ∈ ({(l + 1, k + 1)} : Set (Nat × Nat))}
          (fun x v => v - (buf1 (k + 1) - buf0 + w.e x.1))
          (forN (m - 1) fun l c => write (l + 1, k + 1) (c (l + 1, k + 1) - (buf1 (k + 1) - buf0 + w.e (l + 1))) c) :=
        Maps.forN (fun l _ => Maps.write (l + 1, k + 1) _ fun _ => rfl) (by
          intro i j hij _ x hx hx'
          rw [Set.mem_singleton_iff] at hx hx'
          rw [hx, Prod.mk.injEq] at hx'
          omega)
      obtain ⟨m1, m2⟩ := hm (write (0, k + 1) (w.c (0, k + 1) - buf1 (k + 1)) t) (l, v)
      by_cases hv : v = k + 1
      · subst hv
        by_cases hl0 : l = 0
        · subst hl0
          rw [if_pos (by omega)]
          refine (m2 (by
            rintro ⟨i, _, hx⟩
            rw [Set.mem_singleton_iff, Prod.mk.injEq] at hx
            omega)).trans ?_
          rw [write_self]
          exact (if_pos rfl).symm
        · by_cases hlm : l < m
          · rw [if_pos (by omega)]
            refine (m1 ⟨l - 1, by omega, by rw [Set.mem_singleton_iff, Nat.sub_add_cancel (by omega)]⟩).trans ?_
            rw [write_ne _ _ _ _ _ _ (by omega), ht, if_neg (by omega)]
            show c0 (l, k + 1) - _ = _
            rw [show c0 (l, k + 1) = w.c (l, k + 1) from write_ne _ _ _ _ _ _ (by omega)]
            exact (if_neg hl0).symm
          · rw [if_neg (by omega)]
            refine (m2 (by
              rintro ⟨i, _, hx⟩
              rw [Set.mem_singleton_iff, Prod.mk.injEq] at hx
              omega)).trans ?_
            rw [write_ne _ _ _ _ _ _ (by omega), ht, if_neg (by omega)]
      · refine (m2 (by
            rintro ⟨i, _, hx⟩
            rw [Set.mem_singleton_iff, Prod.mk.injEq] at hx
            omega)).trans ?_
        rw [write_ne _ _ _ _ _ _ (by omega), ht]
        by_cases hc : 0 < v ∧ v < k + 1 ∧ l < max m 1
        · rw [if_pos hc, if_pos (by omega)]
        · rw [if_neg hc, if_neg (by omega)])
  refine ⟨?_, fun l hl => ?_, fun k h0 hk => ?_, fun l k h0 hl hk0 hk => ?_⟩
  · refine (key 0 0).trans ?_
    rw [if_neg (by omega)]
    exact write_self _ _ _ _
  · refine (key l 0).trans ?_
    rw [if_neg (by omega)]
    exact write_ne _ _ _ _ _ _ (by omega)
  · refine (key 0 k).trans ?_
    rw [if_pos (by omega)]
    exact if_pos rfl
  · refine (key l k).trans ?_
    rw [if_pos (by omega)]
    exact if_neg (by show ¬ l = 0; omega)

/-- The pairs of columns. -/
theorem sum_pairs (f : Nat → R[X]) (N : Nat) :
    ∑ q ∈ Finset.range N, (f (2 * q) + f (2 * q + 1)) = ∑ k ∈ Finset.range (2 * N), f k := by
  induction N with
  | zero => rfl
  | succ N ih =>
    rw [Finset.sum_range_succ, ih, show 2 * (N + 1) = 2 * N + 1 + 1 by ring, Finset.sum_range_succ, Finset.sum_range_succ, add_assoc]

/-- What the passes leave in `c`, `d`, `e`. -/
theorem wakP_sum (a b : Nat × Nat → R[X]) (N l k : Nat) :
    ∑ q ∈ Finset.range N, wakP a b (2 * q + 1) l k =
      (∑ j ∈ Finset.range (2 * N), a (l, j) * b (j, k)) +
      (∑ q ∈ Finset.range N, a (l, 2 * q) * a (l, 2 * q + 1)) + ∑ q ∈ Finset.range N, b (2 * q, k) * b (2 * q + 1, k) := by
  rw [← sum_pairs, ← Finset.sum_add_distrib, ← Finset.sum_add_distrib]
  refine Finset.sum_congr rfl fun q _ => ?_
  unfold wakP
  rw [show 2 * q + 1 - 1 = 2 * q by omega]
  ring

theorem wakM_sum (a b : Nat × Nat → R[X]) (N l k : Nat) :
    ∑ q ∈ Finset.range N, wakM a b (2 * q + 1) l k =
      -(∑ j ∈ Finset.range (2 * N), a (l, j) * b (j, k)) +
      (∑ q ∈ Finset.range N, a (l, 2 * q) * a (l, 2 * q + 1)) + ∑ q ∈ Finset.range N, b (2 * q, k) * b (2 * q + 1, k) := by
  rw [← sum_pairs, ← Finset.sum_neg_distrib, ← Finset.sum_add_distrib, ← Finset.sum_add_distrib]
  refine Finset.sum_congr rfl fun q _ => ?_
  unfold wakM
  rw [show 2 * q + 1 - 1 = 2 * q by omega]
  ring

/-- The even part of the product. -/
theorem wak_core (a b : Nat × Nat → R[X]) (m p N : Nat) (inv2 : R) (h2 : 2 * inv2 = 1) (w : Wak R)
    (hw : WakIs m p (fun l k => ∑ q ∈ Finset.range N, wakP a b (2 * q + 1) l k)
      (fun k => ∑ q ∈ Finset.range N, wakM a b (2 * q + 1) 0 k)
      (fun l => ∑ q ∈ Finset.range N, wakM a b (2 * q + 1) l 0) w) (l k : Nat) (hl : l < m) (hk : k < p) :
    wakRows inv2 m p (wakCol inv2 m w) (l, k) = ∑ j ∈ Finset.range (2 * N), a (l, j) * b (j, k) := by
  obtain ⟨w1, w2, w3⟩ := hw
  obtain ⟨c1, c2, c3, c4⟩ := wakCol_spec inv2 m w
  obtain ⟨r1, r2, r3, r4⟩ := wakRows_spec inv2 m p (wakCol inv2 m w)
  have hC : (2 : R[X]) * C inv2 = 1 := by
    rw [show (2 : R[X]) = C 2 from rfl, ← C_mul, h2, C_1]
  have hhalf : ∀ x y z : R[X], (-x + y + z + (x + y + z)) * C inv2 = y + z := by
    intro x y z
    linear_combination (y + z) * hC
  by_cases hl0 : l = 0
  · subst hl0
    by_cases hk0 : k = 0
    · subst hk0
      rw [r1, c1, c4 _ _ (Or.inl rfl), w1 0 0 hl hk, w2 0 hk]
      dsimp only
      rw [wakP_sum, wakM_sum, hhalf]; ring
    · rw [r3 k (by omega) hk, c1, c4 _ _ (Or.inl rfl), w1 0 k hl hk, w2 k hk]
      dsimp only
      rw [wakP_sum, wakM_sum, hhalf]; ring
  · by_cases hk0 : k = 0
    · subst hk0
      rw [r2 l (by omega), c3 l (by omega) hl, w1 l 0 hl hk, w3 l (by omega) hl]
      dsimp only
      rw [wakP_sum, wakM_sum, hhalf]; ring
    · rw [r4 l k (by omega) hl (by omega) hk, c1, c4 _ _ (Or.inr (by omega)), c4 _ _ (Or.inl rfl), c4 _ _ (Or.inl rfl),
        c2 l (by omega) hl, w1 l k hl hk, w1 0 k (by omega) hk, w1 0 0 (by omega) (by omega), w1 l 0 hl (by omega),
        w2 k hk, w2 0 (by omega), w3 l (by omega) hl]
      dsimp only
      rw [wakP_sum, wakP_sum, wakP_sum, wakP_sum, wakM_sum, wakM_sum, wakM_sum, hhalf, hhalf, hhalf]; ring

/-! ### Transforms -/

/-- What a transform must satisfy: the backward map is additive, and sends the entrywise product of
    two transforms to the product of the polynomials. -/
structure Transform.OK (T : Transform R) : Prop where
  zero : T.back (fun _ => 0) = 0
  add : ∀ v w, T.back (fun j => v j + w j) = T.back v + T.back w
  mul : ∀ P Q : R[X], (∀ k, T.m ≤ k → P.coeff k = 0) → (∀ k, T.m ≤ k → Q.coeff k = 0) →
    T.back (fun j => T.left P j * T.right Q j) = P * Q

theorem Transform.OK.sum {T : Transform R} (h : T.OK) (P Q : Nat → R[X]) (n : Nat)
    (hP : ∀ i k, i < n → T.m ≤ k → (P i).coeff k = 0) (hQ : ∀ i k, i < n → T.m ≤ k → (Q i).coeff k = 0) :
    T.back (fun j => ∑ k ∈ Finset.range n, T.left (P k) j * T.right (Q k) j) = ∑ k ∈ Finset.range n, P k * Q k := by
  induction n with
  | zero => simpa using h.zero
  | succ n ih =>
    simp only [Finset.sum_range_succ]
    rw [h.add (fun j => ∑ k ∈ Finset.range n, T.left (P k) j * T.right (Q k) j) (fun j => T.left (P n) j * T.right (Q n) j),
      ih (fun i k hi => hP i k (by omega)) (fun i k hi => hQ i k (by omega)), h.mul _ _ (fun k => hP n k (by omega)) fun k => hQ n k (by omega)]

theorem setC_coeff (i : Nat) (v : R) (P : R[X]) (l : Nat) : (setC i v P).coeff l = if l = i then v else P.coeff l :=
  erase_add_coeff P i v l

/-- The coefficients of a product of polynomials of bounded degree. -/
theorem coeff_mul_low (P Q : R[X]) (m i : Nat) (hi : i < m) :
    (P * Q).coeff i = ∑ j ∈ Finset.range (i + 1), P.coeff (i - j) * Q.coeff j := by
  rw [mul_comm, coeff_mul, Finset.Nat.sum_antidiagonal_eq_sum_range_succ fun a b => Q.coeff a * P.coeff b]
  exact Finset.sum_congr rfl fun j _ => mul_comm _ _

theorem coeff_mul_hi (P Q : R[X]) (m i : Nat) (hP : ∀ k, m ≤ k → P.coeff k = 0) (hQ : ∀ k, m ≤ k → Q.coeff k = 0) :
    (P * Q).coeff (m + i) = ∑ j ∈ Finset.range (m - (i + 1)), P.coeff (m - 1 - j) * Q.coeff (i + 1 + j) := by
  rw [coeff_mul_low P Q (m + i + 1) (m + i) (by omega)]
  have h1 : ∀ j ∈ Finset.range (m + i + 1), P.coeff (m + i - j) * Q.coeff j =
      if i + 1 ≤ j ∧ j < m then P.coeff (m + i - j) * Q.coeff j else 0 := by
    intro j hj
    by_cases hc : i + 1 ≤ j ∧ j < m
    · rw [if_pos hc]
    · rw [if_neg hc]
      by_cases hj' : j < m
      · rw [hP _ (by omega), zero_mul]
      · rw [hQ j (by omega), mul_zero]
  rw [Finset.sum_congr rfl h1, ← Finset.sum_filter]
  symm
  refine Finset.sum_bij (fun j _ => i + 1 + j) ?_ ?_ ?_ ?_
  · intro j hj
    rw [Finset.mem_range] at hj
    rw [Finset.mem_filter, Finset.mem_range]
    omega
  · intro j _ j' _ h
    omega
  · intro j hj
    rw [Finset.mem_filter, Finset.mem_range] at hj
    exact ⟨j - (i + 1), Finset.mem_range.2 (by omega), by omega⟩
  · intro j hj
    rw [Finset.mem_range] at hj
    rw [show m - 1 - j = m + i - (i + 1 + j) by omega]

theorem trsKaratsuba_ok : (trsKaratsuba (R := R)).OK where
  zero := by
    ext l
    simp only [trsKaratsuba, setC_coeff, coeff_zero]
    split_ifs <;> simp
  add v w := by
    ext l
    simp only [trsKaratsuba, setC_coeff, coeff_zero, coeff_add]
    split_ifs <;> ring
  mul P Q hP hQ := by
    ext l
    simp only [trsKaratsuba, setC_coeff, coeff_zero, arr, List.getD_cons_zero, List.getD_cons_succ]
    have hl : l = 0 ∨ l = 1 ∨ ∃ i, l = 2 + i := by
      rcases l with _ | _ | l
      · exact Or.inl rfl
      · exact Or.inr (Or.inl rfl)
      · exact Or.inr (Or.inr ⟨l, by omega⟩)
    rcases hl with rfl | rfl | ⟨i, rfl⟩
    · rw [coeff_mul_low P Q 2 0 (by omega)]; simp
    · rw [coeff_mul_low P Q 2 1 (by omega)]; simp [Finset.sum_range_succ]; ring
    · rw [coeff_mul_hi P Q 2 i hP hQ]
      rcases i with _ | i
      · simp
      · rw [show 2 - (i + 1 + 1) = 0 by omega, if_neg (by omega), if_neg (by omega), if_neg (by omega)]; simp

theorem trsMontgomery3_ok : (trsMontgomery3 (R := R)).OK where
  zero := by
    ext l
    simp only [trsMontgomery3, setC_coeff, coeff_zero]
    split_ifs <;> simp
  add v w := by
    ext l
    simp only [trsMontgomery3, setC_coeff, coeff_zero, coeff_add]
    split_ifs <;> ring
  mul P Q hP hQ := by
    ext l
    simp only [trsMontgomery3, mont3Fwd, setC_coeff, coeff_zero, arr, List.getD_cons_zero, List.getD_cons_succ]
    by_cases hl : l < 3
    · rw [coeff_mul_low P Q 3 l hl]
      interval_cases l
      · simp
      · simp [Finset.sum_range_succ]; ring
      · simp [Finset.sum_range_succ]; ring
    · obtain ⟨i, rfl⟩ : ∃ i, l = 3 + i := ⟨l - 3, by omega⟩
      rw [coeff_mul_hi P Q 3 i hP hQ]
      rcases i with _ | _ | i
      · simp [Finset.sum_range_succ]; ring
      · simp
      · rw [show 3 - (i + 1 + 1 + 1) = 0 by omega, if_neg (by omega), if_neg (by omega), if_neg (by omega), if_neg (by omega), if_neg (by omega)]; simp

theorem trsKaratsuba4_ok : (trsKaratsuba4 (R := R)).OK where
  zero := by
    ext l
    simp only [trsKaratsuba4, ofCoeffs_coeff]
    by_cases hl : l < 7
    · rw [if_pos hl, coeff_zero]
      interval_cases l <;> simp [arr]
    · rw [if_neg hl, coeff_zero]
  add v w := by
    ext l
    simp only [trsKaratsuba4, ofCoeffs_coeff, coeff_add]
    by_cases hl : l < 7
    · rw [if_pos hl, if_pos hl, if_pos hl]
      interval_cases l <;> simp only [arr, List.getD_cons_zero, List.getD_cons_succ] <;> ring
    · rw [if_neg hl, if_neg hl, if_neg hl, add_zero]
  mul P Q hP hQ := by
    ext l
    simp only [trsKaratsuba4, kar4Fwd, ofCoeffs_coeff]
    by_cases hl : l < 4
    · rw [coeff_mul_low P Q 4 l hl, if_pos (by omega)]
      interval_cases l <;> simp [arr, Finset.sum_range_succ] <;> ring
    · obtain ⟨i, rfl⟩ : ∃ i, l = 4 + i := ⟨l - 4, by omega⟩
      rw [coeff_mul_hi P Q 4 i hP hQ]
      rcases i with _ | _ | _ | i
      · simp [arr, Finset.sum_range_succ]; ring
      · simp [arr, Finset.sum_range_succ]; ring
      · simp [arr]
      · rw [show 4 - (i + 1 + 1 + 1 + 1) = 0 by omega, if_neg (by omega)]; simp

/-! ### The naive transform -/

/-- Where segment `i` starts. -/
def segStart (s0 : Nat) (cnt : Nat → Nat) (i : Nat) : Nat := s0 + ∑ l ∈ Finset.range i, cnt l

theorem segStart_succ (s0 : Nat) (cnt : Nat → Nat) (i : Nat) : segStart s0 cnt (i + 1) = segStart s0 cnt i + cnt i := by
  unfold segStart
  rw [Finset.sum_range_succ, Nat.add_assoc]

theorem segStart_mono (s0 : Nat) (cnt : Nat → Nat) {i j : Nat} (h : i ≤ j) : segStart s0 cnt i ≤ segStart s0 cnt j := by
  induction j with
  | zero => rw [Nat.le_zero.1 h]
  | succ j ih =>
    by_cases hj : i = j + 1
    · rw [hj]
    · have := ih (by omega)
      rw [segStart_succ]; omega

theorem segWrite_spec (cnt : Nat) (v : Nat → R) (s : Nat) (val : Nat → R) :
    (segWrite cnt v (s, val)).1 = s + cnt ∧ (∀ j, j < cnt → (segWrite cnt v (s, val)).2 (s + j) = v j) ∧
      ∀ x, x < s → (segWrite cnt v (s, val)).2 x = val x := by
  refine forN_inv (P := fun (n : Nat) (t : Nat × (Nat → R)) => t.1 = s + n ∧ (∀ j, j < n → t.2 (s + j) = v j) ∧ ∀ x, x < s → t.2 x = val x)
    ⟨rfl, fun j hj => absurd hj (by omega), fun _ _ => rfl⟩ ?_
  rintro i ⟨x, t⟩ _ ⟨h1, h2, h3⟩
  dsimp only at h1 h2 h3 ⊢
  subst h1
  refine ⟨by omega, fun j hj => ?_, fun y hy => ?_⟩
  · unfold write
    by_cases hji : j = i
    · subst hji; rw [Function.update_self]
    · rw [Function.update_of_ne (by omega), h2 j (by omega)]
  · unfold write
    rw [Function.update_of_ne (by omega), h3 y hy]

theorem segLoop_spec (cnt : Nat → Nat) (v : Nat → Nat → R) (s0 D : Nat) (val : Nat → R) :
    (forN D (fun i => segWrite (cnt i) (v i)) (s0, val)).1 = segStart s0 cnt D ∧
    (∀ i j, i < D → j < cnt i → (forN D (fun i => segWrite (cnt i) (v i)) (s0, val)).2 (segStart s0 cnt i + j) = v i j) ∧
    ∀ x, x < s0 → (forN D (fun i => segWrite (cnt i) (v i)) (s0, val)).2 x = val x := by
  refine forN_inv (P := fun (n : Nat) (t : Nat × (Nat → R)) => t.1 = segStart s0 cnt n ∧
    (∀ i j, i < n → j < cnt i → t.2 (segStart s0 cnt i + j) = v i j) ∧ ∀ x, x < s0 → t.2 x = val x)
    ⟨by simp [segStart], fun i _ hi => absurd hi (by omega), fun _ _ => rfl⟩ ?_
  rintro n ⟨s, t⟩ _ ⟨h1, h2, h3⟩
  dsimp only at h1 h2 h3
  subst h1
  obtain ⟨k1, k2, k3⟩ := segWrite_spec (cnt n) (v n) (segStart s0 cnt n) t
  have hs0 : s0 ≤ segStart s0 cnt n := by unfold segStart; omega
  refine ⟨by rw [k1, segStart_succ], fun i j hi hj => ?_, fun x hx => ?_⟩
  · by_cases hin : i = n
    · subst hin; exact k2 j hj
    · have h4 := segStart_mono s0 cnt (show i + 1 ≤ n by omega)
      rw [segStart_succ] at h4
      rw [k3 _ (by omega), h2 i j (by omega) hj]
  · rw [k3 x (by omega), h3 x hx]

theorem segRead_spec (val : Nat → R) (i extra s : Nat) (P : R[X]) :
    segRead val i extra (s, P) = (s + (extra + 1), setC i (∑ j ∈ Finset.range (extra + 1), val (s + j)) P) := by
  have key : forN extra (fun _ (s : Nat × R) => (s.1 + 1, s.2 + val s.1)) (s + 1, val s) =
      (s + (extra + 1), ∑ j ∈ Finset.range (extra + 1), val (s + j)) := by
    refine forN_inv (P := fun (n : Nat) (t : Nat × R) => t = (s + (n + 1), ∑ j ∈ Finset.range (n + 1), val (s + j))) ?_ ?_
    · simp
    · rintro n t _ rfl
      rw [Finset.sum_range_succ _ (n + 1)]; rfl
  unfold segRead
  dsimp only
  rw [key]

theorem segReads_spec (val : Nat → R) (base : Nat) (extra : Nat → Nat) (s0 D : Nat) (P : R[X]) :
    (forN D (fun i => segRead val (base + i) (extra i)) (s0, P)).1 = segStart s0 (fun i => extra i + 1) D ∧
    ∀ l, (forN D (fun i => segRead val (base + i) (extra i)) (s0, P)).2.coeff l =
      if base ≤ l ∧ l < base + D then ∑ j ∈ Finset.range (extra (l - base) + 1), val (segStart s0 (fun i => extra i + 1) (l - base) + j)
      else P.coeff l := by
  refine forN_inv (P := fun (n : Nat) (t : Nat × R[X]) => t.1 = segStart s0 (fun i => extra i + 1) n ∧ ∀ l, t.2.coeff l =
      if base ≤ l ∧ l < base + n then ∑ j ∈ Finset.range (extra (l - base) + 1), val (segStart s0 (fun i => extra i + 1) (l - base) + j)
      else P.coeff l) ⟨by simp [segStart], fun l => by rw [if_neg (by omega)]⟩ ?_
  rintro n ⟨s, t⟩ _ ⟨h1, h2⟩
  dsimp only at h1 h2
  subst h1
  rw [segRead_spec]
  refine ⟨(segStart_succ _ _ _).symm, fun l => ?_⟩
  rw [setC_coeff]
  by_cases hl : l = base + n
  · subst hl
    rw [if_pos rfl, if_pos (by omega), Nat.add_sub_cancel_left]
  · rw [if_neg hl, h2]
    by_cases hc : base ≤ l ∧ l < base + n
    · rw [if_pos hc, if_pos (by omega)]
    · rw [if_neg hc, if_neg (by omega)]

/-- The two series of segments. -/
def start1 (i : Nat) : Nat := segStart 0 (fun l => l + 1) i
/-- The two series of segments. -/
def start2 (m i : Nat) : Nat := segStart (start1 m) (fun l => m - (l + 1)) i

theorem naiveLeft_spec (m : Nat) (P : R[X]) :
    (∀ i j, i < m → j < i + 1 → naiveLeft m P (start1 i + j) = P.coeff (i - j)) ∧
    ∀ i j, i < m - 1 → j < m - (i + 1) → naiveLeft m P (start2 m i + j) = P.coeff (m - 1 - j) := by
  obtain ⟨h1, h2, -⟩ := segLoop_spec (fun i => i + 1) (fun i j => P.coeff (i - j)) 0 m fun _ => 0
  unfold naiveLeft
  generalize forN m (fun i => segWrite (i + 1) fun j => P.coeff (i - j)) (0, fun _ => 0) = st at h1 h2 ⊢
  obtain ⟨s, t⟩ := st
  dsimp only at h1 h2
  subst h1
  obtain ⟨-, k2, k3⟩ := segLoop_spec (fun i => m - (i + 1)) (fun _ j => P.coeff (m - 1 - j)) (start1 m) (m - 1) t
  refine ⟨fun i j hi hj => ?_, fun i j hi hj => k2 i j hi hj⟩
  have h4 := segStart_mono 0 (fun l => l + 1) (show i + 1 ≤ m by omega)
  rw [segStart_succ] at h4
  refine (k3 _ ?_).trans (h2 i j hi hj)
  show segStart 0 (fun l => l + 1) i + j < segStart 0 (fun l => l + 1) m
  omega

theorem naiveRight_spec (m : Nat) (P : R[X]) :
    (∀ i j, i < m → j < i + 1 → naiveRight m P (start1 i + j) = P.coeff j) ∧
    ∀ i j, i < m - 1 → j < m - (i + 1) → naiveRight m P (start2 m i + j) = P.coeff (i + 1 + j) := by
  obtain ⟨h1, h2, -⟩ := segLoop_spec (fun i => i + 1) (fun _ j => P.coeff j) 0 m fun _ => 0
  unfold naiveRight
  generalize forN m (fun i => segWrite (i + 1) fun j => P.coeff j) (0, fun _ => 0) = st at h1 h2 ⊢
  obtain ⟨s, t⟩ := st
  dsimp only at h1 h2
  subst h1
  obtain ⟨-, k2, k3⟩ := segLoop_spec (fun i => m - (i + 1)) (fun i j => P.coeff (i + 1 + j)) (start1 m) (m - 1) t
  refine ⟨fun i j hi hj => ?_, fun i j hi hj => k2 i j hi hj⟩
  have h4 := segStart_mono 0 (fun l => l + 1) (show i + 1 ≤ m by omega)
  rw [segStart_succ] at h4
  refine (k3 _ ?_).trans (h2 i j hi hj)
  show segStart 0 (fun l => l + 1) i + j < segStart 0 (fun l => l + 1) m
  omega

theorem naiveBack_coeff (m : Nat) (val : Nat → R) (l : Nat) : (naiveBack m val).coeff l =
    if l < m then ∑ j ∈ Finset.range (l + 1), val (start1 l + j)
    else if l < m + (m - 1) then ∑ j ∈ Finset.range (m - (l - m + 1)), val (start2 m (l - m) + j) else 0 := by
  obtain ⟨h1, h2⟩ := segReads_spec val 0 (fun i => i) 0 m 0
  unfold naiveBack
  simp only [Nat.zero_add] at h1 h2
  dsimp only
  generalize forN m (fun i => segRead val i i) (0, 0) = st at h1 h2 ⊢
  obtain ⟨s, t⟩ := st
  dsimp only at h1 h2
  subst h1
  obtain ⟨-, k2⟩ := segReads_spec val m (fun i => 2 * m - 2 - (m + i)) (start1 m) (2 * m - 1 - m) t
  refine (k2 l).trans ?_
  by_cases hl : l < m
  · rw [if_neg (by omega), if_pos hl, h2, if_pos (by omega)]
    rfl
  · rw [if_neg hl]
    by_cases hl2 : l < m + (m - 1)
    · rw [if_pos (by omega), if_pos hl2]
      have hs : segStart (start1 m) (fun i => 2 * m - 2 - (m + i) + 1) (l - m) = start2 m (l - m) := by
        unfold start2 segStart
        congr 1
        refine Finset.sum_congr rfl fun i hi => ?_
        rw [Finset.mem_range] at hi
        dsimp only
        omega
      rw [hs, show 2 * m - 2 - (m + (l - m)) + 1 = m - (l - m + 1) by omega]
    · rw [if_neg (by omega), if_neg hl2, h2, if_neg (by omega), coeff_zero]

theorem trsNaive_ok (m : Nat) : (trsNaive (R := R) m).OK where
  zero := by
    ext l
    show (naiveBack m fun _ => 0).coeff l = _
    rw [naiveBack_coeff]
    simp
  add v w := by
    ext l
    show (naiveBack m fun j => v j + w j).coeff l = (naiveBack m v + naiveBack m w).coeff l
    rw [coeff_add, naiveBack_coeff, naiveBack_coeff, naiveBack_coeff]
    split_ifs
    · rw [Finset.sum_add_distrib]
    · rw [Finset.sum_add_distrib]
    · rw [add_zero]
  mul P Q hP hQ := by
    ext l
    show (naiveBack m fun j => naiveLeft m P j * naiveRight m Q j).coeff l = _
    change ∀ k, m ≤ k → _ at hP
    change ∀ k, m ≤ k → _ at hQ
    obtain ⟨p1, p2⟩ := naiveLeft_spec m P
    obtain ⟨q1, q2⟩ := naiveRight_spec m Q
    rw [naiveBack_coeff]
    by_cases hl : l < m
    · rw [if_pos hl, coeff_mul_low P Q m l hl]
      refine Finset.sum_congr rfl fun j hj => ?_
      rw [Finset.mem_range] at hj
      rw [p1 l j hl hj, q1 l j hl hj]
    · rw [if_neg hl]
      obtain ⟨i, rfl⟩ : ∃ i, l = m + i := ⟨l - m, by omega⟩
      rw [coeff_mul_hi P Q m i hP hQ, Nat.add_sub_cancel_left]
      by_cases hi : i < m - 1
      · rw [if_pos (by omega)]
        refine Finset.sum_congr rfl fun j hj => ?_
        rw [Finset.mem_range] at hj
        rw [p2 i j hi hj, q2 i j hi hj]
      · rw [if_neg (by omega), show m - (i + 1) = 0 by omega]; simp

/-- The total length of the naive transform is `m * m`, the length given to the vectors. -/
theorem naive_length (m : Nat) : start2 m (m - 1) = m * m := by
  have h1 : ∀ i, 2 * start1 i = i * (i + 1) := by
    intro i
    induction i with
    | zero => rfl
    | succ i ih =>
      unfold start1 at ih ⊢
      rw [segStart_succ, Nat.mul_add, ih]; ring
  have h2 : ∀ i, i < m → 2 * start2 m i + i * (i + 1) = m * (m + 1) + 2 * (i * m) := by
    intro i
    induction i with
    | zero =>
      intro _
      show 2 * (start1 m + _) + _ = _
      simp [h1 m]
    | succ i ih =>
      intro hi
      have h3 := ih (by omega)
      unfold start2 at h3 ⊢
      rw [segStart_succ]
      obtain ⟨d, rfl⟩ : ∃ d, m = i + 1 + d := ⟨m - (i + 1), by omega⟩
      rw [Nat.add_sub_cancel_left]
      linear_combination h3
  rcases m with _ | m
  · rfl
  · have := h2 m (by omega)
    rw [Nat.add_sub_cancel]
    linarith

end PML.Ntl.MatMul
