import Verif.Ntl.MatEvalLemmas
import Mathlib.Tactic.FieldSimp
import Mathlib.Tactic.LinearCombination

/-!
# Lemmas for products of polynomial matrices by dense evaluation
-/

namespace PML.Ntl.MatEval

open Polynomial PML.Ntl.Utils PML.Ntl.MatMul

variable {F : Type} [Field F]

set_option linter.unusedSectionVars false

/-! ### Vandermonde matrices -/

theorem vdmFull_spec (i0 nb : Nat) (pts : Nat → F) (h0 : ∀ i, i < i0 → pts i = 0) (i j : Nat) (hi : i < nb) (hj : j < nb) :
    vdmFull i0 nb pts (i, j) = pts i ^ j := by
  have main : (∀ i' j', i' < nb → j' < nb → vdmFull i0 nb pts (i', j') = pts i' ^ j') ∧
      ∀ i' j', nb ≤ i' → vdmFull i0 nb pts (i', j') = 0 := by
    refine forN_inv (P := fun (q : Nat) (t : Nat × Nat → F) => (∀ i' j', i' < q → j' < nb → t (i', j') = pts i' ^ j') ∧
      ∀ i' j', q ≤ i' → t (i', j') = 0) ⟨fun _ _ h => absurd h (by omega), fun _ _ _ => rfl⟩ ?_
    rintro q t hq ⟨h1, h2⟩
    dsimp only
    by_cases hq0 : q < i0
    · rw [if_pos hq0]
      refine ⟨fun i' j' hi' hj' => ?_, fun i' j' hi' => ?_⟩
      · by_cases he : i' = q
        · subst he
          by_cases hj0 : j' = 0
          · subst hj0; rw [write_self, pow_zero]
          · rw [write_ne' (by omega), h2 _ _ le_rfl, h0 _ hq0, zero_pow hj0]
        · rw [write_ne' (by omega), h1 _ _ (by omega) hj']
      · rw [write_ne' (by omega), h2 _ _ (by omega)]
    · rw [if_neg hq0]
      have key := forN_inv (P := fun (m : Nat) (v : Nat × Nat → F) => (∀ j', j' ≤ m → v (q, j') = pts q ^ j') ∧
          ∀ i' j', i' ≠ q → v (i', j') = t (i', j')) (s := write (q, 0) 1 t) (n := nb - 1)
          (f := fun j v => write (q, j + 1) (v (q, j) * pts q) v)
        ⟨fun j' hj' => by rw [Nat.le_zero.1 hj', write_self, pow_zero], fun i' j' h => write_ne' (by omega)⟩ (by
          rintro m v _ ⟨g1, g2⟩
          refine ⟨fun j' hj' => ?_, fun i' j' h => ?_⟩
          · by_cases he : j' = m + 1
            · subst he; rw [write_self, g1 m le_rfl, pow_succ]
            · rw [write_ne' (by omega), g1 j' (by omega)]
          · rw [write_ne' (by omega), g2 i' j' h])
      obtain ⟨k1, k2⟩ := key
      refine ⟨fun i' j' hi' hj' => ?_, fun i' j' hi' => ?_⟩
      · by_cases he : i' = q
        · subst he; exact k1 j' (by omega)
        · rw [k2 _ _ he, h1 _ _ (by omega) hj']
      · rw [k2 _ _ (by omega), h2 _ _ (by omega)]
  exact main.1 i j hi hj

theorem vdmSub_spec (i0 nb s : Nat) (vdm : Nat × Nat → F) (hs : s ≤ nb) (h1 : ∀ i, i < nb → vdm (i, 0) = 1)
    (h0 : ∀ i j, i < i0 → 0 < j → j < nb → vdm (i, j) = 0) (i j : Nat) (hi : i < nb) (hj : j < s) :
    vdmSub i0 nb s vdm (i, j) = vdm (i, j) := by
  have main : (∀ i' j', i' < nb → j' < s → vdmSub i0 nb s vdm (i', j') = vdm (i', j')) ∧
      ∀ i' j', nb ≤ i' → vdmSub i0 nb s vdm (i', j') = 0 := by
    refine forN_inv (P := fun (q : Nat) (t : Nat × Nat → F) => (∀ i' j', i' < q → j' < s → t (i', j') = vdm (i', j')) ∧
      ∀ i' j', q ≤ i' → t (i', j') = 0) ⟨fun _ _ h => absurd h (by omega), fun _ _ _ => rfl⟩ ?_
    rintro q t hq ⟨g1, g2⟩
    dsimp only
    by_cases hq0 : q < i0
    · rw [if_pos hq0]
      refine ⟨fun i' j' hi' hj' => ?_, fun i' j' hi' => ?_⟩
      · by_cases he : i' = q
        · subst he
          by_cases hj0 : j' = 0
          · subst hj0; rw [write_self, h1 _ hq]
          · rw [write_ne' (by omega), g2 _ _ le_rfl, h0 _ _ hq0 (by omega) (by omega)]
        · rw [write_ne' (by omega), g1 _ _ (by omega) hj']
      · rw [write_ne' (by omega), g2 _ _ (by omega)]
    · rw [if_neg hq0]
      have key := forN_inv (P := fun (m : Nat) (v : Nat × Nat → F) => (∀ j', j' ≤ m → j' < s → v (q, j') = vdm (q, j')) ∧
          ∀ i' j', i' ≠ q → v (i', j') = t (i', j')) (s := write (q, 0) 1 t) (n := nb - 1)
          (f := fun j v => if j + 1 < s then write (q, j + 1) (vdm (q, j + 1)) v else v)
        ⟨fun j' hj' _ => by rw [Nat.le_zero.1 hj', write_self, h1 _ hq], fun i' j' h => write_ne' (by omega)⟩ (by
          rintro m v _ ⟨k1, k2⟩
          by_cases hm : m + 1 < s
          · rw [if_pos hm]
            refine ⟨fun j' hj' hs' => ?_, fun i' j' h => ?_⟩
            · by_cases he : j' = m + 1
              · subst he; rw [write_self]
              · rw [write_ne' (by omega), k1 j' (by omega) hs']
            · rw [write_ne' (by omega), k2 i' j' h]
          · rw [if_neg hm]
            exact ⟨fun j' hj' hs' => k1 j' (by omega) hs', k2⟩)
      obtain ⟨k1, k2⟩ := key
      refine ⟨fun i' j' hi' hj' => ?_, fun i' j' hi' => ?_⟩
      · by_cases he : i' = q
        · subst he; exact k1 j' (by omega) hj'
        · rw [k2 _ _ he, g1 _ _ (by omega) hj']
      · rw [k2 _ _ (by omega), g2 _ _ (by omega)]
  exact main.1 i j hi hj

/-- A Vandermonde matrix at distinct points is inverted, and its inverse sends values to coefficients. -/
theorem vdm_inv {inv : Nat → (Nat × Nat → F) → Option (Nat × Nat → F)} (hinv : InvOk inv) (nb : Nat) (pts : Nat → F)
    (hinj : ∀ r r', r < nb → r' < nb → pts r = pts r' → r = r') (vdm : Nat × Nat → F)
    (hv : ∀ i j, i < nb → j < nb → vdm (i, j) = pts i ^ j) :
    ∃ W, inv nb vdm = some W ∧ ∀ (c : Nat → F) (i : Nat), i < nb →
      ∑ k ∈ Finset.range nb, W (i, k) * ∑ j ∈ Finset.range nb, c j * pts k ^ j = c i := by
  have hset : Set.InjOn pts (Finset.range nb) := fun x hx y hy h => hinj x y (by simpa using hx) (by simpa using hy) h
  obtain ⟨W, hW⟩ := hinv.complete nb vdm ⟨fun x => (Lagrange.basis (Finset.range nb) pts x.2).coeff x.1, fun i j hi hj => by
    have h1 : Lagrange.interpolate (Finset.range nb) pts (fun k => pts k ^ j) = X ^ j := by
      refine (Lagrange.eq_interpolate_of_eval_eq _ hset ?_ fun k _ => by simp).symm
      rw [Finset.card_range, degree_lt_iff_coeff_zero]
      intro k hk
      rw [coeff_X_pow, if_neg (by omega)]
    have h2 := congrArg (fun P => coeff P i) h1
    rw [Lagrange.interpolate_apply, finsetSum_coeff, coeff_X_pow] at h2
    rw [← h2]
    refine Finset.sum_congr rfl fun k hk => ?_
    rw [hv k j (Finset.mem_range.1 hk) hj, coeff_C_mul, mul_comm]⟩
  refine ⟨W, hW, fun c i hi => ?_⟩
  have hs := hinv.sound nb vdm W hW
  calc ∑ k ∈ Finset.range nb, W (i, k) * ∑ j ∈ Finset.range nb, c j * pts k ^ j
      = ∑ k ∈ Finset.range nb, ∑ j ∈ Finset.range nb, c j * (W (i, k) * vdm (k, j)) := by
        refine Finset.sum_congr rfl fun k hk => ?_
        rw [Finset.mul_sum]
        refine Finset.sum_congr rfl fun j hj => ?_
        rw [hv k j (Finset.mem_range.1 hk) (Finset.mem_range.1 hj)]
        ring
    _ = ∑ j ∈ Finset.range nb, c j * if i = j then 1 else 0 := by
        rw [Finset.sum_comm]
        refine Finset.sum_congr rfl fun j hj => ?_
        rw [← Finset.mul_sum, hs i j hi (Finset.mem_range.1 hj)]
    _ = c i := by
        simp only [mul_ite, mul_one, mul_zero]
        rw [Finset.sum_ite_eq, if_pos (Finset.mem_range.2 hi)]

/-! ### Matrices of coefficients -/

theorem coeffMat_spec (a : PMat F[X]) (k i j : Nat) (hi : i < a.rows) (hj : j < a.cols) :
    coeffMat a (fun _ => 0) (k, i * a.cols + j) = (a.e (i, j)).coeff k := by
  have key := Fills.forN (n := a.rows) (v := fun x : Nat × Nat => (a.e (x.2 / a.cols, x.2 % a.cols)).coeff x.1) fun i _ =>
    Fills.forN (n := a.cols) fun j hj => Fills.forN (n := (pdeg (a.e (i, j)) + 1).toNat) fun k _ =>
      Fills.write (k, i * a.cols + j) ((a.e (i, j)).coeff k) (by
        dsimp only
        obtain ⟨h1, h2⟩ := flat2 (i := i) hj
        rw [h1, h2])
  obtain ⟨f1, f2⟩ := flat2 (i := i) hj
  by_cases hk : k < (pdeg (a.e (i, j)) + 1).toNat
  · refine ((key (fun _ => 0) (k, i * a.cols + j)).1 ⟨i, hi, j, hj, k, hk, rfl⟩).trans ?_
    dsimp only
    rw [f1, f2]
  · refine ((key (fun _ => 0) (k, i * a.cols + j)).2 ?_).trans ?_
    · rintro ⟨i', hi', j', hj', k', hk', hx⟩
      rw [Set.mem_singleton_iff, Prod.mk.injEq] at hx
      obtain ⟨rfl, hx⟩ := hx
      obtain ⟨g1, g2⟩ := flat2 (i := i') hj'
      rw [← hx] at g1 g2
      rw [f1] at g1; rw [f2] at g2
      subst g1 g2
      exact hk hk'
    · exact (coeff_gt_pdeg _ _ (by omega)).symm

theorem coeffMatClear_spec (b : PMat F[X]) (n lim : Nat) (t : Nat × Nat → F) (k i j : Nat) (hi : i < n) (hj : j < b.cols)
    (ht : lim < k → pdeg (b.e (i, j)) < k → t (k, i * b.cols + j) = 0) :
    coeffMatClear b n lim t (k, i * b.cols + j) = (b.e (i, j)).coeff k := by
  have key := Fills.forN (n := n) (v := fun x : Nat × Nat => (b.e (x.2 / b.cols, x.2 % b.cols)).coeff x.1) fun i _ =>
    Fills.forN (n := b.cols) fun j hj => Fills.comp
      (Fills.forN (n := (pdeg (b.e (i, j)) + 1).toNat) fun k _ =>
        Fills.write (k, i * b.cols + j) ((b.e (i, j)).coeff k) (by
          dsimp only
          obtain ⟨h1, h2⟩ := flat2 (i := i) hj
          rw [h1, h2]))
      (Fills.forN (n := lim + 1 - (pdeg (b.e (i, j)) + 1).toNat) fun k _ =>
        Fills.write ((pdeg (b.e (i, j)) + 1).toNat + k, i * b.cols + j) 0 (by
          dsimp only
          obtain ⟨h1, h2⟩ := flat2 (i := i) hj
          rw [h1, h2]
          exact coeff_gt_pdeg _ _ (by omega)))
  obtain ⟨f1, f2⟩ := flat2 (i := i) hj
  by_cases hk : k < (pdeg (b.e (i, j)) + 1).toNat ∨ k ≤ lim
  · refine ((key t (k, i * b.cols + j)).1 ⟨i, hi, j, hj, ?_⟩).trans ?_
    · by_cases hk1 : k < (pdeg (b.e (i, j)) + 1).toNat
      · exact Or.inl ⟨k, hk1, rfl⟩
      · refine Or.inr ⟨k - (pdeg (b.e (i, j)) + 1).toNat, by omega, ?_⟩
        rw [Set.mem_singleton_iff, Nat.add_sub_cancel' (by omega)]
    · dsimp only
      rw [f1, f2]
  · refine ((key t (k, i * b.cols + j)).2 ?_).trans ?_
    · rintro ⟨i', hi', j', hj', hx⟩
      have hgen : ∀ k', (k, i * b.cols + j) ∈ ({(k', i' * b.cols + j')} : Set (Nat × Nat)) → k = k' ∧ i = i' ∧ j = j' := by
        intro k' hx
        rw [Set.mem_singleton_iff, Prod.mk.injEq] at hx
        obtain ⟨rfl, hx⟩ := hx
        obtain ⟨g1, g2⟩ := flat2 (i := i') hj'
        rw [← hx] at g1 g2
        rw [f1] at g1; rw [f2] at g2
        exact ⟨rfl, g1, g2⟩
      rcases hx with ⟨k', hk', hx⟩ | ⟨k', hk', hx⟩
      · obtain ⟨rfl, rfl, rfl⟩ := hgen _ hx
        exact hk (Or.inl hk')
      · obtain ⟨h1, rfl, rfl⟩ := hgen _ hx
        exact hk (Or.inr (by omega))
    · rw [ht (by omega) (by omega)]
      exact (coeff_gt_pdeg _ _ (by omega)).symm

theorem eval_sum_lt (P : F[X]) (t : F) (N : Nat) (h : ∀ k, N ≤ k → P.coeff k = 0) :
    P.eval t = ∑ k ∈ Finset.range N, P.coeff k * t ^ k := by
  by_cases hP : P = 0
  · subst hP; simp
  · refine eval_eq_sum_range' ?_ t
    by_contra hc
    have := h P.natDegree (by omega)
    exact hP (leadingCoeff_eq_zero.1 this)

/-- Coefficients of an entry of the product. -/
theorem prod_coeff_zero (a b : PMat F[X]) (hab : a.cols = b.rows) (dA dB : Nat) (ha : deg a ≤ dA) (hb : deg b ≤ dB) (i j k : Nat)
    (hi : i < a.rows) (hj : j < b.cols) (hk : dA + dB < k) :
    (∑ l ∈ Finset.range a.cols, a.e (i, l) * b.e (l, j)).coeff k = 0 := by
  rw [finsetSum_coeff]
  refine Finset.sum_eq_zero fun l hl => ?_
  have hl := Finset.mem_range.1 hl
  rw [coeff_mul]
  refine Finset.sum_eq_zero fun x hx => ?_
  have hx := Finset.mem_antidiagonal.1 hx
  by_cases h : dA < x.1
  · rw [(deg_lt_iff a (dA + 1)).1 (by omega) i l hi hl x.1 (by omega), zero_mul]
  · rw [(deg_lt_iff b (dB + 1)).1 (by omega) l j (by omega) hj x.2 (by omega), mul_zero]

theorem valC_fill (nb m p : Nat) (w : Nat → Nat × Nat → F) (x : Nat × Nat → F) (r i k : Nat) (hr : r < nb) (hi : i < m) (hk : k < p) :
    forN nb (fun i => forN m fun u => forN p fun v => write (i, u * p + v) (w i (u, v))) x (r, i * p + k) = w r (i, k) := by
  have key := Fills.forN (n := nb) (v := fun x : Nat × Nat => w x.1 (x.2 / p, x.2 % p)) fun i _ =>
    Fills.forN (n := m) fun u _ => Fills.forN (n := p) fun v hv => Fills.write (i, u * p + v) (w i (u, v)) (by
      dsimp only
      obtain ⟨h1, h2⟩ := flat2 (i := u) hv
      rw [h1, h2])
  refine ((key x _).1 ⟨r, hr, i, hi, k, hk, rfl⟩).trans ?_
  dsimp only
  obtain ⟨h1, h2⟩ := flat2 (i := i) hk
  rw [h1, h2]

theorem dense_spec {inv : Nat → (Nat × Nat → F) → Option (Nat × Nat → F)} (hinv : InvOk inv) (a b : PMat F[X])
    (hab : a.cols = b.rows) (ha : 0 ≤ deg a) (hb : 0 ≤ deg b)
    (hinj : ∀ r r' : Nat, r ≤ deg a + deg b → r' ≤ deg a + deg b → (r : F) = (r' : F) → r = r') :
    ∃ c, dense inv a b = some c ∧ IsProduct a b c := by
  obtain ⟨dA, hdA⟩ := Int.eq_ofNat_of_zero_le ha
  obtain ⟨dB, hdB⟩ := Int.eq_ofNat_of_zero_le hb
  unfold dense
  dsimp only
  rw [if_neg (by omega), hdA, hdB, Int.toNat_natCast, Int.toNat_natCast]
  have hvdm := vdmFull_spec 1 (dA + dB + 1) (fun i => (i : F)) (fun i hi => by rw [Nat.lt_one_iff.1 hi, Nat.cast_zero])
  have hvsub := fun s (hs : s ≤ dA + dB + 1) => vdmSub_spec 1 (dA + dB + 1) s (vdmFull 1 (dA + dB + 1) fun i => (i : F)) hs
    (fun i hi => by rw [hvdm i 0 hi (by omega), pow_zero]) (fun i j hi h0 hj => by
      rw [hvdm i j (by omega) hj, Nat.lt_one_iff.1 hi, Nat.cast_zero, zero_pow (by omega)])
  generalize vdmFull 1 (dA + dB + 1) (fun i => (i : F)) = vdm at hvdm hvsub ⊢
  have hsA := hvsub (dA + 1) (by omega)
  have hsB := hvsub (dB + 1) (by omega)
  generalize vdmSub 1 (dA + dB + 1) (dA + 1) vdm = vA at hsA ⊢
  generalize vdmSub 1 (dA + dB + 1) (dB + 1) vdm = vB at hsB ⊢
  obtain ⟨W, hW, hWs⟩ := vdm_inv hinv (dA + dB + 1) (fun i => (i : F)) (fun r r' hr hr' h => hinj r r' (by omega) (by omega) h) vdm hvdm
  rw [hW]
  refine ⟨_, rfl, rfl, rfl, fun i j hi hj => ?_⟩
  have htA := coeffMat_spec a
  generalize coeffMat a (fun _ => 0) = tA at htA ⊢
  have htB : ∀ k l j, k < dB + 1 → l < a.cols → j < b.cols → coeffMatClear b a.cols (min dA dB)
      (setDimsReuse (dA + 1) (a.rows * a.cols) (a.cols * b.cols) tA) (k, l * b.cols + j) = (b.e (l, j)).coeff k := by
    intro k l j hk hl hj
    refine coeffMatClear_spec b a.cols (min dA dB) _ k l j hl hj fun h1 _ => ?_
    unfold setDimsReuse
    split_ifs with hc
    · dsimp only
      rw [if_neg (by omega)]
    · rfl
  generalize coeffMatClear b a.cols (min dA dB) (setDimsReuse (dA + 1) (a.rows * a.cols) (a.cols * b.cols) tA) = tB at htB ⊢
  dsimp only
  refine (loop2_at _ _ (fun u v => ofCoeffs (dA + dB + 1) fun i => cmul (dA + dB + 1) W _ (i, u * b.cols + v)) _ i j hi hj).trans ?_
  ext k
  rw [ofCoeffs_coeff]
  by_cases hk : k < dA + dB + 1
  · rw [if_pos hk]
    rw [← hWs (fun k => (∑ l ∈ Finset.range a.cols, a.e (i, l) * b.e (l, j)).coeff k) k hk]
    unfold cmul
    refine Finset.sum_congr rfl fun r hr => ?_
    have hr := Finset.mem_range.1 hr
    dsimp only
    congr 1
    rw [← eval_sum_lt _ _ _ fun k hk => prod_coeff_zero a b hab dA dB (by omega) (by omega) i j k hi hj (by omega)]
    refine (valC_fill (dA + dB + 1) a.rows b.cols (fun i x => ∑ k ∈ Finset.range a.cols,
      (∑ q ∈ Finset.range (dA + 1), vA (i, q) * tA (q, x.1 * a.cols + k)) *
        ∑ q ∈ Finset.range (dB + 1), vB (i, q) * tB (q, k * b.cols + x.2)) (fun _ => 0) r i j hr hi hj).trans ?_
    rw [eval_finsetSum]
    refine Finset.sum_congr rfl fun l hl => ?_
    have hl := Finset.mem_range.1 hl
    rw [eval_mul]
    congr 1
    · rw [eval_sum_lt _ _ (dA + 1) fun k hk => (deg_lt_iff a (dA + 1)).1 (by omega) i l hi hl k hk]
      refine Finset.sum_congr rfl fun q hq => ?_
      have hq := Finset.mem_range.1 hq
      rw [hsA r q hr hq, hvdm r q hr (by omega), htA q i l hi hl, mul_comm]
    · rw [eval_sum_lt _ _ (dB + 1) fun k hk => (deg_lt_iff b (dB + 1)).1 (by omega) l j (by omega) hj k hk]
      refine Finset.sum_congr rfl fun q hq => ?_
      have hq := Finset.mem_range.1 hq
      rw [hsB r q hr hq, hvdm r q hr (by omega), htB q l j hq hl hj, mul_comm]
  · rw [if_neg hk, prod_coeff_zero a b hab dA dB (by omega) (by omega) i j k hi hj (by omega)]

/-! ### Even and odd parts -/

theorem evenOdd_fst (a : PMat F[X]) (t : (Nat × Nat → F) × (Nat × Nat → F)) : (evenOdd a t).1 =
    forN a.rows (fun i => forN a.cols fun j t =>
      let d := pdeg (a.e (i, j))
      let t := forN ((d + 1) / 2).toNat (fun k => write (k, i * a.cols + j) ((a.e (i, j)).coeff (2 * k))) t
      if 0 ≤ d ∧ d % 2 = 0 then write (d.toNat / 2, i * a.cols + j) ((a.e (i, j)).coeff d.toNat) t else t) t.1 := by
  unfold evenOdd
  refine forN_proj Prod.fst (fun i s _ => forN_proj Prod.fst (fun j s _ => ?_) s) t
  dsimp only
  have h := forN_proj Prod.fst (n := ((pdeg (a.e (i, j)) + 1) / 2).toNat)
    (f := fun k (t : (Nat × Nat → F) × (Nat × Nat → F)) => (write (k, i * a.cols + j) ((a.e (i, j)).coeff (2 * k)) t.1,
      write (k, i * a.cols + j) ((a.e (i, j)).coeff (2 * k + 1)) t.2))
    (g := fun k => write (k, i * a.cols + j) ((a.e (i, j)).coeff (2 * k))) (fun k s _ => rfl) s
  rw [← h]
  split_ifs <;> rfl

theorem evenOdd_snd (a : PMat F[X]) (t : (Nat × Nat → F) × (Nat × Nat → F)) : (evenOdd a t).2 =
    forN a.rows (fun i => forN a.cols fun j =>
      forN ((pdeg (a.e (i, j)) + 1) / 2).toNat (fun k => write (k, i * a.cols + j) ((a.e (i, j)).coeff (2 * k + 1)))) t.2 := by
  unfold evenOdd
  refine forN_proj Prod.snd (fun i s _ => forN_proj Prod.snd (fun j s _ => ?_) s) t
  dsimp only
  have h := forN_proj Prod.snd (n := ((pdeg (a.e (i, j)) + 1) / 2).toNat)
    (f := fun k (t : (Nat × Nat → F) × (Nat × Nat → F)) => (write (k, i * a.cols + j) ((a.e (i, j)).coeff (2 * k)) t.1,
      write (k, i * a.cols + j) ((a.e (i, j)).coeff (2 * k + 1)) t.2))
    (g := fun k => write (k, i * a.cols + j) ((a.e (i, j)).coeff (2 * k + 1))) (fun k s _ => rfl) s
  rw [← h]
  split_ifs <;> rfl

theorem Fills.ite {ι α : Type} {c : Prop} [Decidable c] {S : Set ι} {v : ι → α} {f : (ι → α) → ι → α} (h : c → Fills S v f) :
    Fills {x | c ∧ x ∈ S} v (fun t => if c then f t else t) := by
  intro t x
  dsimp only
  by_cases hc : c
  · rw [if_pos hc]
    exact ⟨fun hx => (h hc t x).1 hx.2, fun hx => (h hc t x).2 fun hs => hx ⟨hc, hs⟩⟩
  · rw [if_neg hc]
    exact ⟨fun hx => absurd hx.1 hc, fun _ => rfl⟩

theorem flat_mem {k k' i i' j j' n : Nat} (hj : j < n) (hj' : j' < n)
    (hx : (k, i * n + j) ∈ ({(k', i' * n + j')} : Set (Nat × Nat))) : k = k' ∧ i = i' ∧ j = j' := by
  rw [Set.mem_singleton_iff, Prod.mk.injEq] at hx
  obtain ⟨f1, f2⟩ := flat2 (i := i) hj
  obtain ⟨g1, g2⟩ := flat2 (i := i') hj'
  rw [← hx.2] at g1 g2
  rw [f1] at g1; rw [f2] at g2
  exact ⟨hx.1, g1, g2⟩

theorem evenOdd_even (a : PMat F[X]) (k i j : Nat) (hi : i < a.rows) (hj : j < a.cols) :
    (evenOdd a (fun _ => 0, fun _ => 0)).1 (k, i * a.cols + j) = (a.e (i, j)).coeff (2 * k) := by
  rw [evenOdd_fst]
  have key := Fills.forN (n := a.rows) (v := fun x : Nat × Nat => (a.e (x.2 / a.cols, x.2 % a.cols)).coeff (2 * x.1)) fun i _ =>
    Fills.forN (n := a.cols) fun j hj => Fills.comp
      (Fills.forN (n := ((pdeg (a.e (i, j)) + 1) / 2).toNat) fun k _ =>
        Fills.write (k, i * a.cols + j) ((a.e (i, j)).coeff (2 * k)) (by
          dsimp only
          obtain ⟨h1, h2⟩ := flat2 (i := i) hj
          rw [h1, h2]))
      (Fills.ite (c := 0 ≤ pdeg (a.e (i, j)) ∧ pdeg (a.e (i, j)) % 2 = 0) fun hc =>
        Fills.write ((pdeg (a.e (i, j))).toNat / 2, i * a.cols + j) ((a.e (i, j)).coeff (pdeg (a.e (i, j))).toNat) (by
          dsimp only
          obtain ⟨h1, h2⟩ := flat2 (i := i) hj
          rw [h1, h2, show 2 * ((pdeg (a.e (i, j))).toNat / 2) = (pdeg (a.e (i, j))).toNat by omega]))
  obtain ⟨f1, f2⟩ := flat2 (i := i) hj
  by_cases hk : (2 * k : Int) ≤ pdeg (a.e (i, j))
  · refine ((key (fun _ => 0) (k, i * a.cols + j)).1 ⟨i, hi, j, hj, ?_⟩).trans ?_
    · by_cases h1 : k < ((pdeg (a.e (i, j)) + 1) / 2).toNat
      · exact Or.inl ⟨k, h1, rfl⟩
      · refine Or.inr ⟨⟨by omega, by omega⟩, ?_⟩
        rw [Set.mem_singleton_iff, Prod.mk.injEq]
        exact ⟨by omega, rfl⟩
    · dsimp only
      rw [f1, f2]
  · refine ((key (fun _ => 0) (k, i * a.cols + j)).2 ?_).trans ?_
    · rintro ⟨i', hi', j', hj', ⟨k', hk', hx⟩ | ⟨hc, hx⟩⟩
      · obtain ⟨rfl, rfl, rfl⟩ := flat_mem hj hj' hx
        omega
      · obtain ⟨h1, rfl, rfl⟩ := flat_mem hj hj' hx
        omega
    · exact (coeff_gt_pdeg _ _ (by push_cast; omega)).symm

theorem evenOdd_odd (a : PMat F[X]) (k i j : Nat) (hi : i < a.rows) (hj : j < a.cols) :
    (evenOdd a (fun _ => 0, fun _ => 0)).2 (k, i * a.cols + j) = (a.e (i, j)).coeff (2 * k + 1) := by
  rw [evenOdd_snd]
  have key := Fills.forN (n := a.rows) (v := fun x : Nat × Nat => (a.e (x.2 / a.cols, x.2 % a.cols)).coeff (2 * x.1 + 1)) fun i _ =>
    Fills.forN (n := a.cols) fun j hj =>
      Fills.forN (n := ((pdeg (a.e (i, j)) + 1) / 2).toNat) fun k _ =>
        Fills.write (k, i * a.cols + j) ((a.e (i, j)).coeff (2 * k + 1)) (by
          dsimp only
          obtain ⟨h1, h2⟩ := flat2 (i := i) hj
          rw [h1, h2])
  obtain ⟨f1, f2⟩ := flat2 (i := i) hj
  by_cases hk : k < ((pdeg (a.e (i, j)) + 1) / 2).toNat
  · refine ((key (fun _ => 0) (k, i * a.cols + j)).1 ⟨i, hi, j, hj, k, hk, rfl⟩).trans ?_
    dsimp only
    rw [f1, f2]
  · refine ((key (fun _ => 0) (k, i * a.cols + j)).2 ?_).trans ?_
    · rintro ⟨i', hi', j', hj', k', hk', hx⟩
      obtain ⟨rfl, rfl, rfl⟩ := flat_mem hj hj' hx
      omega
    · exact (coeff_gt_pdeg _ _ (by push_cast; omega)).symm

/-- The clearing version, one component. -/
noncomputable def evenOddClear1 (b : PMat F[X]) (n sB : Nat) (odd : Bool) (t : Nat × Nat → F) : Nat × Nat → F :=
  forN n (fun i => forN b.cols fun j t =>
    let d := pdeg (b.e (i, j))
    let k := ((d + 1) / 2).toNat
    let t := forN k (fun k => write (k, i * b.cols + j) ((b.e (i, j)).coeff (if odd then 2 * k + 1 else 2 * k))) t
    let k1 := if 2 * (k : Int) = d then k + 1 else k
    let t := if 2 * (k : Int) = d then write (k, i * b.cols + j) (if odd then 0 else (b.e (i, j)).coeff d.toNat) t else t
    forN (sB - k1) (fun q => write (k1 + q, i * b.cols + j) 0) t) t

theorem evenOddClear_fst (b : PMat F[X]) (n sB : Nat) (t : (Nat × Nat → F) × (Nat × Nat → F)) :
    (evenOddClear b n sB t).1 = evenOddClear1 b n sB false t.1 := by
  unfold evenOddClear evenOddClear1
  refine forN_proj Prod.fst (fun i s _ => forN_proj Prod.fst (fun j s _ => ?_) s) t
  dsimp only
  generalize ((pdeg (b.e (i, j)) + 1) / 2).toNat = k
  have h := forN_proj Prod.fst (n := k)
    (f := fun k (t : (Nat × Nat → F) × (Nat × Nat → F)) => (write (k, i * b.cols + j) ((b.e (i, j)).coeff (2 * k)) t.1,
      write (k, i * b.cols + j) ((b.e (i, j)).coeff (2 * k + 1)) t.2))
    (g := fun k => write (k, i * b.cols + j) ((b.e (i, j)).coeff (2 * k))) (fun k s _ => rfl) s
  by_cases hc : 2 * (k : Int) = pdeg (b.e (i, j))
  · simp only [if_pos hc, Bool.false_eq_true, if_false]
    refine (forN_proj Prod.fst (g := fun q => write (k + 1 + q, i * b.cols + j) 0) (fun q s _ => rfl) _).trans ?_
    rw [h]
  · simp only [if_neg hc, Bool.false_eq_true, if_false]
    refine (forN_proj Prod.fst (g := fun q => write (k + q, i * b.cols + j) 0) (fun q s _ => rfl) _).trans ?_
    rw [h]

theorem evenOddClear_snd (b : PMat F[X]) (n sB : Nat) (t : (Nat × Nat → F) × (Nat × Nat → F)) :
    (evenOddClear b n sB t).2 = evenOddClear1 b n sB true t.2 := by
  unfold evenOddClear evenOddClear1
  refine forN_proj Prod.snd (fun i s _ => forN_proj Prod.snd (fun j s _ => ?_) s) t
  dsimp only
  generalize ((pdeg (b.e (i, j)) + 1) / 2).toNat = k
  have h := forN_proj Prod.snd (n := k)
    (f := fun k (t : (Nat × Nat → F) × (Nat × Nat → F)) => (write (k, i * b.cols + j) ((b.e (i, j)).coeff (2 * k)) t.1,
      write (k, i * b.cols + j) ((b.e (i, j)).coeff (2 * k + 1)) t.2))
    (g := fun k => write (k, i * b.cols + j) ((b.e (i, j)).coeff (2 * k + 1))) (fun k s _ => rfl) s
  by_cases hc : 2 * (k : Int) = pdeg (b.e (i, j))
  · simp only [if_pos hc, if_true]
    refine (forN_proj Prod.snd (g := fun q => write (k + 1 + q, i * b.cols + j) 0) (fun q s _ => rfl) _).trans ?_
    rw [h]
  · simp only [if_neg hc, if_true]
    refine (forN_proj Prod.snd (g := fun q => write (k + q, i * b.cols + j) 0) (fun q s _ => rfl) _).trans ?_
    rw [h]

theorem evenOddClear1_spec (b : PMat F[X]) (n sB : Nat) (odd : Bool) (t : Nat × Nat → F) (k i j : Nat) (hk : k < sB) (hi : i < n)
    (hj : j < b.cols) :
    evenOddClear1 b n sB odd t (k, i * b.cols + j) = (b.e (i, j)).coeff (if odd then 2 * k + 1 else 2 * k) := by
  have key := Fills.forN (n := n)
    (v := fun x : Nat × Nat => (b.e (x.2 / b.cols, x.2 % b.cols)).coeff (if odd then 2 * x.1 + 1 else 2 * x.1)) fun i _ =>
    Fills.forN (n := b.cols) fun j hj => Fills.comp (Fills.comp
      (Fills.forN (n := ((pdeg (b.e (i, j)) + 1) / 2).toNat) fun k _ =>
        Fills.write (k, i * b.cols + j) ((b.e (i, j)).coeff (if odd then 2 * k + 1 else 2 * k)) (by
          dsimp only
          obtain ⟨h1, h2⟩ := flat2 (i := i) hj
          rw [h1, h2]))
      (Fills.ite (c := 2 * (((pdeg (b.e (i, j)) + 1) / 2).toNat : Int) = pdeg (b.e (i, j))) fun hc =>
        Fills.write (((pdeg (b.e (i, j)) + 1) / 2).toNat, i * b.cols + j)
          (if odd then 0 else (b.e (i, j)).coeff (pdeg (b.e (i, j))).toNat) (by
          dsimp only
          obtain ⟨h1, h2⟩ := flat2 (i := i) hj
          rw [h1, h2]
          cases odd
          · rw [if_neg (by decide), if_neg (by decide)]
            congr 1
            omega
          · rw [if_pos rfl, if_pos rfl]
            exact coeff_gt_pdeg _ _ (by push_cast; omega))))
      (Fills.forN (n := sB - if 2 * (((pdeg (b.e (i, j)) + 1) / 2).toNat : Int) = pdeg (b.e (i, j)) then
          ((pdeg (b.e (i, j)) + 1) / 2).toNat + 1 else ((pdeg (b.e (i, j)) + 1) / 2).toNat) fun q _ =>
        Fills.write ((if 2 * (((pdeg (b.e (i, j)) + 1) / 2).toNat : Int) = pdeg (b.e (i, j)) then
          ((pdeg (b.e (i, j)) + 1) / 2).toNat + 1 else ((pdeg (b.e (i, j)) + 1) / 2).toNat) + q, i * b.cols + j) 0 (by
          dsimp only
          obtain ⟨h1, h2⟩ := flat2 (i := i) hj
          rw [h1, h2]
          refine coeff_gt_pdeg _ _ ?_
          cases odd <;> split_ifs <;> push_cast <;> first | omega | simp_all; omega))
  obtain ⟨f1, f2⟩ := flat2 (i := i) hj
  refine ((key t (k, i * b.cols + j)).1 ⟨i, hi, j, hj, ?_⟩).trans ?_
  · by_cases h1 : k < ((pdeg (b.e (i, j)) + 1) / 2).toNat
    · exact Or.inl (Or.inl ⟨k, h1, rfl⟩)
    · by_cases hc : 2 * (((pdeg (b.e (i, j)) + 1) / 2).toNat : Int) = pdeg (b.e (i, j))
      · by_cases h2 : k = ((pdeg (b.e (i, j)) + 1) / 2).toNat
        · refine Or.inl (Or.inr ⟨hc, ?_⟩)
          rw [Set.mem_singleton_iff, Prod.mk.injEq]
          exact ⟨h2, rfl⟩
        · refine Or.inr ⟨k - (((pdeg (b.e (i, j)) + 1) / 2).toNat + 1), ?_, ?_⟩
          · rw [if_pos hc]; omega
          · rw [Set.mem_singleton_iff, Prod.mk.injEq, if_pos hc]
            exact ⟨by omega, rfl⟩
      · refine Or.inr ⟨k - ((pdeg (b.e (i, j)) + 1) / 2).toNat, ?_, ?_⟩
        · rw [if_neg hc]; omega
        · rw [Set.mem_singleton_iff, Prod.mk.injEq, if_neg hc]
          exact ⟨by omega, rfl⟩
  · dsimp only
    rw [f1, f2]

/-- Values at opposite points from even and odd parts. -/
theorem even_odd_eval (P : F[X]) (t : F) (N : Nat) (h : ∀ k, 2 * N ≤ k → P.coeff k = 0) :
    P.eval t = (∑ k ∈ Finset.range N, P.coeff (2 * k) * (t * t) ^ k) + t * ∑ k ∈ Finset.range N, P.coeff (2 * k + 1) * (t * t) ^ k := by
  rw [eval_sum_lt P t (2 * N) h]
  clear h
  induction N with
  | zero => simp
  | succ N ih =>
    rw [show 2 * (N + 1) = 2 * N + 1 + 1 by ring, Finset.sum_range_succ, Finset.sum_range_succ, ih, Finset.sum_range_succ, Finset.sum_range_succ]
    rw [pow_succ t (2 * N), pow_mul, pow_two]
    ring

theorem cmul_zero_right {n : Nat} {x y : Nat × Nat → F} {i j : Nat} (h : ∀ k, k < n → y (k, j) = 0) : cmul n x y (i, j) = 0 :=
  Finset.sum_eq_zero fun k hk => by
    dsimp only
    rw [h k (Finset.mem_range.1 hk), mul_zero]

theorem cmul_zero_left {n : Nat} {x y : Nat × Nat → F} {i j : Nat} (h : ∀ k, k < n → x (i, k) = 0) : cmul n x y (i, j) = 0 :=
  Finset.sum_eq_zero fun k hk => by
    dsimp only
    rw [h k (Finset.mem_range.1 hk), zero_mul]

/-- The entries of a zero matrix are zero. -/
theorem entry_zero (a : PMat F[X]) (h : deg a < 0) (i j : Nat) (hi : i < a.rows) (hj : j < a.cols) : a.e (i, j) = 0 := by
  ext k
  rw [(deg_lt_iff a 0).1 (by simpa using h) i j hi hj k (Nat.zero_le _), coeff_zero]

theorem dense2_spec {inv : Nat → (Nat × Nat → F) → Option (Nat × Nat → F)} (hinv : InvOk inv) (a b : PMat F[X])
    (hab : a.cols = b.rows) (h2 : (2 : F) ≠ 0)
    (hinj : ∀ r r' : Nat, r ≤ 2 * ((deg a + deg b).tdiv 2 + 1).toNat → r' ≤ 2 * ((deg a + deg b).tdiv 2 + 1).toNat →
      (r : F) = (r' : F) → r = r') :
    ∃ c, dense2 inv a b = some c ∧ IsProduct a b c := by
  unfold dense2
  dsimp only
  rw [if_neg (by omega)]
  have htd : 0 ≤ deg a → 0 ≤ deg b → (deg a).tdiv 2 = deg a / 2 ∧ (deg b).tdiv 2 = deg b / 2 ∧ (deg a + deg b).tdiv 2 = (deg a + deg b) / 2 :=
    fun h0 h1 => ⟨Int.tdiv_eq_ediv_of_nonneg h0, Int.tdiv_eq_ediv_of_nonneg h1, Int.tdiv_eq_ediv_of_nonneg (by omega)⟩
  generalize hsA : ((deg a).tdiv 2 + 1).toNat = sA
  generalize hsB : ((deg b).tdiv 2 + 1).toNat = sB
  generalize hnb : ((deg a + deg b).tdiv 2 + 1).toNat = nb at hinj ⊢
  have hpt : ∀ i, i < nb → ((2 * (i + 1) : Nat) : F) ≠ 0 := fun i hi h => by
    have := hinj (2 * (i + 1)) 0 (by omega) (by omega) (by rw [h, Nat.cast_zero])
    omega
  have hpt' : ∀ i, i < nb → ((i + 1 : Nat) : F) ≠ 0 := fun i hi h => hpt i hi (by rw [Nat.cast_mul, h, mul_zero])
  rw [if_neg (by rintro (h | ⟨i, hi, h⟩); exacts [h2 h, hpt i hi h])]
  have hvdm := vdmFull_spec 0 nb (fun i => ((i + 1 : Nat) : F) * ((i + 1 : Nat) : F)) (fun i hi => by omega)
  have hvsub := fun s (hs : s ≤ nb) => vdmSub_spec 0 nb s (vdmFull 0 nb fun i => ((i + 1 : Nat) : F) * ((i + 1 : Nat) : F)) hs
    (fun i hi => by rw [hvdm i 0 hi (by omega), pow_zero]) (fun i j hi h0 hj => by omega)
  generalize vdmFull 0 nb (fun i => ((i + 1 : Nat) : F) * ((i + 1 : Nat) : F)) = vdm at hvdm hvsub ⊢
  have hvA := hvsub sA
  have hvB := hvsub sB
  generalize vdmSub 0 nb sA vdm = vA at hvA ⊢
  generalize vdmSub 0 nb sB vdm = vB at hvB ⊢
  obtain ⟨W, hW, hWs⟩ := vdm_inv hinv nb (fun i => ((i + 1 : Nat) : F) * ((i + 1 : Nat) : F)) (fun r r' hr hr' h => by
    have h3 : (((r + 1 : Nat) : F) - ((r' + 1 : Nat) : F)) * (((r + 1 : Nat) : F) + ((r' + 1 : Nat) : F)) = 0 := by
      linear_combination h
    rcases mul_eq_zero.1 h3 with h4 | h4
    · have := hinj (r + 1) (r' + 1) (by omega) (by omega) (sub_eq_zero.1 h4)
      omega
    · have := hinj (r + 1 + (r' + 1)) 0 (by omega) (by omega) (by rw [Nat.cast_add, h4, Nat.cast_zero])
      omega) vdm hvdm
  rw [hW]
  refine ⟨_, rfl, rfl, rfl, fun i j hi hj => ?_⟩
  have hAe := evenOdd_even a
  have hAo := evenOdd_odd a
  have hBe : ∀ k l j, k < sB → l < a.cols → j < b.cols →
      (evenOddClear b a.cols sB (setDimsReuse sA (a.rows * a.cols) (a.cols * b.cols) (evenOdd a (fun _ => 0, fun _ => 0)).1,
        setDimsReuse sA (a.rows * a.cols) (a.cols * b.cols) (evenOdd a (fun _ => 0, fun _ => 0)).2)).1 (k, l * b.cols + j) =
      (b.e (l, j)).coeff (2 * k) := by
    intro k l j hk hl hj
    rw [evenOddClear_fst, evenOddClear1_spec b a.cols sB false _ k l j hk hl hj]
    rfl
  have hBo : ∀ k l j, k < sB → l < a.cols → j < b.cols →
      (evenOddClear b a.cols sB (setDimsReuse sA (a.rows * a.cols) (a.cols * b.cols) (evenOdd a (fun _ => 0, fun _ => 0)).1,
        setDimsReuse sA (a.rows * a.cols) (a.cols * b.cols) (evenOdd a (fun _ => 0, fun _ => 0)).2)).2 (k, l * b.cols + j) =
      (b.e (l, j)).coeff (2 * k + 1) := by
    intro k l j hk hl hj
    rw [evenOddClear_snd, evenOddClear1_spec b a.cols sB true _ k l j hk hl hj]
    rfl
  generalize evenOddClear b a.cols sB (setDimsReuse sA (a.rows * a.cols) (a.cols * b.cols) (evenOdd a (fun _ => 0, fun _ => 0)).1,
        setDimsReuse sA (a.rows * a.cols) (a.cols * b.cols) (evenOdd a (fun _ => 0, fun _ => 0)).2) = tB at hBe hBo ⊢
  generalize evenOdd a (fun _ : Nat × Nat => (0 : F), fun _ : Nat × Nat => (0 : F)) = tA at hAe hAo ⊢
  -- values of the entries of `a` and `b` at the two points
  have hvalA : 0 ≤ deg a → 0 ≤ deg b → ∀ r u l, r < nb → u < a.rows → l < a.cols →
      (a.e (u, l)).eval ((r + 1 : Nat) : F) = cmul sA vA tA.1 (r, u * a.cols + l) + ((r + 1 : Nat) : F) * cmul sA vA tA.2 (r, u * a.cols + l) ∧
      (a.e (u, l)).eval (-((r + 1 : Nat) : F)) = cmul sA vA tA.1 (r, u * a.cols + l) - ((r + 1 : Nat) : F) * cmul sA vA tA.2 (r, u * a.cols + l) := by
    intro h0 h1 r u l hr hu hl
    obtain ⟨t1, t2, t3⟩ := htd h0 h1
    have hN : ∀ k, 2 * sA ≤ k → (a.e (u, l)).coeff k = 0 := fun k hk =>
      (deg_lt_iff a (2 * sA)).1 (by push_cast; omega) u l hu hl k hk
    have e1 := even_odd_eval (a.e (u, l)) ((r + 1 : Nat) : F) sA hN
    have e2 := even_odd_eval (a.e (u, l)) (-((r + 1 : Nat) : F)) sA hN
    rw [neg_mul_neg] at e2
    have g1 : cmul sA vA tA.1 (r, u * a.cols + l) = ∑ k ∈ Finset.range sA, (a.e (u, l)).coeff (2 * k) * (((r + 1 : Nat) : F) * ((r + 1 : Nat) : F)) ^ k :=
      Finset.sum_congr rfl fun k hk => by
        have hk := Finset.mem_range.1 hk
        dsimp only
        rw [hvA (by omega) r k hr hk, hvdm r k hr (by omega), hAe k u l hu hl, mul_comm]
    have g2 : cmul sA vA tA.2 (r, u * a.cols + l) = ∑ k ∈ Finset.range sA, (a.e (u, l)).coeff (2 * k + 1) * (((r + 1 : Nat) : F) * ((r + 1 : Nat) : F)) ^ k :=
      Finset.sum_congr rfl fun k hk => by
        have hk := Finset.mem_range.1 hk
        dsimp only
        rw [hvA (by omega) r k hr hk, hvdm r k hr (by omega), hAo k u l hu hl, mul_comm]
    rw [e1, e2, g1, g2]
    exact ⟨rfl, by ring⟩
  have hvalB : 0 ≤ deg a → 0 ≤ deg b → ∀ r l v, r < nb → l < a.cols → v < b.cols →
      (b.e (l, v)).eval ((r + 1 : Nat) : F) = cmul sB vB tB.1 (r, l * b.cols + v) + ((r + 1 : Nat) : F) * cmul sB vB tB.2 (r, l * b.cols + v) ∧
      (b.e (l, v)).eval (-((r + 1 : Nat) : F)) = cmul sB vB tB.1 (r, l * b.cols + v) - ((r + 1 : Nat) : F) * cmul sB vB tB.2 (r, l * b.cols + v) := by
    intro h0 h1 r u l hr hu hl
    obtain ⟨t1, t2, t3⟩ := htd h0 h1
    have hN : ∀ k, 2 * sB ≤ k → (b.e (u, l)).coeff k = 0 := fun k hk =>
      (deg_lt_iff b (2 * sB)).1 (by push_cast; omega) u l (by omega) hl k hk
    have e1 := even_odd_eval (b.e (u, l)) ((r + 1 : Nat) : F) sB hN
    have e2 := even_odd_eval (b.e (u, l)) (-((r + 1 : Nat) : F)) sB hN
    rw [neg_mul_neg] at e2
    have g1 : cmul sB vB tB.1 (r, u * b.cols + l) = ∑ k ∈ Finset.range sB, (b.e (u, l)).coeff (2 * k) * (((r + 1 : Nat) : F) * ((r + 1 : Nat) : F)) ^ k :=
      Finset.sum_congr rfl fun k hk => by
        have hk := Finset.mem_range.1 hk
        dsimp only
        rw [hvB (by omega) r k hr hk, hvdm r k hr (by omega), hBe k u l hk hu hl, mul_comm]
    have g2 : cmul sB vB tB.2 (r, u * b.cols + l) = ∑ k ∈ Finset.range sB, (b.e (u, l)).coeff (2 * k + 1) * (((r + 1 : Nat) : F) * ((r + 1 : Nat) : F)) ^ k :=
      Finset.sum_congr rfl fun k hk => by
        have hk := Finset.mem_range.1 hk
        dsimp only
        rw [hvB (by omega) r k hr hk, hvdm r k hr (by omega), hBo k u l hk hu hl, mul_comm]
    rw [e1, e2, g1, g2]
    exact ⟨rfl, by ring⟩
  -- values of the product
  let P : Nat → Nat → F[X] := fun u v => ∑ l ∈ Finset.range a.cols, a.e (u, l) * b.e (l, v)
  let ce : Nat → Nat × Nat → F := fun r => cmul a.cols
    (fun x => cmul sA vA tA.1 (r, x.1 * a.cols + x.2) + ((r + 1 : Nat) : F) * cmul sA vA tA.2 (r, x.1 * a.cols + x.2))
    fun x => cmul sB vB tB.1 (r, x.1 * b.cols + x.2) + ((r + 1 : Nat) : F) * cmul sB vB tB.2 (r, x.1 * b.cols + x.2)
  let co : Nat → Nat × Nat → F := fun r => cmul a.cols
    (fun x => cmul sA vA tA.1 (r, x.1 * a.cols + x.2) - ((r + 1 : Nat) : F) * cmul sA vA tA.2 (r, x.1 * a.cols + x.2))
    fun x => cmul sB vB tB.1 (r, x.1 * b.cols + x.2) - ((r + 1 : Nat) : F) * cmul sB vB tB.2 (r, x.1 * b.cols + x.2)
  have hC : ∀ r u v, r < nb → u < a.rows → v < b.cols → ce r (u, v) = (P u v).eval ((r + 1 : Nat) : F) ∧
      co r (u, v) = (P u v).eval (-((r + 1 : Nat) : F)) := by
    intro r u v hr hu hv
    by_cases ha : deg a < 0
    · have hP : P u v = 0 := Finset.sum_eq_zero fun l hl => by rw [entry_zero a ha u l hu (Finset.mem_range.1 hl), zero_mul]
      have hz : ∀ l, l < a.cols → cmul sA vA tA.1 (r, u * a.cols + l) = 0 ∧ cmul sA vA tA.2 (r, u * a.cols + l) = 0 := fun l hl =>
        ⟨cmul_zero_right fun k _ => by rw [hAe k u l hu hl, entry_zero a ha u l hu hl, coeff_zero],
          cmul_zero_right fun k _ => by rw [hAo k u l hu hl, entry_zero a ha u l hu hl, coeff_zero]⟩
      rw [hP, eval_zero, eval_zero]
      exact ⟨cmul_zero_left fun l hl => by dsimp only; rw [(hz l hl).1, (hz l hl).2, mul_zero, add_zero],
        cmul_zero_left fun l hl => by dsimp only; rw [(hz l hl).1, (hz l hl).2, mul_zero, sub_zero]⟩
    · by_cases hb : deg b < 0
      · have hP : P u v = 0 := Finset.sum_eq_zero fun l hl => by
          rw [entry_zero b hb l v (by have := Finset.mem_range.1 hl; omega) hv, mul_zero]
        have hz : ∀ l, l < a.cols → cmul sB vB tB.1 (r, l * b.cols + v) = 0 ∧ cmul sB vB tB.2 (r, l * b.cols + v) = 0 := fun l hl =>
          ⟨cmul_zero_right fun k hk => by rw [hBe k l v hk hl hv, entry_zero b hb l v (by omega) hv, coeff_zero],
            cmul_zero_right fun k hk => by rw [hBo k l v hk hl hv, entry_zero b hb l v (by omega) hv, coeff_zero]⟩
        rw [hP, eval_zero, eval_zero]
        exact ⟨cmul_zero_right fun l hl => by dsimp only; rw [(hz l hl).1, (hz l hl).2, mul_zero, add_zero],
          cmul_zero_right fun l hl => by dsimp only; rw [(hz l hl).1, (hz l hl).2, mul_zero, sub_zero]⟩
      · have hA := hvalA (by omega) (by omega)
        have hB := hvalB (by omega) (by omega)
        show _ = eval _ (∑ l ∈ Finset.range a.cols, a.e (u, l) * b.e (l, v)) ∧
          _ = eval _ (∑ l ∈ Finset.range a.cols, a.e (u, l) * b.e (l, v))
        rw [eval_finsetSum, eval_finsetSum]
        refine ⟨Finset.sum_congr rfl fun l hl => ?_, Finset.sum_congr rfl fun l hl => ?_⟩
        · have hl := Finset.mem_range.1 hl
          rw [eval_mul, (hA r u l hr hu hl).1, (hB r l v hr hl hv).1]
        · have hl := Finset.mem_range.1 hl
          rw [eval_mul, (hA r u l hr hu hl).2, (hB r l v hr hl hv).2]
  have hPz : ∀ k, 2 * nb ≤ k → (P i j).coeff k = 0 := by
    intro k hk
    by_cases ha : deg a < 0
    · have hP : P i j = 0 := Finset.sum_eq_zero fun l hl => by rw [entry_zero a ha i l hi (Finset.mem_range.1 hl), zero_mul]
      rw [hP, coeff_zero]
    · by_cases hb : deg b < 0
      · have hP : P i j = 0 := Finset.sum_eq_zero fun l hl => by
          rw [entry_zero b hb l j (by have := Finset.mem_range.1 hl; omega) hj, mul_zero]
        rw [hP, coeff_zero]
      · obtain ⟨t1, t2, t3⟩ := htd (by omega) (by omega)
        exact prod_coeff_zero a b hab (deg a).toNat (deg b).toNat (by omega) (by omega) i j k hi hj (by omega)
  -- even and odd parts of the product
  have hEO : ∀ r, r < nb → (ce r (i, j) + co r (i, j)) * (2 : F)⁻¹ =
        ∑ k ∈ Finset.range nb, (P i j).coeff (2 * k) * (((r + 1 : Nat) : F) * ((r + 1 : Nat) : F)) ^ k ∧
      (ce r (i, j) - co r (i, j)) * ((2 * (r + 1) : Nat) : F)⁻¹ =
        ∑ k ∈ Finset.range nb, (P i j).coeff (2 * k + 1) * (((r + 1 : Nat) : F) * ((r + 1 : Nat) : F)) ^ k := by
    intro r hr
    obtain ⟨c1, c2⟩ := hC r i j hr hi hj
    have e1 := even_odd_eval (P i j) ((r + 1 : Nat) : F) nb hPz
    have e2 := even_odd_eval (P i j) (-((r + 1 : Nat) : F)) nb hPz
    rw [neg_mul_neg] at e2
    rw [c1, c2, e1, e2]
    have hx := hpt' r hr
    generalize ∑ k ∈ Finset.range nb, (P i j).coeff (2 * k) * (((r + 1 : Nat) : F) * ((r + 1 : Nat) : F)) ^ k = E
    generalize ∑ k ∈ Finset.range nb, (P i j).coeff (2 * k + 1) * (((r + 1 : Nat) : F) * ((r + 1 : Nat) : F)) ^ k = O
    rw [Nat.cast_mul]
    generalize ((r + 1 : Nat) : F) = x at hx ⊢
    constructor
    · field_simp; ring
    · rw [Nat.cast_ofNat]; field_simp; ring
  dsimp only
  refine (loop2_at _ _ (fun u v => ofCoeffs (2 * nb) fun k => if k % 2 = 0 then cmul nb W _ (k / 2, u * b.cols + v)
    else cmul nb W _ (k / 2, u * b.cols + v)) _ i j hi hj).trans ?_
  ext k
  rw [ofCoeffs_coeff]
  by_cases hk : k < 2 * nb
  · rw [if_pos hk]
    rw [forN_proj Prod.fst (n := nb) (g := fun r => forN a.rows fun u => forN b.cols fun v =>
        write (r, u * b.cols + v) ((ce r (u, v) + co r (u, v)) * (2 : F)⁻¹)) (fun r s _ => rfl),
      forN_proj Prod.snd (n := nb) (g := fun r => forN a.rows fun u => forN b.cols fun v =>
        write (r, u * b.cols + v) ((ce r (u, v) - co r (u, v)) * ((2 * (r + 1) : Nat) : F)⁻¹)) (fun r s _ => rfl)]
    by_cases hev : k % 2 = 0
    · rw [if_pos hev]
      have := hWs (fun k => (P i j).coeff (2 * k)) (k / 2) (by omega)
      rw [show 2 * (k / 2) = k by omega] at this
      refine Eq.trans ?_ this
      refine Finset.sum_congr rfl fun r hr => ?_
      have hr := Finset.mem_range.1 hr
      dsimp only
      congr 1
      exact (valC_fill nb a.rows b.cols (fun r x => (ce r x + co r x) * (2 : F)⁻¹) (fun _ => 0) r i j hr hi hj).trans (hEO r hr).1
    · rw [if_neg hev]
      have := hWs (fun k => (P i j).coeff (2 * k + 1)) (k / 2) (by omega)
      rw [show 2 * (k / 2) + 1 = k by omega] at this
      refine Eq.trans ?_ this
      refine Finset.sum_congr rfl fun r hr => ?_
      have hr := Finset.mem_range.1 hr
      dsimp only
      congr 1
      exact (valC_fill nb a.rows b.cols (fun r x => (ce r x - co r x) * ((2 * (r + 1) : Nat) : F)⁻¹) (fun _ => 0) r i j hr hi hj).trans
        (hEO r hr).2
  · rw [if_neg hk]
    exact (hPz k (by omega)).symm

end PML.Ntl.MatEval
