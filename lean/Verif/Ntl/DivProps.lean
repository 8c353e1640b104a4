import Verif.Ntl.DivSpec
import Verif.Ntl.SolveProps
import Mathlib.Algebra.Polynomial.Reverse

/-!
# C73: division of polynomial matrices
-/

namespace PML.Ntl.Div

open Polynomial PML.Ntl.Utils PML.Ntl.Inv PML.Ntl.Solve PML.Ntl.MatMul

variable {F : Type} [Field F]

attribute [local irreducible] Utils.deg

/-! ### Row degrees -/

/-- **C73 (row degree)**. `row_degree` gives the largest degree of the entries of each row, and -1 for zero rows. -/
theorem C73_row_degree (a : PMat F[X]) (i : Nat) : -1 ≤ rowDegree a i ∧ (∀ j, j < a.cols → ∀ k : Nat, rowDegree a i < k → (a.e (i, j)).coeff k = 0) ∧
    (rowDegree a i = -1 ∨ ∃ j, j < a.cols ∧ ∃ k : Nat, rowDegree a i = k ∧ (a.e (i, j)).coeff k ≠ 0) := by
  have key : -1 ≤ rowDegree a i ∧ (∀ j, j < a.cols → pdeg (a.e (i, j)) ≤ rowDegree a i) ∧
      (rowDegree a i = -1 ∨ ∃ j, j < a.cols ∧ pdeg (a.e (i, j)) = rowDegree a i) := by
    unfold rowDegree
    refine forN_inv (P := fun (n : Nat) (t : Int) => -1 ≤ t ∧ (∀ j, j < n → pdeg (a.e (i, j)) ≤ t) ∧
      (t = -1 ∨ ∃ j, j < n ∧ pdeg (a.e (i, j)) = t)) ⟨le_refl _, fun j hj => absurd hj (Nat.not_lt_zero _), Or.inl rfl⟩ ?_
    rintro m t _ ⟨h1, h2, h3⟩
    by_cases h : t < pdeg (a.e (i, m))
    · rw [if_pos h]
      refine ⟨by omega, fun j hj => ?_, Or.inr ⟨m, by omega, rfl⟩⟩
      by_cases hjm : j = m
      · rw [hjm]
      · have := h2 j (by omega)
        omega
    · rw [if_neg h]
      refine ⟨h1, fun j hj => ?_, ?_⟩
      · by_cases hjm : j = m
        · rw [hjm]; omega
        · exact h2 j (by omega)
      · rcases h3 with h3 | ⟨j, hj, h3⟩
        · exact Or.inl h3
        · exact Or.inr ⟨j, by omega, h3⟩
  obtain ⟨h1, h2, h3⟩ := key
  refine ⟨h1, fun j hj k hk => coeff_gt_pdeg _ _ (by have := h2 j hj; omega), ?_⟩
  rcases h3 with h3 | ⟨j, hj, h3⟩
  · exact Or.inl h3
  · by_cases hz : a.e (i, j) = 0
    · rw [hz, pdeg_zero] at h3
      exact Or.inl h3.symm
    · rw [pdeg_ne _ hz] at h3
      exact Or.inr ⟨j, hj, _, h3.symm, by rw [coeff_natDegree, leadingCoeff_ne_zero]; exact hz⟩

theorem RowReduced.row_ne {B : PMat F[X]} {r : Nat → Nat} (h : RowReduced B r) (i : Nat) (hi : i < B.rows) :
    ∃ j, j < B.rows ∧ (B.e (i, j)).coeff (r i) ≠ 0 := by
  obtain ⟨W, hW⟩ := h.lead
  have h1 : toM B.rows W * toM B.rows (fun x => (B.e x).coeff (r x.1)) = 1 := by
    rw [toM_mul, ← toM_one, toM_eq]
    intro i j hi hj
    exact hW i j hi hj
  have h2 := mul_eq_one_comm.1 h1
  rw [toM_mul, ← toM_one, toM_eq] at h2
  have h3 := h2 i i hi hi
  rw [if_pos rfl] at h3
  by_contra hc
  refine one_ne_zero (α := F) ?_
  rw [← h3]
  refine Finset.sum_eq_zero fun l hl => ?_
  have : (B.e (i, l)).coeff (r i) = 0 := by
    by_contra h4
    exact hc ⟨l, Finset.mem_range.1 hl, h4⟩
  show (B.e (i, l)).coeff (r i) * _ = 0
  rw [this, zero_mul]

theorem RowReduced.rowDegree_eq {B : PMat F[X]} {r : Nat → Nat} (h : RowReduced B r) (i : Nat) (hi : i < B.rows) : rowDegree B i = r i := by
  obtain ⟨h1, h2, h3⟩ := C73_row_degree B i
  obtain ⟨j, hj, hne⟩ := h.row_ne i hi
  have hsq := h.sq
  have h4 : ¬rowDegree B i < (r i : Int) := fun hc => hne (h2 j (by omega) (r i) hc)
  rcases h3 with h3 | ⟨l, hl, k, hk, h5⟩
  · omega
  · by_contra hc
    exact h5 (h.deg i l hi (by omega) k (by omega))

/-! ### The parameter `d` -/

theorem maxDiff_spec (f : Nat → Int) (m : Nat) (hm : 0 < m) :
    let d := forN (m - 1) (fun i d => if f (i + 1) > d then f (i + 1) else d) (f 0)
    (∀ i, i < m → f i ≤ d) ∧ ∃ i, i < m ∧ f i = d := by
  have : ∀ n, (∀ i, i < n + 1 → f i ≤ forN n (fun i d => if f (i + 1) > d then f (i + 1) else d) (f 0)) ∧
      ∃ i, i < n + 1 ∧ f i = forN n (fun i d => if f (i + 1) > d then f (i + 1) else d) (f 0) := by
    intro n
    refine forN_inv (P := fun (n : Nat) (d : Int) => (∀ i, i < n + 1 → f i ≤ d) ∧ ∃ i, i < n + 1 ∧ f i = d) ⟨fun i hi => ?_, 0, by omega, rfl⟩ ?_
    · rw [show i = 0 by omega]
    · rintro k t _ ⟨h1, i, hi, h2⟩
      by_cases h : f (k + 1) > t
      · rw [if_pos h]
        refine ⟨fun l hl => ?_, k + 1, by omega, rfl⟩
        by_cases hlk : l = k + 1
        · rw [hlk]
        · have := h1 l (by omega)
          omega
      · rw [if_neg h]
        refine ⟨fun l hl => ?_, i, by omega, h2⟩
        by_cases hlk : l = k + 1
        · rw [hlk]; omega
        · exact h1 l (by omega)
  have h := this (m - 1)
  rwa [show m - 1 + 1 = m by omega] at h

/-! ### Reversal -/

/-- The reversal of a polynomial of degree at most `N`, coefficient by coefficient. -/
theorem eq_reflect {f g : F[X]} {N : Nat} (hf : ∀ k, N < k → f.coeff k = 0) (hg : ∀ k, g.coeff k = if k ≤ N then f.coeff (N - k) else 0) :
    g = reflect N f := by
  ext k
  rw [coeff_reflect, hg k]
  by_cases h : k ≤ N
  · rw [if_pos h, revAt_le h]
  · rw [if_neg h, revAt_eq_self_of_lt (by omega), hf k (by omega)]

theorem natDegree_le_of {f : F[X]} {N : Nat} (hf : ∀ k, N < k → f.coeff k = 0) : f.natDegree ≤ N :=
  natDegree_le_iff_coeff_eq_zero.2 hf

/-- The quotient is read in the solution of the reversed system. -/
theorem rev_solution {n N d : Nat} {b q br qr : Nat → F[X]} {A ar : F[X]} (hb : ∀ l, l < n → ∀ k, N < k → (b l).coeff k = 0)
    (hbr : ∀ l, l < n → ∀ k, (br l).coeff k = if k ≤ N then (b l).coeff (N - k) else 0)
    (hqr : ∀ l, l < n → ∀ k, d < k → (qr l).coeff k = 0) (hq : ∀ l, l < n → ∀ k, (q l).coeff k = if k ≤ d then (qr l).coeff (d - k) else 0)
    (hA : ∀ k, N + d < k → A.coeff k = 0) (har : ∀ k, ar.coeff k = if k ≤ N + d then A.coeff (N + d - k) else 0)
    (heq : ∀ k, k < d + 1 → (∑ l ∈ Finset.range n, br l * qr l).coeff k = ar.coeff k) (k : Nat) (hk : N ≤ k) :
    (∑ l ∈ Finset.range n, b l * q l).coeff k = A.coeff k := by
  have hq2 : ∀ l, l < n → ∀ k, d < k → (q l).coeff k = 0 := fun l hl k hk => by rw [hq l hl k, if_neg (by omega)]
  have h1 : ∑ l ∈ Finset.range n, br l * qr l = reflect (N + d) (∑ l ∈ Finset.range n, b l * q l) := by
    have : ∀ s : Finset Nat, (∀ l ∈ s, l < n) → ∑ l ∈ s, br l * qr l = reflect (N + d) (∑ l ∈ s, b l * q l) := by
      intro s
      induction s using Finset.induction_on with
      | empty => intro _; rw [Finset.sum_empty, Finset.sum_empty, reflect_zero]
      | insert a s has ih =>
        intro hs
        have ha := hs a (Finset.mem_insert_self _ _)
        rw [Finset.sum_insert has, Finset.sum_insert has, reflect_add, ih fun l hl => hs l (Finset.mem_insert_of_mem hl),
          reflect_mul _ _ (natDegree_le_of (hb a ha)) (natDegree_le_of (hq2 a ha)), ← eq_reflect (hb a ha) (hbr a ha)]
        congr 2
        refine eq_reflect (hq2 a ha) fun t => ?_
        by_cases ht : t ≤ d
        · rw [if_pos ht, hq a ha, if_pos (by omega), show d - (d - t) = t by omega]
        · rw [if_neg ht, hqr a ha t (by omega)]
    exact this _ fun l hl => Finset.mem_range.1 hl
  by_cases h : k ≤ N + d
  · have h2 := heq (N + d - k) (by omega)
    rw [h1, coeff_reflect, revAt_le (by omega), har, if_pos (by omega), show N + d - (N + d - k) = k by omega] at h2
    exact h2
  · rw [hA k (by omega), finsetSum_coeff]
    refine Finset.sum_eq_zero fun l hl => ?_
    have hl := Finset.mem_range.1 hl
    refine coeff_eq_zero_of_natDegree_lt (lt_of_le_of_lt natDegree_mul_le ?_)
    have := natDegree_le_of (hb l hl)
    have := natDegree_le_of (hq2 l hl)
    omega

/-! ### Division -/

/-- **C73**. If `B` is row reduced, and the matrices `Q` and `R` are distinct and different from `A` and `B`,
    `quo_rem` gives the quotient and remainder of `A` by `B` and leaves `A` and `B` unchanged, or `solve_series` has
    failed.  Full statement: `solve_series` does not fail; see C72. -/
theorem C73_quo_rem_partial {solve : PMat F[X] → PMat F[X] → Nat → Out (PMat F[X])} (hS : SolveOk solve)
    {mul : PMat F[X] → PMat F[X] → Option (PMat F[X])} (hM : MulOk mul) (q r a b : Nat) (σ : Nat → PMat F[X]) (ρ : Nat → Nat)
    (hB : RowReduced (σ b) ρ) (h0 : 0 < (σ b).rows) (hA : (σ a).rows = (σ b).rows) (hqr : q ≠ r) (hqa : q ≠ a) (hqb : q ≠ b) (hra : r ≠ a) (hrb : r ≠ b) :
    (∃ σ', quoRem solve mul q r a b σ = .ok σ' ∧ IsQuoRem (σ a) (σ b) ρ (σ' q) (σ' r) ∧ ∀ x, x ≠ q → x ≠ r → σ' x = σ x) ∨
      (quoRem solve mul q r a b σ = .ub ∧ ∃ A' b' prec, solve A' b' prec = .ub) := by
  have hsq := hB.sq
  unfold quoRem
  dsimp only
  rw [if_neg (by omega)]
  obtain ⟨hd1, i0, hi0, hd2⟩ := maxDiff_spec (fun i => rowDegree (σ a) i - rowDegree (σ b) i) (σ b).rows h0
  generalize forN ((σ b).rows - 1) (fun i d => if rowDegree (σ a) (i + 1) - rowDegree (σ b) (i + 1) > d then
    rowDegree (σ a) (i + 1) - rowDegree (σ b) (i + 1) else d) (rowDegree (σ a) 0 - rowDegree (σ b) 0) = d at *
  by_cases hd : d < 0
  · rw [if_pos hd]
    left
    refine ⟨_, rfl, ?_, fun x hxq hxr => ?_⟩
    · have e1 : write q (clear ((write r (σ a) σ q).setDims (σ b).rows (σ a).cols)) (write r (σ a) σ) q =
          clear ((write r (σ a) σ q).setDims (σ b).rows (σ a).cols) := Function.update_self _ _ _
      have e2 : write q (clear ((write r (σ a) σ q).setDims (σ b).rows (σ a).cols)) (write r (σ a) σ) r = σ a := by
        unfold write
        rw [Function.update_of_ne hqr.symm, Function.update_self]
      rw [e1, e2]
      generalize (write r (σ a) σ q) = Q0
      have hz : ∀ i j, i < (σ b).rows → j < (σ a).cols → (clear (Q0.setDims (σ b).rows (σ a).cols)).e (i, j) = 0 := by
        intro i j hi hj
        show loop2 (σ b).rows (σ a).cols (fun _ _ _ => 0) _ (i, j) = 0
        rw [loop2_at _ _ _ _ _ _ hi hj]
      refine ⟨hsq, rfl, rfl, rfl, fun i j hi hj => ?_, fun i j hi hj k hk => ?_⟩
      · rw [Finset.sum_eq_zero, zero_add]
        intro l hl
        have hl := Finset.mem_range.1 hl
        rw [hz l j (by omega) hj, mul_zero]
      · have h1 := hd1 i (by omega)
        rw [hB.rowDegree_eq i (by omega)] at h1
        exact (C73_row_degree (σ a) i).2.1 j hj k (by omega)
    · unfold write
      rw [Function.update_of_ne hxq, Function.update_of_ne hxr]
  · rw [if_neg hd, if_neg (by omega)]
    obtain ⟨D, rfl⟩ : ∃ D : Nat, d = D := ⟨d.toNat, by omega⟩
    obtain ⟨-, -, p1, p2, p3⟩ := C65_reverse false ⟨0, 0, fun _ => 0⟩ (σ b) 0 (rowDegree (σ b))
    obtain ⟨-, -, q1, q2, q3⟩ := C65_reverse false ⟨0, 0, fun _ => 0⟩ (σ a) 0 fun i => rowDegree (σ b) i + D
    generalize rowReverse false ⟨0, 0, fun _ => 0⟩ (σ b) (rowDegree (σ b)) = Brev at *
    generalize rowReverse false ⟨0, 0, fun _ => 0⟩ (σ a) (fun i => rowDegree (σ b) i + D) = Arev at *
    have p4 : ∀ i j, i < (σ b).rows → j < (σ b).rows → ∀ k, (Brev.e (i, j)).coeff k = if k ≤ ρ i then ((σ b).e (i, j)).coeff (ρ i - k) else 0 := by
      intro i j hi hj k
      rw [p3 i j hi (by omega), hB.rowDegree_eq i hi]
      by_cases h : k ≤ ρ i
      · rw [if_pos h, if_pos (by omega)]
        congr 1
        omega
      · rw [if_neg h, if_neg (by omega)]
    have q4 : ∀ i j, i < (σ a).rows → j < (σ a).cols → ∀ k, (Arev.e (i, j)).coeff k =
        if k ≤ ρ i + D then ((σ a).e (i, j)).coeff (ρ i + D - k) else 0 := by
      intro i j hi hj k
      rw [q3 i j hi hj, hB.rowDegree_eq i (by omega)]
      by_cases h : k ≤ ρ i + D
      · rw [if_pos h, if_pos (by omega)]
        congr 1
        omega
      · rw [if_neg h, if_neg (by omega)]
    have hc : ConstInv Brev := by
      obtain ⟨W, hW⟩ := hB.lead
      refine ⟨W, fun i j hi hj => ?_⟩
      rw [p1] at hi hj ⊢
      rw [← hW i j hi hj]
      refine Finset.sum_congr rfl fun k hk => ?_
      rw [p4 k j (Finset.mem_range.1 hk) hj, if_pos (Nat.zero_le _), Nat.sub_zero]
    rw [show ((D : Int) + 1).toNat = D + 1 by omega]
    rcases hS Brev Arev (D + 1) (by omega) (by omega) (by omega) hc (by omega) with ⟨u, e, u1, u2, u3, u4⟩ | e
    · rw [e]
      dsimp only [andThen]
      left
      have hbq : (q == r) = false := by simpa using hqr
      have hba : (r == a) = false := by simpa using hra
      rw [hbq, hba]
      have e1 : write r u σ r = u := Function.update_self _ _ _
      rw [e1]
      generalize hQ : reverse false (write r u σ q) u D = Q
      obtain ⟨⟨r1, r2, r3⟩, -⟩ := C65_reverse false (write r u σ q) u D fun _ => 0
      rw [hQ] at r1 r2 r3
      have e2 : write q Q (write r u σ) b = σ b := by
        unfold write
        rw [Function.update_of_ne hqb.symm, Function.update_of_ne hrb.symm]
      have e3 : write q Q (write r u σ) a = σ a := by
        unfold write
        rw [Function.update_of_ne hqa.symm, Function.update_of_ne hra.symm]
      have e4 : write q Q (write r u σ) q = Q := Function.update_self _ _ _
      rw [e2, e3, e4]
      obtain ⟨c, em, c1, c2, c3⟩ := hM (σ b) Q (by omega) (by omega)
      rw [em]
      dsimp only [ofOpt]
      generalize write q Q (write r u σ) r = R0
      obtain ⟨-, z2, -, z4⟩ := C66_add_sub false false R0 (σ a) c (by simp)
      obtain ⟨y, ey⟩ : ∃ y, zipWith (· - ·) false false R0 (σ a) c = some y := by
        rcases hz : zipWith (· - ·) false false R0 (σ a) c with _ | y
        · exact absurd ⟨by omega, by omega⟩ (z2.1 hz)
        · exact ⟨y, rfl⟩
      obtain ⟨y1, y2, y3⟩ := z4 y ey
      clear z2 z4
      rw [ey]
      refine ⟨_, rfl, ?_, fun x hxq hxr => ?_⟩
      · have e5 : write r y (write q Q (write r u σ)) q = Q := by
          unfold write
          rw [Function.update_of_ne hqr, Function.update_self]
        have e6 : write r y (write q Q (write r u σ)) r = y := Function.update_self _ _ _
        rw [e5, e6]
        refine ⟨by omega, by omega, y1, y2, fun i j hi hj => ?_, fun i j hi hj k hk => ?_⟩
        · rw [y3 i j hi hj, c3 i j (by omega) (by omega)]
          ring
        · rw [y3 i j hi hj, c3 i j (by omega) (by omega), coeff_sub, sub_eq_zero]
          symm
          refine rev_solution (N := ρ i) (d := D) (b := fun l => (σ b).e (i, l)) (q := fun l => Q.e (l, j)) (br := fun l => Brev.e (i, l))
            (qr := fun l => u.e (l, j)) (ar := Arev.e (i, j)) (fun l hl t ht => hB.deg i l (by omega) (by omega) t ht)
            (fun l hl t => p4 i l (by omega) (by omega) t) (fun l hl t ht => u3 l j (by omega) (by omega) t (by omega)) (fun l hl t => ?_)
            (fun t ht => ?_) (q4 i j hi hj) (fun t ht => ?_) k hk
          · rw [r3 l j (by omega) (by omega)]
            by_cases h : t ≤ D
            · rw [if_pos h, if_pos (by omega)]
              congr 1
              omega
            · rw [if_neg h, if_neg (by omega)]
          · have h1 := hd1 i (by omega)
            rw [hB.rowDegree_eq i (by omega)] at h1
            exact (C73_row_degree (σ a) i).2.1 j hj t (by omega)
          · have := u4 i j (by omega) (by omega) t ht
            rw [show Brev.cols = (σ b).cols by omega] at this
            exact this
      · unfold write
        rw [Function.update_of_ne hxr, Function.update_of_ne hxq, Function.update_of_ne hxr]
    · right
      rw [e]
      exact ⟨rfl, _, _, _, e⟩

/-- **C73**. There is at most one quotient and one remainder. -/
theorem C73_unique {A B : PMat F[X]} {ρ : Nat → Nat} (hB : RowReduced B ρ) (hA : A.rows = B.rows) {Q R Q' R' : PMat F[X]} (h : IsQuoRem A B ρ Q R) (h' : IsQuoRem A B ρ Q' R') :
    (∀ i j, i < B.cols → j < A.cols → Q.e (i, j) = Q'.e (i, j)) ∧ ∀ i j, i < A.rows → j < A.cols → R.e (i, j) = R'.e (i, j) := by
  have hsq := hB.sq
  have key : ∀ i j, i < B.cols → j < A.cols → Q.e (i, j) = Q'.e (i, j) := by
    intro i j hi hj
    -- a bound for the degrees of the differences of the column
    have step : ∀ d : Nat, (∀ l, l < B.cols → ∀ k, d < k → (Q.e (l, j) - Q'.e (l, j)).coeff k = 0) →
        ∀ l, l < B.cols → (Q.e (l, j) - Q'.e (l, j)).coeff d = 0 := by
      intro d hd l hl
      obtain ⟨W, hW⟩ := hB.lead
      have h1 : ∀ t, t < B.rows → ∑ l ∈ Finset.range B.cols, (B.e (t, l)).coeff (ρ t) * (Q.e (l, j) - Q'.e (l, j)).coeff d = 0 := by
        intro t ht
        have e1 := h.eq t j (by omega) hj
        have e2 := h'.eq t j (by omega) hj
        have e3 : ∑ l ∈ Finset.range B.cols, B.e (t, l) * (Q.e (l, j) - Q'.e (l, j)) = R'.e (t, j) - R.e (t, j) := by
          rw [Finset.sum_congr rfl fun l _ => mul_sub _ _ _, Finset.sum_sub_distrib]
          linear_combination e2 - e1
        have e4 := congrArg (fun f => f.coeff (ρ t + d)) e3
        rw [coeff_sub, h.deg t j (by omega) hj _ (by omega), h'.deg t j (by omega) hj _ (by omega), sub_zero, finsetSum_coeff] at e4
        rw [← e4]
        refine Finset.sum_congr rfl fun l hl => ?_
        have hl := Finset.mem_range.1 hl
        exact (coeff_mul_add_eq_of_natDegree_le (natDegree_le_of (hB.deg t l ht (by omega))) (natDegree_le_of (hd l hl))).symm
      have h2 : (Q.e (l, j) - Q'.e (l, j)).coeff d = ∑ t ∈ Finset.range B.rows, W (l, t) *
          ∑ s ∈ Finset.range B.cols, (B.e (t, s)).coeff (ρ t) * (Q.e (s, j) - Q'.e (s, j)).coeff d := by
        rw [Finset.sum_congr rfl fun t _ => Finset.mul_sum _ _ _, Finset.sum_comm]
        rw [Finset.sum_congr rfl fun s hs => show ∑ t ∈ Finset.range B.rows, W (l, t) * ((B.e (t, s)).coeff (ρ t) * (Q.e (s, j) - Q'.e (s, j)).coeff d) =
          if l = s then (Q.e (s, j) - Q'.e (s, j)).coeff d else 0 from by
            have hs := Finset.mem_range.1 hs
            rw [Finset.sum_congr rfl fun t _ => (mul_assoc _ _ _).symm, ← Finset.sum_mul, hW l s (by omega) (by omega), ite_mul, one_mul, zero_mul]]
        rw [Finset.sum_ite_eq, if_pos (Finset.mem_range.2 hl)]
      rw [h2]
      exact Finset.sum_eq_zero fun t ht => by rw [h1 t (Finset.mem_range.1 ht), mul_zero]
    obtain ⟨N, hN⟩ : ∃ N, ∀ l, l < B.cols → ∀ k, N ≤ k → (Q.e (l, j) - Q'.e (l, j)).coeff k = 0 := by
      refine ⟨(Finset.range B.cols).sup (fun l => (Q.e (l, j) - Q'.e (l, j)).natDegree) + 1, fun l hl k hk => ?_⟩
      have := Finset.le_sup (f := fun l => (Q.e (l, j) - Q'.e (l, j)).natDegree) (Finset.mem_range.2 hl)
      exact coeff_eq_zero_of_natDegree_lt (by omega)
    have down : ∀ N, (∀ l, l < B.cols → ∀ k, N ≤ k → (Q.e (l, j) - Q'.e (l, j)).coeff k = 0) → ∀ l, l < B.cols → ∀ k, (Q.e (l, j) - Q'.e (l, j)).coeff k = 0 := by
      intro N
      induction N with
      | zero => exact fun h l hl k => h l hl k (Nat.zero_le _)
      | succ N ih =>
        intro hN
        refine ih fun l hl k hk => ?_
        rcases Nat.eq_or_lt_of_le hk with rfl | hk
        · exact step _ (fun l hl k hk => hN l hl k hk) l hl
        · exact hN l hl k hk
    have := down N hN i hi
    exact sub_eq_zero.1 (ext fun k => by rw [this k, coeff_zero])
  refine ⟨key, fun i j hi hj => ?_⟩
  have e1 := h.eq i j hi hj
  have e2 := h'.eq i j hi hj
  rw [Finset.sum_congr rfl fun l hl => by rw [key l j (Finset.mem_range.1 hl) hj]] at e1
  exact add_left_cancel (e1.symm.trans e2)

/-- **C73**. The row degrees of a matrix without rows, or of fewer rows of `A` than of `B`, are read out of bounds; also
    the degrees of `B`, if `A` has more rows and some row degree of `A` is not less than that of `B`. -/
theorem C73_bad_dimensions (solve : PMat F[X] → PMat F[X] → Nat → Out (PMat F[X])) (mul : PMat F[X] → PMat F[X] → Option (PMat F[X]))
    (q r a b : Nat) (σ : Nat → PMat F[X])
    (h : (σ b).rows = 0 ∨ (σ a).rows < (σ b).rows ∨
      ((σ b).rows < (σ a).rows ∧ ∃ i, i < (σ b).rows ∧ rowDegree (σ b) i ≤ rowDegree (σ a) i)) :
    quoRem solve mul q r a b σ = .ub := by
  unfold quoRem
  dsimp only
  by_cases h1 : (σ b).rows = 0 ∨ (σ a).rows < (σ b).rows
  · rw [if_pos h1]
  · rw [if_neg h1]
    rcases h with h | h | ⟨h2, i, hi, h3⟩
    · exact absurd (Or.inl h) h1
    · exact absurd (Or.inr h) h1
    · have := (maxDiff_spec (fun i => rowDegree (σ a) i - rowDegree (σ b) i) (σ b).rows (by omega)).1 i hi
      rw [if_neg (by omega), if_pos h2]

/-! ### The same matrix as input and output -/

theorem rowDegree_one1 (P : F[X]) : rowDegree (one1 P) 0 = pdeg P := by
  show (if (-1 : Int) < pdeg P then pdeg P else -1) = _
  have : -1 ≤ pdeg P := pdeg_ge P
  split <;> omega

/-- The division of `X` by 1, up to the solution of the reversed system. -/
theorem quoRem_X_one {solve : PMat F[X] → PMat F[X] → Nat → Out (PMat F[X])} (hS : SolveOk solve)
    (mul : PMat F[X] → PMat F[X] → Option (PMat F[X])) (q r a b : Nat) (σ : Nat → PMat F[X]) (ha : σ a = one1 X) (hb : σ b = one1 1) :
    quoRem solve mul q r a b σ = .ub ∨ ∃ u, u.rows = 1 ∧ u.cols = 1 ∧ u.e (0, 0) = 1 ∧ quoRem solve mul q r a b σ =
      (let σ := write r u σ
       let σ := write q (reverse (q == r) (σ q) (σ r) 1) σ
       andThen (ofOpt (mul (σ b) (σ q))) fun buf =>
       andThen (ofOpt (zipWith (· - ·) (r == a) false (σ r) (σ a) buf)) fun c =>
       .ok (write r c σ)) := by
  have e1 : rowDegree (one1 (X : F[X])) 0 = 1 := by rw [rowDegree_one1, pdeg_ne _ X_ne_zero, natDegree_X]; rfl
  have e2 : rowDegree (one1 (1 : F[X])) 0 = 0 := by rw [rowDegree_one1, pdeg_ne _ one_ne_zero, natDegree_one]; rfl
  have hu : quoRem solve mul q r a b σ = andThen (solve (rowReverse false ⟨0, 0, fun _ => 0⟩ (one1 1) (rowDegree (one1 (1 : F[X]))))
      (rowReverse false ⟨0, 0, fun _ => 0⟩ (one1 X) fun i => rowDegree (one1 (1 : F[X])) i + 1) 2) fun u =>
      (let σ := write r u σ
       let σ := write q (reverse (q == r) (σ q) (σ r) 1) σ
       andThen (ofOpt (mul (σ b) (σ q))) fun buf =>
       andThen (ofOpt (zipWith (· - ·) (r == a) false (σ r) (σ a) buf)) fun c =>
       .ok (write r c σ)) := by
    unfold quoRem
    rw [ha, hb]
    dsimp only
    rw [if_neg (show ¬((one1 (1 : F[X])).rows = 0 ∨ (one1 (X : F[X])).rows < (one1 (1 : F[X])).rows) by show ¬(1 = 0 ∨ 1 < 1); omega)]
    show (if rowDegree (one1 (X : F[X])) 0 - rowDegree (one1 (1 : F[X])) 0 < 0 then _ else _) = _
    rw [if_neg (by omega), if_neg (show ¬(one1 (1 : F[X])).rows < (one1 (X : F[X])).rows by show ¬1 < 1; omega)]
    have : rowDegree (one1 (X : F[X])) 0 - rowDegree (one1 (1 : F[X])) 0 = 1 := by omega
    show andThen (solve _ (rowReverse false ⟨0, 0, fun _ => 0⟩ (one1 X) fun i => rowDegree (one1 (1 : F[X])) i +
      (rowDegree (one1 (X : F[X])) 0 - rowDegree (one1 (1 : F[X])) 0)) (rowDegree (one1 (X : F[X])) 0 - rowDegree (one1 (1 : F[X])) 0 + 1).toNat)
      (fun u => andThen (ofOpt (mul ((write q (reverse (q == r) (write r u σ q) (write r u σ r) (rowDegree (one1 (X : F[X])) 0 - rowDegree (one1 (1 : F[X])) 0)) (write r u σ)) b) _)) _) = _
    rw [this]
    rfl
  obtain ⟨-, -, p1, p2, p3⟩ := C65_reverse false ⟨0, 0, fun _ => 0⟩ (one1 (1 : F[X])) 0 (rowDegree (one1 (1 : F[X])))
  obtain ⟨-, -, q1, q2, q3⟩ := C65_reverse false ⟨0, 0, fun _ => 0⟩ (one1 (X : F[X])) 0 fun i => rowDegree (one1 (1 : F[X])) i + 1
  have p4 : (rowReverse false ⟨0, 0, fun _ => 0⟩ (one1 (1 : F[X])) (rowDegree (one1 (1 : F[X])))).e (0, 0) = 1 := by
    ext k
    rw [p3 0 0 (Nat.succ_pos 0) (Nat.succ_pos 0), e2]
    show (if (k : Int) ≤ 0 then (1 : F[X]).coeff _ else 0) = _
    rcases k with _ | k
    · rfl
    · rw [if_neg (by omega), coeff_one, if_neg (by omega)]
  have q4 : (rowReverse false ⟨0, 0, fun _ => 0⟩ (one1 (X : F[X])) fun i => rowDegree (one1 (1 : F[X])) i + 1).e (0, 0) = 1 := by
    ext k
    rw [q3 0 0 (Nat.succ_pos 0) (Nat.succ_pos 0), e2]
    show (if (k : Int) ≤ 0 + 1 then (X : F[X]).coeff (0 + 1 - (k : Int)).toNat else 0) = _
    rcases k with _ | _ | k
    · exact coeff_X_one.trans coeff_one_zero.symm
    · rw [if_pos (by omega), show (0 + 1 - ((0 + 1 : Nat) : Int)).toNat = 0 by omega, coeff_X_zero, coeff_one, if_neg (by omega)]
    · rw [if_neg (by omega), coeff_one, if_neg (by omega)]
  have hc : ConstInv (rowReverse false ⟨0, 0, fun _ => 0⟩ (one1 (1 : F[X])) (rowDegree (one1 (1 : F[X])))) := by
    refine ⟨fun _ => 1, fun i j hi hj => ?_⟩
    rw [p1] at hi hj ⊢
    have hi : i < 1 := hi
    have hj : j < 1 := hj
    obtain rfl : i = 0 := by omega
    obtain rfl : j = 0 := by omega
    show ∑ l ∈ Finset.range 1, _ = _
    rw [Finset.sum_range_one, p4, if_pos rfl, coeff_one_zero, one_mul]
  rw [hu]
  rcases hS _ (rowReverse false ⟨0, 0, fun _ => 0⟩ (one1 X) fun i => rowDegree (one1 (1 : F[X])) i + 1) 2 (by omega) (show 0 < _ from p1.symm ▸ Nat.succ_pos 0)
    (p1.trans p2.symm) hc (q1.trans p1.symm) with ⟨u, e, u1, u2, u3, u4⟩ | e
  · right
    rw [e]
    refine ⟨u, u1.trans p2, u2.trans q2, ?_, rfl⟩
    ext k
    by_cases hk : k < 2
    · have h := u4 0 0 (show 0 < _ from p1.symm ▸ Nat.succ_pos 0) (show 0 < _ from q2.symm ▸ Nat.succ_pos 0) k hk
      rw [p2, q4] at h
      have h1 : ∑ l ∈ Finset.range (one1 (1 : F[X])).cols, (rowReverse false ⟨0, 0, fun _ => 0⟩ (one1 (1 : F[X])) (rowDegree (one1 (1 : F[X])))).e (0, l) * u.e (l, 0) = u.e (0, 0) := by
        show ∑ l ∈ Finset.range 1, _ = _
        rw [Finset.sum_range_one, p4, one_mul]
      rwa [h1] at h
    · rw [u3 0 0 (by rw [p2]; exact Nat.succ_pos 0) (by rw [q2]; exact Nat.succ_pos 0) k (by omega), coeff_one, if_neg (by omega)]
  · left
    rw [e]
    rfl

/-- Reversal of the solution 1 gives the quotient `X`. -/
theorem reverse_one (al : Bool) (x u : PMat F[X]) (h1 : u.rows = 1) (h2 : u.cols = 1) (h3 : u.e (0, 0) = 1) :
    (reverse al x u 1).rows = 1 ∧ (reverse al x u 1).cols = 1 ∧ (reverse al x u 1).e (0, 0) = X := by
  obtain ⟨⟨r1, r2, r3⟩, -⟩ := C65_reverse al x u 1 fun _ => 0
  refine ⟨r1.trans h1, r2.trans h2, ext fun k => ?_⟩
  rw [r3 0 0 (by omega) (by omega), h3]
  rcases k with _ | _ | k
  · rw [if_pos (by omega), show (1 - ((0 : Nat) : Int)).toNat = 1 by omega, coeff_X_zero, coeff_one, if_neg (by omega)]
  · rw [if_pos (by omega), show (1 - ((0 + 1 : Nat) : Int)).toNat = 0 by omega, coeff_one_zero, coeff_X_one]
  · rw [if_neg (by omega), coeff_X, if_neg (by omega)]

/-- **C73, negation**. If the remainder is stored in `A`, the result is not the remainder: the solution of the reversed
    system overwrites `A` before the remainder is computed.  Division of `X` by 1. -/
theorem C73_remainder_in_A_wrong {solve : PMat F[X] → PMat F[X] → Nat → Out (PMat F[X])} (hS : SolveOk solve)
    {mul : PMat F[X] → PMat F[X] → Option (PMat F[X])} (hM : MulOk mul) (q a b : Nat) (σ : Nat → PMat F[X]) (ha : σ a = one1 X) (hb : σ b = one1 1)
    (hqa : q ≠ a) (hqb : q ≠ b) (σ' : Nat → PMat F[X]) (h : quoRem solve mul q a a b σ = .ok σ') :
    (σ' a).e (0, 0) = 1 - X ∧ ¬IsQuoRem (σ a) (σ b) (fun _ => 0) (σ' q) (σ' a) := by
  have hab : a ≠ b := fun h => by
    rw [h] at ha
    have := congrArg (fun m : PMat F[X] => (m.e (0, 0)).coeff 0) (ha.symm.trans hb)
    simp [one1] at this
  have key : (σ' a).e (0, 0) = 1 - X := by
    rcases quoRem_X_one hS mul q a a b σ ha hb with h1 | ⟨u, u1, u2, u3, h1⟩
    · rw [h1] at h; cases h
    rw [h1] at h
    clear h1
    dsimp only at h
    have hu : write a u σ a = u := Function.update_self _ _ _
    rw [hu] at h
    obtain ⟨r1, r2, r3⟩ := reverse_one (q == a) (write a u σ q) u u1 u2 u3
    generalize reverse (q == a) (write a u σ q) u 1 = Q at *
    have e1 : write q Q (write a u σ) b = one1 1 := by
      unfold write
      rw [Function.update_of_ne hqb.symm, Function.update_of_ne hab.symm, hb]
    have e2 : write q Q (write a u σ) a = u := by
      unfold write
      rw [Function.update_of_ne hqa.symm, Function.update_self]
    have e3 : write q Q (write a u σ) q = Q := Function.update_self _ _ _
    rw [e1, e2, e3] at h
    obtain ⟨c, em, c1, c2, c3⟩ := hM (one1 1) Q r1.symm (Nat.succ_pos 0)
    have c1 : c.rows = 1 := c1
    rw [em] at h
    dsimp only [ofOpt, andThen] at h
    obtain ⟨-, z2, -, z4⟩ := C66_add_sub (a == a) false u u c (by simp)
    rcases ez : zipWith (· - ·) (a == a) false u u c with _ | y
    · rw [ez] at h; cases h
    rw [ez] at h
    obtain ⟨y1, y2, y3⟩ := z4 y ez
    injection h with h
    have : σ' a = y := by rw [← h]; exact Function.update_self _ _ _
    rw [this, y3 0 0 (by omega) (by omega), u3, c3 0 0 (Nat.succ_pos 0) (by omega)]
    show 1 - ∑ l ∈ Finset.range 1, _ = _
    rw [Finset.sum_range_one, r3]
    show 1 - 1 * X = _
    rw [one_mul]
  refine ⟨key, fun hq => ?_⟩
  have := hq.deg 0 0 (by rw [ha]; exact Nat.succ_pos 0) (by rw [ha]; exact Nat.succ_pos 0) 0 (le_refl _)
  rw [key] at this
  simp at this

/-- **C73, negation**. If the quotient is stored in `B`, the remainder is wrong: it is computed with the quotient in the
    place of `B`.  Division of `X` by 1. -/
theorem C73_quotient_in_B_wrong {solve : PMat F[X] → PMat F[X] → Nat → Out (PMat F[X])} (hS : SolveOk solve)
    {mul : PMat F[X] → PMat F[X] → Option (PMat F[X])} (hM : MulOk mul) (r a b : Nat) (σ : Nat → PMat F[X]) (ha : σ a = one1 X) (hb : σ b = one1 1)
    (hra : r ≠ a) (σ' : Nat → PMat F[X]) (h : quoRem solve mul b r a b σ = .ok σ') :
    (σ' r).e (0, 0) = X - X * X ∧ ¬IsQuoRem (σ a) (σ b) (fun _ => 0) (σ' b) (σ' r) := by
  have hab : a ≠ b := fun h => by
    rw [h] at ha
    have := congrArg (fun m : PMat F[X] => (m.e (0, 0)).coeff 0) (ha.symm.trans hb)
    simp [one1] at this
  have key : (σ' r).e (0, 0) = X - X * X := by
    rcases quoRem_X_one hS mul b r a b σ ha hb with h1 | ⟨u, u1, u2, u3, h1⟩
    · rw [h1] at h; cases h
    rw [h1] at h
    clear h1
    dsimp only at h
    have hu : write r u σ r = u := Function.update_self _ _ _
    rw [hu] at h
    obtain ⟨r1, r2, r3⟩ := reverse_one (b == r) (write r u σ b) u u1 u2 u3
    generalize reverse (b == r) (write r u σ b) u 1 = Q at *
    have e1 : write b Q (write r u σ) b = Q := Function.update_self _ _ _
    have e2 : write b Q (write r u σ) a = one1 X := by
      unfold write
      rw [Function.update_of_ne hab, Function.update_of_ne hra.symm, ha]
    rw [e1, e2] at h
    obtain ⟨c, em, c1, c2, c3⟩ := hM Q Q (r2.trans r1.symm) (by omega)
    rw [em] at h
    dsimp only [ofOpt, andThen] at h
    have hba : (r == a) = false := by simpa using hra
    rw [hba] at h
    generalize write b Q (write r u σ) r = R0 at *
    obtain ⟨-, z2, -, z4⟩ := C66_add_sub false false R0 (one1 X) c (by simp)
    rcases ez : zipWith (· - ·) false false R0 (one1 X) c with _ | y
    · rw [ez] at h; cases h
    rw [ez] at h
    obtain ⟨y1, y2, y3⟩ := z4 y ez
    injection h with h
    have : σ' r = y := by rw [← h]; exact Function.update_self _ _ _
    rw [this, y3 0 0 (Nat.succ_pos 0) (Nat.succ_pos 0), c3 0 0 (by omega) (by omega), r2, Finset.sum_range_one, r3]
    rfl
  refine ⟨key, fun hq => ?_⟩
  have := hq.deg 0 0 (by rw [ha]; exact Nat.succ_pos 0) (by rw [ha]; exact Nat.succ_pos 0) 1 (by omega)
  rw [key] at this
  simp at this

/-- The contract is met by `solve_series` of C72. -/
theorem C73_solve_ok [DecidableEq F] {C : Calls F} (hC : C.Ok) (ht : 1 ≤ C.thresh) : SolveOk (solveSeries C) := by
  intro A b prec hp h0 hsq hc hb
  rcases C72_solve_series_partial hC ht A b prec hp h0 hsq hc hb with h | ⟨-, -, h, -⟩
  · exact Or.inl h
  · exact Or.inr h

/-! ### The hypotheses can be met -/

/-- The matrix with rows `(X^2, 1)`, `(1, 2)`: its leading matrix has the rows `(1, 0)`, `(1, 2)`. -/
noncomputable def div5 : PMat (ZMod 5)[X] := ⟨2, 2, fun ij => if ij = (0, 0) then X ^ 2 else if ij = (1, 1) then C 2 else 1⟩

theorem div5_reduced : RowReduced div5 (fun i => if i = 0 then 2 else 0) := by
  refine ⟨rfl, fun i j hi hj k hk => ?_, fun ij => if ij = (0, 0) then 1 else if ij = (1, 0) then 2 else if ij = (1, 1) then 3 else 0, fun i j hi hj => ?_⟩
  · have h1 : i = 0 ∨ i = 1 := by have : i < 2 := hi; omega
    have h2 : j = 0 ∨ j = 1 := by have : j < 2 := hj; omega
    rcases h1 with rfl | rfl <;> rcases h2 with rfl | rfl <;> simp [div5, coeff_X_pow, coeff_one, coeff_C] at hk ⊢ <;> omega
  · have h1 : i = 0 ∨ i = 1 := by have : i < 2 := hi; omega
    have h2 : j = 0 ∨ j = 1 := by have : j < 2 := hj; omega
    show ∑ k ∈ Finset.range 2, _ = _
    rw [Finset.sum_range_succ, Finset.sum_range_one]
    rcases h1 with rfl | rfl <;> rcases h2 with rfl | rfl <;> simp [div5, coeff_X_pow, coeff_one, coeff_C] <;> decide

example (mul : PMat (ZMod 5)[X] → PMat (ZMod 5)[X] → Option (PMat (ZMod 5)[X])) (hM : MulOk mul) :=
  C73_quo_rem_partial (C73_solve_ok (callsEx_ok 1 2) (Nat.le_succ 1)) hM 0 1 2 3 (fun x => if x = 3 then div5 else ⟨2, 3, fun ij => X ^ (ij.1 + 3 * ij.2)⟩) _
    div5_reduced (Nat.succ_pos 1) rfl (by decide) (by decide) (by decide) (by decide) (by decide)

example (Q R Q' R' : PMat (ZMod 5)[X]) := C73_unique (A := div5) div5_reduced rfl (Q := Q) (R := R) (Q' := Q') (R' := R')

example : ∃ Q R, IsQuoRem div5 div5 (fun i => if i = 0 then 2 else 0) Q R :=
  ⟨⟨2, 2, fun ij => if ij.1 = ij.2 then 1 else 0⟩, ⟨2, 2, fun _ => 0⟩, rfl, rfl, rfl, rfl, fun i j hi hj => by
    have hj : j < 2 := hj
    show div5.e (i, j) = ∑ l ∈ Finset.range 2, div5.e (i, l) * (if l = j then 1 else 0) + 0
    rw [Finset.sum_congr rfl fun l _ => mul_ite _ _ _ _, Finset.sum_congr rfl fun l _ => by rw [mul_one, mul_zero], Finset.sum_ite_eq', if_pos (Finset.mem_range.2 hj), add_zero],
    fun i j hi hj k hk => coeff_zero _⟩

/-- The division of `X` by 1 succeeds for functions that satisfy the contracts, with the remainder in `A`. -/
example : ∃ (solve : PMat (ZMod 5)[X] → PMat (ZMod 5)[X] → Nat → Out (PMat (ZMod 5)[X])) (mul : PMat (ZMod 5)[X] → PMat (ZMod 5)[X] → Option (PMat (ZMod 5)[X])),
    SolveOk solve ∧ MulOk mul :=
  let ⟨mul, hM⟩ := mulOk_exists (F := ZMod 5)
  ⟨_, mul, C73_solve_ok (callsEx_ok 1 2) (Nat.le_succ 1), hM⟩

end PML.Ntl.Div
