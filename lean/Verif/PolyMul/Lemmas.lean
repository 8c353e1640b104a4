import Verif.PolyMul.Model
import Verif.PolyMul.Spec
import Verif.MatPoly.Lemmas
import Verif.NmodExtra.Props
import Mathlib.LinearAlgebra.Vandermonde
import Mathlib.LinearAlgebra.Matrix.NonsingularInverse
import Mathlib.LinearAlgebra.Lagrange

/-! # Lemmas on products of polynomial matrices -/

namespace PML.PolyMul

open PML.MatOps PML.MatPoly PML.PolyMul.Spec Polynomial

set_option linter.unusedSectionVars false

/-! ### Waksman -/

section Waksman

variable {R : Type} [CommRing R]

theorem waksmanLoop_spec (m p : Nat) (hm : 0 < m) (hp : 0 < p) (A B : Mat R) (s : Waksman R)
    (j : Nat) :
    let s' := waksmanLoop m p A B j s
    (∀ l k, s'.C l k = if l < m ∧ k < p then s.C l k + ∑ t ∈ Finset.range j,
      (A l (2 * t) + B (2 * t + 1) k) * (A l (2 * t + 1) + B (2 * t) k) else s.C l k) ∧
    (∀ k, k < p → s'.Crow k = s.Crow k + ∑ t ∈ Finset.range j,
      (A 0 (2 * t) - B (2 * t + 1) k) * (A 0 (2 * t + 1) - B (2 * t) k)) ∧
    (∀ l, 1 ≤ l → l < m → s'.Ccol l = s.Ccol l + ∑ t ∈ Finset.range j,
      (A l (2 * t) - B (2 * t + 1) 0) * (A l (2 * t + 1) - B (2 * t) 0)) := by
  induction j with
  | zero => simp [waksmanLoop]
  | succ j ih =>
    obtain ⟨h1, h2, h3⟩ := ih
    have e1 : 2 * (j + 1) - 1 = 2 * j + 1 := by omega
    have e2 : 2 * j + 1 - 1 = 2 * j := by omega
    simp only [waksmanLoop, waksmanStep, e1, e2, Finset.sum_range_succ]
    refine ⟨fun l k => ?_, fun k hk => ?_, fun l hl hlm => ?_⟩
    · simp only [h1]
      by_cases hlk : l < m ∧ k < p
      · obtain ⟨hl, hk⟩ := hlk
        by_cases hl0 : l = 0
        · subst hl0; simp [hk, hm, add_assoc]
        · have hl1 : 1 ≤ l := by omega
          by_cases hk0 : k = 0
          · subst hk0; simp [hl0, hl1, hl, hp, add_assoc]
          · have hk1 : 1 ≤ k := by omega
            simp [hl0, hl1, hk0, hk1, hl, hk, add_assoc]
      · have c1 : ¬((1 ≤ l ∧ l < m) ∧ 1 ≤ k ∧ k < p) := by omega
        have c2 : ¬((1 ≤ l ∧ l < m) ∧ k = 0) := by omega
        have c3 : ¬(l = 0 ∧ k < p) := by omega
        simp only [if_neg c1, if_neg c2, if_neg c3, if_neg hlk]
    · rw [if_pos hk, h2 k hk, add_assoc]
    · rw [if_pos ⟨hl, hlm⟩, h3 l hl hlm, add_assoc]

theorem sum_pairs (n : Nat) (f : Nat → R) :
    ∑ k ∈ Finset.range n, f k =
      ∑ t ∈ Finset.range (n / 2), (f (2 * t) + f (2 * t + 1)) +
        if n % 2 = 1 then f (n - 1) else 0 := by
  have h : ∀ t, ∑ k ∈ Finset.range (2 * t), f k =
      ∑ t ∈ Finset.range t, (f (2 * t) + f (2 * t + 1)) := by
    intro t
    induction t with
    | zero => simp
    | succ t ih =>
      rw [show 2 * (t + 1) = 2 * t + 1 + 1 from by ring, Finset.sum_range_succ,
        Finset.sum_range_succ, ih, Finset.sum_range_succ, add_assoc]
  rw [← h]
  by_cases hn : n % 2 = 1
  · rw [if_pos hn]
    have e : n - 1 = 2 * (n / 2) := by omega
    have e' : n = 2 * (n / 2) + 1 := by omega
    rw [e, ← Finset.sum_range_succ, ← e']
  · rw [if_neg hn, add_zero]
    congr 2; omega

/-- Waksman's identity, for any inner dimension. -/
theorem waksman_apply (m n p : Nat) (half : R) (hhalf : 2 * half = 1) (C0 A B : Mat R) (l k : Nat) :
    waksman m n p half C0 A B l k =
      if l < m ∧ k < p then ∑ j ∈ Finset.range n, A l j * B j k else C0 l k := by
  unfold waksman
  by_cases h0 : m < 1 ∨ n < 1 ∨ p < 1
  · rw [if_pos h0]
    by_cases hlk : l < m ∧ k < p
    · rw [if_pos hlk, if_pos hlk]
      have : n = 0 := by omega
      rw [this]; simp
    · rw [if_neg hlk, if_neg hlk]
  rw [if_neg h0]
  have hm : 0 < m := by omega
  have hp : 0 < p := by omega
  obtain ⟨h1, h2, h3⟩ := waksmanLoop_spec m p hm hp A B
    { C := fun i j => if i < m ∧ j < p then 0 else C0 i j, Crow := fun _ => 0, Ccol := fun _ => 0 }
    (n / 2)
  generalize waksmanLoop m p A B (n / 2) { C := fun i j => if i < m ∧ j < p then 0 else C0 i j, Crow := fun _ => 0, Ccol := fun _ => 0 } = s at h1 h2 h3
  simp only at h1 h2 h3
  -- the even part
  have key : waksmanFinish m p half s l k =
      if l < m ∧ k < p then ∑ t ∈ Finset.range (n / 2),
        (A l (2 * t) * B (2 * t) k + A l (2 * t + 1) * B (2 * t + 1) k) else C0 l k := by
    have hC : ∀ l k, l < m → k < p → s.C l k = ∑ t ∈ Finset.range (n / 2),
        (A l (2 * t) + B (2 * t + 1) k) * (A l (2 * t + 1) + B (2 * t) k) := by
      intro l k hl hk
      rw [h1, if_pos ⟨hl, hk⟩, if_pos ⟨hl, hk⟩, zero_add]
    have hrow : ∀ k, k < p → (s.Crow k + s.C 0 k) * half = ∑ t ∈ Finset.range (n / 2),
        (A 0 (2 * t) * A 0 (2 * t + 1) + B (2 * t) k * B (2 * t + 1) k) := by
      intro k hk
      rw [h2 k hk, hC 0 k hm hk, zero_add, ← Finset.sum_add_distrib, Finset.sum_mul]
      refine Finset.sum_congr rfl fun t _ => ?_
      linear_combination (A 0 (2 * t) * A 0 (2 * t + 1) + B (2 * t) k * B (2 * t + 1) k) * hhalf
    have hcol : ∀ l, 1 ≤ l → l < m → (s.Ccol l + s.C l 0) * half = ∑ t ∈ Finset.range (n / 2),
        (A l (2 * t) * A l (2 * t + 1) + B (2 * t) 0 * B (2 * t + 1) 0) := by
      intro l hl hlm
      rw [h3 l hl hlm, hC l 0 hlm hp, zero_add, ← Finset.sum_add_distrib, Finset.sum_mul]
      refine Finset.sum_congr rfl fun t _ => ?_
      linear_combination (A l (2 * t) * A l (2 * t + 1) + B (2 * t) 0 * B (2 * t + 1) 0) * hhalf
    have n10 : (1 ≤ 0) = False := by simp
    unfold waksmanFinish
    by_cases hlk : l < m ∧ k < p
    · obtain ⟨hl, hk⟩ := hlk
      rw [if_pos (⟨hl, hk⟩ : l < m ∧ k < p)]
      by_cases hl0 : l = 0
      · subst hl0
        by_cases hk0 : k = 0
        · subst hk0
          simp only [n10, false_and, true_and, and_true, and_false, if_false, if_true]
          rw [hrow 0 hp, hC 0 0 hm hp, ← Finset.sum_sub_distrib]
          exact Finset.sum_congr rfl fun t _ => by ring
        · have hk1 : 1 ≤ k := by omega
          simp only [n10, false_and, true_and, and_true, and_false, if_false, if_true, eq_false hk0, eq_true hk1, eq_true hk]
          rw [hrow k hk, hC 0 k hm hk, ← Finset.sum_sub_distrib]
          exact Finset.sum_congr rfl fun t _ => by ring
      · have hl1 : 1 ≤ l := by omega
        by_cases hk0 : k = 0
        · subst hk0
          simp only [n10, false_and, true_and, and_true, and_false, if_false, if_true, eq_false hl0, eq_true hl1, eq_true hl]
          rw [hcol l hl1 hl, hC l 0 hl hp, ← Finset.sum_sub_distrib]
          exact Finset.sum_congr rfl fun t _ => by ring
        · have hk1 : 1 ≤ k := by omega
          simp only [n10, false_and, true_and, and_true, and_false, if_false, if_true, eq_false hl0, eq_true hl1, eq_true hl, eq_false hk0, eq_true hk1,
            eq_true hk]
          rw [hcol l hl1 hl, hC l k hl hk, hrow k hk, hrow 0 hp, ← Finset.sum_sub_distrib,
            ← Finset.sum_sub_distrib, ← Finset.sum_sub_distrib]
          exact Finset.sum_congr rfl fun t _ => by ring
    · have hs : s.C l k = C0 l k := by rw [h1, if_neg hlk, if_neg hlk]
      rw [if_neg hlk]
      have c1 : ¬((1 ≤ l ∧ l < m) ∧ k = 0) := by omega
      have c2 : ¬(l = 0 ∧ k = 0) := by omega
      by_cases hk : 1 ≤ k ∧ k < p
      · have hl0 : ¬ l = 0 := by omega
        have hlm : ¬ l < m := by omega
        simp only [if_pos hk, if_neg hl0, if_neg hlm, if_neg c1, if_neg c2, hs]
      · simp only [if_neg hk, if_neg c1, if_neg c2, hs]
  rw [sum_pairs]
  by_cases hn : n % 2 = 1
  · simp only [if_pos hn]
    by_cases hlk : l < m ∧ k < p
    · rw [if_pos hlk, if_pos hlk, key, if_pos hlk]
    · rw [if_neg hlk, if_neg hlk, key, if_neg hlk]
  · simp only [if_neg hn, add_zero]
    exact key

end Waksman

/-! ### Evaluation and interpolation -/

section Field

variable {K : Type} [Field K] [DecidableEq K]

theorem coeff_ofCoeffs (N : Nat) (f : Nat → K) (k : Nat) :
    (ofCoeffs N f).coeff k = if k < N then f k else 0 := by
  simp only [ofCoeffs, finsetSum_coeff, coeff_monomial, Finset.sum_ite_eq', Finset.mem_range]

theorem vdm_eq (pt : Nat → K) (i j : Nat) : vdm pt i j = pt i ^ j := by
  induction j with
  | zero => simp [vdm]
  | succ j ih => rw [vdm, ih, pow_succ]

theorem eval_eq_sum (P : K[X]) (N : Nat) (h : ∀ k, N ≤ k → P.coeff k = 0) (x : K) :
    P.eval x = ∑ k ∈ Finset.range N, P.coeff k * x ^ k := by
  by_cases hN : N = 0
  · have : P = 0 := by ext k; rw [h k (by omega)]; simp
    rw [hN, this]; simp
  · refine eval_eq_sum_range' ?_ x
    by_contra hc
    have hd := h P.natDegree (by omega)
    have : P = 0 := leadingCoeff_eq_zero.1 hd
    rw [this] at hc; simp at hc; omega

/-- Contract of FLINT's `nmod_mat_inv`: the inverse of an invertible matrix. -/
def InvContract (inv : MatInvFn K) : Prop :=
  ∀ n M, (asMatrix n n M).det ≠ 0 → asMatrix n n (inv n M) * asMatrix n n M = 1

theorem invContract_satisfiable : ∃ inv : MatInvFn K, InvContract inv := by
  refine ⟨fun n M i j => if h : i < n ∧ j < n then
    ((asMatrix n n M)⁻¹ : Matrix (Fin n) (Fin n) K) ⟨i, h.1⟩ ⟨j, h.2⟩ else 0, fun n M hM => ?_⟩
  have : asMatrix n n (fun i j => if h : i < n ∧ j < n then
    ((asMatrix n n M)⁻¹ : Matrix (Fin n) (Fin n) K) ⟨i, h.1⟩ ⟨j, h.2⟩ else 0) = (asMatrix n n M)⁻¹ := by
    refine Matrix.ext fun i j => ?_
    show (if h : (i : Nat) < n ∧ (j : Nat) < n then _ else _) = _
    rw [dif_pos ⟨i.2, j.2⟩]
  rw [this]
  exact Matrix.nonsing_inv_mul _ (isUnit_iff_ne_zero.2 hM)

/-- Multiplying the values of a polynomial of length at most `N` at `N` distinct
    points by the inverse of the Vandermonde matrix gives its coefficients. -/
theorem inv_vdm_coeff {inv : MatInvFn K} (hinv : InvContract inv) (N : Nat) (pt : Nat → K)
    (hpt : ∀ i j, i < N → j < N → pt i = pt j → i = j) (P : K[X])
    (hP : ∀ k, N ≤ k → P.coeff k = 0) (vals : Nat → K) (hv : ∀ i, i < N → vals i = P.eval (pt i))
    (k : Nat) (hk : k < N) :
    matMul N (inv N fun i j => vdm pt i j) (fun i _ => vals i) k 0 = P.coeff k := by
  have hV : asMatrix N N (fun i j => vdm pt i j) = Matrix.vandermonde (fun i : Fin N => pt i) := by
    refine Matrix.ext fun i j => ?_
    rw [Matrix.vandermonde_apply]; exact vdm_eq pt i j
  have hdet : (asMatrix N N (fun i j => vdm pt i j)).det ≠ 0 := by
    rw [hV, Matrix.det_vandermonde_ne_zero_iff]
    intro i j h; exact Fin.ext (hpt i j i.2 j.2 h)
  have h1 := hinv N _ hdet
  unfold matMul
  have hsum : ∀ i, i < N → vals i = ∑ j ∈ Finset.range N, vdm pt i j * P.coeff j := by
    intro i hi
    rw [hv i hi, eval_eq_sum P N hP]
    exact Finset.sum_congr rfl fun j _ => by rw [vdm_eq, mul_comm]
  have h2 : ∀ j, j < N → ∑ i ∈ Finset.range N, inv N (fun i j => vdm pt i j) k i * vdm pt i j =
      if k = j then 1 else 0 := by
    intro j hj
    have := congrFun (congrFun h1 ⟨k, hk⟩) ⟨j, hj⟩
    rw [Matrix.mul_apply, Matrix.one_apply] at this
    simp only [asMatrix, Matrix.of_apply, Fin.mk.injEq] at this
    rw [Finset.sum_range]
    exact this
  have h3 : ∑ i ∈ Finset.range N, inv N (fun i j => vdm pt i j) k i * vals i =
      ∑ j ∈ Finset.range N, (if k = j then 1 else 0) * P.coeff j := by
    have h4 : ∑ j ∈ Finset.range N, (if k = j then 1 else 0) * P.coeff j =
        ∑ j ∈ Finset.range N, (∑ i ∈ Finset.range N,
          inv N (fun i j => vdm pt i j) k i * vdm pt i j) * P.coeff j :=
      Finset.sum_congr rfl fun j hj => by rw [h2 j (Finset.mem_range.1 hj)]
    rw [h4]
    simp only [Finset.sum_mul]
    rw [Finset.sum_comm]
    refine Finset.sum_congr rfl fun i hi => ?_
    rw [hsum i (Finset.mem_range.1 hi), Finset.mul_sum]
    exact Finset.sum_congr rfl fun j _ => by ring
  rw [h3]
  simp [hk]

theorem maxLength_coeff {r c : Nat} {M : Mat K[X]} {n : Nat} (h : maxLength r c M ≤ n) {i j : Nat}
    (hi : i < r) (hj : j < c) {k : Nat} (hk : n ≤ k) : (M i j).coeff k = 0 :=
  (maxLength_le_iff r c M n).1 h i hi j hj k hk

/-- The product entry, and its length. -/
theorem prod_coeff_zero {m n p : Nat} {a b : Mat K[X]} {l1 l2 : Nat}
    (ha : maxLength m n a ≤ l1) (hb : maxLength n p b ≤ l2) {i j : Nat} (hi : i < m) (hj : j < p)
    {k : Nat} (hk : l1 + l2 ≤ k + 1) :
    (∑ x ∈ Finset.range n, a i x * b x j).coeff k = 0 := by
  rw [finsetSum_coeff]
  refine Finset.sum_eq_zero fun x hx => ?_
  rw [coeff_mul]
  refine Finset.sum_eq_zero fun y hy => ?_
  rw [Finset.mem_antidiagonal] at hy
  rw [Finset.mem_range] at hx
  by_cases h1 : l1 ≤ y.1
  · rw [maxLength_coeff ha hi hx h1, zero_mul]
  · rw [maxLength_coeff hb hx hj (by omega : l2 ≤ y.2), mul_zero]

theorem matMul_eval {a : K[X]} {d : Nat} (pt : Nat → K) (i : Nat)
    (h : ∀ k, d ≤ k → a.coeff k = 0) :
    matMul d (fun i k => vdm pt i k) (fun k _ => a.coeff k) i 0 = a.eval (pt i) := by
  rw [eval_eq_sum a d h]
  unfold matMul
  exact Finset.sum_congr rfl fun k _ => by simp only [vdm_eq]; rw [mul_comm]

theorem prod_eval (n : Nat) (a b : Mat K[X]) (i j : Nat) (x : K) :
    (∑ k ∈ Finset.range n, a i k * b k j).eval x =
      ∑ k ∈ Finset.range n, (a i k).eval x * (b k j).eval x := by
  rw [eval_finsetSum]; simp

theorem vandermonde1_apply {inv : MatInvFn K} (hinv : InvContract inv) (m n p : Nat)
    (c0 a b : Mat K[X])
    (hpt : ∀ i j : Nat, i < maxLength m n a + maxLength n p b - 1 →
      j < maxLength m n a + maxLength n p b - 1 → (i : K) = (j : K) → i = j) (u v : Nat) :
    vandermonde1 inv m n p c0 a b u v =
      if u < m ∧ v < p then ∑ k ∈ Finset.range n, a u k * b k v else c0 u v := by
  unfold vandermonde1
  by_cases huv : u < m ∧ v < p
  · by_cases h0 : maxLength m n a = 0 ∨ maxLength n p b = 0
    · simp only [if_pos h0, if_pos huv]
      symm
      refine Finset.sum_eq_zero fun x hx => ?_
      rw [Finset.mem_range] at hx
      rcases h0 with h0 | h0
      · have : a u x = 0 := by
          ext k; rw [maxLength_coeff (le_of_eq h0) huv.1 hx (Nat.zero_le k), coeff_zero]
        rw [this, zero_mul]
      · have : b x v = 0 := by
          ext k; rw [maxLength_coeff (le_of_eq h0) hx huv.2 (Nat.zero_le k), coeff_zero]
        rw [this, mul_zero]
    · simp only [if_neg h0, if_pos huv]
      generalize hA : maxLength m n a = lA at *
      generalize hB : maxLength n p b = lB at *
      have eN : lA - 1 + (lB - 1) + 1 = lA + lB - 1 := by omega
      have eA : lA - 1 + 1 = lA := by omega
      have eB : lB - 1 + 1 = lB := by omega
      rw [eN, eA, eB]
      ext k
      rw [coeff_ofCoeffs]
      by_cases hk : k < lA + lB - 1
      · rw [if_pos hk]
        refine inv_vdm_coeff hinv (lA + lB - 1) (fun i => (i : K)) hpt _
          (fun k hk => prod_coeff_zero (le_of_eq hA) (le_of_eq hB) huv.1 huv.2 (by omega)) _ ?_ k hk
        intro i _
        rw [prod_eval]
        show ∑ l ∈ Finset.range n, _ = _
        refine Finset.sum_congr rfl fun x hx => ?_
        rw [Finset.mem_range] at hx
        simp only
        rw [matMul_eval _ _ (fun k hk => maxLength_coeff (le_of_eq hA) huv.1 hx hk),
          matMul_eval _ _ (fun k hk => maxLength_coeff (le_of_eq hB) hx huv.2 hk)]
      · rw [if_neg hk, prod_coeff_zero (le_of_eq hA) (le_of_eq hB) huv.1 huv.2 (by omega)]
  · simp only [if_neg huv]
    split_ifs <;> simp only [if_neg huv]

theorem prod_zero {m n p : Nat} {a b : Mat K[X]}
    (h0 : maxLength m n a = 0 ∨ maxLength n p b = 0) {u v : Nat} (hu : u < m) (hv : v < p) :
    ∑ k ∈ Finset.range n, a u k * b k v = 0 := by
  refine Finset.sum_eq_zero fun x hx => ?_
  rw [Finset.mem_range] at hx
  rcases h0 with h0 | h0
  · have : a u x = 0 := by
      ext k; rw [maxLength_coeff (le_of_eq h0) hu hx (Nat.zero_le k), coeff_zero]
    rw [this, zero_mul]
  · have : b x v = 0 := by
      ext k; rw [maxLength_coeff (le_of_eq h0) hx hv (Nat.zero_le k), coeff_zero]
    rw [this, mul_zero]

theorem eval_even_odd (P : K[X]) (N : Nat) (h : ∀ k, 2 * N ≤ k → P.coeff k = 0) (x : K) :
    P.eval x = ∑ k ∈ Finset.range N, P.coeff (2 * k) * (x * x) ^ k +
      x * ∑ k ∈ Finset.range N, P.coeff (2 * k + 1) * (x * x) ^ k := by
  rw [eval_eq_sum P (2 * N) h, sum_pairs]
  rw [if_neg (by omega), add_zero, Finset.mul_sum, show 2 * N / 2 = N by omega,
    ← Finset.sum_add_distrib]
  refine Finset.sum_congr rfl fun k _ => ?_
  have e : (x * x) ^ k = x ^ (2 * k) := by rw [pow_mul, sq]
  rw [e, pow_succ]; ring

theorem vandermonde2_apply {inv : MatInvFn K} (hinv : InvContract inv) (m n p : Nat)
    (c0 a b : Mat K[X]) (h2 : (2 : K) ≠ 0)
    (hne : ∀ i : Nat, i ≤ (maxLength m n a + maxLength n p b - 2) / 2 → ((i + 1 : Nat) : K) ≠ 0)
    (hpt : ∀ i j : Nat, i ≤ (maxLength m n a + maxLength n p b - 2) / 2 →
      j ≤ (maxLength m n a + maxLength n p b - 2) / 2 →
      ((i + 1 : Nat) : K) * ((i + 1 : Nat) : K) = ((j + 1 : Nat) : K) * ((j + 1 : Nat) : K) → i = j) :
    ∃ c, vandermonde2 inv m n p c0 a b = Outcome.ok c ∧ ∀ u v, c u v =
      if u < m ∧ v < p then ∑ k ∈ Finset.range n, a u k * b k v else c0 u v := by
  unfold vandermonde2
  by_cases h0 : maxLength m n a = 0 ∨ maxLength n p b = 0
  · simp only [if_pos h0]
    refine ⟨_, rfl, fun u v => ?_⟩
    by_cases huv : u < m ∧ v < p
    · rw [if_pos huv, if_pos huv, prod_zero h0 huv.1 huv.2]
    · rw [if_neg huv, if_neg huv]
  · simp only [if_neg h0]
    generalize hA : maxLength m n a = lA at *
    generalize hB : maxLength n p b = lB at *
    have eN : (lA - 1 + (lB - 1)) / 2 = (lA + lB - 2) / 2 := by congr 1; omega
    rw [eN]
    generalize hN : (lA + lB - 2) / 2 + 1 = N at *
    have hfail : ¬((2 : K) = 0 ∨ ∃ i < N, ((2 * (i + 1) : Nat) : K) = 0) := by
      push Not
      refine ⟨h2, fun i hi => ?_⟩
      rw [Nat.cast_mul]
      exact mul_ne_zero (by exact_mod_cast h2) (hne i (by omega))
    rw [if_neg hfail]
    refine ⟨_, rfl, fun u v => ?_⟩
    by_cases huv : u < m ∧ v < p
    · rw [if_pos huv, if_pos huv]
      generalize hP : ∑ k ∈ Finset.range n, a u k * b k v = P
      have hPz : ∀ k, 2 * N ≤ k → P.coeff k = 0 := by
        intro k hk
        rw [← hP]
        exact prod_coeff_zero (le_of_eq hA) (le_of_eq hB) huv.1 huv.2 (by omega)
      -- values of the operands
      have hval : ∀ (q : K[X]) (s i : Nat), (∀ k, 2 * s ≤ k → q.coeff k = 0) →
          let e := matMul s (fun i k => vdm (fun i => ((i + 1 : Nat) : K) * ((i + 1 : Nat) : K)) i k)
            (fun k _ => q.coeff (2 * k)) i 0
          let o := matMul s (fun i k => vdm (fun i => ((i + 1 : Nat) : K) * ((i + 1 : Nat) : K)) i k)
            (fun k _ => q.coeff (2 * k + 1)) i 0
          e + ((i + 1 : Nat) : K) * o = q.eval ((i + 1 : Nat) : K) ∧
          e - ((i + 1 : Nat) : K) * o = q.eval (-((i + 1 : Nat) : K)) := by
        intro q s i hq e o
        have he : e = ∑ k ∈ Finset.range s,
            q.coeff (2 * k) * (((i + 1 : Nat) : K) * ((i + 1 : Nat) : K)) ^ k :=
          Finset.sum_congr rfl fun k _ => by simp only [vdm_eq]; rw [mul_comm]
        have ho : o = ∑ k ∈ Finset.range s,
            q.coeff (2 * k + 1) * (((i + 1 : Nat) : K) * ((i + 1 : Nat) : K)) ^ k :=
          Finset.sum_congr rfl fun k _ => by simp only [vdm_eq]; rw [mul_comm]
        rw [eval_even_odd q s hq, eval_even_odd q s hq, neg_mul_neg, he, ho]
        exact ⟨rfl, by ring⟩
      have hplus : ∀ i, matMul n
          (fun u v => matMul ((lA - 1) / 2 + 1)
            (fun i k => vdm (fun i => ((i + 1 : Nat) : K) * ((i + 1 : Nat) : K)) i k)
            (fun k _ => (a u v).coeff (2 * k)) i 0 + ((i + 1 : Nat) : K) *
            matMul ((lA - 1) / 2 + 1)
            (fun i k => vdm (fun i => ((i + 1 : Nat) : K) * ((i + 1 : Nat) : K)) i k)
            (fun k _ => (a u v).coeff (2 * k + 1)) i 0)
          (fun u v => matMul ((lB - 1) / 2 + 1)
            (fun i k => vdm (fun i => ((i + 1 : Nat) : K) * ((i + 1 : Nat) : K)) i k)
            (fun k _ => (b u v).coeff (2 * k)) i 0 + ((i + 1 : Nat) : K) *
            matMul ((lB - 1) / 2 + 1)
            (fun i k => vdm (fun i => ((i + 1 : Nat) : K) * ((i + 1 : Nat) : K)) i k)
            (fun k _ => (b u v).coeff (2 * k + 1)) i 0) u v = P.eval ((i + 1 : Nat) : K) := by
        intro i
        rw [← hP, prod_eval]
        refine Finset.sum_congr rfl fun x hx => ?_
        rw [Finset.mem_range] at hx
        have h1 := (hval (a u x) ((lA - 1) / 2 + 1) i
          (fun k hk => maxLength_coeff (le_of_eq hA) huv.1 hx (by omega))).1
        have h2 := (hval (b x v) ((lB - 1) / 2 + 1) i
          (fun k hk => maxLength_coeff (le_of_eq hB) hx huv.2 (by omega))).1
        simp only at h1 h2 ⊢
        rw [h1, h2]
      have hminus : ∀ i, matMul n
          (fun u v => matMul ((lA - 1) / 2 + 1)
            (fun i k => vdm (fun i => ((i + 1 : Nat) : K) * ((i + 1 : Nat) : K)) i k)
            (fun k _ => (a u v).coeff (2 * k)) i 0 - ((i + 1 : Nat) : K) *
            matMul ((lA - 1) / 2 + 1)
            (fun i k => vdm (fun i => ((i + 1 : Nat) : K) * ((i + 1 : Nat) : K)) i k)
            (fun k _ => (a u v).coeff (2 * k + 1)) i 0)
          (fun u v => matMul ((lB - 1) / 2 + 1)
            (fun i k => vdm (fun i => ((i + 1 : Nat) : K) * ((i + 1 : Nat) : K)) i k)
            (fun k _ => (b u v).coeff (2 * k)) i 0 - ((i + 1 : Nat) : K) *
            matMul ((lB - 1) / 2 + 1)
            (fun i k => vdm (fun i => ((i + 1 : Nat) : K) * ((i + 1 : Nat) : K)) i k)
            (fun k _ => (b u v).coeff (2 * k + 1)) i 0) u v = P.eval (-((i + 1 : Nat) : K)) := by
        intro i
        rw [← hP, prod_eval]
        refine Finset.sum_congr rfl fun x hx => ?_
        rw [Finset.mem_range] at hx
        have h1 := (hval (a u x) ((lA - 1) / 2 + 1) i
          (fun k hk => maxLength_coeff (le_of_eq hA) huv.1 hx (by omega))).2
        have h2 := (hval (b x v) ((lB - 1) / 2 + 1) i
          (fun k hk => maxLength_coeff (le_of_eq hB) hx huv.2 (by omega))).2
        simp only at h1 h2 ⊢
        rw [h1, h2]
      simp only [hplus, hminus]
      have hE : ∀ f : Nat → K, ∀ x, (ofCoeffs N f).eval x = ∑ k ∈ Finset.range N, f k * x ^ k := by
        intro f x
        rw [eval_eq_sum _ N (fun k hk => by rw [coeff_ofCoeffs, if_neg (by omega)])]
        exact Finset.sum_congr rfl fun k hk => by
          rw [coeff_ofCoeffs, if_pos (Finset.mem_range.1 hk)]
      have hpt' : ∀ i j, i < N → j < N →
          ((i + 1 : Nat) : K) * ((i + 1 : Nat) : K) = ((j + 1 : Nat) : K) * ((j + 1 : Nat) : K) →
          i = j := fun i j hi hj => hpt i j (by omega) (by omega)
      ext k
      rw [coeff_ofCoeffs]
      by_cases hk : k < 2 * N
      · rw [if_pos hk]
        by_cases hk2 : k % 2 = 0
        · rw [if_pos hk2, inv_vdm_coeff hinv N
            (fun i => ((i + 1 : Nat) : K) * ((i + 1 : Nat) : K)) hpt'
            (ofCoeffs N fun k => P.coeff (2 * k))
            (fun k hk => by rw [coeff_ofCoeffs, if_neg (by omega)]) _ ?_ (k / 2) (by omega),
            coeff_ofCoeffs, if_pos (by omega : k / 2 < N), show 2 * (k / 2) = k by omega]
          intro i _
          rw [hE, eval_even_odd P N hPz, eval_even_odd P N hPz, neg_mul_neg]
          field_simp
          ring
        · rw [if_neg hk2, inv_vdm_coeff hinv N
            (fun i => ((i + 1 : Nat) : K) * ((i + 1 : Nat) : K)) hpt'
            (ofCoeffs N fun k => P.coeff (2 * k + 1))
            (fun k hk => by rw [coeff_ofCoeffs, if_neg (by omega)]) _ ?_ (k / 2) (by omega),
            coeff_ofCoeffs, if_pos (by omega : k / 2 < N), show 2 * (k / 2) + 1 = k by omega]
          intro i hi
          rw [hE, eval_even_odd P N hPz, eval_even_odd P N hPz, neg_mul_neg, Nat.cast_mul]
          have hi0 : ((i + 1 : Nat) : K) ≠ 0 := hne i (by omega)
          have h2' : ((2 : Nat) : K) ≠ 0 := by exact_mod_cast h2
          rw [eq_comm, ← div_eq_mul_inv, eq_div_iff (mul_ne_zero h2' hi0)]
          push_cast
          ring
      · rw [if_neg hk, hPz k (by omega)]
    · rw [if_neg huv, if_neg huv]

/-! ### Geometric progressions -/

/-- The points of the progression are pairwise distinct. -/
def GoodRoot (r : K) (N : Nat) : Prop :=
  ∀ i j, i < N → j < N → r ^ (2 * i) = r ^ (2 * j) → i = j

/-- Contract of FLINT's interpolation at a geometric progression. -/
def InterpContract (interp : GeomInterpFn K) : Prop :=
  ∀ r N vals, GoodRoot r N → ∀ k, k < N → geomEval r N (interp r N vals) k = vals k

theorem interpContract_satisfiable : ∃ interp : GeomInterpFn K, InterpContract interp := by
  have h : ∀ (r : K) (N : Nat) (vals : Nat → K), ∃ f : Nat → K,
      GoodRoot r N → ∀ k, k < N → geomEval r N f k = vals k := by
    intro r N vals
    by_cases hr : GoodRoot r N
    · let Q := Lagrange.interpolate (Finset.range N) (fun k => r ^ (2 * k)) vals
      have hinj : Set.InjOn (fun k => r ^ (2 * k)) (Finset.range N : Set Nat) := by
        intro i hi j hj hij
        exact hr i j (by simpa using hi) (by simpa using hj) hij
      refine ⟨fun l => Q.coeff l, fun _ k hk => ?_⟩
      have h1 := Lagrange.eval_interpolate_at_node vals hinj (Finset.mem_range.2 hk)
      have hdeg := Lagrange.degree_interpolate_lt vals hinj
      rw [Finset.card_range] at hdeg
      rw [eval_eq_sum _ N (fun k hk => coeff_eq_zero_of_degree_lt
        (lt_of_lt_of_le hdeg (by exact_mod_cast hk)))] at h1
      exact h1
    · exact ⟨fun _ => 0, fun h => absurd h hr⟩
  choose f hf using h
  exact ⟨f, hf⟩

theorem eval_ofCoeffs (N : Nat) (f : Nat → K) (x : K) :
    (ofCoeffs N f).eval x = ∑ k ∈ Finset.range N, f k * x ^ k := by
  rw [eval_eq_sum _ N (fun k hk => by rw [coeff_ofCoeffs, if_neg (by omega)])]
  exact Finset.sum_congr rfl fun k hk => by
    rw [coeff_ofCoeffs, if_pos (Finset.mem_range.1 hk)]

theorem geomEval_eq_eval (r : K) (P : K[X]) (len : Nat) (h : ∀ k, len ≤ k → P.coeff k = 0) (k : Nat) :
    geomEval r len (fun l => P.coeff l) k = P.eval (r ^ (2 * k)) := by
  rw [eval_eq_sum P len h]; rfl

theorem interp_coeff {interp : GeomInterpFn K} (hi : InterpContract interp) {r : K} {N : Nat}
    (hr : GoodRoot r N) (P : K[X]) (hP : ∀ k, N ≤ k → P.coeff k = 0) (vals : Nat → K)
    (hv : ∀ k, k < N → vals k = P.eval (r ^ (2 * k))) :
    ofCoeffs N (interp r N vals) = P := by
  have hdeg : ∀ Q : K[X], (∀ k, N ≤ k → Q.coeff k = 0) → Q.degree < N := by
    intro Q hQ
    rw [degree_lt_iff_coeff_zero]
    intro k hk; exact hQ k hk
  refine eq_of_degrees_lt_of_eval_index_eq (v := fun k => r ^ (2 * k)) (s := Finset.range N) ?_ ?_ ?_ ?_
  · intro i hi j hj hij
    exact hr i j (by simpa using hi) (by simpa using hj) hij
  · rw [Finset.card_range]
    exact hdeg _ fun k hk => by rw [coeff_ofCoeffs, if_neg (by omega)]
  · rw [Finset.card_range]; exact hdeg _ hP
  · intro k hk
    rw [Finset.mem_range] at hk
    rw [eval_ofCoeffs, ← hv k hk, ← hi r N vals hr k hk]; rfl

theorem polyLength_coeff (P : K[X]) (k : Nat) (hk : polyLength P ≤ k) : P.coeff k = 0 :=
  (polyLength_le_iff P (polyLength P)).1 (Nat.le_refl _) k hk

theorem mulGeometricPrecomp_apply {interp : GeomInterpFn K} (hi : InterpContract interp) (r : K)
    (m n p len1 len2 : Nat) (c0 a b : Mat K[X]) (h1 : maxLength m n a ≤ len1)
    (h2 : maxLength n p b ≤ len2) (hr : GoodRoot r (len1 + len2 - 1)) (u v : Nat) :
    mulGeometricPrecomp interp r m n p len1 len2 c0 a b u v =
      if u < m ∧ v < p then ∑ k ∈ Finset.range n, a u k * b k v else c0 u v := by
  unfold mulGeometricPrecomp
  by_cases h0 : len1 = 0 ∨ len2 = 0
  · simp only [if_pos h0]
    by_cases huv : u < m ∧ v < p
    · rw [if_pos huv, if_pos huv, prod_zero (by omega) huv.1 huv.2]
    · rw [if_neg huv, if_neg huv]
  · simp only [if_neg h0]
    by_cases huv : u < m ∧ v < p
    · rw [if_pos huv, if_pos huv]
      apply interp_coeff hi hr
      · intro k hk
        exact prod_coeff_zero h1 h2 huv.1 huv.2 (by omega)
      · intro k _
        rw [prod_eval]
        refine Finset.sum_congr rfl fun x _ => ?_
        simp only
        rw [geomEval_eq_eval _ _ _ (polyLength_coeff _), geomEval_eq_eval _ _ _ (polyLength_coeff _)]
    · rw [if_neg huv, if_neg huv]

/-- The transposed scheme: coefficients `nlo..nhi-1` of a product. -/
theorem middle_sum {interp : GeomInterpFn K} (hi : InterpContract interp) {r : K} {nlo nhi : Nat}
    (hr : GoodRoot r nhi) (f g : K[X]) (hf : ∀ k, nlo + 1 ≤ k → f.coeff k = 0) (t : Nat)
    (ht : nlo + t < nhi) :
    ∑ k ∈ Finset.range nhi,
      (geomEval r (nlo + 1) (reverseCoeffs (fun l => f.coeff l) (nlo + 1)) k *
        interp r nhi (fun l => g.coeff l) k) * (r ^ (2 * t)) ^ k = (f * g).coeff (nlo + t) := by
  have hg : ∀ l, l < nhi → ∑ k ∈ Finset.range nhi,
      interp r nhi (fun l => g.coeff l) k * (r ^ (2 * l)) ^ k = g.coeff l :=
    fun l hl => hi r nhi _ hr l hl
  have h1 : ∑ k ∈ Finset.range nhi,
      (geomEval r (nlo + 1) (reverseCoeffs (fun l => f.coeff l) (nlo + 1)) k *
        interp r nhi (fun l => g.coeff l) k) * (r ^ (2 * t)) ^ k =
      ∑ l ∈ Finset.range (nlo + 1), f.coeff (nlo - l) * g.coeff (l + t) := by
    simp only [geomEval, Finset.sum_mul]
    rw [Finset.sum_comm]
    refine Finset.sum_congr rfl fun l hl => ?_
    rw [Finset.mem_range] at hl
    rw [← hg (l + t) (by omega), Finset.mul_sum]
    refine Finset.sum_congr rfl fun k _ => ?_
    rw [reverseCoeffs, if_pos hl, show nlo + 1 - 1 - l = nlo - l by omega]
    have e : (r ^ (2 * k)) ^ l * (r ^ (2 * t)) ^ k = (r ^ (2 * (l + t))) ^ k := by
      rw [← pow_mul, ← pow_mul, ← pow_mul, ← pow_add]; congr 1; ring
    rw [← e]; ring
  rw [h1, ← Finset.sum_range_reflect, coeff_mul, Finset.Nat.sum_antidiagonal_eq_sum_range_succ_mk]
  have hsub : Finset.range (nlo + 1) ⊆ Finset.range (nlo + t).succ := by
    intro x; simp only [Finset.mem_range]; omega
  rw [← Finset.sum_subset hsub]
  · refine Finset.sum_congr rfl fun l hl => ?_
    rw [Finset.mem_range] at hl
    simp only
    congr 2 <;> omega
  · intro x _ hx'
    simp only [Finset.mem_range] at hx'
    rw [hf x (by omega), zero_mul]

theorem mulmidGeometric1_apply {interp : GeomInterpFn K} (hi : InterpContract interp) (r : K)
    (m n p nlo nhi : Nat) (c0 a b : Mat K[X]) (h1 : maxLength m n a ≤ nlo + 1)
    (hr : GoodRoot r nhi) (i j : Nat) (hij : i < m ∧ j < p) :
    IsWindow nlo nhi (∑ k ∈ Finset.range n, a i k * b k j)
      (mulmidGeometric1 interp r m n p nlo nhi c0 a b i j) := by
  intro t
  unfold mulmidGeometric1
  simp only [if_pos hij]
  rw [coeff_ofCoeffs]
  by_cases ht : nlo + t < nhi
  · rw [if_pos ht, if_pos (by omega : t < nhi - nlo), finsetSum_coeff]
    unfold matMul
    simp only [geomEval.eq_def r nhi]
    simp only [Finset.sum_mul]
    rw [Finset.sum_comm]
    refine Finset.sum_congr rfl fun x hx => ?_
    rw [Finset.mem_range] at hx
    exact middle_sum hi hr (a i x) (b x j) (fun k hk => maxLength_coeff h1 hij.1 hx hk) t ht
  · rw [if_neg ht, if_neg (by omega : ¬ t < nhi - nlo)]

theorem mulmidGeometric2_apply {interp : GeomInterpFn K} (hi : InterpContract interp) (r : K)
    (m n p nlo nhi : Nat) (c0 a b : Mat K[X]) (h2 : maxLength n p b ≤ nlo + 1)
    (hr : GoodRoot r nhi) (i j : Nat) (hij : i < m ∧ j < p) :
    IsWindow nlo nhi (∑ k ∈ Finset.range n, a i k * b k j)
      (mulmidGeometric2 interp r m n p nlo nhi c0 a b i j) := by
  intro t
  unfold mulmidGeometric2
  simp only [if_pos hij]
  rw [coeff_ofCoeffs]
  by_cases ht : nlo + t < nhi
  · rw [if_pos ht, if_pos (by omega : t < nhi - nlo), finsetSum_coeff]
    unfold matMul
    simp only [geomEval.eq_def r nhi]
    simp only [Finset.sum_mul]
    rw [Finset.sum_comm]
    refine Finset.sum_congr rfl fun x hx => ?_
    rw [Finset.mem_range] at hx
    rw [mul_comm (a i x), ← middle_sum hi hr (b x j) (a i x)
      (fun k hk => maxLength_coeff h2 hx hij.2 hk) t ht]
    exact Finset.sum_congr rfl fun k _ => by ring
  · rw [if_neg ht, if_neg (by omega : ¬ t < nhi - nlo)]

end Field

end PML.PolyMul
