import Verif.Ntl.OneColTheory
import Verif.Ntl.BivarKron

/-!
# The loops of `mbasis_generic_onecolumn`
-/

namespace PML.Ntl.OneCol

open Polynomial PML.Ntl.Utils PML.Ntl.Inv PML.Ntl.Solve PML.Ntl.Struct

variable {F : Type} [Field F]

theorem forN_succ {σ : Type} (n : Nat) (f : Nat → σ → σ) (s : σ) : forN (n + 1) f s = f n (forN n f s) := rfl

theorem write_at {α β : Type} [DecidableEq α] (a : α) (b : β) (x : α → β) (c : α) : write a b x c = if c = a then b else x c := by
  unfold write
  rw [Function.update_apply]

/-! ### The Krylov matrix -/

theorem row_writes (m u b : Nat) (g : Nat → F) (x : Nat × Nat → F) (r c : Nat) :
    forN m (fun j => write (u, j + b) (g j)) x (r, c) = if r = u ∧ b ≤ c ∧ c < m + b then g (c - b) else x (r, c) := by
  induction m with
  | zero => rw [if_neg (by omega)]; rfl
  | succ m ih =>
    rw [forN_succ, write_at, ih]
    by_cases h : (r, c) = (u, m + b)
    · obtain ⟨rfl, rfl⟩ := Prod.mk.inj h
      rw [if_pos rfl, if_pos (by omega), Nat.add_sub_cancel]
    · have : ¬(r = u ∧ c = m + b) := fun hc => h (by rw [hc.1, hc.2])
      rw [if_neg h]
      by_cases h' : r = u ∧ b ≤ c ∧ c < m + b
      · rw [if_pos h', if_pos (by omega)]
      · rw [if_neg h', if_neg (by omega)]

theorem block_writes (n m a b : Nat) (g : Nat → Nat → F) (x : Nat × Nat → F) (r c : Nat) :
    forN n (fun i => forN m fun j => write (i + a, j + b) (g i j)) x (r, c) =
      if (a ≤ r ∧ r < n + a) ∧ b ≤ c ∧ c < m + b then g (r - a) (c - b) else x (r, c) := by
  induction n with
  | zero => rw [if_neg (by omega)]; rfl
  | succ n ih =>
    rw [forN_succ, row_writes, ih]
    by_cases h : r = n + a ∧ b ≤ c ∧ c < m + b
    · rw [if_pos h, if_pos (by omega), h.1, Nat.add_sub_cancel]
    · rw [if_neg h]
      by_cases h' : (a ≤ r ∧ r < n + a) ∧ b ≤ c ∧ c < m + b
      · rw [if_pos h', if_pos (by omega)]
      · rw [if_neg h', if_neg (by omega)]

theorem krylov_at (n : Nat) (R k : Nat × Nat → F) (r c : Nat) :
    krylov n R k (r, c) = if (n ≤ r ∧ r < n + n) ∧ 1 ≤ c ∧ c < n - 1 + 1 then R (r - n, c - 1) else if r < n ∧ c < n then R (r, c) else k (r, c) := by
  unfold krylov
  rw [block_writes n (n - 1) n 1 (fun i j => R (i, j + 1 - 1))]
  have := block_writes n n 0 0 (fun i j => R (i, j)) k r c
  simp only [Nat.add_zero, Nat.zero_le, true_and, Nat.sub_zero] at this
  rw [this, Nat.add_sub_cancel]

/-! ### The coefficients of the basis -/

theorem updApp_at (n d : Nat) (K : Nat × Nat → F) (cf : Nat → Nat × Nat → F) (k : Nat) (hk : k ≤ d) (i j : Nat) :
    updApp n d K cf k (i, j) = (if k = d then K (i, j) else mulM n K (cf k) (i, j)) + if k = 0 then 0 else cf (k - 1) (i, j) := by
  have key : ∀ t, t ≤ d → ∀ q, q ≤ d → forN t (fun t cf =>
      let k := d - t
      let cf := write k (addM (cf k) (cf (k - 1))) cf
      write (k - 1) (mulM n K (cf (k - 1))) cf) (write d K cf) q =
        if d < q + t then addM (if q = d then K else mulM n K (cf q)) (cf (q - 1)) else
          if q + t = d then (if q = d then K else mulM n K (cf q)) else cf q := by
    intro t
    induction t with
    | zero =>
      intro _ q hq
      rw [if_neg (by omega)]
      show write d K cf q = _
      rw [write_at]
      by_cases h : q = d
      · rw [if_pos h, if_pos (by omega), if_pos h]
      · rw [if_neg h, if_neg (by omega)]
    | succ t ih =>
      intro ht q hq
      rw [forN_succ]
      dsimp only
      have h1 := ih (by omega) (d - t) (by omega)
      rw [if_neg (by omega), if_pos (by omega)] at h1
      have h2 := ih (by omega) (d - t - 1) (by omega)
      rw [if_neg (by omega), if_neg (by omega)] at h2
      have h3 := ih (by omega) q hq
      dsimp only at h1 h2 h3
      rw [write_at, write_at, write_at, if_neg (show ¬d - t - 1 = d - t by omega), h1, h2, h3]
      by_cases c1 : q = d - t - 1
      · rw [if_pos c1, if_neg (show ¬d < q + (t + 1) by omega), if_pos (show q + (t + 1) = d by omega), if_neg (show ¬q = d by omega), c1]
      · rw [if_neg c1]
        by_cases c2 : q = d - t
        · rw [if_pos c2, if_pos (show d < q + (t + 1) by omega), c2]
        · rw [if_neg c2]
          by_cases c3 : d < q + t
          · rw [if_pos c3, if_pos (show d < q + (t + 1) by omega)]
          · rw [if_neg c3, if_neg (show ¬q + t = d by omega), if_neg (show ¬d < q + (t + 1) by omega), if_neg (show ¬q + (t + 1) = d by omega)]
  have := congrFun (key d (le_refl _) k hk) (i, j)
  unfold updApp
  rw [this]
  by_cases h0 : k = 0
  · rw [if_neg (by omega), if_pos (by omega), if_pos h0, add_zero]
    by_cases hd : k = d
    · rw [if_pos hd, if_pos hd]
    · rw [if_neg hd, if_neg hd]
  · rw [if_pos (by omega), if_neg h0]
    show (if k = d then K else mulM n K (cf k)) (i, j) + cf (k - 1) (i, j) = _
    by_cases hd : k = d
    · rw [if_pos hd, if_pos hd]
    · rw [if_neg hd, if_neg hd]

/-! ### The residuals -/

theorem updRes_at (n D d : Nat) (K : Nat × Nat → F) (res : Nat → Nat × Nat → F) (k : Nat) (hk : d < k) (hk' : k < D) (i j : Nat) :
    updRes n D d K res k (i, j) = mulM n K (res k) (i, j) + if j = 0 then res (k - 1) (i, n - 1) else res k (i, j - 1) := by
  have key : ∀ t, t ≤ D - 1 - d → ∀ q, q < D → forN t (fun t res =>
      let k := D - 1 - t
      let r : Nat × Nat → F := fun ij => if ij.2 = 0 then res (k - 1) (ij.1, n - 1) else res k (ij.1, ij.2 - 1)
      let res := write k (mulM n K (res k)) res
      write k (addM (res k) r) res) res q =
        if D ≤ q + t then addM (mulM n K (res q)) fun ij => if ij.2 = 0 then res (q - 1) (ij.1, n - 1) else res q (ij.1, ij.2 - 1) else res q := by
    intro t
    induction t with
    | zero => intro _ q hq; rw [if_neg (by omega)]; rfl
    | succ t ih =>
      intro ht q hq
      rw [forN_succ]
      dsimp only
      have h1 := ih (by omega) (D - 1 - t) (by omega)
      rw [if_neg (by omega)] at h1
      have h2 := ih (by omega) (D - 1 - t - 1) (by omega)
      rw [if_neg (by omega)] at h2
      have h3 := ih (by omega) q hq
      dsimp only at h1 h2 h3
      rw [write_at, write_at, write_at, if_pos rfl, h1, h2, h3]
      by_cases c1 : q = D - 1 - t
      · rw [if_pos c1, if_pos (by omega), c1]
      · rw [if_neg c1, if_neg c1]
        by_cases c2 : D ≤ q + t
        · rw [if_pos c2, if_pos (by omega)]
        · rw [if_neg c2, if_neg (by omega)]
  have := congrFun (key (D - 1 - d) (le_refl _) k hk') (i, j)
  unfold updRes
  rw [this, if_pos (by omega)]
  rfl

/-! ### The basis after `d` iterations -/

/-- The matrix represented by the coefficients after `d` iterations. -/
noncomputable def app (d : Nat) (cf : Nat → Nat × Nat → F) : Nat × Nat → F[X] :=
  fun ij => ofCoeffs (d + 1) fun k => if k < d then cf k ij else identM ij

theorem app_coeff (d : Nat) (cf : Nat → Nat × Nat → F) (ij : Nat × Nat) (k : Nat) :
    (app d cf ij).coeff k = if k < d then cf k ij else if k = d then identM ij else 0 := by
  unfold app
  rw [ofCoeffs_coeff]
  by_cases h : k < d
  · rw [if_pos (by omega), if_pos h, if_pos h]
  · rw [if_neg h, if_neg h]
    by_cases h' : k = d
    · rw [if_pos (by omega), if_pos h']
    · rw [if_neg (by omega), if_neg h']

theorem app_monic (n d : Nat) (cf : Nat → Nat × Nat → F) : MonicOf n d (app d cf) where
  deg i j _ _ := by
    rw [natDegree_le_iff_coeff_eq_zero]
    intro k hk
    rw [app_coeff, if_neg (by omega), if_neg (by omega)]
  lead i j _ _ := by
    rw [app_coeff, if_neg (by omega), if_pos rfl]
    rfl

theorem app_step (n d : Nat) (K : Nat × Nat → F) (cf : Nat → Nat × Nat → F) (i j : Nat) (hj : j < n) :
    app (d + 1) (updApp n d K cf) (i, j) = X * app d cf (i, j) + ∑ l ∈ Finset.range n, C (K (i, l)) * app d cf (l, j) := by
  ext k
  have hs : (∑ l ∈ Finset.range n, C (K (i, l)) * app d cf (l, j)).coeff k =
      if k = d then K (i, j) else if k < d then mulM n K (cf k) (i, j) else 0 := by
    rw [finsetSum_coeff, Finset.sum_congr rfl fun l _ => by rw [coeff_C_mul, app_coeff]]
    by_cases h : k = d
    · rw [if_pos h, Finset.sum_congr rfl fun l _ => by rw [if_neg (show ¬k < d by omega), if_pos h],
        Finset.sum_eq_single_of_mem j (Finset.mem_range.2 hj)]
      · show K (i, j) * (if j = j then 1 else 0) = _
        rw [if_pos rfl, mul_one]
      · intro l _ hl
        show K (i, l) * (if l = j then 1 else 0) = 0
        rw [if_neg hl, mul_zero]
    · rw [if_neg h]
      by_cases h' : k < d
      · rw [if_pos h', Finset.sum_congr rfl fun l _ => by rw [if_pos h']]
        rfl
      · rw [if_neg h']
        exact Finset.sum_eq_zero fun l _ => by rw [if_neg h', if_neg h, mul_zero]
  rw [coeff_add, hs, app_coeff]
  have hx : (X * app d cf (i, j)).coeff k = if k = 0 then 0 else (app d cf (i, j)).coeff (k - 1) := by
    cases k with
    | zero => rw [coeff_X_mul_zero, if_pos rfl]
    | succ k => rw [coeff_X_mul, if_neg (by omega), Nat.add_sub_cancel]
  rw [hx, app_coeff]
  by_cases h1 : k < d + 1
  · rw [if_pos h1, updApp_at n d K cf k (by omega)]
    by_cases h0 : k = 0
    · rw [if_pos h0, if_pos h0, add_zero, zero_add]
      by_cases h2 : k = d
      · rw [if_pos h2, if_pos h2]
      · rw [if_neg h2, if_neg h2, if_pos (by omega)]
    · rw [if_neg h0, if_neg h0, if_pos (show k - 1 < d by omega), add_comm]
      by_cases h2 : k = d
      · rw [if_pos h2, if_pos h2]
      · rw [if_neg h2, if_neg h2, if_pos (show k < d by omega)]
  · rw [if_neg h1, if_neg (show ¬k = d by omega), if_neg (show ¬k < d by omega), if_neg (show ¬k = 0 by omega), if_neg (show ¬k - 1 < d by omega), add_zero]
    by_cases h2 : k = d + 1
    · rw [if_pos h2, if_pos (by omega)]
    · rw [if_neg h2, if_neg (by omega)]

/-- The products of the rows by the column. -/
noncomputable def image (n d : Nat) (cf : Nat → Nat × Nat → F) (f : Nat → F[X]) (i : Nat) : F[X] := ∑ j ∈ Finset.range n, app d cf (i, j) * f j

theorem image_step (n d : Nat) (K : Nat × Nat → F) (cf : Nat → Nat × Nat → F) (f : Nat → F[X]) (i : Nat) :
    image n (d + 1) (updApp n d K cf) f i = X * image n d cf f i + ∑ l ∈ Finset.range n, C (K (i, l)) * image n d cf f l := by
  unfold image
  rw [Finset.sum_congr rfl fun j hj => by rw [app_step n d K cf i j (Finset.mem_range.1 hj), add_mul], Finset.sum_add_distrib, Finset.mul_sum]
  congr 1
  · exact Finset.sum_congr rfl fun j _ => mul_assoc _ _ _
  · rw [Finset.sum_congr rfl fun j _ => Finset.sum_mul _ _ _, Finset.sum_comm]
    refine Finset.sum_congr rfl fun l _ => ?_
    rw [Finset.mul_sum]
    exact Finset.sum_congr rfl fun j _ => mul_assoc _ _ _

/-- The invariant of the loop on `d`. -/
structure Holds (n D : Nat) (f : Nat → F[X]) (d : Nat) (s : St F) : Prop where
  res : ∀ k i j, d ≤ k → k < D → i < n → j < n → s.res k (i, j) = (image n d s.cf f i).coeff (k * n + j)
  low : ∀ i, i < n → ∀ t, t < d * n → (image n d s.cf f i).coeff t = 0
  kry : ∀ i, i < n → s.kry (i + n, 0) = 0

theorem step_ok {ker : PMat F → PMat F} (hk : KerTop ker) (n D d : Nat) (s : St F) :
    step ker n D d s = .ok ⟨updRes n D d (ker ⟨2 * n, n, krylov n (s.res d) s.kry⟩).e s.res, updApp n d (ker ⟨2 * n, n, krylov n (s.res d) s.kry⟩).e s.cf,
      krylov n (s.res d) s.kry⟩ := by
  unfold step
  dsimp only
  have h1 := hk.cols ⟨2 * n, n, krylov n (s.res d) s.kry⟩
  have h2 := hk.rows ⟨2 * n, n, krylov n (s.res d) s.kry⟩
  dsimp only at h1 h2
  rw [if_neg (by omega)]

theorem step_holds {ker : PMat F → PMat F} (hk : KerTop ker) {n D d : Nat} (hn : 0 < n) (hd : d < D) {f : Nat → F[X]} (hg : Generic n D f) {s : St F}
    (h : Holds n D f d s) :
    Holds n D f (d + 1) ⟨updRes n D d (ker ⟨2 * n, n, krylov n (s.res d) s.kry⟩).e s.res, updApp n d (ker ⟨2 * n, n, krylov n (s.res d) s.kry⟩).e s.cf,
      krylov n (s.res d) s.kry⟩ := by
  have hind : ∀ v : Nat → F, (∀ c, c < n → ∑ l ∈ Finset.range n, v l * s.res d (l, c) = 0) → ∀ l, l < n → v l = 0 := by
    intro v hv
    have hz := hg (d + 1) (by omega) (fun j => ∑ i ∈ Finset.range n, C (v i) * app d s.cf (i, j))
      (fun j hj => degree_lt_of_le (by
        have := (app_monic n d s.cf).row_deg (v := fun i => C (v i)) (N := 0) (fun i _ => (natDegree_C _).le) hj
        rwa [Nat.zero_add] at this)) (by
      have e : ∑ j ∈ Finset.range n, (∑ i ∈ Finset.range n, C (v i) * app d s.cf (i, j)) * f j = ∑ i ∈ Finset.range n, C (v i) * image n d s.cf f i := by
        rw [Finset.sum_congr rfl fun j _ => Finset.sum_mul _ _ _, Finset.sum_comm]
        refine Finset.sum_congr rfl fun i _ => ?_
        unfold image
        rw [Finset.mul_sum]
        exact Finset.sum_congr rfl fun j _ => mul_assoc _ _ _
      rw [e, X_pow_dvd_iff]
      intro t ht
      rw [finsetSum_coeff, Finset.sum_congr rfl fun i _ => coeff_C_mul _]
      by_cases h1 : t < d * n
      · exact Finset.sum_eq_zero fun i hi => by rw [h.low i (Finset.mem_range.1 hi) t h1, mul_zero]
      · rw [Nat.mul_add, Nat.mul_one, Nat.mul_comm] at ht
        obtain ⟨c, rfl⟩ : ∃ c, t = d * n + c := ⟨t - d * n, by omega⟩
        rw [← hv c (by omega)]
        exact Finset.sum_congr rfl fun i hi => by rw [h.res d i c (le_refl _) hd (Finset.mem_range.1 hi) (by omega)])
    intro l hl
    have h1 := (app_monic n d s.cf).row_top (v := fun i => C (v i)) (N := 0) (fun i _ => (natDegree_C _).le) hl
    rw [show ∑ i ∈ Finset.range n, C (v i) * app d s.cf (i, l) = 0 from hz l hl, coeff_zero, coeff_C_zero] at h1
    exact h1.symm
  have hK : ∀ i, i < n → ∀ c, c < n → ∑ l ∈ Finset.range n, (ker ⟨2 * n, n, krylov n (s.res d) s.kry⟩).e (i, l) * s.res d (l, c) +
      (if c = 0 then 0 else s.res d (i, c - 1)) = 0 := by
    intro i hi c hc
    have htop : ∀ l c, l < n → c < n → krylov n (s.res d) s.kry (l, c) = s.res d (l, c) := fun l c hl hc => by
      rw [krylov_at, if_neg (by omega), if_pos ⟨hl, hc⟩]
    have := hk.top ⟨2 * n, n, krylov n (s.res d) s.kry⟩ n rfl rfl (fun v hv => hind v fun c hc => by
      rw [← hv c hc]
      exact Finset.sum_congr rfl fun l hl => congrArg (v l * ·) (htop l c (Finset.mem_range.1 hl) hc).symm) i hi c hc
    dsimp only at this
    rw [Finset.sum_congr rfl fun l hl => by rw [htop l c (Finset.mem_range.1 hl) hc]] at this
    refine Eq.trans ?_ this
    congr 1
    rw [krylov_at]
    by_cases h0 : c = 0
    · rw [if_pos h0, if_neg (by omega), if_neg (by omega), h0, Nat.add_comm n i, h.kry i hi]
    · rw [if_neg h0, if_pos (by omega), Nat.add_sub_cancel_left]
  generalize (ker ⟨2 * n, n, krylov n (s.res d) s.kry⟩).e = K at hK ⊢
  have hco : ∀ i t, (image n (d + 1) (updApp n d K s.cf) f i).coeff t =
      (if t = 0 then 0 else (image n d s.cf f i).coeff (t - 1)) + ∑ l ∈ Finset.range n, K (i, l) * (image n d s.cf f l).coeff t := by
    intro i t
    rw [image_step, coeff_add, finsetSum_coeff, Finset.sum_congr rfl fun l _ => coeff_C_mul _]
    congr 1
    cases t with
    | zero => rw [coeff_X_mul_zero, if_pos rfl]
    | succ t => rw [coeff_X_mul, if_neg (by omega), Nat.add_sub_cancel]
  refine ⟨fun k i j h1 h2 hi hj => ?_, fun i hi t ht => ?_, fun i hi => ?_⟩
  · show updRes n D d K s.res k (i, j) = _
    rw [updRes_at n D d K s.res k (by omega) h2, hco, add_comm]
    have hkn : n ≤ k * n := Nat.le_mul_of_pos_left n (by omega)
    congr 1
    · rw [if_neg (show ¬k * n + j = 0 by omega)]
      by_cases h0 : j = 0
      · rw [if_pos h0, h.res (k - 1) i (n - 1) (by omega) (by omega) hi (by omega), h0, Nat.sub_mul, Nat.one_mul]
        congr 1
        omega
      · rw [if_neg h0, h.res k i (j - 1) (by omega) h2 hi (by omega)]
        congr 1
        omega
    · exact Finset.sum_congr rfl fun l hl => by
        show K (i, l) * s.res k (l, j) = _
        rw [h.res k l j (by omega) h2 (Finset.mem_range.1 hl) hj]
  · show (image n (d + 1) (updApp n d K s.cf) f i).coeff t = 0
    rw [hco]
    by_cases h1 : t < d * n
    · rw [Finset.sum_eq_zero fun l hl => by rw [h.low l (Finset.mem_range.1 hl) t h1, mul_zero], add_zero]
      by_cases h0 : t = 0
      · rw [if_pos h0]
      · rw [if_neg h0, h.low i hi _ (by omega)]
    · rw [Nat.add_mul, Nat.one_mul] at ht
      obtain ⟨c, rfl⟩ : ∃ c, t = d * n + c := ⟨t - d * n, by omega⟩
      refine Eq.trans ?_ (hK i hi c (by omega))
      rw [add_comm]
      congr 1
      · exact Finset.sum_congr rfl fun l hl => by rw [h.res d l c (le_refl _) hd (Finset.mem_range.1 hl) (by omega)]
      · by_cases h0 : c = 0
        · rw [if_pos h0]
          by_cases h2 : d * n + c = 0
          · rw [if_pos h2]
          · rw [if_neg h2, h.low i hi _ (by omega)]
        · rw [if_neg h0, if_neg (by omega), h.res d i (c - 1) (le_refl _) hd hi (by omega)]
          congr 1
          omega
  · show krylov n (s.res d) s.kry (i + n, 0) = 0
    rw [krylov_at, if_neg (by omega), if_neg (by omega), h.kry i hi]

/-! ### Reading the input -/

theorem cut_inner (pmat : PMat F[X]) (n k : Nat) (hn : n = pmat.rows) (hc : 0 < pmat.cols) :
    (∃ e, loopOut n (fun i e => loopOut n (fun j e => andThen (readCoeff pmat i (k * n + j)) fun a => .ok (write (i, j) a e)) e) (fun _ : Nat × Nat => (0 : F)) = .ok e ∧
      ∀ i, i < n → ∀ j, j < n → (k * n + j : Nat) ≤ pdeg (pmat.e (i, 0)) ∧ e (i, j) = (pmat.e (i, 0)).coeff (k * n + j)) ∨
    loopOut n (fun i e => loopOut n (fun j e => andThen (readCoeff pmat i (k * n + j)) fun a => .ok (write (i, j) a e)) e) (fun _ : Nat × Nat => (0 : F)) = .ub := by
  refine Bivar.loopOut_inv_ub (fun q (e : Nat × Nat → F) => ∀ i, i < q → ∀ j, j < n → (k * n + j : Nat) ≤ pdeg (pmat.e (i, 0)) ∧ e (i, j) = (pmat.e (i, 0)).coeff (k * n + j)) n
    (fun i hi => by omega) fun q e hq he => ?_
  rcases Bivar.loopOut_inv_ub (fun r (x : Nat × Nat → F) => (∀ i, i < q → ∀ j, j < n → x (i, j) = e (i, j)) ∧
      ∀ j, j < r → (k * n + j : Nat) ≤ pdeg (pmat.e (q, 0)) ∧ x (q, j) = (pmat.e (q, 0)).coeff (k * n + j))
      (f := fun j e => andThen (readCoeff pmat q (k * n + j)) fun a => .ok (write (q, j) a e)) (s := e) n
      ⟨fun _ _ _ _ => rfl, fun j hj => by omega⟩ (fun r x hr hx => by
        unfold readCoeff
        rw [if_neg (by omega)]
        by_cases h : ((k * n + r : Nat) : Int) ≤ pdeg (pmat.e (q, 0))
        · rw [if_pos h]
          refine .inl ⟨_, rfl, fun i hi j hj => ?_, fun j hj => ?_⟩
          · rw [write_at, if_neg (fun hc => by have := (Prod.mk.inj hc).1; omega), hx.1 i hi j hj]
          · rw [write_at]
            by_cases hj' : j = r
            · rw [hj', if_pos rfl]; exact ⟨h, rfl⟩
            · rw [if_neg (fun hc => hj' (Prod.mk.inj hc).2)]; exact hx.2 j (by omega)
        · rw [if_neg h]; exact .inr rfl) with ⟨x, e1, h1, h2⟩ | e1
  · refine .inl ⟨x, e1, fun i hi j hj => ?_⟩
    by_cases hi' : i = q
    · rw [hi']; exact h2 j hj
    · rw [h1 i (by omega) j hj]; exact he i (by omega) j hj
  · exact .inr e1

theorem cut_spec (pmat : PMat F[X]) (D : Nat) (hn : 0 < pmat.rows) (hc : 0 < pmat.cols) :
    (Long pmat (pmat.rows * D) ∧ ∃ r, cut pmat pmat.rows D = .ok r ∧
      ∀ k i j, k < D → i < pmat.rows → j < pmat.rows → r k (i, j) = (pmat.e (i, 0)).coeff (k * pmat.rows + j)) ∨
    (¬Long pmat (pmat.rows * D) ∧ cut pmat pmat.rows D = .ub) := by
  have hdi : (∃ r, cut pmat pmat.rows D = .ok r ∧ ∀ k, k < D → ∀ i, i < pmat.rows → ∀ j, j < pmat.rows →
      (k * pmat.rows + j : Nat) ≤ pdeg (pmat.e (i, 0)) ∧ r k (i, j) = (pmat.e (i, 0)).coeff (k * pmat.rows + j)) ∨ cut pmat pmat.rows D = .ub := by
    refine Bivar.loopOut_inv_ub (fun q (r : Nat → Nat × Nat → F) => ∀ k, k < q → ∀ i, i < pmat.rows → ∀ j, j < pmat.rows →
      (k * pmat.rows + j : Nat) ≤ pdeg (pmat.e (i, 0)) ∧ r k (i, j) = (pmat.e (i, 0)).coeff (k * pmat.rows + j)) D (fun k hk => by omega) fun q r hq hr => ?_
    rcases cut_inner pmat pmat.rows q rfl hc with ⟨e, e1, h1⟩ | e1
    · rw [e1]
      refine .inl ⟨_, rfl, fun k hk i hi j hj => ?_⟩
      rw [write_at]
      by_cases hk' : k = q
      · rw [if_pos hk', hk']; exact h1 i hi j hj
      · rw [if_neg hk']; exact hr k (by omega) i hi j hj
    · rw [e1]; exact .inr rfl
  by_cases hL : Long pmat (pmat.rows * D)
  · refine .inl ⟨hL, ?_⟩
    have hin : ∀ k i j, k < D → i < pmat.rows → j < pmat.rows → ((k * pmat.rows + j : Nat) : Int) ≤ pdeg (pmat.e (i, 0)) := by
      intro k i j hk hi hj
      have h1 := hL i hi
      have h2 : (k + 1) * pmat.rows ≤ D * pmat.rows := Nat.mul_le_mul_right _ hk
      rw [Nat.add_mul, Nat.one_mul, Nat.mul_comm D] at h2
      omega
    rcases hdi with ⟨r, e, hr⟩ | e
    · exact ⟨r, e, fun k i j hk hi hj => (hr k hk i hi j hj).2⟩
    · exfalso
      obtain ⟨r, e', -⟩ := Bivar.loopOut_inv (fun _ _ => True) (f := fun k r =>
        andThen (loopOut pmat.rows (fun i e => loopOut pmat.rows (fun j e => andThen (readCoeff pmat i (k * pmat.rows + j)) fun a => .ok (write (i, j) a e)) e) fun _ => 0) fun e =>
        .ok (write k e r)) (s := fun _ _ => (0 : F)) D trivial fun k r hk _ => by
          obtain ⟨e, e1, -⟩ := Bivar.loopOut_inv (fun _ _ => True) (f := fun i e => loopOut pmat.rows (fun j e =>
            andThen (readCoeff pmat i (k * pmat.rows + j)) fun a => .ok (write (i, j) a e)) e) (s := fun _ => (0 : F)) pmat.rows trivial fun i x hi _ => by
              obtain ⟨e, e1, -⟩ := Bivar.loopOut_inv (fun _ _ => True) (f := fun j e =>
                andThen (readCoeff pmat i (k * pmat.rows + j)) fun a => .ok (write (i, j) a e)) (s := x) pmat.rows trivial fun j y hj _ => by
                  unfold readCoeff
                  rw [if_neg (by omega), if_pos (hin k i j hk hi hj)]
                  exact ⟨_, rfl, trivial⟩
              exact ⟨e, e1, trivial⟩
          exact ⟨_, by rw [e1]; rfl, trivial⟩
      unfold cut at e
      rw [e'] at e
      cases e
  · refine .inr ⟨hL, ?_⟩
    rcases hdi with ⟨r, e, hr⟩ | e
    · refine absurd (fun i hi => ?_) hL
      by_cases hD : D = 0
      · rw [hD, Nat.mul_zero]
        unfold pdeg
        split_ifs <;> omega
      · have := (hr (D - 1) (by omega) i hi (pmat.rows - 1) (by omega)).1
        have h2 : (D - 1) * pmat.rows + pmat.rows = pmat.rows * D := by
          rw [← Nat.succ_mul, Nat.succ_eq_add_one, show D - 1 + 1 = D by omega, Nat.mul_comm]
        omega
    · exact e

end PML.Ntl.OneCol
