import Verif.Ntl.InvLemmas

/-!
# C71: truncated inverses of polynomial matrices
-/

namespace PML.Ntl.Inv

open Polynomial PML.Ntl.Utils PML.Ntl.MatMul PML.Ntl.MatEval PML.Ntl.MatMid

set_option linter.unusedSectionVars false

variable {F : Type} [Field F]

theorem wself (t : Nat) (w : F) (x : Nat → F) : write t w x t = w := by
  unfold write
  rw [Function.update_self]

theorem wne {t t' : Nat} (w : F) (x : Nat → F) (h : t' ≠ t) : write t w x t' = x t' := by
  unfold write
  rw [Function.update_of_ne h]

/-! ### Naive algorithm -/

theorem deg_of_constInv {a : PMat F[X]} (hs : 0 < a.rows) (hsq : a.rows = a.cols) (hc : ConstInv a) : 0 ≤ deg a := by
  by_contra h
  have hz := (deg_neg_iff a).1 (by have := (deg_spec a).1; omega)
  obtain ⟨W, hW⟩ := hc
  have := hW 0 0 hs hs
  rw [if_pos rfl, Finset.sum_eq_zero fun k hk => by
    rw [hz k 0 (Finset.mem_range.1 hk) (by omega), coeff_zero, mul_zero]] at this
  exact zero_ne_one this

theorem storeConst_spec (x : PMat (Sto F)) (s : Nat) (c : Nat × Nat → F) : (storeConst x s c).rows = s ∧ (storeConst x s c).cols = s ∧
    ∀ i j, i < s → j < s → (storeConst x s c).e (i, j) = ⟨1, write 0 (c (i, j)) ((x.setDims s s).e (i, j)).mem⟩ := by
  refine ⟨rfl, rfl, fun i j hi hj => ?_⟩
  unfold storeConst
  dsimp only
  rw [loop2_spec, if_pos ⟨hi, hj⟩]
  intro i j x y h
  rw [h]

theorem write_all (m : Nat) (c : Nat → F) (x : Nat → F) (t : Nat) :
    forN m (fun k => write k (c k)) x t = if t < m then c t else x t := by
  refine forN_inv (P := fun (n : Nat) (y : Nat → F) => y t = if t < n then c t else x t) (by simp) ?_
  intro i y _ h
  by_cases e : t = i
  · subst e
    unfold write
    rw [Function.update_self, if_pos (by omega)]
  · unfold write
    rw [Function.update_of_ne e, h]
    by_cases h2 : t < i
    · rw [if_pos h2, if_pos (by omega)]
    · rw [if_neg h2, if_neg (by omega)]

theorem storeCoeffs_spec (x : PMat (Sto F)) (s m : Nat) (hm : 1 ≤ m) (c : Nat → Nat × Nat → F) : (storeCoeffs x s m c).rows = s ∧
    (storeCoeffs x s m c).cols = s ∧ ∀ i j, i < s → j < s → ((storeCoeffs x s m c).e (i, j)).len = m ∧
      ∀ t, t < m → ((storeCoeffs x s m c).e (i, j)).mem t = c t (i, j) := by
  unfold storeCoeffs
  by_cases h : m = 1
  · subst h
    rw [if_pos rfl]
    obtain ⟨h1, h2, h3⟩ := storeConst_spec x s (c 0)
    refine ⟨h1, h2, fun i j hi hj => ?_⟩
    rw [h3 i j hi hj]
    refine ⟨rfl, fun t ht => ?_⟩
    obtain rfl : t = 0 := by omega
    exact wself 0 (c 0 (i, j)) ((x.setDims s s).e (i, j)).mem
  · rw [if_neg h]
    refine ⟨rfl, rfl, fun i j hi hj => ?_⟩
    dsimp only
    rw [loop2_spec, if_pos ⟨hi, hj⟩]
    · refine ⟨rfl, fun t ht => ?_⟩
      dsimp only
      rw [write_all m (fun k => c k (i, j)), if_pos ht]
    · intro i j x y h
      rw [h]

theorem val_coeff (x : Sto F) (k : Nat) : x.val.coeff k = if k < x.len then x.mem k else 0 := ofCoeffs_coeff _ _ _

/-- What `plain_inv_trunc` leaves in `x`. -/
theorem plain_spec {inv : Nat → (Nat × Nat → F) → Option (Nat × Nat → F)} (hinv : InvOk inv) (x : PMat (Sto F)) (a : PMat F[X])
    (m : Nat) (hm : 1 ≤ m) (hs : 0 < a.rows) (hsq : a.rows = a.cols) (hc : ConstInv a) :
    ∃ y, plain inv x a m = .ok y ∧ y.rows = a.rows ∧ y.cols = a.rows ∧ InvMod a.rows a.e (vals y).e m ∧
      ∀ i j, i < a.rows → j < a.rows → (y.e (i, j)).len ≤ m ∧ (deg a ≠ 0 → (y.e (i, j)).len = m) ∧
        (deg a = 0 → (y.e (i, j)).len = 1 ∧ ∀ t, 1 ≤ t → (y.e (i, j)).mem t = ((x.setDims a.rows a.rows).e (i, j)).mem t) := by
  have hd := deg_of_constInv hs hsq hc
  obtain ⟨⟨-, hconv⟩, -⟩ := C65_conv_order a ⟨0, 0, fun _ => 0⟩ (min (deg a + 1) m).toNat 0 0 0 fun _ _ => 0
  have h0 : ∀ i j, i < a.rows → j < a.rows → (convToCoeffsOrder a (min (deg a + 1) m).toNat).2 (0, (i, j)) = (a.e (i, j)).coeff 0 :=
    fun i j hi hj => hconv 0 i j (by omega) hi (by omega)
  obtain ⟨x0, hx0⟩ : ∃ W, inv a.rows (fun ij => (convToCoeffsOrder a (min (deg a + 1) m).toNat).2 (0, ij)) = some W := by
    refine hinv.complete _ _ ?_
    obtain ⟨W, hW⟩ := hc
    refine ⟨W, fun i j hi hj => ?_⟩
    rw [← hW i j hi hj]
    refine Finset.sum_congr rfl fun k hk => ?_
    rw [h0 k j (Finset.mem_range.1 hk) hj]
  have hsound := hinv.sound _ _ _ hx0
  unfold plain
  dsimp only
  rw [if_neg (by omega), if_neg (by omega), if_neg (by omega), hx0]
  dsimp only
  by_cases hd0 : deg a = 0
  · rw [if_pos hd0]
    obtain ⟨h1, h2, h3⟩ := storeConst_spec x a.rows x0
    refine ⟨_, rfl, h1, h2, ?_, fun i j hi hj => ?_⟩
    · intro i j hi hj
      have e1 : ∀ l, l < a.rows → (vals (storeConst x a.rows x0)).e (i, l) = C (x0 (i, l)) := fun l hl => by
        ext t
        show (((storeConst x a.rows x0).e (i, l)).val).coeff t = _
        rw [h3 i l hi hl, val_coeff, coeff_C]
        by_cases ht : t = 0
        · subst ht
          rw [if_pos (by exact Nat.one_pos), if_pos rfl]
          exact wself 0 (x0 (i, l)) ((x.setDims a.rows a.rows).e (i, l)).mem
        · rw [if_neg ht, if_neg]
          show ¬t < 1
          omega
      have e2 : ∀ l, l < a.rows → a.e (l, j) = C ((a.e (l, j)).coeff 0) := fun l hl =>
        eq_C_of_natDegree_eq_zero (by
          by_contra hn
          have := (deg_lt_iff a 1).1 (by omega) l j hl (by omega) (a.e (l, j)).natDegree (by omega)
          rw [coeff_natDegree, leadingCoeff_eq_zero] at this
          rw [this, natDegree_zero] at hn
          exact hn rfl)
      have e3 : cmul a.rows (vals (storeConst x a.rows x0)).e a.e (i, j) = if i = j then 1 else 0 := by
        unfold cmul
        dsimp only
        rw [Finset.sum_congr rfl fun l hl => by
          rw [e1 l (Finset.mem_range.1 hl), e2 l (Finset.mem_range.1 hl), ← C_mul, ← h0 l j (Finset.mem_range.1 hl) hj], ← map_sum,
          hsound i j hi hj]
        split_ifs
        · exact C_1
        · exact C_0
      rw [e3, sub_self]
      exact dvd_zero _
    · rw [h3 i j hi hj]
      refine ⟨hm, fun h => absurd hd0 h, fun _ => ⟨rfl, fun t ht => ?_⟩⟩
      unfold write
      dsimp only
      rw [Function.update_of_ne (by omega)]
  · rw [if_neg hd0]
    set ac : Nat → Nat × Nat → F := fun k ij => (convToCoeffsOrder a (min (deg a + 1) m).toNat).2 (k, ij) with hac
    obtain ⟨h1, h2, h3⟩ := storeCoeffs_spec x a.rows m hm (plainLoop a.rows m (deg a).toNat ac x0)
    have key := plainLoop_inv a m (deg a).toNat (by omega) hm (by omega) hsq ac
      (fun t i j h4 h5 hi hj => hconv t i j (by omega) hi (by omega)) x0 fun i j hi hj => hsound i j hi hj
    refine ⟨_, rfl, h1, h2, invMod_congr key fun i j hi hj => ?_, fun i j hi hj => ⟨(h3 i j hi hj).1.le, fun _ => (h3 i j hi hj).1,
      fun h => absurd h hd0⟩⟩
    have : (vals (storeCoeffs x a.rows m (plainLoop a.rows m (deg a).toNat ac x0))).e (i, j) =
        ofCoeffs m fun k => plainLoop a.rows m (deg a).toNat ac x0 k (i, j) := by
      ext t
      show ((storeCoeffs x a.rows m (plainLoop a.rows m (deg a).toNat ac x0)).e (i, j)).val.coeff t = _
      rw [val_coeff, ofCoeffs_coeff, (h3 i j hi hj).1]
      split_ifs with ht
      · rw [(h3 i j hi hj).2 t ht]
      · rfl
    rw [this, sub_self]
    exact dvd_zero _

theorem plain_reject {inv : Nat → (Nat × Nat → F) → Option (Nat × Nat → F)} (hinv : InvOk inv) (x : PMat (Sto F)) (a : PMat F[X])
    (m : Nat) (hm : 1 ≤ m) (h : deg a < 0 ∨ a.rows ≠ a.cols ∨ ¬ConstInv a) : plain inv x a m = .error := by
  have hge := (deg_spec a).1
  unfold plain
  dsimp only
  by_cases hd : deg a = -1
  · rw [if_pos hd]
  · rw [if_neg hd, if_neg (by omega)]
    by_cases hsq : a.rows = a.cols
    · rw [if_neg (not_not.2 hsq)]
      have hc : ¬ConstInv a := by
        rcases h with h | h | h
        · omega
        · exact absurd hsq h
        · exact h
      obtain ⟨⟨-, hconv⟩, -⟩ := C65_conv_order a ⟨0, 0, fun _ => 0⟩ (min (deg a + 1) m).toNat 0 0 0 fun _ _ => 0
      cases hi : inv a.rows (fun ij => (convToCoeffsOrder a (min (deg a + 1) m).toNat).2 (0, ij)) with
      | none => rfl
      | some W =>
        refine absurd ⟨W, fun i j h1 h2 => ?_⟩ hc
        rw [← hinv.sound _ _ _ hi i j h1 h2]
        refine Finset.sum_congr rfl fun k hk => ?_
        rw [hconv 0 k j (by omega) (Finset.mem_range.1 hk) (by omega)]
    · rw [if_pos hsq]

/-- **C71 (naive algorithm)**. `plain_inv_trunc(x, a, m)`, `m ≥ 1`, for a square matrix whose constant
    coefficient is invertible, returns the inverse of `a` modulo `X^m`, whatever `x` was. -/
theorem C71_plain {inv : Nat → (Nat × Nat → F) → Option (Nat × Nat → F)} (hinv : InvOk inv) (x : PMat (Sto F)) (a : PMat F[X])
    (m : Nat) (hm : 1 ≤ m) (hs : 0 < a.rows) (hsq : a.rows = a.cols) (hc : ConstInv a) :
    ∃ y, plainInvTrunc inv x a m = .ok y ∧ IsInvTrunc a m y := by
  obtain ⟨y, h1, h2, h3, h4, h5⟩ := plain_spec hinv x a m hm hs hsq hc
  unfold plainInvTrunc
  rw [h1]
  refine ⟨_, rfl, isInvTrunc_of h2 h3 (fun i j hi hj k hk => ?_) h4⟩
  show (y.e (i, j)).val.coeff k = 0
  rw [val_coeff, if_neg]
  have := (h5 i j hi hj).1
  omega

/-- **C71 (naive algorithm, errors)**. If `a` is zero, not square, or its constant coefficient is not invertible,
    an error is reported. -/
theorem C71_plain_reject {inv : Nat → (Nat × Nat → F) → Option (Nat × Nat → F)} (hinv : InvOk inv) (x : PMat (Sto F)) (a : PMat F[X])
    (m : Nat) (hm : 1 ≤ m) (h : deg a < 0 ∨ a.rows ≠ a.cols ∨ ¬ConstInv a) : plainInvTrunc inv x a m = .error := by
  unfold plainInvTrunc
  rw [plain_reject hinv x a m hm h]

/-! ### One step of Newton's iteration -/

theorem dvd_trunc (f : F[X]) (k : Nat) : X ^ k ∣ ptrunc f k - f := by
  rw [X_pow_dvd_iff]
  intro t ht
  rw [coeff_sub, ptrunc_coeff, if_pos ht, sub_self]

/-- Newton's step when `delta` (`Y`) is read off the product by the truncation `a'` of `a`. -/
theorem newton_apply {s k : Nat} {a a' x Y y : Nat × Nat → F[X]} (h : InvMod s a x k)
    (ha : ∀ i j, i < s → j < s → X ^ (2 * k) ∣ a' (i, j) - a (i, j))
    (hY : ∀ i j, i < s → j < s → ∀ t, t < k → (Y (i, j)).coeff t = (cmul s x a' (i, j)).coeff (k + t))
    (hy : ∀ i j, i < s → j < s → X ^ k ∣ y (i, j) - cmul s Y x (i, j)) :
    InvMod s a (fun ij => x ij - X ^ k * y ij) (2 * k) := by
  refine newton_step h fun D hD i j hi hj => ?_
  have hYD : ∀ l, l < s → X ^ k ∣ Y (i, l) - D (i, l) := fun l hl => by
    rw [X_pow_dvd_iff]
    intro t ht
    have e1 := congrArg (fun f => coeff f (k + t)) (hD i l hi hl)
    have e2 : (if i = l then (1 : F[X]) else 0).coeff (k + t) = 0 := by
      split_ifs
      · rw [coeff_one, if_neg (by omega)]
      · exact coeff_zero _
    rw [coeff_add, e2, zero_add, Nat.add_comm k t, coeff_X_pow_mul] at e1
    have e3 : X ^ (2 * k) ∣ cmul s x a' (i, l) - cmul s x a (i, l) := by
      unfold cmul
      rw [← Finset.sum_sub_distrib]
      refine Finset.dvd_sum fun u hu => ?_
      dsimp only
      rw [← mul_sub]
      exact Dvd.dvd.mul_left (ha u l (Finset.mem_range.1 hu) hl) _
    have e4 := (X_pow_dvd_iff.1 e3) (t + k) (by omega)
    rw [coeff_sub, sub_eq_zero] at e4
    rw [coeff_sub, hY i l hi hl t ht, Nat.add_comm k t, e4, e1, sub_self]
  have e : y (i, j) - cmul s D x (i, j) = (y (i, j) - cmul s Y x (i, j)) + ∑ l ∈ Finset.range s, (Y (i, l) - D (i, l)) * x (l, j) := by
    unfold cmul
    simp only [sub_mul, Finset.sum_sub_distrib]
    ring
  rw [e]
  exact dvd_add (hy i j hi hj) (Finset.dvd_sum fun l hl => Dvd.dvd.mul_right (hYD l (Finset.mem_range.1 hl)) _)

/-- The inverse modulo `X^k`, of degree less than `k`. -/
structure Good (a x : PMat F[X]) (k : Nat) : Prop where
  rows : x.rows = a.rows
  cols : x.cols = a.rows
  deg : ∀ i j, i < a.rows → j < a.rows → ∀ t, k ≤ t → (x.e (i, j)).coeff t = 0
  inv : InvMod a.rows a.e x.e k

theorem Good.isInvTrunc {a x : PMat F[X]} {k m : Nat} (h : Good a x k) (hm : m ≤ k) (al : Bool) (y : PMat F[X]) :
    IsInvTrunc a m (trunc al y x m) := by
  obtain ⟨h1, h2, h3⟩ := C65_trunc al y x m
  refine isInvTrunc_of (h1.trans h.rows) (h2.trans h.cols) (fun i j hi hj t ht => ?_) ?_
  · rw [h3 i j (by rw [h.rows]; exact hi) (by rw [h.cols]; exact hj), if_neg (by omega)]
  · refine invMod_congr (invMod_mono hm h.inv) fun i j hi hj => ?_
    rw [X_pow_dvd_iff]
    intro t ht
    rw [coeff_sub, h3 i j (by rw [h.rows]; exact hi) (by rw [h.cols]; exact hj), if_pos ht, sub_self]

theorem Good.trunc {a x : PMat F[X]} {k m : Nat} (h : Good a x k) (hm : m ≤ k) (al : Bool) (y : PMat F[X]) :
    Good a (trunc al y x m) m := by
  have := h.isInvTrunc hm al y
  exact ⟨this.rows, this.cols, this.deg, (invMod_iff _ _ _ _).2 this.left⟩

theorem Good.deg_nonneg {a x : PMat F[X]} {k : Nat} (h : Good a x k) (hk : 1 ≤ k) (hs : 0 < a.rows) : 0 ≤ Utils.deg x := by
  by_contra hc
  have hz := (deg_neg_iff x).1 (by have := (deg_spec x).1; omega)
  have := (invMod_iff _ _ _ _).1 h.inv 0 0 hs hs 0 (by omega)
  rw [if_pos ⟨rfl, rfl⟩] at this
  unfold cmul at this
  rw [Finset.sum_eq_zero fun l hl => by
    rw [hz 0 l (by rw [h.rows]; exact hs) (by rw [h.cols]; exact Finset.mem_range.1 hl), zero_mul], coeff_zero] at this
  exact zero_ne_one this

/-! ### Middle products -/

theorem sub_shift {x p : F[X]} {k : Nat} {y : F[X]} (hy : ∀ t, y.coeff t = if (k : Int) ≤ t then p.coeff ((t : Int) - k).toNat else 0) :
    x - y = x - X ^ k * p := by
  congr 1
  ext t
  rw [hy, coeff_X_pow_mul']
  split_ifs with h1 h2 h2
  · congr 1
    omega
  · omega
  · omega
  · rfl

theorem stepMiddle_spec {mid : PMat F[X] → PMat F[X] → Nat → Nat → Option (PMat F[X])} (hmid : MidOk mid)
    {mul : PMat F[X] → PMat F[X] → Option (PMat F[X])} (hmul : MulOk mul) {a x : PMat F[X]} {k : Nat} (hk : 1 ≤ k) (hs : 0 < a.rows)
    (hsq : a.rows = a.cols) (h : Good a x k) : ∃ x', stepMiddle mid mul a k x = some x' ∧ Good a x' (2 * k) := by
  obtain ⟨t1, t2, t3⟩ := C65_trunc false ⟨0, 0, fun _ => 0⟩ a (2 * k)
  unfold stepMiddle
  dsimp only
  set tr := Utils.trunc false ⟨0, 0, fun _ => 0⟩ a (2 * k)
  have hdx : Utils.deg x < k := (deg_lt_iff x k).2 fun i j hi hj t ht =>
    h.deg i j (by rw [← h.rows]; exact hi) (by rw [← h.cols]; exact hj) t ht
  have hdt : Utils.deg tr < (2 * k : Nat) := (deg_lt_iff tr _).2 fun i j hi hj t ht => by
    rw [t3 i j (by rw [← t1]; exact hi) (by rw [← t2]; exact hj), if_neg (by omega)]
  obtain ⟨y, e1, m1, m2, m3⟩ := hmid x tr k (k - 1) (by rw [t1, h.cols]) (by rw [h.cols]; exact hs) (h.deg_nonneg hk hs) (by omega)
    (by omega) (by omega)
  rw [e1]
  dsimp only
  have hyc : y.cols = a.rows := by rw [m2, t2, hsq]
  obtain ⟨z, e2, p1, p2, p3⟩ := hmul y x (by rw [hyc, h.rows]) (by rw [hyc]; exact hs)
  rw [e2]
  dsimp only
  obtain ⟨u1, u2, u3⟩ := C65_trunc true z z k
  set z1 := Utils.trunc true z z k
  obtain ⟨⟨v1, v2, v3⟩, -⟩ := C65_shift true z1 z1 k
  set z2 := leftShift true z1 z1 k
  have hr : x.rows = z2.rows := by rw [v1, u1, p1, m1]
  have hcc : x.cols = z2.cols := by rw [v2, u2, p2]
  obtain ⟨w1, w2⟩ := zipWith_spec (· - ·) true false x x z2 (by simp)
  cases hw : zipWith (· - ·) true false x x z2 with
  | none => exact absurd ⟨hr, hcc⟩ (w1.1 hw)
  | some x' =>
    obtain ⟨w3, w4, w5⟩ := w2 x' hw
    have hval : ∀ i j, i < a.rows → j < a.rows → x'.e (i, j) = x.e (i, j) - X ^ k * ptrunc (cmul a.rows y.e x.e (i, j)) k :=
      fun i j hi hj => by
      rw [w5 i j (by rw [h.rows]; exact hi) (by rw [h.cols]; exact hj)]
      refine sub_shift fun t => ?_
      rw [v3 i j (by rw [u1, p1, m1, h.rows]; exact hi) (by rw [u2, p2, h.cols]; exact hj)]
      split_ifs with ht
      · rw [u3 i j (by rw [p1, m1, h.rows]; exact hi) (by rw [p2, h.cols]; exact hj), ptrunc_coeff,
          p3 i j (by rw [m1, h.rows]; exact hi) (by rw [h.cols]; exact hj), hyc]
        rfl
      · rfl
    refine ⟨x', rfl, w3.trans h.rows, w4.trans h.cols, fun i j hi hj t ht => ?_, ?_⟩
    · rw [hval i j hi hj, coeff_sub, h.deg i j hi hj t (by omega), coeff_X_pow_mul', if_pos (by omega), ptrunc_coeff, if_neg (by omega),
        sub_zero]
    · have := newton_apply (a' := tr.e) (Y := y.e) (y := fun ij => ptrunc (cmul a.rows y.e x.e ij) k) h.inv
        (fun i j hi hj => by
          rw [X_pow_dvd_iff]
          intro t ht
          rw [coeff_sub, t3 i j hi (by omega), if_pos ht, sub_self])
        (fun i j hi hj t ht => by
          rw [m3 i j (by rw [h.rows]; exact hi) (by rw [t2]; omega), if_pos (by omega), h.cols]
          unfold cmul
          congr 1
          refine Finset.sum_congr rfl fun l hl => ?_
          rw [mid_trunc _ k fun t ht => h.deg i l hi (Finset.mem_range.1 hl) t (by omega)])
        fun i j hi hj => dvd_trunc _ _
      refine invMod_congr this fun i j hi hj => ?_
      rw [hval i j hi hj, sub_self]
      exact dvd_zero _

theorem degrees_spec (thresh : Nat) (ht : 1 ≤ thresh) : ∀ fuel n, n ≤ fuel → ∃ l, degrees fuel n thresh = some l ∧
    (∃ k, l[0]? = some k ∧ k ≤ thresh ∧ (1 ≤ n → 1 ≤ k) ∧ (2 ≤ n → 2 ≤ thresh → 2 ≤ k)) ∧
    (∃ k, l[l.length - 1]? = some k ∧ (k = n ∨ k = n + 1 ∧ 3 ≤ n)) ∧
    ∀ idx k k', l[idx]? = some k → l[idx + 1]? = some k' → k < k' ∧ k' ≤ 2 * k := by
  intro fuel
  induction fuel with
  | zero =>
    intro n hn
    obtain rfl : n = 0 := by omega
    refine ⟨[0], by simp [degrees], ⟨0, rfl, by omega, fun h => h, fun h => by omega⟩, ⟨0, rfl, Or.inl rfl⟩, fun idx k k' _ h => ?_⟩
    simp at h
  | succ fuel ih =>
    intro n hn
    unfold degrees
    by_cases h : thresh < n
    · rw [if_pos h]
      dsimp only
      set n' := if n % 2 = 1 then n + 1 else n with hn'
      have hn2 : n' % 2 = 0 ∧ (n' = n ∨ n' = n + 1 ∧ n % 2 = 1) := by
        rw [hn']; split_ifs <;> omega
      obtain ⟨l, e, ⟨k0, h0, hk0, h1, h2⟩, ⟨kl, hl, hkl⟩, hch⟩ := ih (n' / 2) (by omega)
      rw [e]
      have hlen : 0 < l.length := by
        by_contra hc
        rw [List.getElem?_eq_none (by omega)] at h0
        exact nomatch h0
      refine ⟨_, rfl, ⟨k0, ?_, hk0, fun _ => h1 (by omega), fun _ h3 => h2 (by omega) h3⟩, ⟨n', ?_, by omega⟩, fun idx k k' h3 h4 => ?_⟩
      · rw [List.getElem?_append_left hlen, h0]
      · rw [List.length_append, List.length_singleton, Nat.add_sub_cancel, List.getElem?_concat_length]
      · by_cases hi : idx + 1 < l.length
        · rw [List.getElem?_append_left (by omega)] at h3 h4
          exact hch idx k k' h3 h4
        · by_cases hi2 : idx + 1 = l.length
          · rw [hi2, List.getElem?_concat_length] at h4
            rw [List.getElem?_append_left (by omega), show idx = l.length - 1 by omega, hl] at h3
            cases h3
            cases h4
            omega
          · rw [List.getElem?_eq_none (by rw [List.length_append, List.length_singleton]; omega)] at h4
            exact nomatch h4
    · rw [if_neg h]
      refine ⟨[n], rfl, ⟨n, rfl, by omega, fun h => h, fun h3 _ => h3⟩, ⟨n, rfl, Or.inl rfl⟩, fun idx k k' _ h => ?_⟩
      simp at h

theorem loopMiddle_spec {a : PMat F[X]} {step : Nat → PMat F[X] → Option (PMat F[X])} {all : List Nat} {m : Nat}
    (hstep : ∀ k x, 1 ≤ k → Good a x k → ∃ x', step k x = some x' ∧ Good a x' (2 * k))
    (hl : ∃ k, all[all.length - 1]? = some k ∧ m ≤ k)
    (hch : ∀ idx k k', all[idx]? = some k → all[idx + 1]? = some k' → k < k' ∧ k' ≤ 2 * k) :
    ∀ fuel k idx x, m ≤ fuel + k → 1 ≤ k → all[idx]? = some k → Good a x k →
      ∃ x' k', loopMiddle step all m fuel k (idx + 1) x = .ok x' ∧ Good a x' k' ∧ m ≤ k' := by
  intro fuel
  induction fuel with
  | zero =>
    intro k idx x hf hk hidx hx
    unfold loopMiddle
    rw [if_neg (by omega)]
    exact ⟨x, k, rfl, hx, by omega⟩
  | succ fuel ih =>
    intro k idx x hf hk hidx hx
    unfold loopMiddle
    by_cases h : k < m
    · rw [if_pos h]
      obtain ⟨x', e, hx'⟩ := hstep k x hk hx
      dsimp only
      rw [e]
      dsimp only
      have hlt : idx + 1 < all.length := by
        obtain ⟨kl, h1, h2⟩ := hl
        have h3 : idx < all.length := (List.getElem?_eq_some_iff.1 hidx).1
        by_contra hc
        rw [show all.length - 1 = idx by omega, hidx] at h1
        cases h1
        omega
      rw [List.getElem?_eq_getElem hlt]
      dsimp only
      obtain ⟨h4, h5⟩ := hch idx k all[idx + 1] hidx (List.getElem?_eq_getElem hlt)
      refine ih _ (idx + 1) _ (by omega) (by omega) (List.getElem?_eq_getElem hlt) ?_
      split_ifs with h6
      · exact hx'.trunc h5 true x'
      · rw [← not_not.1 h6]
        exact hx'
    · rw [if_neg h]
      exact ⟨x, k, rfl, hx, by omega⟩

theorem headD_eq {l : List Nat} {k : Nat} (h : l[0]? = some k) : l.headD 0 = k := by
  cases l with
  | nil => exact nomatch h
  | cons y l => simpa using h

theorem good_plain {a : PMat F[X]} {y : PMat (Sto F)} {m : Nat} (h2 : y.rows = a.rows) (h3 : y.cols = a.rows)
    (h4 : InvMod a.rows a.e (vals y).e m) (h5 : ∀ i j, i < a.rows → j < a.rows → (y.e (i, j)).len ≤ m) : Good a (vals y) m :=
  ⟨h2, h3, fun i j hi hj t ht => by
    show (y.e (i, j)).val.coeff t = 0
    rw [val_coeff, if_neg]
    have := h5 i j hi hj
    omega, h4⟩

/-- **C71 (middle products)**. `newton_inv_trunc_middle_product(x, a, m, thresh)`, for `thresh ≥ 1` (and a
    positive value in the table), a square matrix whose constant coefficient is invertible and `m ≥ 1`, returns the inverse of
    `a` modulo `X^m`, whether or not `x` is `a` and whatever `x` was. -/
theorem C71_middle_product {inv : Nat → (Nat × Nat → F) → Option (Nat × Nat → F)} (hinv : InvOk inv)
    {mid : PMat F[X] → PMat F[X] → Nat → Nat → Option (PMat F[X])} (hmid : MidOk mid) {mul : PMat F[X] → PMat F[X] → Option (PMat F[X])}
    (hmul : MulOk mul) (dflt : Nat) (hdflt : 1 ≤ dflt) (al : Bool) (x : PMat (Sto F)) (a : PMat F[X]) (m thresh : Nat) (ht : 1 ≤ thresh)
    (hm : 1 ≤ m) (hs : 0 < a.rows) (hsq : a.rows = a.cols) (hc : ConstInv a) :
    ∃ y, newtonMiddle inv mid mul dflt al x a m thresh = .ok y ∧ IsInvTrunc a m y := by
  obtain ⟨all, e, ⟨k0, h0, -, h1, -⟩, ⟨kl, hl, hkl⟩, hch⟩ := degrees_spec (if al then dflt else thresh) (by split_ifs <;> omega) m m (le_refl _)
  unfold newtonMiddle
  rw [e]
  dsimp only
  rw [headD_eq h0]
  obtain ⟨y, p1, p2, p3, p4, p5⟩ := plain_spec hinv (if al then fresh F else x) a k0 (h1 hm) hs hsq hc
  rw [p1]
  dsimp only
  obtain ⟨x', k', e2, hx', hk'⟩ := loopMiddle_spec (a := a) (m := m) (fun k x hk hx => stepMiddle_spec hmid hmul hk hs hsq hx) ⟨kl, hl, by omega⟩ hch m k0 0
    (vals y) (by omega) (h1 hm) h0 (good_plain p2 p3 p4 fun i j hi hj => (p5 i j hi hj).1)
  rw [e2]
  exact ⟨_, rfl, hx'.isInvTrunc hk' true x'⟩

/-! ### Storage of the output -/

/-- The coefficients that `rep.SetLength` would add to the entries of `x` below `k` are zero. -/
structure Ready (x : PMat (Sto F)) (s k : Nat) : Prop where
  rows : x.rows = s
  cols : x.cols = s
  len : ∀ i j, i < s → j < s → (x.e (i, j)).len ≤ k
  zero : ∀ i j, i < s → j < s → ∀ t, (x.e (i, j)).len ≤ t → t < k → (x.e (i, j)).mem t = 0

theorem extend_mem (k : Nat) (P : F[X]) (x : Sto F) (t : Nat) (ht : t < 2 * k) :
    (extend k P x).mem t = if t < k then x.mem t else -P.coeff (t - k) := by
  unfold extend
  dsimp only
  have key := forN_inv (P := fun (n : Nat) (y : Nat → F) => ∀ t, t < k + n → y t = if t < k then x.mem t else -P.coeff (t - k))
    (n := k) (f := fun t => write (k + t) (if (t : Int) < pdeg P + 1 then -P.coeff t else 0)) (s := x.mem)
    (fun t ht => by rw [if_pos (by omega)]) (fun n y _ h t ht => ?_)
  · exact key t (by omega)
  · skip
    by_cases e : t = k + n
    · subst e
      rw [wself, if_neg (by omega : ¬k + n < k), Nat.add_sub_cancel_left]
      split_ifs with h2
      · rfl
      · rw [coeff_gt_pdeg P n (by omega), neg_zero]
    · rw [wne _ _ (by omega), h t (by omega)]

theorem extend_val {k : Nat} (P : F[X]) (x : Sto F) (h1 : x.len ≤ k) (h2 : ∀ t, x.len ≤ t → t < k → x.mem t = 0) :
    (extend k P x).val = x.val - X ^ k * ptrunc P k := by
  ext t
  rw [val_coeff, coeff_sub, val_coeff, coeff_X_pow_mul']
  show (if t < 2 * k then _ else _) = _
  by_cases ht : t < 2 * k
  · rw [if_pos ht, extend_mem k P x t ht]
    by_cases hk : t < k
    · rw [if_pos hk, if_neg (by omega : ¬k ≤ t), sub_zero]
      split_ifs with h3
      · rfl
      · exact h2 t (by omega) hk
    · rw [if_neg hk, if_neg (by omega), if_pos (by omega), ptrunc_coeff, if_pos (by omega), zero_sub]
  · rw [if_neg ht, if_neg (by omega), if_pos (by omega), ptrunc_coeff, if_neg (by omega), sub_zero]

/-- The end of an iteration of Newton's algorithm. -/
theorem extend_spec {a : PMat F[X]} {k : Nat} {x : PMat (Sto F)} (hR : Ready x a.rows k) (hG : Good a (vals x) k) (P : Nat → Nat → F[X])
    (h : InvMod a.rows a.e (fun ij => (vals x).e ij - X ^ k * ptrunc (P ij.1 ij.2) k) (2 * k)) (x' : PMat (Sto F))
    (hx' : x' = { x with e := loop2 a.rows a.rows (fun i l cur => extend k (P i l) (cur (i, l))) x.e }) :
    Ready x' a.rows (2 * k) ∧ Good a (vals x') (2 * k) := by
  have he : ∀ i j, i < a.rows → j < a.rows → x'.e (i, j) = extend k (P i j) (x.e (i, j)) := fun i j hi hj => by
    rw [hx']
    dsimp only
    rw [loop2_spec, if_pos ⟨hi, hj⟩]
    intro i j x y h
    rw [h]
  have hv : ∀ i j, i < a.rows → j < a.rows → (vals x').e (i, j) = (vals x).e (i, j) - X ^ k * ptrunc (P i j) k := fun i j hi hj => by
    show (x'.e (i, j)).val = _
    rw [he i j hi hj, extend_val _ _ (hR.len i j hi hj) (hR.zero i j hi hj)]
    rfl
  have hr : x'.rows = a.rows := by rw [hx']; exact hR.rows
  have hc : x'.cols = a.rows := by rw [hx']; exact hR.cols
  have hl : ∀ i j, i < a.rows → j < a.rows → (x'.e (i, j)).len = 2 * k := fun i j hi hj => by
    rw [he i j hi hj]
    rfl
  refine ⟨⟨hr, hc, fun i j hi hj => (hl i j hi hj).le, fun i j hi hj t h1 h2 => ?_⟩, ⟨hr, hc, fun i j hi hj t ht => ?_, ?_⟩⟩
  · have := hl i j hi hj
    omega
  · rw [hv i j hi hj, coeff_sub, hG.deg i j hi hj t (by omega), coeff_X_pow_mul', if_pos (by omega), ptrunc_coeff, if_neg (by omega),
      sub_zero]
  · refine invMod_congr h fun i j hi hj => ?_
    rw [hv i j hi hj, sub_self]
    exact dvd_zero _

/-! ### FFT -/

theorem fromEval_cyc {T : FFT F} {K : Nat} (hT : FFTOk T K) (Q : F[X]) (lo cnt : Nat) (v : Nat → F)
    (hv : ∀ r, r < 2 ^ K → v r = Q.eval (T.pt K r)) : fromEval (T.pt K) (2 ^ K) lo cnt v = slice (Q %ₘ (X ^ 2 ^ K - 1)) lo cnt := by
  refine fromEval_eq _ _ _ _ hT.inj v _ (fun k hk => cyc_coeff_high (by positivity) Q hk) fun r hr => ?_
  rw [hv r hr]
  conv_lhs => rw [← modByMonic_add_div Q (X ^ 2 ^ K - 1)]
  rw [eval_add, eval_mul, eval_sub, eval_pow, eval_X, eval_one, hT.root r hr, sub_self, zero_mul, add_zero]

theorem cmul_zero (s : Nat) (u v : Nat × Nat → F[X]) (i j dU dV : Nat) (hu : ∀ l, l < s → ∀ t, dU < t → (u (i, l)).coeff t = 0)
    (hv : ∀ l, l < s → ∀ t, dV < t → (v (l, j)).coeff t = 0) (t : Nat) (ht : dU + dV < t) : (cmul s u v (i, j)).coeff t = 0 := by
  unfold cmul
  rw [finsetSum_coeff]
  refine Finset.sum_eq_zero fun l hl => ?_
  have hl := Finset.mem_range.1 hl
  rw [coeff_mul]
  refine Finset.sum_eq_zero fun p hp => ?_
  have := Finset.mem_antidiagonal.1 hp
  dsimp only
  by_cases h : dU < p.1
  · rw [hu l hl _ h, zero_mul]
  · rw [hv l hl _ (by omega), mul_zero]

theorem products_spec {s n : Nat} {u v : Nat → F} (U V : Nat × Nat → F[X]) (pt : Nat → F)
    (hu : ∀ r i j, r < n → i < s → j < s → u (r * (s * s) + i * s + j) = (U (i, j)).eval (pt r))
    (hv : ∀ r i j, r < n → i < s → j < s → v (r * (s * s) + i * s + j) = (V (i, j)).eval (pt r)) (r i j : Nat) (hr : r < n) (hi : i < s)
    (hj : j < s) : products s n u v (i * s + j, r) = (cmul s U V (i, j)).eval (pt r) := by
  unfold products
  dsimp only
  rw [fill2 n s s (fun j => cmul s (fun x => u (j * (s * s) + x.1 * s + x.2)) fun x => v (j * (s * s) + x.1 * s + x.2)) _ r i j hr hi hj]
  unfold cmul
  rw [eval_finsetSum]
  refine Finset.sum_congr rfl fun l hl => ?_
  have hl := Finset.mem_range.1 hl
  dsimp only
  rw [hu r i l hr hi hl, hv r l j hr hl hj, eval_mul]

theorem stepFFT_spec {T : FFT F} {a : PMat F[X]} {k : Nat} (hk : 1 ≤ k) (hT : FFTOk T (nextPow2 (2 * k))) {x : PMat (Sto F)}
    (hR : Ready x a.rows k) (hG : Good a (vals x) k) :
    Ready (stepFFT T a a.rows k x) a.rows (2 * k) ∧ Good a (vals (stepFFT T a a.rows k x)) (2 * k) := by
  have hn : 2 * k ≤ 2 ^ nextPow2 (2 * k) := le_nextPow2 _
  set K := nextPow2 (2 * k) with hK
  set s := a.rows with hs
  set a' : Nat × Nat → F[X] := fun ij => slice (a.e ij) 0 (min (2 * k - 1 : Int) (pdeg (a.e ij)) + 1).toNat with ha'
  have ha'c : ∀ ij t, (a' ij).coeff t = if t < 2 * k then (a.e ij).coeff t else 0 := fun ij t => by
    rw [ha']
    dsimp only
    rw [slice_coeff, Nat.zero_add]
    by_cases h1 : t < 2 * k
    · rw [if_pos h1]
      split_ifs with h2
      · rfl
      · rw [coeff_gt_pdeg]
        omega
    · rw [if_neg h1, if_neg (by omega)]
  have f1 := fun r i j hr hi hj => fill3 (2 ^ K) s s (fun i j r => (x.e (i, j)).val.eval (T.pt K r)) (fun _ => 0) r i j hr hi hj
  have f2 := fun r i j hr hi hj => fill3 (2 ^ K) s s (fun i j r => (a' (i, j)).eval (T.pt K r)) (fun _ => 0) r i j hr hi hj
  have p1 := products_spec (n := 2 ^ K) (vals x).e a' (T.pt K) f1 f2
  set Y : Nat × Nat → F[X] := fun ij => slice (cmul s (vals x).e a' ij %ₘ (X ^ 2 ^ K - 1)) k k with hY
  have e1 : ∀ i l, i < s → l < s → fromEval (T.pt K) (2 ^ K) k k (fun r => products s (2 ^ K)
      (spread s (2 ^ K) fun i j r => (x.e (i, j)).val.eval (T.pt K r)) (spread s (2 ^ K) fun i j r => (a' (i, j)).eval (T.pt K r))
      (i * s + l, r)) = Y (i, l) := fun i l hi hl => fromEval_cyc hT _ _ _ _ fun r hr => p1 r i l hr hi hl
  have f3 := fun r i j hr hi hj => fill3 (2 ^ K) s s (fun i l r => (fromEval (T.pt K) (2 ^ K) k k (fun r => products s (2 ^ K)
      (spread s (2 ^ K) fun i j r => (x.e (i, j)).val.eval (T.pt K r)) (spread s (2 ^ K) fun i j r => (a' (i, j)).eval (T.pt K r))
      (i * s + l, r))).eval (T.pt K r)) (fun _ => 0) r i j hr hi hj
  have p2 := products_spec (n := 2 ^ K) Y (vals x).e (T.pt K) (fun r i j hr hi hj => (f3 r i j hr hi hj).trans (by rw [e1 i j hi hj])) f1
  set P : Nat → Nat → F[X] := fun i l => fromEval (T.pt K) (2 ^ K) 0 k fun r => products s (2 ^ K) (spread s (2 ^ K) fun i l r =>
    (fromEval (T.pt K) (2 ^ K) k k (fun r => products s (2 ^ K)
      (spread s (2 ^ K) fun i j r => (x.e (i, j)).val.eval (T.pt K r)) (spread s (2 ^ K) fun i j r => (a' (i, j)).eval (T.pt K r))
      (i * s + l, r))).eval (T.pt K r)) (spread s (2 ^ K) fun i j r => (x.e (i, j)).val.eval (T.pt K r)) (i * s + l, r) with hP
  have e2 : ∀ i l, i < s → l < s → P i l = slice (cmul s Y (vals x).e (i, l) %ₘ (X ^ 2 ^ K - 1)) 0 k := fun i l hi hl =>
    fromEval_cyc hT _ _ _ _ fun r hr => p2 r i l hr hi hl
  have hYd : ∀ ij t, k - 1 < t → (Y ij).coeff t = 0 := fun ij t ht => by
    rw [hY]
    dsimp only
    rw [slice_coeff, if_neg (by omega)]
  refine extend_spec hR hG P ?_ _ rfl
  refine newton_apply (a' := a') (Y := Y) (y := fun ij => ptrunc (P ij.1 ij.2) k) hG.inv (fun i j hi hj => ?_) (fun i j hi hj t ht => ?_)
    fun i j hi hj => ?_
  · rw [X_pow_dvd_iff]
    intro t ht
    rw [coeff_sub, ha'c, if_pos ht, sub_self]
  · rw [hY]
    dsimp only
    rw [slice_coeff, if_pos ht, cyc_coeff_eq (by omega)]
    intro n hn'
    refine cmul_zero s _ _ i j (k - 1) (2 * k - 1) (fun l hl t ht => hG.deg i l hi hl t (by omega)) (fun l hl t ht => ?_) n (by omega)
    rw [ha'c, if_neg (by omega)]
  · rw [X_pow_dvd_iff]
    intro t ht
    dsimp only
    rw [coeff_sub, ptrunc_coeff, if_pos ht, e2 i j hi hj, slice_coeff, if_pos ht, Nat.zero_add, cyc_coeff_eq (by omega), sub_self]
    intro n hn'
    exact cmul_zero s _ _ i j (k - 1) (k - 1) (fun l hl t ht => hYd _ _ ht) (fun l hl t ht => hG.deg l j hl hj t (by omega)) n (by omega)

theorem loopFFT_spec {T : FFT F} {a : PMat F[X]} {m : Nat} : ∀ fuel k x, m ≤ fuel + k → 1 ≤ k →
    (∀ i, k * 2 ^ i < m → FFTOk T (nextPow2 (2 * (k * 2 ^ i)))) → (k < m → Ready x a.rows k) → Good a (vals x) k →
    ∃ x' k', loopFFT T a a.rows m fuel k x = .ok x' ∧ Good a (vals x') k' ∧ m ≤ k' := by
  intro fuel
  induction fuel with
  | zero =>
    intro k x hf hk hT hR hG
    unfold loopFFT
    rw [if_neg (by omega)]
    exact ⟨x, k, rfl, hG, by omega⟩
  | succ fuel ih =>
    intro k x hf hk hT hR hG
    unfold loopFFT
    by_cases h : k < m
    · rw [if_pos h]
      obtain ⟨h1, h2⟩ := stepFFT_spec hk (by simpa using hT 0 (by simpa using h)) (hR h) hG
      refine ih _ _ (by omega) (by omega) (fun i hi => ?_) (fun _ => h1) h2
      have e : k * 2 ^ (i + 1) = 2 * k * 2 ^ i := by ring
      have := hT (i + 1) (by rw [e]; exact hi)
      rwa [e] at this
    · rw [if_neg h]
      exact ⟨x, k, rfl, hG, by omega⟩

theorem setDims_self {α : Type} [Zero α] (x : PMat α) (r c : Nat) (h1 : x.rows = r) (h2 : x.cols = c) : x.setDims r c = x := by
  subst h1 h2
  unfold PMat.setDims
  rw [if_pos rfl]

/-- The output is not one that keeps, beyond the constant coefficients of its entries, non-zero values of earlier
    computations. -/
def Clean (x : PMat (Sto F)) (s k : Nat) : Prop :=
  x.cols = s → ∀ i j, i < s → j < s → ∀ t, 1 ≤ t → t < k → (x.e (i, j)).mem t = 0

theorem plain_ready {a : PMat F[X]} {x y : PMat (Sto F)} {k : Nat} (h2 : y.rows = a.rows) (h3 : y.cols = a.rows)
    (h5 : ∀ i j, i < a.rows → j < a.rows → (y.e (i, j)).len ≤ k ∧ (deg a ≠ 0 → (y.e (i, j)).len = k) ∧
        (deg a = 0 → (y.e (i, j)).len = 1 ∧ ∀ t, 1 ≤ t → (y.e (i, j)).mem t = ((x.setDims a.rows a.rows).e (i, j)).mem t))
    (hx : deg a = 0 → Clean x a.rows k) : Ready y a.rows k := by
  refine ⟨h2, h3, fun i j hi hj => (h5 i j hi hj).1, fun i j hi hj t h6 h7 => ?_⟩
  obtain ⟨-, g1, g2⟩ := h5 i j hi hj
  by_cases h0 : deg a = 0
  · obtain ⟨g3, g4⟩ := g2 h0
    rw [g4 t (by omega)]
    unfold PMat.setDims
    split_ifs with h8
    · exact hx h0 h8 i j hi hj t (by omega) h7
    · rfl
  · have := g1 h0
    omega

/-- **C71 (FFT)**. `newton_inv_trunc_FFT(x, a, m, thresh)`, for `thresh ≥ 1`, a square matrix whose constant
    coefficient is invertible, `m ≥ 1` and a prime that supports the transforms, returns the inverse of `a` modulo `X^m`.

    Missing: the last hypothesis, which is necessary (`C71_fft_stale_wrong`). -/
theorem C71_fft_partial {inv : Nat → (Nat × Nat → F) → Option (Nat × Nat → F)} (hinv : InvOk inv) (T : FFT F) (al : Bool)
    (x : PMat (Sto F)) (a : PMat F[X]) (m thresh : Nat) (ht : 1 ≤ thresh) (hs : 0 < a.rows) (hsq : a.rows = a.cols)
    (hc : ConstInv a) (hT : ∀ i, thresh * 2 ^ i < m → FFTOk T (nextPow2 (2 * (thresh * 2 ^ i))))
    (hx : al = true ∨ deg a ≠ 0 ∨ m ≤ thresh ∨ Clean x a.rows thresh) :
    ∃ y, newtonFFT inv T al x a m thresh = .ok y ∧ IsInvTrunc a m y := by
  obtain ⟨y, p1, p2, p3, p4, p5⟩ := plain_spec hinv (if al then fresh F else x) a thresh ht hs hsq hc
  unfold newtonFFT
  rw [p1]
  dsimp only
  rw [setDims_self y _ _ p2 p3]
  obtain ⟨x', k', e, hG, hk⟩ := loopFFT_spec (T := T) (a := a) (m := m) m thresh y (by omega) ht hT
    (fun hlt => plain_ready p2 p3 p5 fun h0 => by
      split_ifs with h1
      · intro h2
        exact absurd h2 (by show ¬0 = a.rows; omega)
      · rcases hx with h | h | h | h
        · exact absurd h h1
        · exact absurd h0 h
        · omega
        · exact h)
    (good_plain p2 p3 p4 fun i j hi hj => (p5 i j hi hj).1)
  rw [e]
  exact ⟨_, rfl, hG.isInvTrunc hk true _⟩

/-- Errors of `newton_inv_trunc_FFT`. -/
theorem C71_fft_reject {inv : Nat → (Nat × Nat → F) → Option (Nat × Nat → F)} (hinv : InvOk inv) (T : FFT F) (al : Bool)
    (x : PMat (Sto F)) (a : PMat F[X]) (m thresh : Nat) (ht : 1 ≤ thresh) (h : deg a < 0 ∨ a.rows ≠ a.cols ∨ ¬ConstInv a) :
    newtonFFT inv T al x a m thresh = .error := by
  unfold newtonFFT
  rw [plain_reject hinv _ a thresh ht h]

theorem stepFFT_mem (T : FFT F) (a : PMat F[X]) (s k : Nat) (x : PMat (Sto F)) (i j t : Nat) (hi : i < s) (hj : j < s) (ht : t < k) :
    ((stepFFT T a s k x).e (i, j)).len = 2 * k ∧ ((stepFFT T a s k x).e (i, j)).mem t = (x.e (i, j)).mem t := by
  unfold stepFFT
  dsimp only
  rw [loop2_spec, if_pos ⟨hi, hj⟩]
  · refine ⟨rfl, ?_⟩
    rw [extend_mem _ _ _ _ (by omega), if_pos ht]
  · intro i j x y h
    rw [h]

theorem loopFFT_mem (T : FFT F) (a : PMat F[X]) (s m i j t : Nat) (hi : i < s) (hj : j < s) : ∀ fuel k x, m ≤ fuel + k → 1 ≤ k → t < k →
    ((x.e (i, j)).len = k ∨ k < m) → ∃ x', loopFFT T a s m fuel k x = .ok x' ∧ x'.rows = x.rows ∧ x'.cols = x.cols ∧
      t < (x'.e (i, j)).len ∧ (x'.e (i, j)).mem t = (x.e (i, j)).mem t := by
  intro fuel
  induction fuel with
  | zero =>
    intro k x hf hk ht hl
    unfold loopFFT
    rw [if_neg (by omega)]
    exact ⟨x, rfl, rfl, rfl, by omega, rfl⟩
  | succ fuel ih =>
    intro k x hf hk ht hl
    unfold loopFFT
    by_cases h : k < m
    · rw [if_pos h]
      obtain ⟨h1, h2⟩ := stepFFT_mem T a s k x i j t hi hj ht
      obtain ⟨x', e, g1, g2, g3, g4⟩ := ih (2 * k) (stepFFT T a s k x) (by omega) (by omega) (by omega) (Or.inl h1)
      exact ⟨x', e, g1, g2, g3, g4.trans h2⟩
    · rw [if_neg h]
      exact ⟨x, rfl, rfl, rfl, by omega, rfl⟩

/-- **C71 (FFT, old coefficients)**. For a constant matrix `a`, and `2 ≤ thresh < m`, the coefficients `1` to
    `thresh - 1` of what `newton_inv_trunc_FFT` returns in `x` are those that the storage of `x` had before the call (when `x` has as many
    columns), although these coefficients of the inverse are zero. -/
theorem C71_fft_stale {inv : Nat → (Nat × Nat → F) → Option (Nat × Nat → F)} (hinv : InvOk inv) (T : FFT F)
    (x : PMat (Sto F)) (a : PMat F[X]) (m thresh : Nat) (hm : thresh < m) (hs : 0 < a.rows) (hsq : a.rows = a.cols)
    (hc : ConstInv a) (hd : deg a = 0) (hx : x.cols = a.rows) (i j t : Nat) (hi : i < a.rows) (hj : j < a.rows) (h1 : 1 ≤ t) (ht : t < thresh) :
    ∃ y, newtonFFT inv T false x a m thresh = .ok y ∧ y.rows = a.rows ∧ y.cols = a.rows ∧ (y.e (i, j)).coeff t = (x.e (i, j)).mem t := by
  obtain ⟨y, p1, p2, p3, p4, p5⟩ := plain_spec hinv x a thresh (by omega) hs hsq hc
  unfold newtonFFT
  rw [if_neg Bool.false_ne_true, p1]
  dsimp only
  rw [setDims_self y _ _ p2 p3]
  obtain ⟨x', e, g1, g2, g3, g4⟩ := loopFFT_mem T a a.rows m i j t hi hj m thresh y (by omega) (by omega) ht (Or.inr hm)
  rw [e]
  obtain ⟨q1, q2, q3⟩ := C65_trunc true (vals x') (vals x') m
  refine ⟨_, rfl, q1.trans (g1.trans p2), q2.trans (g2.trans p3), ?_⟩
  rw [q3 i j (by show i < x'.rows; omega) (by show j < x'.cols; omega), if_pos (by omega)]
  show (x'.e (i, j)).val.coeff t = _
  rw [val_coeff, if_pos g3, g4, ((p5 i j hi hj).2.2 hd).2 t h1]
  unfold PMat.setDims
  dsimp only
  rw [if_pos hx]

/-- The `1 x 1` matrix of `P`. -/
noncomputable def one1 (P : F[X]) : PMat F[X] := ⟨1, 1, fun _ => P⟩

theorem one1_const (c : F) (hc : c ≠ 0) : ConstInv (one1 (C c)) ∧ deg (one1 (C c)) = 0 := by
  have h1 : ConstInv (one1 (C c)) := ⟨fun _ => c⁻¹, fun i j hi hj => by
    have hi : i < 1 := hi
    have hj : j < 1 := hj
    rw [if_pos (by omega)]
    show ∑ k ∈ Finset.range 1, c⁻¹ * (C c).coeff 0 = 1
    rw [Finset.sum_range_one, coeff_C_zero, inv_mul_cancel₀ hc]⟩
  refine ⟨h1, ?_⟩
  have h2 := deg_of_constInv (a := one1 (C c)) Nat.one_pos rfl h1
  have h3 : deg (one1 (C c)) < (1 : Nat) := (deg_lt_iff _ 1).2 fun i j _ _ k hk => by
    show (C c).coeff k = 0
    rw [coeff_C, if_neg (by omega)]
  omega

/-- **C71 (FFT, wrong result)**. If `x` is a `1 x 1` matrix whose entry has had a non-zero coefficient of degree 1, then `newton_inv_trunc_FFT`
    for the matrix `[1]` and `2 ≤ thresh < m` does not return its inverse. -/
theorem C71_fft_stale_wrong {inv : Nat → (Nat × Nat → F) → Option (Nat × Nat → F)} (hinv : InvOk inv) (T : FFT F)
    (x : PMat (Sto F)) (hx : x.cols = 1) (h0 : (x.e (0, 0)).mem 1 ≠ 0) (m thresh : Nat) (h2 : 2 ≤ thresh) (hm : thresh < m) :
    ∃ y, newtonFFT inv T false x (one1 1) m thresh = .ok y ∧ ¬IsInvTrunc (one1 1) m y := by
  obtain ⟨h3, h4⟩ := one1_const (1 : F) one_ne_zero
  rw [C_1] at h3 h4
  obtain ⟨y, e, -, -, hy⟩ := C71_fft_stale hinv T x (one1 1) m thresh hm Nat.one_pos rfl h3 h4 hx 0 0 1 Nat.one_pos Nat.one_pos (le_refl _)
    (by omega)
  refine ⟨y, e, fun hI => h0 ?_⟩
  have := hI.left 0 0 Nat.one_pos Nat.one_pos 1 (by omega)
  rw [if_neg (by omega)] at this
  rw [← hy, ← this]
  show _ = (∑ l ∈ Finset.range 1, y.e (0, l) * 1).coeff 1
  rw [Finset.sum_range_one, mul_one]

/-! ### Geometric points -/

theorem powers_spec (n : Nat) (q : F) (r : Nat) (hr : r < n) :
    forN (n - 1) (fun i p => write (i + 1) (p i * q) p) (write 0 1 fun _ => 0) r = q ^ r := by
  have key := forN_inv (P := fun (n : Nat) (p : Nat → F) => ∀ r, r < n + 1 → p r = q ^ r) (n := n - 1)
    (f := fun i p => write (i + 1) (p i * q) p) (s := write 0 1 fun _ => 0)
    (fun r hr => by
      obtain rfl : r = 0 := by omega
      rw [wself, pow_zero])
    (fun i p _ h r hr => by
      by_cases e : r = i + 1
      · subst e
        rw [wself, h i (by omega), pow_succ]
      · rw [wne _ _ e, h r (by omega)])
  exact key r (by omega)

theorem stepGeo_spec {geo : Nat → Option (Geo F)} {a : PMat F[X]} {k : Nat} (hk : 2 ≤ k) {o : Geo F} (ho : geo (3 * k - 2) = some o)
    (hO : GeoOk (3 * k - 2) o) {x : PMat (Sto F)} (hR : Ready x a.rows k) (hG : Good a (vals x) k) :
    ∃ x', stepGeo geo a a.rows k x = some x' ∧ Ready x' a.rows (2 * k) ∧ Good a (vals x') (2 * k) := by
  set n := 3 * k - 2 with hn
  set s := a.rows with hs
  set a' : Nat × Nat → F[X] := fun ij => ptrunc (a.e ij) (2 * k) with ha'
  have evx : ∀ i j, i < s → j < s → ∃ v, o.ev ((x.e (i, j)).val) = some v ∧ ∀ r, r < n → v r = ((vals x).e (i, j)).eval (o.q ^ r) :=
    fun i j hi hj => hO.ev _ (by
      refine lt_of_le_of_lt (natDegree_le_iff_coeff_eq_zero.2 fun t ht => hG.deg i j hi hj t ?_) (by omega : k - 1 < _)
      omega)
  have eva : ∀ i j, ∃ v, o.ev (a' (i, j)) = some v ∧ ∀ r, r < n → v r = (a' (i, j)).eval (o.q ^ r) := fun i j => hO.ev _ (by
    refine lt_of_le_of_lt (natDegree_le_iff_coeff_eq_zero.2 fun t ht => ?_) (by omega : 2 * k - 1 < _)
    rw [ha']
    dsimp only
    rw [ptrunc_coeff, if_neg (by omega)])
  set Y : Nat × Nat → F[X] := fun ij => slice (cmul s (vals x).e a' ij) k (2 * k - 1) with hY
  have hYd : ∀ ij t, 2 * k - 2 < t → (Y ij).coeff t = 0 := fun ij t ht => by
    rw [hY]
    dsimp only
    rw [slice_coeff, if_neg (by omega)]
  have hcm : ∀ i j, i < s → j < s → cmul s (vals x).e a' (i, j) = (if i = j then 1 else 0) + X ^ k * Y (i, j) := fun i j hi hj => by
    have hI : X ^ k ∣ cmul s (vals x).e a' (i, j) - (if i = j then 1 else 0) := by
      have e : cmul s (vals x).e a' (i, j) - (if i = j then 1 else 0) = (cmul s (vals x).e a.e (i, j) - (if i = j then 1 else 0)) +
          ∑ l ∈ Finset.range s, (vals x).e (i, l) * (a' (l, j) - a.e (l, j)) := by
        unfold cmul
        simp only [mul_sub, Finset.sum_sub_distrib]
        ring
      rw [e]
      exact dvd_add (hG.inv i j hi hj) (Finset.dvd_sum fun l _ => Dvd.dvd.mul_left
        ((pow_dvd_pow X (by omega : k ≤ 2 * k)).trans (dvd_trunc _ _)) _)
    rw [← sub_eq_iff_eq_add']
    ext t
    rw [coeff_X_pow_mul']
    by_cases ht : k ≤ t
    · rw [if_pos ht, hY]
      dsimp only
      rw [slice_coeff, Nat.add_sub_cancel' ht, coeff_sub]
      have e2 : (if i = j then (1 : F[X]) else 0).coeff t = 0 := by
        split_ifs
        · rw [coeff_one, if_neg (by omega)]
        · exact coeff_zero _
      rw [e2, sub_zero]
      split_ifs with h1
      · rfl
      · refine cmul_zero s _ _ i j (k - 1) (2 * k - 1) (fun l hl t ht => hG.deg i l hi hl t (by omega)) (fun l hl t ht => ?_) t (by omega)
        rw [ha']
        dsimp only
        rw [ptrunc_coeff, if_neg (by omega)]
    · rw [if_neg ht]
      exact X_pow_dvd_iff.1 hI t (by omega)
  set val1 := spread s n fun i j r => ((o.ev (x.e (i, j)).val).getD fun _ => 0) r with hval1
  set val2 := spread s n fun i j r => ((o.ev (a' (i, j))).getD fun _ => 0) r with hval2
  have f1 : ∀ r i j, r < n → i < s → j < s → val1 (r * (s * s) + i * s + j) = ((vals x).e (i, j)).eval (o.q ^ r) :=
    fun r i j hr hi hj => (fill3 n s s (fun i j r => ((o.ev (x.e (i, j)).val).getD fun _ => 0) r) (fun _ => 0) r i j hr hi hj).trans (by
      obtain ⟨v, e, h⟩ := evx i j hi hj
      rw [e, Option.getD_some, h r hr])
  have f2 : ∀ r i j, r < n → i < s → j < s → val2 (r * (s * s) + i * s + j) = (a' (i, j)).eval (o.q ^ r) :=
    fun r i j hr hi hj => (fill3 n s s (fun i j r => ((o.ev (a' (i, j))).getD fun _ => 0) r) (fun _ => 0) r i j hr hi hj).trans (by
      obtain ⟨v, e, h⟩ := eva i j
      rw [e, Option.getD_some, h r hr])
  set power : Nat → F := forN (n - 1) (fun i p => write (i + 1) (p i * o.q⁻¹) p) (write 0 1 fun _ => 0) with hpower
  set w : Nat → Nat × Nat → F := fun j => cmul s (loop2 s s (fun i l cur => if i = l then (cur (i, l) - 1) * power j ^ k else
    cur (i, l) * power j ^ k) (cmul s (fun x => val1 (j * (s * s) + x.1 * s + x.2)) fun x => val2 (j * (s * s) + x.1 * s + x.2)))
    (fun x => val1 (j * (s * s) + x.1 * s + x.2)) with hw
  set val3 : Nat × Nat → F := forN n (fun j => forN s fun i => forN s fun l => write (i * s + l, j) (w j (i, l))) fun _ => 0 with hval3
  have f3 : ∀ r i j, r < n → i < s → j < s → val3 (i * s + j, r) = (cmul s Y (vals x).e (i, j)).eval (o.q ^ r) := fun r i j hr hi hj => by
    rw [hval3, fill2 n s s w _ r i j hr hi hj, hw]
    unfold cmul
    rw [eval_finsetSum]
    refine Finset.sum_congr rfl fun l hl => ?_
    have hl := Finset.mem_range.1 hl
    dsimp only
    rw [f1 r l j hr hl hj, eval_mul]
    congr 1
    rw [loop2_spec, if_pos ⟨hi, hl⟩]
    · have e1 : ∑ u ∈ Finset.range s, val1 (r * (s * s) + i * s + u) * val2 (r * (s * s) + u * s + l) =
          (cmul s (vals x).e a' (i, l)).eval (o.q ^ r) := by
        unfold cmul
        rw [eval_finsetSum]
        refine Finset.sum_congr rfl fun u hu => ?_
        have hu := Finset.mem_range.1 hu
        rw [f1 r i u hr hi hu, f2 r u l hr hu hl, eval_mul]
      dsimp only
      rw [e1, hcm i l hi hl, hpower, powers_spec n _ r hr]
      have hq : (o.q ^ r) ^ k * (o.q⁻¹ ^ r) ^ k = 1 := by
        rw [← mul_pow, ← mul_pow, mul_inv_cancel₀ hO.ne, one_pow, one_pow]
      split_ifs with h1
      · rw [eval_add, eval_one, add_sub_cancel_left, eval_mul, eval_pow, eval_X, mul_right_comm, hq, one_mul]
      · rw [eval_add, eval_zero, zero_add, eval_mul, eval_pow, eval_X, mul_right_comm, hq, one_mul]
    · intro i j x y h
      rw [h]
  have f4 : ∀ i j, i < s → j < s → o.ip (fun r => val3 (i * s + j, r)) = some (cmul s Y (vals x).e (i, j)) := fun i j hi hj => by
    obtain ⟨P, e, h1, h2⟩ := hO.ip fun r => val3 (i * s + j, r)
    rw [e]
    congr 1
    have hQ : ∀ t, n ≤ t → (cmul s Y (vals x).e (i, j)).coeff t = 0 := fun t ht =>
      cmul_zero s _ _ i j (2 * k - 2) (k - 1) (fun l hl t ht => hYd _ _ ht) (fun l hl t ht => hG.deg l j hl hj t (by omega)) t (by omega)
    refine eq_of_degrees_lt_of_eval_index_eq (Finset.range n) (v := fun r => o.q ^ r) ?_ ?_ ?_ ?_
    · intro r hr r' hr' h
      exact hO.inj r r' (by simpa using hr) (by simpa using hr') h
    · rw [Finset.card_range, degree_lt_iff_coeff_zero]
      intro t ht
      exact coeff_eq_zero_of_natDegree_lt (by omega)
    · rw [Finset.card_range, degree_lt_iff_coeff_zero]
      exact hQ
    · intro r hr
      have hr := Finset.mem_range.1 hr
      rw [h2 r hr, f3 r i j hr hi hj]
  have n1 : ¬((∃ i j, i < s ∧ j < s ∧ o.ev (x.e (i, j)).val = none) ∨ ∃ i j, i < s ∧ j < s ∧ o.ev (ptrunc (a.e (i, j)) (2 * k)) = none) := by
    rintro (⟨i, j, hi, hj, h⟩ | ⟨i, j, hi, hj, h⟩)
    · obtain ⟨v, e, -⟩ := evx i j hi hj
      rw [e] at h
      exact nomatch h
    · obtain ⟨v, e, -⟩ := eva i j
      rw [show o.ev (ptrunc (a.e (i, j)) (2 * k)) = some v from e] at h
      exact nomatch h
  have n2 : ¬∃ i l, i < s ∧ l < s ∧ o.ip (fun r => val3 (i * s + l, r)) = none := by
    rintro ⟨i, j, hi, hj, h⟩
    rw [f4 i j hi hj] at h
    exact nomatch h
  unfold stepGeo
  dsimp only
  rw [← hn, ho]
  dsimp only
  rw [if_neg n1]
  refine ⟨_, if_neg n2, ?_⟩
  refine extend_spec hR hG (fun i l => (o.ip fun r => val3 (i * s + l, r)).getD 0) ?_ _ rfl
  refine newton_apply (a' := a') (Y := Y) hG.inv (fun i j hi hj => dvd_trunc _ _) (fun i j hi hj t ht => ?_) fun i j hi hj => ?_
  · rw [hY]
    dsimp only
    rw [slice_coeff, if_pos (by omega)]
  · dsimp only
    rw [f4 i j hi hj, Option.getD_some]
    exact dvd_trunc _ _

theorem truncSto_spec {a : PMat F[X]} {x : PMat (Sto F)} {k k' : Nat} (hk : k' ≤ k) (hR : Ready x a.rows k) (hG : Good a (vals x) k) :
    Ready (truncSto x k') a.rows k' ∧ Good a (vals (truncSto x k')) k' := by
  have hl : ∀ i j, ((truncSto x k').e (i, j)).len = min (x.e (i, j)).len k' := fun _ _ => rfl
  have hm : ∀ i j, ((truncSto x k').e (i, j)).mem = (x.e (i, j)).mem := fun _ _ => rfl
  refine ⟨⟨hR.rows, hR.cols, fun i j hi hj => by rw [hl]; omega, fun i j hi hj t h1 h2 => ?_⟩, ⟨hG.rows, hG.cols,
    fun i j hi hj t ht => ?_, ?_⟩⟩
  · rw [hl] at h1
    rw [hm]
    exact hR.zero i j hi hj t (by omega) (by omega)
  · show ((truncSto x k').e (i, j)).val.coeff t = 0
    rw [val_coeff, hl, if_neg (by omega)]
  · refine invMod_congr (invMod_mono hk hG.inv) fun i j hi hj => ?_
    rw [X_pow_dvd_iff]
    intro t ht
    rw [coeff_sub]
    show ((truncSto x k').e (i, j)).val.coeff t - (x.e (i, j)).val.coeff t = 0
    rw [val_coeff, val_coeff, hl, hm]
    by_cases h : t < (x.e (i, j)).len
    · rw [if_pos h, if_pos (by omega), sub_self]
    · rw [if_neg h, if_neg (by omega), sub_self]

theorem loopGeo_spec {a : PMat F[X]} {step : Nat → PMat (Sto F) → Option (PMat (Sto F))} {all : List Nat} {m : Nat}
    (hstep : ∀ k x, 2 ≤ k → k < m → Ready x a.rows k → Good a (vals x) k →
      ∃ x', step k x = some x' ∧ Ready x' a.rows (2 * k) ∧ Good a (vals x') (2 * k))
    (hl : ∃ k, all[all.length - 1]? = some k ∧ m ≤ k)
    (hch : ∀ idx k k', all[idx]? = some k → all[idx + 1]? = some k' → k < k' ∧ k' ≤ 2 * k) :
    ∀ fuel k idx x, m ≤ fuel + k → (k < m → 2 ≤ k) → all[idx]? = some k → (k < m → Ready x a.rows k) → Good a (vals x) k →
      ∃ x' k', loopGeo step all m fuel k (idx + 1) x = .ok x' ∧ Good a (vals x') k' ∧ m ≤ k' := by
  intro fuel
  induction fuel with
  | zero =>
    intro k idx x hf hk hidx hR hx
    unfold loopGeo
    rw [if_neg (by omega)]
    exact ⟨x, k, rfl, hx, by omega⟩
  | succ fuel ih =>
    intro k idx x hf hk hidx hR hx
    unfold loopGeo
    by_cases h : k < m
    · rw [if_pos h]
      have hk := hk h
      obtain ⟨x', e, hR', hx'⟩ := hstep k x hk h (hR h) hx
      dsimp only
      rw [e]
      dsimp only
      have hlt : idx + 1 < all.length := by
        obtain ⟨kl, h1, h2⟩ := hl
        have h3 : idx < all.length := (List.getElem?_eq_some_iff.1 hidx).1
        by_contra hc
        rw [show all.length - 1 = idx by omega, hidx] at h1
        cases h1
        omega
      rw [List.getElem?_eq_getElem hlt]
      dsimp only
      obtain ⟨h4, h5⟩ := hch idx k all[idx + 1] hidx (List.getElem?_eq_getElem hlt)
      have h6 : Ready (if 2 * k ≠ all[idx + 1] then truncSto x' all[idx + 1] else x') a.rows all[idx + 1] ∧
          Good a (vals (if 2 * k ≠ all[idx + 1] then truncSto x' all[idx + 1] else x')) all[idx + 1] := by
        split_ifs with h6
        · exact truncSto_spec h5 hR' hx'
        · rw [← not_not.1 h6]
          exact ⟨hR', hx'⟩
      exact ih _ (idx + 1) _ (by omega) (fun _ => by omega) (List.getElem?_eq_getElem hlt) (fun _ => h6.1) h6.2
    · rw [if_neg h]
      exact ⟨x, k, rfl, hx, by omega⟩

theorem geoBody_spec {inv : Nat → (Nat × Nat → F) → Option (Nat × Nat → F)} (hinv : InvOk inv) {geo : Nat → Option (Geo F)}
    (x : PMat (Sto F)) (a : PMat F[X]) (m thresh : Nat) (ht : 2 ≤ thresh) (hm : 1 ≤ m) (hs : 0 < a.rows) (hsq : a.rows = a.cols)
    (hc : ConstInv a) (hgeo : ∀ k, 2 ≤ k → k < m → ∃ o, geo (3 * k - 2) = some o ∧ GeoOk (3 * k - 2) o)
    (hx : deg a ≠ 0 ∨ m ≤ thresh ∨ Clean x a.rows thresh) : ∃ y, geoBody inv geo x a m thresh = .ok y ∧ IsInvTrunc a m y := by
  obtain ⟨all, e, ⟨k0, h0, h3, h1, h2⟩, ⟨kl, hl, hkl⟩, hch⟩ := degrees_spec thresh (by omega) m m (le_refl _)
  unfold geoBody
  rw [e]
  dsimp only
  rw [headD_eq h0]
  obtain ⟨y, p1, p2, p3, p4, p5⟩ := plain_spec hinv x a k0 (h1 hm) hs hsq hc
  rw [p1]
  dsimp only
  have hk0 : m ≤ thresh → m ≤ k0 := fun hle => by
    unfold degrees at e
    rw [if_neg (by omega)] at e
    cases e
    cases h0
    exact le_refl _
  obtain ⟨x', k', e2, hG, hk⟩ := loopGeo_spec (a := a) (step := stepGeo geo a a.rows) (m := m)
    (fun k x hk hkm hR hG => by
      obtain ⟨o, ho, hO⟩ := hgeo k hk hkm
      exact stepGeo_spec hk ho hO hR hG) ⟨kl, hl, by omega⟩ hch m k0 0 y (by omega) (fun hlt => by
        have := h1 hm
        exact h2 (by omega) ht) h0
    (fun hlt => plain_ready p2 p3 p5 fun h0 => by
      rcases hx with h | h | h
      · exact absurd h0 h
      · have := hk0 h
        omega
      · exact fun hx i j hi hj t h1 h2 => h hx i j hi hj t h1 (by omega))
    (good_plain p2 p3 p4 fun i j hi hj => (p5 i j hi hj).1)
  rw [e2]
  exact ⟨_, rfl, hG.isInvTrunc hk true _⟩

/-- **C71 (geometric points)**. `newton_inv_trunc_geometric(x, a, m, thresh)`, for thresholds at least 2,
    a square matrix with at least one row whose constant coefficient is invertible, `m ≥ 1`, and a prime with enough points, returns the
    inverse of `a` modulo `X^m`.

    Missing: the last hypothesis, and thresholds equal to 1 (`C71_geometric_thresh_one`). -/
theorem C71_geometric_partial {inv : Nat → (Nat × Nat → F) → Option (Nat × Nat → F)} (hinv : InvOk inv) {geo : Nat → Option (Geo F)}
    (dflt : Nat) (hdflt : 2 ≤ dflt) (x : PMat (Sto F)) (a : PMat F[X]) (m thresh : Nat) (ht : 2 ≤ thresh) (hm : 1 ≤ m) (hs : 0 < a.rows)
    (hsq : a.rows = a.cols) (hc : ConstInv a)
    (hgeo : ∀ k, 2 ≤ k → k < m → ∃ o, geo (3 * k - 2) = some o ∧ GeoOk (3 * k - 2) o)
    (hx : Eqm (vals x) a ∨ deg a ≠ 0 ∨ m ≤ thresh ∨ Clean x a.rows thresh) :
    ∃ y, newtonGeo inv geo dflt 1 x a m thresh = .ok y ∧ IsInvTrunc a m y := by
  unfold newtonGeo
  by_cases h : Eqm (vals x) a
  · rw [if_pos h]
    dsimp only
    unfold newtonGeo
    rw [if_neg fun h2 => by
      have : (0 : Nat) = a.rows := h2.1
      omega]
    exact geoBody_spec hinv (fresh F) a m dflt hdflt hm hs hsq hc hgeo (Or.inr (Or.inr fun h2 => by
      have : (0 : Nat) = a.rows := h2
      omega))
  · rw [if_neg h]
    exact geoBody_spec hinv x a m thresh ht hm hs hsq hc hgeo (hx.resolve_left h)

theorem geoBody_reject {inv : Nat → (Nat × Nat → F) → Option (Nat × Nat → F)} (hinv : InvOk inv) (geo : Nat → Option (Geo F))
    (x : PMat (Sto F)) (a : PMat F[X]) (m thresh : Nat) (ht : 1 ≤ thresh) (hm : 1 ≤ m) (h : deg a < 0 ∨ a.rows ≠ a.cols ∨ ¬ConstInv a) :
    geoBody inv geo x a m thresh = .error := by
  obtain ⟨all, e, ⟨k0, h0, -, h1, -⟩, -⟩ := degrees_spec thresh ht m m (le_refl _)
  unfold geoBody
  rw [e]
  dsimp only
  rw [headD_eq h0, plain_reject hinv x a k0 (h1 hm) h]

/-- **C71 (errors)**. If `a`, which has at least one row or one column, is zero, not square, or if its constant
    coefficient is not invertible, then the other two algorithms report an error as well. -/
theorem C71_reject {inv : Nat → (Nat × Nat → F) → Option (Nat × Nat → F)} (hinv : InvOk inv) (geo : Nat → Option (Geo F))
    (mid : PMat F[X] → PMat F[X] → Nat → Nat → Option (PMat F[X])) (mul : PMat F[X] → PMat F[X] → Option (PMat F[X]))
    (dflt : Nat) (hdflt : 1 ≤ dflt) (al : Bool) (x : PMat (Sto F)) (a : PMat F[X]) (m thresh : Nat) (ht : 1 ≤ thresh) (hm : 1 ≤ m)
    (h : deg a < 0 ∨ a.rows ≠ a.cols ∨ ¬ConstInv a) :
    newtonMiddle inv mid mul dflt al x a m thresh = .error ∧
    (0 < a.rows ∨ 0 < a.cols → newtonGeo inv geo dflt 1 x a m thresh = .error) := by
  constructor
  · obtain ⟨all, e, ⟨k0, h0, -, h1, -⟩, -⟩ := degrees_spec (if al then dflt else thresh) (by split_ifs <;> omega) m m (le_refl _)
    unfold newtonMiddle
    rw [e]
    dsimp only
    rw [headD_eq h0, plain_reject hinv _ a k0 (h1 hm) h]
  · intro hs
    unfold newtonGeo
    by_cases h2 : Eqm (vals x) a
    · rw [if_pos h2]
      dsimp only
      unfold newtonGeo
      rw [if_neg fun h2 => by
        have : (0 : Nat) = a.rows := h2.1
        have : (0 : Nat) = a.cols := h2.2.1
        omega]
      exact geoBody_reject hinv geo (fresh F) a m dflt hdflt hm h
    · rw [if_neg h2]
      exact geoBody_reject hinv geo x a m thresh ht hm h

/-- **C71 (geometric points, threshold 1)**. With `thresh = 1`, `newton_inv_trunc_geometric` fails as soon as the coefficient
    of degree 1 of `a` is not zero and `m ≥ 2`: it asks for a single point, and evaluates a polynomial of degree 1. -/
theorem C71_geometric_thresh_one {inv : Nat → (Nat × Nat → F) → Option (Nat × Nat → F)} (hinv : InvOk inv)
    {geo : Nat → Option (Geo F)} {o : Geo F} (ho : geo 1 = some o) (hO : GeoOk 1 o) (dflt : Nat) (x : PMat (Sto F)) (a : PMat F[X])
    (hx : ¬Eqm (vals x) a) (m : Nat) (hm : 2 ≤ m) (hs : 0 < a.rows) (hsq : a.rows = a.cols) (hc : ConstInv a)
    (h1 : ∃ i j, i < a.rows ∧ j < a.rows ∧ (a.e (i, j)).coeff 1 ≠ 0) : newtonGeo inv geo dflt 1 x a m 1 = .error := by
  obtain ⟨all, e, ⟨k0, h0, h2, h3, -⟩, -⟩ := degrees_spec 1 (le_refl _) m m (le_refl _)
  obtain rfl : k0 = 1 := by
    have := h3 (by omega)
    omega
  unfold newtonGeo
  rw [if_neg hx]
  unfold geoBody
  rw [e]
  dsimp only
  rw [headD_eq h0]
  obtain ⟨y, p1, -⟩ := plain_spec hinv x a 1 (le_refl _) hs hsq hc
  rw [p1]
  dsimp only
  obtain ⟨m, rfl⟩ : ∃ m', m = m' + 1 := ⟨m - 1, by omega⟩
  have hst : stepGeo geo a a.rows 1 y = none := by
    unfold stepGeo
    dsimp only
    rw [show 3 * 1 - 2 = 1 from rfl, ho]
    dsimp only
    rw [if_pos]
    obtain ⟨i, j, hi, hj, hne⟩ := h1
    refine Or.inr ⟨i, j, hi, hj, hO.rej _ Nat.one_pos (le_natDegree_of_ne_zero ?_)⟩
    rw [ptrunc_coeff, if_pos (by omega)]
    exact hne
  unfold loopGeo
  rw [if_pos (by omega)]
  dsimp only
  rw [hst]

/-- **C71 (geometric points, empty matrices)**. With `0 x 0` matrices, `newton_inv_trunc_geometric` calls itself without end:
    no number of nested calls suffices. -/
theorem C71_geometric_empty_loops (inv : Nat → (Nat × Nat → F) → Option (Nat × Nat → F)) (geo : Nat → Option (Geo F)) (dflt : Nat)
    (a : PMat F[X]) (hr : a.rows = 0) (hc : a.cols = 0) (m : Nat) : ∀ (fuel : Nat) (x : PMat (Sto F)) (thresh : Nat), x.rows = 0 → x.cols = 0 →
      newtonGeo inv geo dflt fuel x a m thresh = .loops := by
  intro fuel
  induction fuel with
  | zero =>
    intro x thresh h1 h2
    unfold newtonGeo
    rw [if_pos ⟨h1.trans hr.symm, h2.trans hc.symm, fun i j hi _ => absurd hi (by show ¬i < x.rows; omega)⟩]
  | succ fuel ih =>
    intro x thresh h1 h2
    unfold newtonGeo
    rw [if_pos ⟨h1.trans hr.symm, h2.trans hc.symm, fun i j hi _ => absurd hi (by show ¬i < x.rows; omega)⟩]
    exact ih (fresh F) dflt rfl rfl

/-- **C71 (threshold 0)**. With `thresh = 0` the list of degrees never ends, for the algorithms other than the FFT. -/
theorem C71_thresh_zero_loops : ∀ fuel n, 1 ≤ n → degrees fuel n 0 = none := by
  intro fuel
  induction fuel with
  | zero =>
    intro n hn
    unfold degrees
    rw [if_pos (show 0 < n from hn)]
  | succ fuel ih =>
    intro n hn
    unfold degrees
    rw [if_pos (show 0 < n from hn)]
    dsimp only
    rw [ih _ (by split_ifs <;> omega)]

/-! ### General function -/

theorem fft_sizes (m e i : Nat) (h : 2 ^ e * 2 ^ i < m) : nextPow2 (2 * (2 ^ e * 2 ^ i)) ≤ nextPow2 (m + 2) := by
  have e1 : 2 * (2 ^ e * 2 ^ i) = 2 ^ (e + i + 1) := by
    rw [pow_succ, pow_add]
    ring
  rw [e1]
  unfold nextPow2
  rw [Nat.clog_pow 2 _ (by omega)]
  rw [← pow_add] at h
  have : e + i < Nat.clog 2 (m + 2) := by
    by_contra hc
    have h1 := Nat.le_pow_clog (b := 2) (by omega) (m + 2)
    have h2 : 2 ^ Nat.clog 2 (m + 2) ≤ 2 ^ (e + i) := Nat.pow_le_pow_right (by omega) (by omega)
    omega
  omega

/-- What is assumed of the functions and thresholds used by `inv_trunc` for the order `m`. -/
structure EnvOk (E : Env F) (m : Nat) : Prop where
  inv : InvOk E.inv
  /-- a prime that supports a transform supports the shorter ones -/
  fft : ∀ K, E.fftReady K = true → ∀ K', K' ≤ K → FFTOk E.T K'
  /-- the threshold is a power of two, as produced by the tuning programs -/
  thrFFT : ∃ e, E.thrFFT = 2 ^ e
  mid : MidOk E.mid
  mul : MulOk E.mul
  thrMid : 1 ≤ E.thrMid
  thrGeo : 2 ≤ E.thrGeo
  /-- enough points, if the third algorithm is used -/
  geo : E.maxMid < m → ∀ k, 2 ≤ k → k < m → ∃ o, E.geo (3 * k - 2) = some o ∧ GeoOk (3 * k - 2) o

/-- **C71 (general function)**. `inv_trunc(x, a, m)`, `m ≥ 1`, for a square matrix whose constant coefficient is
    invertible, returns the inverse of `a` modulo `X^m`; the matrix `x` may be `a`.

    Missing: the hypothesis that `a` is not constant or that `x` does not keep old coefficients. -/
theorem C71_inv_trunc_partial (E : Env F) (al : Bool) (x : PMat (Sto F)) (a : PMat F[X]) (m : Nat) (hE : EnvOk E m)
    (hal : al = true → Eqm (vals x) a) (hm : 1 ≤ m) (hs : 0 < a.rows) (hsq : a.rows = a.cols) (hc : ConstInv a)
    (hx : al = true ∨ deg a ≠ 0 ∨ Clean x a.rows m) : ∃ y, invTrunc E al x a m = .ok y ∧ IsInvTrunc a m y := by
  unfold invTrunc
  by_cases h1 : E.fftReady (nextPow2 (m + 2)) = true
  · rw [if_pos h1]
    obtain ⟨e, he⟩ := hE.thrFFT
    refine C71_fft_partial hE.inv E.T al x a m E.thrFFT (by rw [he]; exact Nat.one_le_two_pow) hs hsq hc (fun i hi => ?_) ?_
    · rw [he] at hi ⊢
      exact hE.fft _ h1 _ (fft_sizes m e i hi)
    · rcases hx with h | h | h
      · exact Or.inl h
      · exact Or.inr (Or.inl h)
      · by_cases h2 : m ≤ E.thrFFT
        · exact Or.inr (Or.inr (Or.inl h2))
        · exact Or.inr (Or.inr (Or.inr fun h3 i j hi hj t h4 h5 => h h3 i j hi hj t h4 (by omega)))
  · rw [if_neg h1]
    by_cases h2 : m ≤ E.maxMid
    · rw [if_pos h2]
      exact C71_middle_product hE.inv hE.mid hE.mul E.thrMid hE.thrMid al x a m E.thrMid hE.thrMid hm hs hsq hc
    · rw [if_neg h2]
      refine C71_geometric_partial hE.inv E.thrGeo hE.thrGeo x a m E.thrGeo hE.thrGeo hm hs hsq hc (hE.geo (by omega)) ?_
      rcases hx with h | h | h
      · exact Or.inl (hal h)
      · exact Or.inr (Or.inl h)
      · by_cases h2 : m ≤ E.thrGeo
        · exact Or.inr (Or.inr (Or.inl h2))
        · exact Or.inr (Or.inr (Or.inr fun h3 i j hi hj t h4 h5 => h h3 i j hi hj t h4 (by omega)))

/-- **C71 (general function, errors)**. -/
theorem C71_inv_trunc_reject (E : Env F) (al : Bool) (x : PMat (Sto F)) (a : PMat F[X]) (m : Nat) (hE : EnvOk E m)
    (hm : 1 ≤ m) (hs : 0 < a.rows ∨ 0 < a.cols) (h : deg a < 0 ∨ a.rows ≠ a.cols ∨ ¬ConstInv a) : invTrunc E al x a m = .error := by
  unfold invTrunc
  by_cases h1 : E.fftReady (nextPow2 (m + 2)) = true
  · rw [if_pos h1]
    obtain ⟨e, he⟩ := hE.thrFFT
    exact C71_fft_reject hE.inv E.T al x a m E.thrFFT (by rw [he]; exact Nat.one_le_two_pow) h
  · rw [if_neg h1]
    have := C71_reject hE.inv E.geo E.mid E.mul
    split_ifs with h2
    · exact (this E.thrMid hE.thrMid al x a m E.thrMid hE.thrMid hm h).1
    · have h3 := hE.thrGeo
      exact (this E.thrGeo (by omega) al x a m E.thrGeo (by omega) hm h).2 hs

/-- **C71 (transforms not checked)**. When the threshold of the FFT is not a power of two, `inv_trunc` may use a transform of a size larger than the
    one whose existence it has checked. -/
theorem C71_fft_size_unchecked : ∃ thresh m : Nat, 1 ≤ thresh ∧ thresh < m ∧ nextPow2 (m + 2) < nextPow2 (2 * thresh) :=
  ⟨5, 6, by decide, by decide, by
    unfold nextPow2
    have h1 : Nat.clog 2 (6 + 2) = 3 := by
      rw [show 6 + 2 = 2 ^ 3 from rfl, Nat.clog_pow 2 3 (by omega)]
    have h2 : 3 < Nat.clog 2 (2 * 5) := by
      by_contra hc
      have h1 := Nat.le_pow_clog (b := 2) (by omega) (2 * 5)
      have h2 : 2 ^ Nat.clog 2 (2 * 5) ≤ 2 ^ 3 := Nat.pow_le_pow_right (by omega) (by omega)
      omega
    omega⟩

/-! ### Concrete cases -/

/-- `[[1 + X, X], [X, 2]]` over the integers modulo 5. -/
noncomputable def inv5 : PMat (ZMod 5)[X] := ⟨2, 2, fun ij => if ij = (0, 0) then 1 + X else if ij = (1, 1) then C 2 else X⟩

theorem inv5_const : ConstInv inv5 := by
  refine ⟨fun ij => if ij = (0, 0) then 1 else if ij = (1, 1) then 3 else 0, fun i j hi hj => ?_⟩
  have hi : i < 2 := hi
  have hj : j < 2 := hj
  show ∑ k ∈ Finset.range 2, _ = _
  rw [Finset.sum_range_succ, Finset.sum_range_one]
  have h1 : i = 0 ∨ i = 1 := by omega
  have h2 : j = 0 ∨ j = 1 := by omega
  have e2 : (C (2 : ZMod 5)).coeff 0 = 2 := coeff_C_zero
  have e3 : (3 : ZMod 5) * 2 = 1 := by decide
  rcases h1 with rfl | rfl <;> rcases h2 with rfl | rfl <;> simp [inv5, e2, e3]

theorem inv5_deg : deg inv5 ≠ 0 := by
  intro h
  have := (deg_lt_iff inv5 1).1 (by omega) 0 1 (by decide) (by decide) 1 (le_refl _)
  simp [inv5] at this

/-- Hypotheses of `C71_plain`. -/
example : ∃ inv, InvOk (F := ZMod 5) inv ∧ 0 < inv5.rows ∧ inv5.rows = inv5.cols ∧ ConstInv inv5 :=
  let ⟨inv, h⟩ := invOk_exists (F := ZMod 5); ⟨inv, h, by decide, rfl, inv5_const⟩

/-- Those of `C71_fft_partial` for `m = 3` and `thresh = 2` (with a transform of length 4). -/
example : ∀ i, 2 * 2 ^ i < 3 → FFTOk fft5 (nextPow2 (2 * (2 * 2 ^ i))) := fun i hi => by
  obtain rfl : i = 0 := by
    by_contra h
    have : 2 ^ 1 ≤ 2 ^ i := Nat.pow_le_pow_right (by omega) (by omega)
    omega
  refine fft5_ok _ ?_
  unfold nextPow2
  rw [show 2 * (2 * 2 ^ 0) = 2 ^ 2 from rfl, Nat.clog_pow 2 2 (by omega)]

theorem midOk_exists : ∃ mid, MidOk (F := F) mid :=
  ⟨fun a c dA dB => some ⟨a.rows, c.cols, fun ij => slice (∑ k ∈ Finset.range a.cols, a.e (ij.1, k) * c.e (k, ij.2)) dA (dB + 1)⟩,
    fun a c dA dB _ _ _ ha _ _ => ⟨_, rfl, rfl, rfl, fun i j hi hj k => by
      rw [slice_coeff]
      by_cases h : k ≤ dB
      · rw [if_pos (by omega), if_pos h]
        congr 1
        refine Finset.sum_congr rfl fun l hl => ?_
        rw [mid_trunc _ dA fun t ht => (deg_lt_iff a (dA + 1)).1 (by omega) i l hi (Finset.mem_range.1 hl) t (by omega)]
      · rw [if_neg (by omega), if_neg h]⟩⟩

theorem mulOk_exists : ∃ mul, MulOk (F := F) mul :=
  ⟨fun a b => some ⟨a.rows, b.cols, fun ij => ∑ k ∈ Finset.range a.cols, a.e (ij.1, k) * b.e (k, ij.2)⟩,
    fun _ _ _ _ => ⟨_, rfl, rfl, rfl, fun _ _ _ _ => rfl⟩⟩

open Classical in
/-- An element whose first `n` powers are distinct gives geometric points. -/
theorem geoOk_exists (n : Nat) (hn : 0 < n) (q : F) (hq : q ≠ 0) (hinj : ∀ r r', r < n → r' < n → q ^ r = q ^ r' → r = r') :
    ∃ o : Geo F, GeoOk n o := by
  refine ⟨⟨q, fun P => if P.natDegree < n then some fun i => P.eval (q ^ i) else none,
    fun v => some (Lagrange.interpolate (Finset.range n) (fun r => q ^ r) v)⟩, hq, hinj, fun P hP => ⟨_, if_pos hP, fun _ _ => rfl⟩,
    fun v => ⟨_, rfl, ?_, fun i hi => ?_⟩, fun P _ hP => if_neg (by omega)⟩
  · have hI : Set.InjOn (fun r => q ^ r) (Finset.range n : Set Nat) := fun r hr r' hr' h =>
      hinj r r' (by simpa using hr) (by simpa using hr') h
    have := Lagrange.degree_interpolate_lt v hI
    rw [Finset.card_range] at this
    by_cases h0 : Lagrange.interpolate (Finset.range n) (fun r => q ^ r) v = 0
    · rw [h0, natDegree_zero]
      exact hn
    · exact (natDegree_lt_iff_degree_lt h0).2 this
  · exact Lagrange.eval_interpolate_at_node v (fun r hr r' hr' h => hinj r r' (by simpa using hr) (by simpa using hr') h)
      (Finset.mem_range.2 hi)

/-- Those of `C71_geometric_partial` for `m = 3` over the integers modulo 5: four points. -/
example : ∃ geo : Nat → Option (Geo (ZMod 5)), ∀ k, 2 ≤ k → k < 3 → ∃ o, geo (3 * k - 2) = some o ∧ GeoOk (3 * k - 2) o := by
  obtain ⟨o, ho⟩ := geoOk_exists (F := ZMod 5) 4 (by omega) 2 (by decide) (by
    intro r r' h1 h2 h3
    have a1 : r = 0 ∨ r = 1 ∨ r = 2 ∨ r = 3 := by omega
    have a2 : r' = 0 ∨ r' = 1 ∨ r' = 2 ∨ r' = 3 := by omega
    rcases a1 with rfl | rfl | rfl | rfl <;> rcases a2 with rfl | rfl | rfl | rfl <;> first | rfl | exact absurd h3 (by decide))
  refine ⟨fun _ => some o, fun k h1 h2 => ⟨o, rfl, ?_⟩⟩
  obtain rfl : k = 2 := by omega
  exact ho

/-- Those of `C71_inv_trunc_partial`, with a choice that leads to middle products. -/
example : ∃ E : Env (ZMod 5), EnvOk E 3 ∧ ConstInv inv5 ∧ deg inv5 ≠ 0 := by
  obtain ⟨inv, h1⟩ := invOk_exists (F := ZMod 5)
  obtain ⟨mid, h2⟩ := midOk_exists (F := ZMod 5)
  obtain ⟨mul, h3⟩ := mulOk_exists (F := ZMod 5)
  exact ⟨⟨inv, fft5, fun K => decide (K ≤ 2), mid, mul, fun _ => none, 2, 2, 2, 100⟩, ⟨h1, fun K hK K' hK' => fft5_ok _ (by
    have := of_decide_eq_true hK
    omega), ⟨1, rfl⟩, h2, h3, Nat.le_succ 1, le_refl 2,
    fun h => absurd h (show ¬100 < 3 by decide)⟩, inv5_const, inv5_deg⟩

/-- Those of `C71_fft_stale_wrong`: `x` is the matrix `[1 + X]`. -/
example : ∃ x : PMat (Sto (ZMod 5)), x.cols = 1 ∧ (x.e (0, 0)).mem 1 ≠ 0 :=
  ⟨⟨1, 1, fun _ => ⟨2, fun t => if t < 2 then 1 else 0⟩⟩, rfl, by decide⟩

end PML.Ntl.Inv
