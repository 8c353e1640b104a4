import Verif.Ntl.BivarKron

/-!
# C89: shifts, truncations, degrees, evaluation and other functions on bivariate polynomials
-/

namespace PML.Ntl.Bivar

open Polynomial PML.Ntl.Utils PML.Ntl.Inv PML.Ntl.Solve PML.Ntl.Struct

variable {F : Type} [Field F]

theorem coeff_div_mod_X_pow {R : Type} [CommRing R] [Nontrivial R] (x : R[X]) (n : Nat) :
    (∀ t, (x /ₘ X ^ n).coeff t = x.coeff (t + n)) ∧ x %ₘ X ^ n = ptrunc x n := by
  let q : R[X] := ofCoeffs (x.natDegree + 1 - n) fun k => x.coeff (k + n)
  have hc : ∀ t, q.coeff t = x.coeff (t + n) := by
    intro t
    rw [ofCoeffs_coeff]
    split
    · rfl
    · exact (coeff_eq_zero_of_natDegree_lt (by omega)).symm
  have h := div_modByMonic_unique (f := x) q (ptrunc x n) (monic_X_pow n) ⟨by
    ext t
    rw [coeff_add, ptrunc_coeff, mul_comm, coeff_mul_X_pow']
    by_cases h : t < n
    · rw [if_pos h, if_neg (by omega), add_zero]
    · rw [if_neg h, if_pos (by omega), zero_add, hc, Nat.sub_add_cancel (by omega)], by
    rw [degree_X_pow, degree_lt_iff_coeff_zero]
    intro t ht
    rw [ptrunc_coeff, if_neg (by omega)]⟩
  exact ⟨fun t => by rw [h.1, hc], h.2⟩

theorem setLen_error {m : Mem F} {c : Nat} {n : Int} (h : n < 0) : setLen m c n = .error := by
  rw [setLen, PVec.setLength, if_pos h]
  rfl

/-! ### Shift in `Y` -/

theorem wr_upd {m m' : Mem F} {c L i : Nat} {g : Nat → F[X]} (h : Upd m c L g m') (w : F[X]) (hi : i < L) :
    ∃ m'', wr m' c (i : Int) w = .ok m'' ∧ Upd m c L (write i w g) m'' := by
  refine ⟨_, wr_ok w (by rw [h.len]; exact hi), ?_, ?_, ?_⟩
  · rw [write_self]; exact h.len
  · intro k
    rw [write_self]
    show write i w (m' c).at' k = _
    by_cases hk : k = i
    · subst hk; rw [write_self, write_self]
    · rw [write_ne _ _ hk, write_ne _ _ hk, h.ent]
  · intro x hx
    rw [write_ne _ _ hx]; exact h.other x hx

theorem Upd.congr {m m' : Mem F} {c L : Nat} {g g' : Nat → F[X]} (h : Upd m c L g m') (hg : ∀ k, g k = g' k) : Upd m c L g' m' :=
  ⟨h.len, fun k => (h.ent k).trans (hg k), h.other⟩

/-- `shift_y(b, a, i)` for `i ≥ 0` and `b` another variable than `a`: product by `Y^i`. -/
theorem C89_shift_y_mul (m : Mem F) (b a : Nat) (i : Nat) (hba : b ≠ a) :
    Yields (shiftY m b a i) m b (X ^ i * (m a).poly) := by
  have hA : (m a).degY = ((m a).len : Int) - 1 := rfl
  rw [shiftY, if_neg hba]
  obtain ⟨m1, e1, h1⟩ := setLen_upd (m := m) (c := b) (n := (m a).degY + 1 + i) (by omega)
  have hL : ((m a).degY + 1 + i).toNat = (m a).len + i := by omega
  rw [hL] at h1
  obtain ⟨m2, e2, h2⟩ := loop_fill h1 (fun _ => 0) 0 ((i : Int) - 1) (le_refl _) (by omega) (fun j m => wr m b j 0)
    (by intros; rfl)
  obtain ⟨m3, e3, h3⟩ := loopOut_inv (s := m2) (f := fun (j : Nat) (m : Mem F) => andThen (rd m a j) fun x => wr m b ((j : Int) + i) x)
    (fun n m' => Upd m b ((m a).len + i) (fun k => if k < i then 0 else if k < i + n then (m a).at' (k - i) else (m b).at' k) m') (m a).len
    (h2.congr (by
      intro k
      by_cases hk : k < i
      · rw [if_pos (by omega), if_pos hk]
      · rw [if_neg (by omega), if_neg hk, if_neg (by omega)]))
    (by
      intro n m' hn h'
      rw [rd_upd h' hn (fun e => absurd e.symm hba), andThen_ok, ← Nat.cast_add]
      obtain ⟨m'', e'', h''⟩ := wr_upd h' ((m a).at' n) (show n + i < (m a).len + i by omega)
      refine ⟨m'', e'', h''.congr fun k => ?_⟩
      by_cases hk : k = n + i
      · subst hk
        rw [write_self, if_neg (by omega), if_pos (by omega), Nat.add_sub_cancel]
      · rw [write_ne _ _ hk]
        by_cases hk1 : k < i
        · rw [if_pos hk1, if_pos hk1]
        · rw [if_neg hk1, if_neg hk1]
          by_cases hk2 : k < i + n
          · rw [if_pos hk2, if_pos (by omega)]
          · rw [if_neg hk2, if_neg (by omega)])
  have he : shiftYCore m b a i = .ok (norm m3 b) := by
    unfold shiftYCore
    dsimp only
    rw [e1, andThen_ok, if_pos (by omega), e2, andThen_ok, hA, loopI_zero, e3]
    rfl
  rw [he]
  refine yields_norm h3 fun k => ?_
  rw [mul_comm, coeff_mul_X_pow', poly_coeff]
  by_cases hk : k < i
  · rw [if_neg (by omega), if_pos hk, ite_self]
  · rw [if_pos (by omega), if_neg hk]
    by_cases hk2 : k < (m a).len + i
    · rw [if_pos (by omega), if_pos hk2, if_pos (by omega)]
    · rw [if_neg (by omega), if_neg hk2]

/-- `shift_y(b, a, -i)` for `0 < i ≤ degY + 1` and `b` another variable than `a`: quotient by `Y^i`. -/
theorem C89_shift_y_div_partial (m : Mem F) (b a : Nat) (i : Nat) (hi0 : 0 < i) (hi : i ≤ (m a).len) (hba : b ≠ a) :
    Yields (shiftY m b a (-(i : Int))) m b ((m a).poly /ₘ X ^ i) := by
  have hA : (m a).degY = ((m a).len : Int) - 1 := rfl
  rw [shiftY, if_neg hba]
  obtain ⟨m1, e1, h1⟩ := setLen_upd (m := m) (c := b) (n := (m a).degY + 1 + -(i : Int)) (by omega)
  obtain ⟨m2, e2, h2⟩ := loop_fill h1 (fun k => (m a).at' (k + i)) 0 ((m a).degY + -(i : Int)) (le_refl _) (by omega)
    (fun j m => andThen (rd m a (j - -(i : Int))) fun x => wr m b j x)
    (by
      intro k m' _ hk h'
      rw [show (k : Int) - -(i : Int) = ((k + i : Nat) : Int) by push_cast; ring,
        rd_upd h' (by omega) (fun e => absurd e.symm hba), andThen_ok])
  have he : shiftYCore m b a (-(i : Int)) = .ok (norm m2 b) := by
    unfold shiftYCore
    dsimp only
    rw [e1, andThen_ok, if_neg (by omega), e2]
    rfl
  rw [he]
  refine yields_norm h2 fun k => ?_
  rw [(coeff_div_mod_X_pow _ i).1, poly_coeff]
  by_cases hk : k + i < (m a).len
  · rw [if_pos hk, if_pos (by omega), if_pos (by omega)]
  · rw [if_neg hk, if_neg (by omega)]

/-- `shift_y(b, a, -i)` for `i > degY + 1` is an error, although the quotient by `Y^i` is zero. -/
theorem C89_shift_y_error (m : Mem F) (b a : Nat) (i : Nat) (hi : (m a).len < i) (hba : b ≠ a) :
    shiftY m b a (-(i : Int)) = .error ∧ (m a).poly /ₘ X ^ i = 0 := by
  have hA : (m a).degY = ((m a).len : Int) - 1 := rfl
  constructor
  · rw [shiftY, if_neg hba, shiftYCore]
    rw [setLen_error (by omega)]
    rfl
  · ext1 k
    rw [(coeff_div_mod_X_pow _ i).1, poly_coeff, if_neg (by omega), coeff_zero]

theorem shiftYVal_nonneg (v : PVec F) (i : Nat) : ∃ w, shiftYVal v i = .ok w ∧ w.poly = X ^ i * v.poly ∧ w.Normal := by
  obtain ⟨m', e, h1, h2, -⟩ := C89_shift_y_mul (fun x => if x = 0 then v else ⟨0, fun _ => 0⟩) 1 0 i (by omega)
  rw [shiftY, if_neg (by omega)] at e
  exact ⟨m' 1, by rw [shiftYVal, e]; rfl, h1, h2⟩

/-- `shift_y(a, a, i)` for `i > 0` always sets `a` to zero. -/
theorem C89_shift_y_alias (m : Mem F) (a : Nat) (i : Nat) (hi : 0 < i) : Yields (shiftY m a a i) m a 0 := by
  obtain ⟨v, ev, hv1, hv2⟩ := shiftYVal_nonneg (m a) i
  rw [shiftY, if_pos rfl, ev, andThen_ok]
  let m0 := write a v m
  have hm0 : m0 a = v := write_self _ _ _
  have hA : (m0 a).degY = (v.len : Int) - 1 := by rw [hm0]; rfl
  obtain ⟨m1, e1, h1⟩ := setLen_upd (m := m0) (c := a) (n := (m0 a).degY + 1 + i) (by omega)
  have hL : ((m0 a).degY + 1 + i).toNat = v.len + i := by omega
  rw [hL] at h1
  obtain ⟨m2, e2, h2⟩ := loop_fill h1 (fun _ => 0) 0 ((i : Int) - 1) (le_refl _) (by omega) (fun j m => wr m a j 0)
    (by intros; rfl)
  obtain ⟨m3, e3, h3⟩ := loopOut_inv (s := m2) (f := fun (j : Nat) (m : Mem F) => andThen (rd m a j) fun x => wr m a ((j : Int) + i) x)
    (fun n m' => Upd m0 a (v.len + i) (fun k => if k < i + n then 0 else (m0 a).at' k) m') v.len
    (h2.congr (by
      intro k
      by_cases hk : k < i
      · rw [if_pos (by omega), if_pos (by omega)]
      · rw [if_neg (by omega), if_neg (by omega)]))
    (by
      intro n m' hn h'
      rw [rd_ok (by rw [h'.len]; omega), andThen_ok, ← Nat.cast_add, h'.ent, if_pos (by omega)]
      obtain ⟨m'', e'', h''⟩ := wr_upd h' 0 (show n + i < v.len + i by omega)
      refine ⟨m'', e'', h''.congr fun k => ?_⟩
      by_cases hk : k = n + i
      · subst hk
        rw [write_self, if_pos (by omega)]
      · rw [write_ne _ _ hk]
        by_cases hk1 : k < i + n
        · rw [if_pos hk1, if_pos (by omega)]
        · rw [if_neg hk1, if_neg (by omega)])
  have he : shiftYCore m0 a a i = .ok (norm m3 a) := by
    unfold shiftYCore
    dsimp only
    rw [e1, andThen_ok, if_pos (by omega), e2, andThen_ok, hA, loopI_zero, e3]
    rfl
  show Yields (shiftYCore m0 a a i) m a 0
  rw [he]
  obtain ⟨m', e', h1', h2', h3'⟩ := yields_norm (P := 0) h3 (by
    intro k
    rw [coeff_zero]
    by_cases hk : k < v.len + i
    · rw [if_pos hk, if_pos (by omega)]
    · rw [if_neg hk])
  exact ⟨m', e', h1', h2', fun x hx => by rw [h3' x hx]; exact write_ne _ _ hx⟩

/-- So the result is wrong as soon as `a` is not zero. -/
theorem C89_shift_y_alias_wrong (m : Mem F) (a : Nat) (i : Nat) (hi : 0 < i) (ha : (m a).poly ≠ 0) :
    ¬Yields (shiftY m a a i) m a (X ^ i * (m a).poly) := by
  rintro ⟨m1, e1, h1, -⟩
  obtain ⟨m2, e2, h2, -⟩ := C89_shift_y_alias m a i hi
  rw [e1] at e2
  have : m1 = m2 := by injection e2
  rw [← this, h1] at h2
  exact mul_ne_zero (pow_ne_zero _ X_ne_zero) ha h2

/-- `shift_y(a, a, -i)` for a normalised `a` of degree at least `2i` in `Y`, `i > 0`, reads entries beyond the length just set. -/
theorem C89_shift_y_alias_ub (m : Mem F) (a : Nat) (i : Nat) (hi0 : 0 < i) (ha : (m a).Normal) (hi : 2 * i < (m a).len) :
    shiftY m a a (-(i : Int)) = .ub := by
  obtain ⟨m', e, h1, h2, -⟩ := C89_shift_y_div_partial (fun x => if x = 0 then m a else ⟨0, fun _ => 0⟩) 1 0 i hi0
    (by simp only [if_true]; omega) (by omega)
  rw [shiftY, if_neg (by omega)] at e
  have ev : shiftYVal (m a) (-(i : Int)) = .ok (m' 1) := by rw [shiftYVal, e]; rfl
  generalize m' 1 = v at ev h1 h2
  simp only [if_true] at h1
  have hlen : v.len = (m a).len - i := by
    have hc : ∀ k, v.poly.coeff k = if k + i < (m a).len then (m a).at' (k + i) else 0 := by
      intro k
      rw [h1, (coeff_div_mod_X_pow _ i).1, poly_coeff]
    rcases Nat.lt_trichotomy v.len ((m a).len - i) with h | h | h
    · have := hc ((m a).len - i - 1)
      rw [poly_coeff, if_neg (by omega), if_pos (by omega)] at this
      exact absurd this.symm (ha _ (by omega))
    · exact h
    · have := hc (v.len - 1)
      rw [poly_coeff, if_pos (by omega), if_neg (by omega)] at this
      exact absurd this (h2 _ (by omega))
  rw [shiftY, if_pos rfl, ev, andThen_ok]
  have hm0 : (write a v m) a = v := write_self _ _ _
  have hA : ((write a v m) a).degY = (v.len : Int) - 1 := by rw [hm0]; rfl
  unfold shiftYCore
  dsimp only
  rw [hA]
  obtain ⟨m1, e1, h1⟩ := setLen_upd (m := write a v m) (c := a) (n := (v.len : Int) - 1 + 1 + -(i : Int)) (by omega)
  rw [e1, andThen_ok, if_neg (by omega)]
  suffices hub : loopI 0 ((v.len : Int) - 1 + -(i : Int)) (fun j m => andThen (rd m a (j - -(i : Int))) fun x => wr m a j x) m1 = .ub by
    rw [hub]; rfl
  unfold loopI
  have hn : ((v.len : Int) - 1 + -(i : Int) + 1 - 0).toNat = v.len - i := by omega
  rw [hn]
  obtain ⟨n, hn'⟩ : ∃ n, v.len - i = n + 1 := ⟨v.len - i - 1, by omega⟩
  rw [hn']
  show andThen (loopOut n _ m1) _ = .ub
  have hlen1 : (m1 a).len = v.len - i := by rw [h1.len]; omega
  rcases loopOut_inv_ub (s := m1) (f := fun (k : Nat) (m : Mem F) => andThen (rd m a (0 + (k : Int) - -(i : Int))) fun x => wr m a (0 + (k : Int)) x)
      (fun _ m' => (m' a).len = v.len - i) n hlen1
      (by
        intro k t hk ht
        by_cases hr : k + i < v.len - i
        · rw [show (0 : Int) + k - -(i : Int) = ((k + i : Nat) : Int) by push_cast; ring, rd_ok (by rw [ht]; exact hr), andThen_ok,
            zero_add, wr_ok _ (by rw [ht]; omega)]
          exact .inl ⟨_, rfl, by rw [write_self]; exact ht⟩
        · right
          rw [rd, PVec.get, if_neg (by omega)]
          rfl) with ⟨t, e, ht⟩ | e
  · rw [e, andThen_ok]
    dsimp only
    rw [rd, PVec.get, if_neg (by omega)]
    rfl
  · rw [e]; rfl

/-! ### Truncation and coefficients -/

/-- `trunc_x(b, a, i)`, `i ≥ 0`, also in place: all coefficients modulo `X^i`. -/
theorem C89_trunc_x (m : Mem F) (b a i : Nat) :
    Yields (truncX m b a i) m b (∑ k ∈ Finset.range (m a).len, C ((m a).at' k %ₘ X ^ i) * X ^ k) := by
  have hA : (m a).degY = ((m a).len : Int) - 1 := rfl
  obtain ⟨m1, e1, h1⟩ := setLen_upd (m := m) (c := b) (n := (m a).degY + 1) (by omega)
  have hL : ((m a).degY + 1).toNat = (m a).len := by omega
  rw [hL] at h1
  obtain ⟨m2, e2, h2⟩ := loop_fill h1 (fun k => ptrunc ((m a).at' k) i) 0 (m a).degY (le_refl _) (by omega)
    (fun j m => andThen (rd m a j) fun x => if (i : Int) < 0 then .error else wr m b j (ptrunc x (i : Int).toNat))
    (by
      intro k m' _ hk h'
      rw [rd_upd h' (by omega) (fun _ => ⟨by omega, by rw [if_neg (by omega)]⟩), andThen_ok, if_neg (by omega), Int.toNat_natCast])
  have he : truncX m b a i = .ok (norm m2 b) := by
    unfold truncX
    dsimp only
    rw [e1, andThen_ok, e2]
    rfl
  rw [he]
  refine yields_norm h2 fun k => ?_
  rw [show (∑ k ∈ Finset.range (m a).len, C ((m a).at' k %ₘ X ^ i) * X ^ k : Polynomial F[X]) =
      ofCoeffs (m a).len fun k => (m a).at' k %ₘ X ^ i from rfl, ofCoeffs_coeff]
  by_cases hk : k < (m a).len
  · rw [if_pos hk, if_pos hk, if_pos (by omega), (coeff_div_mod_X_pow _ i).2]
  · rw [if_neg hk, if_neg hk]

/-- `trunc_y(b, a, i)`, `i ≥ 0`, for a normalised `a`, also in place: remainder modulo `Y^i`. -/
theorem C89_trunc_y (m : Mem F) (b a i : Nat) (ha : (m a).Normal) : Yields (truncY m b a i) m b ((m a).poly %ₘ X ^ i) := by
  have hA : (m a).degY = ((m a).len : Int) - 1 := rfl
  unfold truncY
  dsimp only
  rw [(coeff_div_mod_X_pow _ i).2]
  by_cases hi : (m a).degY < i
  · rw [if_pos hi]
    refine ⟨_, rfl, ?_, by rw [write_self]; exact ha, fun x hx => write_ne _ _ hx⟩
    rw [write_self]
    ext1 k
    rw [ptrunc_coeff]
    by_cases hk : k < i
    · rw [if_pos hk]
    · rw [if_neg hk, poly_coeff, if_neg (by omega)]
  · rw [if_neg hi]
    obtain ⟨m1, e1, h1⟩ := setLen_upd (m := m) (c := b) (n := (i : Int)) (by omega)
    rw [Int.toNat_natCast] at h1
    obtain ⟨m2, e2, h2⟩ := loop_fill h1 (fun k => (m a).at' k) 0 ((i : Int) - 1) (le_refl _) (by omega)
      (fun j m => andThen (rd m a j) fun x => wr m b j x)
      (by
        intro k m' _ hk h'
        rw [rd_upd h' (by omega) (fun _ => ⟨by omega, by rw [if_neg (by omega)]⟩), andThen_ok])
    rw [e1, andThen_ok, e2, andThen_ok]
    refine yields_norm h2 fun k => ?_
    rw [ptrunc_coeff, poly_coeff]
    by_cases hk : k < i
    · rw [if_pos hk, if_pos hk, if_pos (by omega), if_pos (by omega)]
    · rw [if_neg hk, if_neg hk]

/-- `trunc_y(b, a, i)` with `i < 0` is an error. -/
theorem C89_trunc_y_negative (m : Mem F) (b a : Nat) (i : Int) (hi : i < 0) : truncY m b a i = .error := by
  have hA : (m a).degY = ((m a).len : Int) - 1 := rfl
  unfold truncY
  dsimp only
  rw [if_neg (by omega), setLen_error hi]
  rfl

/-- `SetCoeff(x, i, c)` for a normalised `x` replaces the coefficient of `Y^i`, for any `i ≥ 0`, and is an error for `i < 0`. -/
theorem C89_set_coeff (m : Mem F) (x : Nat) (c : F[X]) (hx : (m x).Normal) :
    (∀ i : Nat, Yields (setCoeff m x i c) m x ((m x).poly.update i c)) ∧ ∀ i : Int, i < 0 → setCoeff m x i c = .error := by
  refine ⟨fun i => ?_, fun i hi => by rw [setCoeff, if_pos hi]⟩
  have hA : (m x).degY = ((m x).len : Int) - 1 := rfl
  unfold setCoeff
  rw [if_neg (by omega)]
  dsimp only
  by_cases h1 : (m x).degY < i ∧ c = 0
  · rw [if_pos h1]
    refine ⟨m, rfl, ?_, hx, fun _ _ => rfl⟩
    ext1 k
    rw [coeff_update_apply]
    split
    · rename_i h
      rw [h, h1.2, poly_coeff, if_neg (by omega)]
    · rfl
  · rw [if_neg h1]
    obtain ⟨L, g, m1, e1, hu, hL, hg⟩ : ∃ L g m1, (if (m x).degY < i then
        andThen (setLen m x ((i : Int) + 1)) fun m' => loopI ((m x).degY + 1) ((i : Int) - 1) (fun j m => wr m x j 0) m'
        else Out.ok m) = .ok m1 ∧ Upd m x L g m1 ∧ i < L ∧ ∀ k, (if k < L then write i c g k else 0) = (m x).poly.coeff k ∨ k = i := by
      by_cases hlt : (m x).degY < i
      · rw [if_pos hlt]
        obtain ⟨m1, e1, h1⟩ := setLen_upd (m := m) (c := x) (n := (i : Int) + 1) (by omega)
        obtain ⟨m2, e2, h2⟩ := loop_fill h1 (fun _ => 0) ((m x).degY + 1) ((i : Int) - 1) (by omega) (by omega) (fun j m => wr m x j 0)
          (by intros; rfl)
        refine ⟨_, _, m2, by rw [e1, andThen_ok, e2], h2, by omega, fun k => ?_⟩
        by_cases hk : k = i
        · exact .inr hk
        · left
          rw [write_ne _ _ hk, poly_coeff]
          by_cases h3 : k < (m x).len
          · rw [if_pos h3, if_pos (by omega), if_neg (by omega)]
          · rw [if_neg h3]
            split
            · rw [if_pos (by omega)]
            · rfl
      · rw [if_neg hlt]
        refine ⟨(m x).len, (m x).at', m, rfl, ⟨rfl, fun _ => rfl, fun _ _ => rfl⟩, by omega, fun k => ?_⟩
        by_cases hk : k = i
        · exact .inr hk
        · left
          rw [write_ne _ _ hk, poly_coeff]
    rw [e1, andThen_ok]
    obtain ⟨m2, e2, h2⟩ := wr_upd hu c hL
    rw [e2, andThen_ok]
    refine yields_norm h2 fun k => ?_
    rw [coeff_update_apply]
    by_cases hk : k = i
    · rw [if_pos hk, hk, if_pos hL, write_self]
    · rw [if_neg hk]
      exact ((hg k).resolve_right hk).symm

end PML.Ntl.Bivar
