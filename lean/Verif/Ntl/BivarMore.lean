import Verif.Ntl.BivarOps

/-!
# C89: degrees, evaluation, equality, constructors, random polynomials, and examples
-/

namespace PML.Ntl.Bivar

open Polynomial PML.Ntl.Utils PML.Ntl.Inv PML.Ntl.Solve PML.Ntl.Struct

variable {F : Type} [Field F]

/-! ### Degrees -/

theorem coeff_ne {v : PVec F} {i j : Nat} (h : (v.poly.coeff i).coeff j ≠ 0) : i < v.len ∧ v.at' i ≠ 0 ∧ (j : Int) ≤ pdeg (v.at' i) := by
  rw [poly_coeff] at h
  by_cases hi : i < v.len
  · rw [if_pos hi] at h
    refine ⟨hi, fun h0 => h (by rw [h0, coeff_zero]), ?_⟩
    by_contra hj
    exact h ((pdeg_le _ _ (pdeg_ge _)).1 (le_refl _) j (by omega))
  · rw [if_neg hi, coeff_zero] at h
    exact absurd rfl h

theorem pdeg_coeff {f : F[X]} (h : f ≠ 0) : f.coeff (pdeg f).toNat ≠ 0 := by
  unfold pdeg
  rw [if_neg h, Int.toNat_natCast]
  exact fun e => h (leadingCoeff_eq_zero.1 e)

theorem forMax_mem (g : Nat → Int) : ∀ n, forN n (fun i d => max d (g i)) (-1) = -1 ∨ ∃ i, i < n ∧ forN n (fun i d => max d (g i)) (-1) = g i
  | 0 => .inl rfl
  | n + 1 => by
    have hs : forN (n + 1) (fun i d => max d (g i)) (-1) = max (forN n (fun i d => max d (g i)) (-1)) (g n) := rfl
    rw [hs]
    rcases le_total (forN n (fun i d => max d (g i)) (-1)) (g n) with h | h
    · exact .inr ⟨n, by omega, max_eq_right h⟩
    · rw [max_eq_left h]
      rcases forMax_mem g n with h' | ⟨i, hi, h'⟩
      · exact .inl h'
      · exact .inr ⟨i, by omega, h'⟩

/-- `is_zero()`, `degY()`, `degX()` and `tdeg()` of a normalised vector.  For zero all degrees are `-1`; otherwise they are the
    largest `i`, the largest `j` and the largest `i + j` over the monomials `X^j Y^i` that occur. -/
theorem C89_degrees (v : PVec F) (hv : v.Normal) :
    (v.isZero = true ↔ v.poly = 0) ∧
    (v.poly = 0 → v.degY = -1 ∧ v.degX = -1 ∧ v.tdeg = -1) ∧
    (v.poly ≠ 0 → v.degY = v.poly.natDegree ∧
      (∀ i j, (v.poly.coeff i).coeff j ≠ 0 → (j : Int) ≤ v.degX ∧ ((i + j : Nat) : Int) ≤ v.tdeg) ∧
      (∃ i j, (v.poly.coeff i).coeff j ≠ 0 ∧ (j : Int) = v.degX) ∧
      ∃ i j, (v.poly.coeff i).coeff j ≠ 0 ∧ ((i + j : Nat) : Int) = v.tdeg) := by
  have hz := poly_eq_zero_iff hv
  have ht : ∀ d, v.tdeg ≤ d ↔ -1 ≤ d ∧ ∀ i, i < v.len → pdeg (v.at' i) + i ≤ d := forMax _ _
  refine ⟨by rw [hz]; simp [PVec.isZero], fun h0 => ?_, fun h0 => ?_⟩
  · rw [hz] at h0
    refine ⟨by rw [PVec.degY, h0]; rfl, by rw [PVec.degX, h0]; rfl, by rw [PVec.tdeg, h0]; rfl⟩
  · have hl : v.len ≠ 0 := fun h => h0 (hz.2 h)
    obtain ⟨n, hn⟩ := Nat.exists_eq_succ_of_ne_zero hl
    have hlast : v.at' n ≠ 0 := hv n hn
    refine ⟨?_, ?_, ?_, ?_⟩
    · have h1 : v.poly.natDegree = n := by
        refine natDegree_eq_of_le_of_coeff_ne_zero ?_ ?_
        · rw [natDegree_le_iff_coeff_eq_zero]
          intro k hk
          rw [poly_coeff, if_neg (by omega)]
        · rw [poly_coeff, if_pos (by omega)]
          exact hlast
      rw [h1]
      show ((v.len : Nat) : Int) - 1 = n
      omega
    · intro i j hij
      obtain ⟨h1, -, h3⟩ := coeff_ne hij
      have h4 := degX_get v h1
      have h5 := ((ht v.tdeg).1 (le_refl _)).2 i h1
      refine ⟨by omega, by push_cast; omega⟩
    · have hge := degX_nonneg hv hl
      rcases forMax_mem (fun i => pdeg (v.at' i)) v.len with h | ⟨i, hi, h⟩
      · have h' : v.degX = -1 := h
        omega
      · have h' : v.degX = pdeg (v.at' i) := h
        have hne : v.at' i ≠ 0 := by
          intro h1
          rw [h', h1, pdeg, if_pos rfl] at hge
          omega
        refine ⟨i, (pdeg (v.at' i)).toNat, ?_, by omega⟩
        rw [poly_coeff, if_pos hi]
        exact pdeg_coeff hne
    · have hge : (n : Int) ≤ v.tdeg := by
        have := ((ht v.tdeg).1 (le_refl _)).2 n (by omega)
        have := pdeg_nonneg hlast
        omega
      rcases forMax_mem (fun i => pdeg (v.at' i) + i) v.len with h | ⟨i, hi, h⟩
      · have h' : v.tdeg = -1 := h
        omega
      · have h' : v.tdeg = pdeg (v.at' i) + i := h
        have hne : v.at' i ≠ 0 := by
          intro h1
          rw [h', h1, pdeg, if_pos rfl] at hge
          omega
        have := pdeg_nonneg hne
        refine ⟨i, (pdeg (v.at' i)).toNat, ?_, by push_cast; omega⟩
        rw [poly_coeff, if_pos hi]
        exact pdeg_coeff hne

/-! ### Evaluation, equality, constructors -/

/-- `evaluate(value, f, point)`: the coefficient of degree `i` of `value` is that of `Y^i` in `f` taken at `point`. -/
theorem C89_evaluate (m : Mem F) (f : Nat) (point : F) :
    evaluate m f point = .ok ((m f).poly.map (evalRingHom point)) := by
  have hA : (m f).degY = ((m f).len : Int) - 1 := rfl
  unfold evaluate
  rw [hA, loopI_zero]
  obtain ⟨t, e, ht⟩ := loopOut_inv (s := (0 : F[X])) (f := fun (i : Nat) (value : F[X]) =>
      andThen (rd m f i) fun c => .ok (value.update (i : Int).toNat (c.eval point)))
    (fun n t => ∀ k, t.coeff k = if k < n then ((m f).at' k).eval point else 0) (m f).len (by simp)
    (by
      intro n t hn ht
      rw [rd_ok hn, andThen_ok]
      refine ⟨_, rfl, fun k => ?_⟩
      rw [coeff_update_apply, Int.toNat_natCast]
      by_cases hk : k = n
      · rw [if_pos hk, if_pos (by omega), hk]
      · rw [if_neg hk, ht]
        by_cases h : k < n
        · rw [if_pos h, if_pos (by omega)]
        · rw [if_neg h, if_neg (by omega)])
  rw [e]
  congr 1
  ext k
  rw [ht, coeff_map, poly_coeff]
  split
  · rfl
  · rw [map_zero]

/-- `a == b` on normalised vectors decides the equality of the polynomials. -/
theorem C89_equal (a b : PVec F) (ha : a.Normal) (hb : b.Normal) : eqTest a b = true ↔ a.poly = b.poly := by
  unfold eqTest
  simp only [decide_eq_true_eq]
  constructor
  · rintro ⟨h1, h2⟩
    ext1 k
    rw [poly_coeff, poly_coeff, ← h1]
    split
    · rename_i h
      exact h2 k h
    · rfl
  · intro h
    have hc : ∀ k, (if k < a.len then a.at' k else 0) = if k < b.len then b.at' k else 0 := fun k => by
      rw [← poly_coeff, ← poly_coeff, h]
    have hl : a.len = b.len := by
      rcases Nat.lt_trichotomy a.len b.len with hlt | heq | hlt
      · have := hc (b.len - 1)
        rw [if_neg (by omega), if_pos (by omega)] at this
        exact absurd this.symm (hb _ (by omega))
      · exact heq
      · have := hc (a.len - 1)
        rw [if_pos (by omega), if_neg (by omega)] at this
        exact absurd this (ha _ (by omega))
    refine ⟨hl, fun i hi => ?_⟩
    have := hc i
    rwa [if_pos hi, if_pos (by omega)] at this

/-- The constructors: a normalised representation of the sum of the `c[i] Y^i`, or of the polynomial `c`, constant in `Y`. -/
theorem C89_constructors (v : PVec F) (c : F[X]) :
    ((ofVec v).poly = v.poly ∧ (ofVec v).Normal) ∧ (ofPoly c).poly = C c ∧ (ofPoly c).Normal := by
  refine ⟨⟨normalize_poly v, normalize_normal v⟩, ?_, normalize_normal _⟩
  rw [ofPoly, normalize_poly]
  ext1 k
  rw [poly_coeff, coeff_C]
  show (if k < 1 then c else 0) = _
  by_cases hk : k = 0
  · rw [if_pos (by omega), if_pos hk]
  · rw [if_neg (by omega), if_neg hk]

/-! ### Random polynomials -/

/-- `random_zz_pXY(f, dx, dy)`, `dy ≥ 0`: `dy` coefficients of degree less than `dx`, given by the draws; the vector is normalised
    if and only if some draw for the last one is not zero. -/
theorem C89_random (u : Nat → Nat → F) (m : Mem F) (f dx dy : Nat) :
    ∃ m', random u m f dx dy = .ok m' ∧ (m' f).len = dy ∧ (∀ x, x ≠ f → m' x = m x) ∧
      (∀ i j, ((m' f).poly.coeff i).coeff j = if i < dy ∧ j < dx then u i j else 0) ∧
      ((m' f).Normal ↔ dy = 0 ∨ ∃ j, j < dx ∧ u (dy - 1) j ≠ 0) := by
  obtain ⟨m1, e1, h1⟩ := setLen_upd (m := m) (c := f) (n := (dy : Int)) (by omega)
  rw [Int.toNat_natCast] at h1
  obtain ⟨m2, e2, h2⟩ := loop_fill h1 (fun i => randPoly dx (u i)) 0 ((dy : Int) - 1) (le_refl _) (by omega)
    (fun i m => wr m f i (randPoly dx (u i.toNat))) (by intros; rfl)
  have hent : ∀ i, i < dy → (m2 f).at' i = randPoly dx (u i) := fun i hi => by rw [h2.ent, if_pos (by omega)]
  refine ⟨m2, by rw [random, e1, andThen_ok, e2], h2.len, h2.other, fun i j => ?_, ?_⟩
  · rw [poly_coeff, h2.len]
    by_cases hi : i < dy
    · rw [if_pos hi, hent i hi, randPoly, ofCoeffs_coeff]
      by_cases hj : j < dx
      · rw [if_pos hj, if_pos ⟨hi, hj⟩]
      · rw [if_neg hj, if_neg (by omega)]
    · rw [if_neg hi, coeff_zero, if_neg (by omega)]
  · constructor
    · intro hN
      by_cases h0 : dy = 0
      · exact .inl h0
      · right
        by_contra hno
        push Not at hno
        refine hN (dy - 1) (by rw [h2.len]; omega) ?_
        rw [hent _ (by omega)]
        ext j
        rw [randPoly, ofCoeffs_coeff, coeff_zero]
        split
        · rename_i hj
          exact hno j hj
        · rfl
    · intro h n hn hzero
      rw [h2.len] at hn
      rcases h with h | ⟨j, hj, hu⟩
      · omega
      · rw [hent n (by omega)] at hzero
        have := congrArg (fun g => g.coeff j) hzero
        simp only [randPoly, ofCoeffs_coeff, coeff_zero] at this
        rw [if_pos hj] at this
        exact hu (by rw [show dy - 1 = n by omega]; exact this)

/-- A vector with one zero coefficient (as `random_zz_pXY(f, dx, 1)` may return) times the constant `1`: the product writes
    out of bounds. -/
theorem C89_mul_not_normal (e0 : Nat → F) (ce0 : Nat → Nat → F) (m : Mem F) (c a b : Nat)
    (ha : (m a).len = 1 ∧ (m a).at' 0 = 0) (hb : (m b).len = 1 ∧ (m b).at' 0 = 1) : mulKron e0 ce0 m c a b = .ub := by
  have p0 : pdeg (0 : F[X]) = -1 := by rw [pdeg, if_pos rfl]
  have p1 : pdeg (1 : F[X]) = 0 := by rw [pdeg, if_neg one_ne_zero, natDegree_one]; rfl
  have dA : (m a).degX = -1 := by
    rw [PVec.degX, ha.1]
    show max (-1) (pdeg ((m a).at' 0)) = -1
    rw [ha.2, p0, max_self]
  have dB : (m b).degX = 0 := by
    rw [PVec.degX, hb.1]
    show max (-1) (pdeg ((m b).at' 0)) = 0
    rw [hb.2, p1]
    rfl
  have zA : (m a).isZero = false := by rw [PVec.isZero, ha.1]; rfl
  have zB : (m b).isZero = false := by rw [PVec.isZero, hb.1]; rfl
  have key : ∀ v : PVec F, kronCore e0 ce0 v (m a) (m b) = .ub := by
    intro v
    have gA : (m a).get ((0 : Nat) : Int) = .ok 0 := by rw [get_ok (by omega), ha.2]
    have gB : (m b).get ((0 : Nat) : Int) = .ok 1 := by rw [get_ok (by omega), hb.2]
    have kA : ∃ p, toKronXY e0 (m a) (-1) = .ok p := by
      refine ⟨ofCoeffs (((-1 : Int) + 1) * (((1 : Nat) : Int) - 1 + 1)).toNat e0, ?_⟩
      rw [toKronXY, zA, toKron, ha.1]
      simp only [Bool.false_eq_true, if_false, Nat.one_ne_zero]
      rw [if_neg (by norm_num), loopI_zero]
      show andThen (andThen ((m a).get ((0 : Nat) : Int)) fun x =>
        andThen (kronBlock (((-1 : Int) + 1) * (((1 : Nat) : Int) - 1 + 1)).toNat (-1) 0 x e0) fun e => .ok ((0 : Int) + (-1 + 1), e)) _ = _
      rw [gA, andThen_ok, show kronBlock (((-1 : Int) + 1) * (((1 : Nat) : Int) - 1 + 1)).toNat (-1) 0 (0 : F[X]) e0 = .ok e0 by
          rw [kronBlock, p0, if_neg (by omega)]; rfl]
      rfl
    have kB : toKronXY e0 (m b) (-1) = .ub := by
      rw [toKronXY, zB, toKron, hb.1]
      simp only [Bool.false_eq_true, if_false, Nat.one_ne_zero]
      rw [if_neg (by norm_num), loopI_zero]
      show andThen (andThen ((m b).get ((0 : Nat) : Int)) fun x =>
        andThen (kronBlock (((-1 : Int) + 1) * (((1 : Nat) : Int) - 1 + 1)).toNat (-1) 0 x e0) fun e => .ok ((0 : Int) + (-1 + 1), e)) _ = _
      rw [gB, andThen_ok, show kronBlock (((-1 : Int) + 1) * (((1 : Nat) : Int) - 1 + 1)).toNat (-1) 0 (1 : F[X]) e0 = .ub from
        kronBlock_ub _ _ 0 _ _ (by omega) (by rw [p1]; norm_num)]
      rfl
    obtain ⟨p, kA⟩ := kA
    rw [kronCore, zA, zB]
    simp only [Bool.or_self, Bool.false_eq_true, if_false]
    rw [dA, dB, add_zero, kA, andThen_ok, kB]
    rfl
  unfold mulKron
  rw [key, key]
  split <;> rfl

/-- The documented substitution is not what `to_kronecker` computes when another coefficient than the last one has a degree larger than
    `degX`: for `X + Y` and `degX = 0` the result is `X`, and not `X + X`. -/
theorem C89_to_kronecker_overwrites (e0 : Nat → F) :
    ∃ a : PVec F, a.Normal ∧ toKron e0 a 0 = .ok X ∧ a.poly.eval (X ^ (0 + 1)) = X + X := by
  have pX : pdeg (X : F[X]) = 1 := by rw [pdeg, if_neg X_ne_zero, natDegree_X]; rfl
  have p1 : pdeg (1 : F[X]) = 0 := by rw [pdeg, if_neg one_ne_zero, natDegree_one]; rfl
  refine ⟨⟨2, fun i => if i = 0 then X else 1⟩, ?_, ?_, ?_⟩
  · intro n hn
    have hn' : n = 1 := by
      have : (2 : Nat) = n + 1 := hn
      omega
    subst hn'
    simp
  · rw [toKron, if_neg (by norm_num)]
    dsimp only
    rw [if_neg (by norm_num)]
    show andThen (andThen (andThen (.ok ((0 : Int), e0)) fun s => andThen (PVec.get _ (0 + (0 : Nat) : Int)) _) fun s =>
      andThen (PVec.get _ (0 + (1 : Nat) : Int)) _) _ = _
    have g0 : PVec.get (⟨2, fun i => if i = 0 then X else 1⟩ : PVec F) (0 + (0 : Nat) : Int) = .ok X := rfl
    have g1 : PVec.get (⟨2, fun i => if i = 0 then X else 1⟩ : PVec F) (0 + (1 : Nat) : Int) = .ok 1 := rfl
    rw [andThen_ok, g0, andThen_ok]
    have b0 : kronBlock (((0 : Int) + 1) * (((2 : Nat) : Int) - 1 + 1)).toNat 0 ((0 : Int), e0).1 (X : F[X]) ((0 : Int), e0).2 =
        .ok (write 1 1 (write 0 0 e0)) := by
      rw [kronBlock, pX, if_pos (by omega)]
      show andThen (.ok (write 1 ((X : F[X]).coeff 1) (write 0 ((X : F[X]).coeff 0) e0))) _ = _
      rw [andThen_ok, coeff_X_one, coeff_X_zero]
      rfl
    rw [b0, andThen_ok, andThen_ok, g1, andThen_ok]
    have b1 : kronBlock (((0 : Int) + 1) * (((2 : Nat) : Int) - 1 + 1)).toNat 0 ((0 : Int) + (0 + 1), write 1 (1 : F) (write 0 0 e0)).1 (1 : F[X])
        ((0 : Int) + (0 + 1), write 1 (1 : F) (write 0 0 e0)).2 = .ok (write 1 1 (write 1 1 (write 0 0 e0))) := by
      rw [kronBlock, p1, if_pos (by omega)]
      show andThen (.ok (write 1 ((1 : F[X]).coeff 0) _)) _ = _
      rw [andThen_ok, coeff_one_zero]
      rfl
    rw [b1, andThen_ok, andThen_ok]
    congr 1
    ext k
    show (ofCoeffs 2 _).coeff k = _
    rw [ofCoeffs_coeff, coeff_X]
    rcases k with _ | _ | k
    · simp [write]
    · simp [write]
    · simp
  · simp [PVec.poly, Finset.sum_range_succ]

/-! ### Examples -/

/-- A memory with `Y^2 + X` in the variable `0`, and zero elsewhere. -/
noncomputable def exMem : Mem ℚ := fun x => if x = 0 then ⟨3, fun i => if i = 0 then X else if i = 2 then 1 else 0⟩ else ⟨0, fun _ => 0⟩

example : (exMem 0).Normal ∧ (exMem 0).poly ≠ 0 ∧ 2 * 1 < (exMem 0).len ∧ (exMem 1).len < 1 ∧ DegXLe (exMem 0).poly 1 := by
  have hN : (exMem 0).Normal := by
    intro n hn
    have hn' : n = 2 := by
      have : (3 : Nat) = n + 1 := hn
      omega
    subst hn'
    show (1 : ℚ[X]) ≠ 0
    exact one_ne_zero
  refine ⟨hN, fun h => ?_, ?_, ?_, ?_⟩
  · have := (poly_eq_zero_iff hN).1 h
    have h3 : (exMem 0).len = 3 := rfl
    omega
  · have h3 : (exMem 0).len = 3 := rfl
    omega
  · have h3 : (exMem 1).len = 0 := rfl
    omega
  · refine degX_poly ((degX_le _ _).2 ⟨by norm_num, fun i hi => ?_⟩)
    have pX : pdeg (X : ℚ[X]) = 1 := by rw [pdeg, if_neg X_ne_zero, natDegree_X]; rfl
    have p1 : pdeg (1 : ℚ[X]) = 0 := by rw [pdeg, if_neg one_ne_zero, natDegree_one]; rfl
    have p0 : pdeg (0 : ℚ[X]) = -1 := by rw [pdeg, if_pos rfl]
    have h3 : (exMem 0).len = 3 := rfl
    rw [h3] at hi
    interval_cases i
    · show pdeg (X : ℚ[X]) ≤ _
      rw [pX]; norm_num
    · show pdeg (0 : ℚ[X]) ≤ _
      rw [p0]; norm_num
    · show pdeg (1 : ℚ[X]) ≤ _
      rw [p1]; norm_num

/-- The last coefficient of `X^2 Y` has a degree larger than `1`. -/
example : ((1 : Nat) : Int) < pdeg ((⟨2, fun i => if i = 1 then X ^ 2 else 0⟩ : PVec ℚ).at' 1) := by
  show ((1 : Nat) : Int) < pdeg (X ^ 2 : ℚ[X])
  rw [pdeg, if_neg (pow_ne_zero _ X_ne_zero), natDegree_X_pow]
  norm_num

/-- When all draws are zero, `random_zz_pXY(f, dx, 1)` returns a vector on which `C89_mul_not_normal` applies. -/
example (m : Mem ℚ) (dx : Nat) : ∃ m', random (fun _ _ => 0) m 0 dx ((1 : Nat) : Int) = .ok m' ∧ (m' 0).len = 1 ∧ (m' 0).at' 0 = 0 := by
  obtain ⟨m', h1, h2, -, h4, -⟩ := C89_random (fun _ _ => (0 : ℚ)) m 0 dx 1
  refine ⟨m', h1, h2, ?_⟩
  ext j
  have := h4 0 j
  rw [poly_coeff, h2, if_pos (by omega)] at this
  rw [this]
  simp

end PML.Ntl.Bivar
