import Verif.Ntl.BivarProps

/-!
# C89: products of bivariate polynomials
-/

namespace PML.Ntl.Bivar

open Polynomial PML.Ntl.Utils PML.Ntl.Inv PML.Ntl.Solve PML.Ntl.Struct

variable {F : Type} [Field F]

theorem loopI_zero {σ : Type} (n : Nat) (f : Int → σ → Out σ) (s : σ) :
    loopI 0 ((n : Int) - 1) f s = loopOut n (fun k => f k) s := by
  unfold loopI
  rw [show ((n : Int) - 1 + 1 - 0).toNat = n by omega]
  simp only [zero_add]

theorem get_ok {v : PVec F} {i : Nat} (h : i < v.len) : v.get (i : Int) = .ok (v.at' i) := by
  have hc : (0 : Int) ≤ i ∧ (i : Int) < v.len := by omega
  simp only [PVec.get, hc, if_true, Int.toNat_natCast, and_self]

theorem put_ok {v : PVec F} {i : Nat} (w : F[X]) (h : i < v.len) :
    v.put (i : Int) w = .ok { v with at' := write i w v.at' } := by
  have hc : (0 : Int) ≤ i ∧ (i : Int) < v.len := by omega
  simp only [PVec.put, hc, if_true, Int.toNat_natCast, and_self]

theorem poly_mul_coeff (a b : PVec F) (k : Nat) :
    (a.poly * b.poly).coeff k = ∑ i ∈ Finset.range a.len, ∑ j ∈ Finset.range b.len, if i + j = k then a.at' i * b.at' j else 0 := by
  rw [PVec.poly, PVec.poly, Finset.sum_mul_sum, finsetSum_coeff]
  refine Finset.sum_congr rfl fun i _ => ?_
  rw [finsetSum_coeff]
  refine Finset.sum_congr rfl fun j _ => ?_
  rw [show (C (a.at' i) * X ^ i * (C (b.at' j) * X ^ j) : Polynomial F[X]) = C (a.at' i * b.at' j) * X ^ (i + j) by
    rw [C_mul, pow_add]; ring, coeff_C_mul_X_pow]
  by_cases h : i + j = k
  · rw [if_pos h.symm, if_pos h]
  · rw [if_neg fun e => h e.symm, if_neg h]

/-- `mul_naive(c, a, b)`, whichever of the variables are the same. -/
theorem C89_mul_naive (m : Mem F) (c a b : Nat) : Yields (mulNaive m c a b) m c ((m a).poly * (m b).poly) := by
  unfold mulNaive
  by_cases hz : (m a).len = 0 ∨ (m b).len = 0
  · have h0 : (m a).poly * (m b).poly = 0 := by
      ext1 k
      rw [poly_mul_coeff]
      rcases hz with h | h <;> simp [h]
    rw [if_pos (by simpa [PVec.isZero] using hz)]
    refine ⟨_, rfl, ?_, ?_, fun x hx => write_ne _ _ hx⟩
    · rw [write_self, h0]
      exact (Finset.sum_range_zero _)
    · rw [write_self]
      intro n hn
      have : (m c).zero.len = 0 := rfl
      omega
  · push Not at hz
    rw [if_neg (by simpa [PVec.isZero] using hz)]
    have hA : (m a).degY = ((m a).len : Int) - 1 := rfl
    have hB : (m b).degY = ((m b).len : Int) - 1 := rfl
    obtain ⟨L, hL⟩ : ∃ L : Nat, (m a).degY + (m b).degY + 1 = L := ⟨(m a).len + (m b).len - 1, by omega⟩
    have hset : (⟨0, fun _ => 0⟩ : PVec F).setLength ((m a).degY + (m b).degY + 1) = .ok ⟨L, fun _ => 0⟩ := by
      rw [hL, PVec.setLength, if_neg (by omega), Int.toNat_natCast]
    dsimp only
    rw [hset, andThen_ok, hA, hB, loopI_zero]
    obtain ⟨t, e, ht1, ht2⟩ := loopOut_inv (s := (⟨L, fun _ => 0⟩ : PVec F))
      (f := fun i t => loopI 0 (((m b).len : Int) - 1) (fun j t =>
        andThen (rd m a i) fun x => andThen (rd m b j) fun y => andThen (t.get (i + j)) fun z =>
        t.put (i + j) (z + x * y)) t)
      (fun n (t : PVec F) => t.len = L ∧ ∀ k, t.at' k = ∑ i ∈ Finset.range n, ∑ j ∈ Finset.range (m b).len,
        if i + j = k then (m a).at' i * (m b).at' j else 0) (m a).len
      ⟨rfl, fun k => by simp⟩
      (by
        intro i t hi ht
        rw [loopI_zero]
        obtain ⟨t', e', h1, h2⟩ := loopOut_inv (s := t) (f := fun (j : Nat) (t : PVec F) =>
            andThen (rd m a i) fun x => andThen (rd m b j) fun y => andThen (t.get (i + j)) fun z => t.put (i + j) (z + x * y))
          (fun n (t' : PVec F) => t'.len = L ∧ ∀ k, t'.at' k = t.at' k + ∑ j ∈ Finset.range n,
            if i + j = k then (m a).at' i * (m b).at' j else 0) (m b).len
          ⟨ht.1, fun k => by simp⟩
          (by
            intro j t' hj ht'
            have hl : i + j < t'.len := by rw [ht'.1]; omega
            refine ⟨{ t' with at' := write (i + j) (t'.at' (i + j) + (m a).at' i * (m b).at' j) t'.at' }, ?_, ht'.1, ?_⟩
            · rw [rd_ok hi, andThen_ok, rd_ok hj, andThen_ok, ← Nat.cast_add, get_ok hl, andThen_ok, put_ok _ hl]
            · intro k
              rw [Finset.sum_range_succ, ← add_assoc, ← ht'.2]
              by_cases hk : i + j = k
              · subst hk
                rw [if_pos rfl]
                exact write_self _ _ _
              · rw [if_neg hk, add_zero]
                exact write_ne _ _ fun e => hk e.symm)
        refine ⟨t', e', h1, fun k => ?_⟩
        rw [h2, Finset.sum_range_succ, ht.2])
    rw [e, andThen_ok]
    refine ⟨_, rfl, ?_, ?_, fun x hx => write_ne _ _ hx⟩
    · rw [write_self, normalize_poly]
      ext1 k
      rw [poly_coeff, poly_mul_coeff, ht1, ← ht2]
      by_cases hk : k < L
      · rw [if_pos hk]
      · rw [if_neg hk, ht2]
        symm
        refine Finset.sum_eq_zero fun i hi => Finset.sum_eq_zero fun j hj => if_neg ?_
        rw [Finset.mem_range] at hi hj
        omega
    · rw [write_self]
      exact normalize_normal _

/-- `mul(c, a, b)` for a constant `b`, also in place. -/
theorem C89_mul_const (m : Mem F) (c a : Nat) (b : F) (ha : (m a).Normal) :
    Yields (mulConst m c a b) m c (C (C b) * (m a).poly) := by
  unfold mulConst
  by_cases hz : (m a).isZero ∨ b = 0
  · rw [if_pos hz]
    refine ⟨_, rfl, ?_, ?_, fun x hx => write_ne _ _ hx⟩
    · rw [write_self]
      have h0 : C (C b) * (m a).poly = 0 := by
        rcases hz with h | h
        · rw [(poly_eq_zero_iff ha).2 (by simpa [PVec.isZero] using h), mul_zero]
        · rw [h, C_0, C_0, zero_mul]
      rw [h0]
      exact Finset.sum_range_zero _
    · rw [write_self]
      intro n hn
      have : (m c).zero.len = 0 := rfl
      omega
  · rw [if_neg hz]
    push Not at hz
    have hA : (m a).degY = ((m a).len : Int) - 1 := rfl
    obtain ⟨m1, e1, h1⟩ := setLen_upd (m := m) (c := c) (n := (m a).degY + 1) (by omega)
    have hL : ((m a).degY + 1).toNat = (m a).len := by omega
    rw [hL] at h1
    have hd : (m1 a).degY = (m a).degY := by
      by_cases hac : a = c
      · have h2 := h1.len
        rw [← hac] at h2
        show ((m1 a).len : Int) - 1 = _
        rw [h2, hA]
      · rw [h1.other a hac]
    obtain ⟨m2, e2, h2⟩ := loop_fill h1 (fun i => C b * (m a).at' i) 0 (m a).degY (le_refl _) (by omega)
      (fun i m => andThen (rd m a i) fun x => wr m c i (C b * x))
      (by
        intro i m' _ hi h'
        rw [rd_upd h' (by omega) (fun _ => ⟨by omega, by rw [if_neg (by omega)]⟩), andThen_ok])
    rw [e1, andThen_ok, hd, e2]
    have hne : (m a).len ≠ 0 := by simpa [PVec.isZero] using hz.1
    have hcb : (C b : F[X]) ≠ 0 := fun h => hz.2 (C_eq_zero.1 h)
    refine ⟨m2, rfl, ?_, ?_, h2.other⟩
    · ext1 k
      rw [poly_coeff, coeff_C_mul, poly_coeff, h2.len, h2.ent]
      by_cases hk : k < (m a).len
      · rw [if_pos hk, if_pos hk, if_pos (by omega)]
      · rw [if_neg hk, if_neg hk, mul_zero]
    · intro n hn
      rw [h2.len] at hn
      rw [h2.ent, if_pos (by omega)]
      exact mul_ne_zero hcb (ha n hn)

/-- `to_kronecker(out, a, degX)` is `a(X, X^(degX+1))` when all coefficients have degree at most `degX`; whatever
    `out` held before. -/
theorem C89_to_kronecker (e0 : Nat → F) (a : PVec F) (D : Nat) (ha : DegXLe a.poly D) :
    toKron e0 a D = .ok (a.poly.eval (X ^ (D + 1))) ∧ toKronXY e0 a D = .ok (a.poly.eval (X ^ (D + 1))) := by
  have key : toKron e0 a D = .ok (a.poly.eval (X ^ (D + 1))) := by
    unfold toKron
    by_cases h0 : a.len = 0
    · rw [if_pos h0]
      have : a.poly = 0 := by
        ext1 k
        rw [poly_coeff, if_neg (by omega), coeff_zero]
      rw [this, eval_zero]
    · rw [if_neg h0]
      dsimp only
      have hN : ((D : Int) + 1) * ((a.len : Int) - 1 + 1) = ((a.len * (D + 1) : Nat) : Int) := by push_cast; ring
      rw [hN, if_neg (by omega), Int.toNat_natCast, loopI_zero]
      have hdeg : ∀ i, i < a.len → ∀ j, D + 1 ≤ j → (a.at' i).coeff j = 0 := by
        intro i hi j hj
        have := ha i j (by omega)
        rwa [poly_coeff, if_pos hi] at this
      obtain ⟨s, e, h1, h2⟩ := loopOut_inv (s := ((0 : Int), e0))
        (f := fun (i : Nat) s => andThen (a.get i) fun x =>
          andThen (kronBlock (a.len * (D + 1)) D s.1 x s.2) fun e => .ok (s.1 + ((D : Int) + 1), e))
        (fun n (s : Int × (Nat → F)) => s.1 = ((n * (D + 1) : Nat) : Int) ∧ ∀ i j, i < n → j < D + 1 → s.2 (i * (D + 1) + j) = (a.at' i).coeff j)
        a.len ⟨by simp, by intro i j hi; omega⟩
        (by
          intro n s hn hs
          have hle : (n + 1) * (D + 1) ≤ a.len * (D + 1) := Nat.mul_le_mul_right _ hn
          rw [Nat.add_mul, Nat.one_mul] at hle
          obtain ⟨e', he, he'⟩ := kronBlock_spec (a.len * (D + 1)) (D + 1) (n * (D + 1)) (a.at' n) s.2 (hdeg n hn)
            (by omega) hle
          have hD : (((D + 1 : Nat) : Int) - 1) = D := by push_cast; ring
          rw [hD] at he
          refine ⟨(s.1 + ((D : Int) + 1), e'), ?_, ?_, ?_⟩
          · rw [get_ok hn, andThen_ok, hs.1, he, andThen_ok]
          · show s.1 + ((D : Int) + 1) = _
            rw [hs.1]; push_cast; ring
          · intro i j hi hj
            show e' _ = _
            rw [he']
            by_cases hin : i = n
            · subst hin
              rw [if_pos (by omega)]
              congr 1
              omega
            · have : (i + 1) * (D + 1) ≤ n * (D + 1) := Nat.mul_le_mul_right _ (by omega)
              rw [Nat.add_mul, Nat.one_mul] at this
              rw [if_neg (by omega), hs.2 i j (by omega) hj])
      rw [e, andThen_ok]
      congr 1
      refine ext_blocks (D := D + 1) (by omega) fun i j hj => ?_
      rw [kron_coeff a.poly (D + 1) (fun i j h => ha i j (by omega)) i j hj, ofCoeffs_coeff, poly_coeff]
      by_cases hi : i < a.len
      · have hle : (i + 1) * (D + 1) ≤ a.len * (D + 1) := Nat.mul_le_mul_right _ hi
        rw [Nat.add_mul, Nat.one_mul] at hle
        rw [if_pos (by omega), if_pos hi, h2 i j hi hj]
      · have hle : a.len * (D + 1) ≤ i * (D + 1) := Nat.mul_le_mul_right _ (by omega)
        rw [if_neg (by omega), if_neg hi, coeff_zero]
  refine ⟨key, ?_⟩
  unfold toKronXY
  by_cases h0 : a.len = 0
  · rw [if_pos (by simpa [PVec.isZero] using h0), ← key, toKron, if_pos h0]
  · rw [if_neg (by simpa [PVec.isZero] using h0), key]

end PML.Ntl.Bivar
