import Verif.Ntl.BivarMul
import Verif.Ntl.LikeLemmas

/-!
# C89: Kronecker substitution
-/

namespace PML.Ntl.Bivar

open Polynomial PML.Ntl.Utils PML.Ntl.Inv PML.Ntl.Solve PML.Ntl.Struct

variable {F : Type} [Field F]

theorem fromCopy_spec (a : F[X]) (d : Nat) : ∀ (k j idx : Nat) (ce : Nat → F),
    (fromCopy a d k j idx ce).1 = j + min k (d + 1 - idx) ∧ (fromCopy a d k j idx ce).2.1 = idx + min k (d + 1 - idx) ∧
    ∀ t, (fromCopy a d k j idx ce).2.2 t = if j ≤ t ∧ t < j + min k (d + 1 - idx) then a.coeff (idx + (t - j)) else ce t
  | 0, j, idx, ce => by
    unfold fromCopy
    refine ⟨by simp, by simp, fun t => ?_⟩
    rw [if_neg (by omega)]
  | k + 1, j, idx, ce => by
    unfold fromCopy
    by_cases h : idx ≤ d
    · rw [if_pos h]
      obtain ⟨h1, h2, h3⟩ := fromCopy_spec a d k (j + 1) (idx + 1) (write j (a.coeff idx) ce)
      refine ⟨by rw [h1]; omega, by rw [h2]; omega, fun t => ?_⟩
      rw [h3]
      by_cases ht : t = j
      · subst ht
        rw [if_neg (by omega), write_self, if_pos (by omega), Nat.sub_self, Nat.add_zero]
      · by_cases hr : j + 1 ≤ t ∧ t < j + 1 + min k (d + 1 - (idx + 1))
        · rw [if_pos hr, if_pos (by omega)]
          congr 1
          omega
        · rw [if_neg hr, write_ne _ _ ht, if_neg (by omega)]
    · rw [if_neg h]
      refine ⟨by dsimp only; omega, by dsimp only; omega, fun t => ?_⟩
      rw [if_neg (by omega)]

theorem forN_zeros (r : Nat) (ce : Nat → F) : ∀ n t, forN n (fun k => write (r + k) 0) ce t = if r ≤ t ∧ t < r + n then 0 else ce t
  | 0, t => by
    rw [if_neg (by omega)]
    rfl
  | n + 1, t => by
    show write (r + n) 0 (forN n (fun k => write (r + k) 0) ce) t = _
    by_cases ht : t = r + n
    · subst ht
      rw [write_self, if_pos (by omega)]
    · rw [write_ne _ _ ht, forN_zeros r ce n t]
      by_cases h : r ≤ t ∧ t < r + n
      · rw [if_pos h, if_pos (by omega)]
      · rw [if_neg h, if_neg (by omega)]

theorem fromBlock (a : F[X]) (D idx : Nat) (ce : Nat → F) :
    ofCoeffs D (forN (D - (fromCopy a a.natDegree D 0 idx ce).1) (fun k => write ((fromCopy a a.natDegree D 0 idx ce).1 + k) 0)
      (fromCopy a a.natDegree D 0 idx ce).2.2) = ofCoeffs D fun j => a.coeff (idx + j) := by
  obtain ⟨h1, -, h3⟩ := fromCopy_spec a a.natDegree D 0 idx ce
  ext t
  rw [ofCoeffs_coeff, ofCoeffs_coeff]
  by_cases ht : t < D
  · rw [if_pos ht, if_pos ht, forN_zeros, h1, h3]
    by_cases h : 0 + min D (a.natDegree + 1 - idx) ≤ t
    · rw [if_pos (by omega), coeff_eq_zero_of_natDegree_lt (by omega)]
    · rw [if_neg (by omega), if_pos (by omega), Nat.sub_zero]
  · rw [if_neg ht, if_neg ht]

/-- `from_kronecker(c, a, degX)`: whatever `c` held before, the result is normalised, its coefficients have degree
    at most `degX`, and its value at `Y = X^(degX+1)` is `a`. -/
theorem C89_from_kronecker (ce0 : Nat → Nat → F) (old : PVec F) (a : F[X]) (D : Nat) :
    ∃ v, fromKron ce0 old a D = .ok v ∧ v.poly.eval (X ^ (D + 1)) = a ∧ DegXLe v.poly D ∧ v.Normal := by
  unfold fromKron
  by_cases h0 : a = 0
  · rw [if_pos h0]
    have hp : old.zero.poly = 0 := Finset.sum_range_zero _
    refine ⟨_, rfl, ?_, ?_, ?_⟩
    · rw [hp, eval_zero, h0]
    · intro i j _
      rw [hp, coeff_zero, coeff_zero]
    · intro n hn
      have : old.zero.len = 0 := rfl
      omega
  · have hD : ((D : Int) + 1) = ((D + 1 : Nat) : Int) := by push_cast; rfl
    have hdiv : ((a.natDegree : Int)).tdiv ((D : Int) + 1) = ((a.natDegree / (D + 1) : Nat) : Int) := by
      rw [hD]; rfl
    have hq1 : a.natDegree / (D + 1) * (D + 1) ≤ a.natDegree := Nat.div_mul_le_self _ _
    have hq2 : a.natDegree < (a.natDegree / (D + 1) + 1) * (D + 1) := by
      rw [Nat.mul_comm]; exact Nat.lt_mul_div_succ _ (by omega)
    generalize hq : a.natDegree / (D + 1) = q at hdiv hq1 hq2
    have hset : old.setLength ((q : Int) + 1) = .ok { old with len := q + 1 } := by
      rw [PVec.setLength, if_neg (by omega)]
      congr 2
    rw [if_neg h0, if_neg (by omega)]
    dsimp only
    rw [hdiv, hset, andThen_ok, show (q : Int) = ((q + 1 : Nat) : Int) - 1 by push_cast; ring, loopI_zero]
    obtain ⟨s, e, h1, h2, h3⟩ := loopOut_inv (s := (0, { old with len := q + 1 }))
      (f := fun (i : Nat) (s : Nat × PVec F) =>
        if (D : Int) + 1 < 0 then .error
        else andThen (s.2.put i (ofCoeffs ((D : Int) + 1).toNat (forN (((D : Int) + 1).toNat - (fromCopy a a.natDegree ((D : Int) + 1).toNat 0 s.1 (ce0 (i : Int).toNat)).1)
            (fun k => write ((fromCopy a a.natDegree ((D : Int) + 1).toNat 0 s.1 (ce0 (i : Int).toNat)).1 + k) 0)
            (fromCopy a a.natDegree ((D : Int) + 1).toNat 0 s.1 (ce0 (i : Int).toNat)).2.2))) fun c =>
          .ok ((fromCopy a a.natDegree ((D : Int) + 1).toNat 0 s.1 (ce0 (i : Int).toNat)).2.1, c))
      (fun n s => s.1 = min (n * (D + 1)) (a.natDegree + 1) ∧ s.2.len = q + 1 ∧
        ∀ i, i < n → s.2.at' i = ofCoeffs (D + 1) fun j => a.coeff (i * (D + 1) + j)) (q + 1)
      ⟨by simp, rfl, by intro i hi; omega⟩
      (by
        intro n s hn hs
        have hle : n * (D + 1) ≤ q * (D + 1) := Nat.mul_le_mul_right _ (by omega)
        have hidx : s.1 = n * (D + 1) := by rw [hs.1]; omega
        have hDn : ((D : Int) + 1).toNat = D + 1 := by omega
        rw [if_neg (by omega), hDn, fromBlock, put_ok _ (by rw [hs.2.1]; exact hn), andThen_ok, hidx]
        refine ⟨_, rfl, ?_, hs.2.1, ?_⟩
        · rw [(fromCopy_spec _ _ _ _ _ _).2.1, Nat.add_mul, Nat.one_mul]
          omega
        · intro i hi
          by_cases hin : i = n
          · subst hin
            exact write_self _ _ _
          · exact (write_ne _ _ hin).trans (hs.2.2 i (by omega)))
    have hdeg : DegXLe s.2.poly D := by
      intro i j hj
      rw [poly_coeff]
      split
      · rename_i h
        rw [h3 i (by omega), ofCoeffs_coeff, if_neg (by omega)]
      · rw [coeff_zero]
    refine ⟨s.2, ?_, ?_, hdeg, ?_⟩
    · refine Eq.trans ?_ (congrArg (fun r => andThen r fun s => Out.ok s.2) e)
      rfl
    · refine ext_blocks (D := D + 1) (by omega) fun i j hj => ?_
      rw [kron_coeff _ _ (fun i j h => hdeg i j (by omega)) i j hj, poly_coeff, h2]
      split
      · rename_i h
        rw [h3 i h, ofCoeffs_coeff, if_pos hj]
      · rename_i h
        have : (q + 1) * (D + 1) ≤ i * (D + 1) := Nat.mul_le_mul_right _ (by omega)
        rw [coeff_zero, coeff_eq_zero_of_natDegree_lt (by omega)]
    · intro n hn hzero
      rw [h2] at hn
      have hnq : n = q := by omega
      subst hnq
      rw [h3 n (by omega)] at hzero
      have := congrArg (fun f => f.coeff (a.natDegree - n * (D + 1))) hzero
      simp only [ofCoeffs_coeff, coeff_zero] at this
      rw [Nat.add_mul, Nat.one_mul] at hq2
      rw [if_pos (by omega), Nat.add_sub_cancel' hq1] at this
      exact h0 (leadingCoeff_eq_zero.1 this)

/-- `from_kronecker` recovers the polynomial substituted by `to_kronecker` with the same parameter. -/
theorem C89_kronecker_inverse (e0 : Nat → F) (ce0 : Nat → Nat → F) (old a : PVec F) (D : Nat) (ha : DegXLe a.poly D) :
    ∃ f v, toKron e0 a D = .ok f ∧ fromKron ce0 old f D = .ok v ∧ v.poly = a.poly ∧ v.Normal := by
  obtain ⟨v, h1, h2, h3, h4⟩ := C89_from_kronecker ce0 old (a.poly.eval (X ^ (D + 1))) D
  exact ⟨_, v, (C89_to_kronecker e0 a D ha).1, h1,
    kron_inj (D := D + 1) (fun i j h => h3 i j (by omega)) (fun i j h => ha i j (by omega)) h2, h4⟩

theorem degX_poly {v : PVec F} {d : Nat} (h : v.degX ≤ d) : DegXLe v.poly d := by
  intro i j hj
  rw [poly_coeff]
  split
  · rename_i hi
    exact (pdeg_le _ d (by omega)).1 (((degX_le v d).1 h).2 i hi) j (by omega)
  · rw [coeff_zero]

theorem mul_degX {P Q : Polynomial F[X]} {a b : Nat} (hP : DegXLe P a) (hQ : DegXLe Q b) : DegXLe (P * Q) (a + b) := by
  intro i j hj
  rw [coeff_mul, finsetSum_coeff]
  refine Finset.sum_eq_zero fun x _ => ?_
  rw [coeff_mul]
  refine Finset.sum_eq_zero fun y hy => ?_
  rw [Finset.mem_antidiagonal] at hy
  by_cases h : a < y.1
  · rw [hP _ _ h, zero_mul]
  · rw [hQ _ y.2 (by omega), mul_zero]

theorem kronCore_spec (e0 : Nat → F) (ce0 : Nat → Nat → F) (c a b : PVec F) (ha : a.Normal) (hb : b.Normal) :
    ∃ v, kronCore e0 ce0 c a b = .ok v ∧ v.poly = a.poly * b.poly ∧ v.Normal := by
  unfold kronCore
  by_cases hz : a.len = 0 ∨ b.len = 0
  · rw [if_pos (by simpa [PVec.isZero] using hz)]
    refine ⟨_, rfl, ?_, ?_⟩
    · have : a.poly * b.poly = 0 := by
        rcases hz with h | h
        · rw [(poly_eq_zero_iff ha).2 h, zero_mul]
        · rw [(poly_eq_zero_iff hb).2 h, mul_zero]
      rw [this]
      exact Finset.sum_range_zero _
    · intro n hn
      have : c.zero.len = 0 := rfl
      omega
  · push Not at hz
    rw [if_neg (by simpa [PVec.isZero] using hz)]
    obtain ⟨da, hda⟩ := Int.eq_ofNat_of_zero_le (degX_nonneg ha hz.1)
    obtain ⟨db, hdb⟩ := Int.eq_ofNat_of_zero_le (degX_nonneg hb hz.2)
    have hPa : DegXLe a.poly da := degX_poly (by omega)
    have hPb : DegXLe b.poly db := degX_poly (by omega)
    dsimp only
    rw [show a.degX + b.degX = ((da + db : Nat) : Int) by rw [hda, hdb]; push_cast; rfl]
    rw [(C89_to_kronecker e0 a (da + db) fun i j h => hPa i j (by omega)).2, andThen_ok]
    rw [(C89_to_kronecker e0 b (da + db) fun i j h => hPb i j (by omega)).2, andThen_ok, ← eval_mul]
    obtain ⟨v, h1, h2, h3, h4⟩ := C89_from_kronecker ce0 c.zero ((a.poly * b.poly).eval (X ^ (da + db + 1))) (da + db)
    exact ⟨v, h1, kron_inj (D := da + db + 1) (fun i j h => h3 i j (by omega))
      (fun i j h => mul_degX hPa hPb i j (by omega)) h2, h4⟩

/-- `mul(c, a, b)`, which is `mul_kronecker`, for normalised operands, whichever of the variables are the same. -/
theorem C89_mul (e0 : Nat → F) (ce0 : Nat → Nat → F) (m : Mem F) (c a b : Nat) (ha : (m a).Normal) (hb : (m b).Normal) :
    Yields (mulKron e0 ce0 m c a b) m c ((m a).poly * (m b).poly) := by
  unfold mulKron
  split
  · obtain ⟨v, h1, h2, h3⟩ := kronCore_spec e0 ce0 ⟨0, fun _ => 0⟩ (m a) (m b) ha hb
    rw [h1]
    exact ⟨_, rfl, by rw [write_self, h2], by rw [write_self]; exact h3, fun x hx => write_ne _ _ hx⟩
  · obtain ⟨v, h1, h2, h3⟩ := kronCore_spec e0 ce0 (m c) (m a) (m b) ha hb
    rw [h1]
    exact ⟨_, rfl, by rw [write_self, h2], by rw [write_self]; exact h3, fun x hx => write_ne _ _ hx⟩

/-! ### Calls that go wrong -/

theorem loopOut_inv_ub {σ : Type} (P : Nat → σ → Prop) {f : Nat → σ → Out σ} {s : σ} : ∀ (n : Nat), P 0 s →
    (∀ k t, k < n → P k t → (∃ t', f k t = .ok t' ∧ P (k + 1) t') ∨ f k t = .ub) →
    (∃ t, loopOut n f s = .ok t ∧ P n t) ∨ loopOut n f s = .ub
  | 0, h0, _ => .inl ⟨s, rfl, h0⟩
  | n + 1, h0, hf => by
    show (∃ t, andThen (loopOut n f s) (f n) = .ok t ∧ P (n + 1) t) ∨ andThen (loopOut n f s) (f n) = .ub
    rcases loopOut_inv_ub P n h0 fun k t hk => hf k t (by omega) with ⟨t, e, ht⟩ | e
    · rw [e]
      exact hf n t (by omega) ht
    · rw [e]
      exact .inr rfl

theorem aput_or (N : Nat) (e : Nat → F) (j : Int) (w : F) : (∃ e', aput N e j w = .ok e') ∨ aput N e j w = .ub := by
  unfold aput
  split
  · exact .inl ⟨_, rfl⟩
  · exact .inr rfl

theorem loopI_or (N : Nat) (off lo hi : Int) (v : Int → F) (e : Nat → F) :
    (∃ e', loopI lo hi (fun j e => aput N e (off + j) (v j)) e = .ok e') ∨ loopI lo hi (fun j e => aput N e (off + j) (v j)) e = .ub := by
  unfold loopI
  rcases loopOut_inv_ub (f := fun (k : Nat) e => aput N e (off + (lo + k)) (v (lo + k))) (s := e) (fun _ _ => True) (hi + 1 - lo).toNat trivial
    (by
      intro k t _ _
      rcases aput_or N t (off + (lo + k)) (v (lo + k)) with ⟨e', h⟩ | h
      · exact .inl ⟨e', h, trivial⟩
      · exact .inr h) with ⟨e', h, _⟩ | h
  · exact .inl ⟨e', h⟩
  · exact .inr h

theorem kronBlock_or (N : Nat) (degX off : Int) (x : F[X]) (e : Nat → F) :
    (∃ e', kronBlock N degX off x e = .ok e') ∨ kronBlock N degX off x e = .ub := by
  unfold kronBlock
  dsimp only
  split
  · rcases loopI_or N off 0 (pdeg x) (fun j => x.coeff j.toNat) e with ⟨e', h⟩ | h
    · rw [h, andThen_ok]
      exact loopI_or N off _ _ (fun _ => 0) e'
    · rw [h]
      exact .inr rfl
  · exact loopI_or N off _ _ (fun _ => 0) e

theorem kronBlock_ub (N : Nat) (degX : Int) (off : Nat) (x : F[X]) (e : Nat → F) (hoff : off ≤ N) (h : N ≤ off + pdeg x) :
    kronBlock N degX off x e = .ub := by
  unfold kronBlock
  dsimp only
  rw [if_pos (by omega)]
  have : loopI 0 (pdeg x) (fun j e => aput N e ((off : Int) + j) (x.coeff j.toNat)) e = .ub := by
    unfold loopI
    refine loopOut_ub (j := N - off) (by omega) (fun i t _ => aput_or N t _ _) fun t => ?_
    exact if_neg (by omega)
  rw [this]
  rfl

/-- `to_kronecker` writes out of bounds if the last coefficient has a degree larger than `degX`: nothing checks this. -/
theorem C89_to_kronecker_overflow (e0 : Nat → F) (a : PVec F) (D n : Nat) (hn : a.len = n + 1) (h : (D : Int) < pdeg (a.at' n)) :
    toKron e0 a D = .ub := by
  unfold toKron
  rw [if_neg (by omega)]
  dsimp only
  have hN : ((D : Int) + 1) * ((a.len : Int) - 1 + 1) = ((a.len * (D + 1) : Nat) : Int) := by push_cast; ring
  rw [hN, if_neg (by omega), Int.toNat_natCast, loopI_zero, hn]
  have hle : (n + 1) * (D + 1) = n * (D + 1) + (D + 1) := by rw [Nat.add_mul, Nat.one_mul]
  suffices hs : loopOut (n + 1) (fun (i : Nat) (s : Int × (Nat → F)) => andThen (a.get i) fun x =>
      andThen (kronBlock ((n + 1) * (D + 1)) D s.1 x s.2) fun e => .ok (s.1 + ((D : Int) + 1), e)) ((0 : Int), e0) = .ub by
    rw [hs]; rfl
  show andThen (loopOut n _ _) _ = .ub
  rcases loopOut_inv_ub (s := ((0 : Int), e0)) (f := fun (i : Nat) (s : Int × (Nat → F)) => andThen (a.get i) fun x =>
      andThen (kronBlock ((n + 1) * (D + 1)) D s.1 x s.2) fun e => .ok (s.1 + ((D : Int) + 1), e))
      (fun k s => s.1 = ((k * (D + 1) : Nat) : Int)) n (by simp)
      (by
        intro k s hk hs
        rw [get_ok (by omega), andThen_ok]
        rcases kronBlock_or ((n + 1) * (D + 1)) D s.1 (a.at' k) s.2 with ⟨e', h⟩ | h
        · rw [h, andThen_ok]
          exact .inl ⟨_, rfl, by show s.1 + ((D : Int) + 1) = _; rw [hs]; push_cast; ring⟩
        · rw [h]
          exact .inr rfl) with ⟨s, e, hs⟩ | e
  · rw [e, andThen_ok]
    dsimp only
    have hle' : (((n + 1) * (D + 1) : Nat) : Int) = ((n * (D + 1) : Nat) : Int) + (D + 1) := by rw [hle]; push_cast; ring
    rw [get_ok (by omega), andThen_ok, hs, kronBlock_ub _ _ _ _ _ (by omega) (by omega)]
    rfl
  · rw [e]
    rfl

end PML.Ntl.Bivar
