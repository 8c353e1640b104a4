import Verif.Ntl.StructXLemmas

/-! # Lower triangular Toeplitz matrices over `K[X]` -/

namespace PML.Ntl.StructX

open Polynomial PML.Ntl.Utils PML.Ntl.Inv PML.Ntl.Solve PML.Ntl.Struct PML.Ntl.Bivar PML.Ntl.FftPoints

variable {F : Type} [Field F]

theorem np2_le {x : Int} {N : Nat} (h : x = N) : N ≤ 2 ^ np2 x := by
  unfold np2
  rw [h, Int.toNat_natCast]
  exact le_nextPow2 N

theorem kmul (g : Junk F) (old : PVec F) {u v : PVec F} {D M K : Nat} (L : Nat) {a b : Nat} (ha : u.degX ≤ a) (hb : v.degX ≤ b)
    (hD : a + b ≤ D) (hM : ∀ k, M ≤ k → (u.poly * v.poly).coeff k = 0) (hK : M * (D + 1) ≤ 2 ^ K) {h : Int}
    (hh : h = ((L * (D + 1) : Nat) : Int)) :
    ∃ A c, mulFrom K (u.poly.eval (X ^ (D + 1))) (toR K (v.poly.eval (X ^ (D + 1)))) h = .ok A ∧ fromKron g.ce0 old A D = .ok c ∧
      Blocks c L (u.poly * v.poly) := by
  have hdeg : DegXLe (u.poly * v.poly) D := fun i j hj => mul_degX (degX_poly ha) (degX_poly hb) i j (by omega)
  have hm := mulFrom_ok (K := K) (a := u.poly.eval (X ^ (D + 1))) (b := v.poly.eval (X ^ (D + 1))) h (fun t ht => by
    rw [← eval_mul]
    exact eval_coeff_high hdeg hM t (by omega))
  obtain ⟨c, h1, h2⟩ := fromKron_blocks g.ce0 old hdeg L (A := slice (u.poly.eval (X ^ (D + 1)) * v.poly.eval (X ^ (D + 1))) 0 h.toNat)
    (fun t => by rw [slice_coeff, hh, Int.toNat_natCast, Nat.zero_add, eval_mul])
  exact ⟨_, c, hm, h1, h2⟩

/-- The state of an object built from `v`. -/
structure TriInv (v : PVec F) (o : Tri F) : Prop where
  n : o.n = v.len
  data : o.data = v
  dX : o.dX = v.degX
  dY : o.dY = (degs v).2
  len : o.fft.len = o.rhs.len
  nn : ∀ i, i < o.rhs.len → 0 ≤ o.rhs.e i
  rep : ∀ i, i < o.rhs.len → o.fft.e i = toR (np2 ((o.dY + o.n) * (o.dX + o.rhs.e i + 1))) (v.poly.eval (X ^ ((o.dX + o.rhs.e i).toNat + 1)))

theorem degX_of_dY {v : PVec F} (h : (degs v).2 ≠ -1) : 0 ≤ v.degX := by
  obtain ⟨-, h2, h3, -, h5⟩ := degs_spec v
  exact degX_pos (i := (degs v).2.toNat) (by omega) (h5 (by omega))

theorem dY_of_degX {v : PVec F} (h : v.degX ≠ -1) : 0 ≤ (degs v).2 := by
  by_contra hc
  obtain ⟨-, h2, h3, h4, -⟩ := degs_spec v
  refine h (le_antisymm ((degX_le v (-1)).2 ⟨le_refl _, fun i hi => ?_⟩) (degX_ge v))
  rw [h4 i hi (by omega)]
  simp [Bivar.pdeg]

theorem Tri.prepare_inv {v : PVec F} {o : Tri F} (h : TriInv v o) (g : Junk F) {d : Int} (hd : -1 ≤ d) :
    ∃ o', o.prepare g d = .ok o' ∧ TriInv v o' := by
  unfold Tri.prepare
  split
  · exact ⟨o, rfl, h⟩
  rename_i h0
  split
  · exact ⟨o, rfl, h⟩
  have hx : 0 ≤ v.degX := degX_of_dY (by rw [← h.dY]; tauto)
  have hD : o.dX + d = (((o.dX + d).toNat : Nat) : Int) := by
    have := h.dX
    omega
  have hk : toKron g.e0 o.data (o.dX + d) = .ok (v.poly.eval (X ^ ((o.dX + d).toNat + 1))) := by
    rw [hD, h.data, toKron_ok _ (by have := h.dX; omega), Int.toNat_natCast]
  rw [hk, Bivar.andThen_ok]
  refine ⟨_, rfl, h.n, h.data, h.dX, h.dY, ?_, ?_, ?_⟩
  · show o.fft.len + 1 = o.rhs.len + 1
    rw [h.len]
  · intro i hi
    show 0 ≤ write o.rhs.len d o.rhs.e i
    have hi : i < o.rhs.len + 1 := hi
    by_cases e : i = o.rhs.len
    · rw [e, Bivar.write_self]
      omega
    · rw [Bivar.write_ne _ _ e]
      exact h.nn i (by omega)
  · intro i hi
    have hi : i < o.rhs.len + 1 := hi
    show write o.fft.len _ o.fft.e i = toR (np2 ((o.dY + o.n) * (o.dX + write o.rhs.len d o.rhs.e i + 1)))
      (v.poly.eval (X ^ ((o.dX + write o.rhs.len d o.rhs.e i).toNat + 1)))
    rw [h.len]
    by_cases e : i = o.rhs.len
    · rw [e, Bivar.write_self, Bivar.write_self]
    · rw [Bivar.write_ne _ _ e, Bivar.write_ne _ _ e]
      exact h.rep i (by omega)

theorem Tri.reach_inv {v : PVec F} {o : Tri F} (h : Tri.Reach v o) : TriInv v o := by
  induction h with
  | make => exact ⟨rfl, rfl, (degs_spec v).1, rfl, rfl, fun i hi => absurd hi (Nat.not_lt_zero i), fun i hi => absurd hi (Nat.not_lt_zero i)⟩
  | prep g d _ hd he ih =>
    obtain ⟨o'', e, hi⟩ := Tri.prepare_inv ih g hd
    rw [he] at e
    cases e
    exact hi

/-- **C92**. `prepare_degree(d)` succeeds for all `d ≥ -1`, on a lower triangular Toeplitz matrix. -/
theorem C92_tri_prepare {v : PVec F} {o : Tri F} (h : Tri.Reach v o) (g : Junk F) {d : Int} (hd : -1 ≤ d) :
    ∃ o', o.prepare g d = .ok o' ∧ Tri.Reach v o' := by
  obtain ⟨o', e, -⟩ := Tri.prepare_inv (Tri.reach_inv h) g hd
  exact ⟨o', e, .prep g d h hd e⟩

theorem sum_tri {u v : PVec F} (hl : u.len = v.len) {i : Nat} (hi : i < u.len) :
    (u.poly * v.poly).coeff i = ∑ j ∈ Finset.range v.len, triEntry u.at' i j * v.at' j := by
  rw [mul_coeff]
  refine Finset.sum_congr rfl fun j hj => ?_
  unfold triEntry
  by_cases h : j ≤ i
  · rw [if_pos ⟨h, by omega⟩, if_pos h]
  · rw [if_neg (by omega), if_neg h]

/-- **C92**. `mul_right` of a lower triangular Toeplitz matrix, after any calls to `prepare_degree`, whatever the earlier content of the output. -/
theorem C92_tri_right {v : PVec F} {o : Tri F} (ho : Tri.Reach v o) (g : Junk F) (res input : PVec F) :
    (input.len = v.len → IsRight (o.mulRight g res input) v.len v.len (triEntry v.at') input.at') ∧
    (input.len ≠ v.len → o.mulRight g res input = .error) := by
  have h := Tri.reach_inv ho
  unfold Tri.mulRight
  rw [h.n]
  refine ⟨fun hl => ?_, fun hl => if_pos hl⟩
  rw [if_neg (not_not.2 hl)]
  dsimp only
  obtain ⟨s1, s2, s3, s4, -⟩ := degs_spec input
  obtain ⟨-, t2, t3, t4, -⟩ := degs_spec v
  rw [s1, h.dY, h.dX, h.data]
  split
  · rename_i hz
    obtain ⟨w, e, hw, hw'⟩ := zeros_ok res v.len
    refine ⟨w, e, hw, fun i hi => ?_⟩
    rw [hw' i hi]
    refine (Finset.sum_eq_zero fun j hj => ?_).symm
    rw [Finset.mem_range] at hj
    rcases hz with hz | hz
    · rw [degX_neg hz (by omega), mul_zero]
    · unfold triEntry
      split
      · rw [t4 _ (by omega) (by omega), zero_mul]
      · rw [zero_mul]
  · rename_i hz
    have hdx : input.degX ≠ -1 := fun e => hz (.inl e)
    have hdy : (degs v).2 ≠ -1 := fun e => hz (.inr e)
    have i0 := degX_ge input
    have v0 := degX_of_dY hdy
    have e0 := dY_of_degX hdx
    obtain ⟨a, ha⟩ := Int.eq_ofNat_of_zero_le v0
    obtain ⟨b, hb⟩ := Int.eq_ofNat_of_zero_le (show 0 ≤ (degs v).2 by omega)
    obtain ⟨e, he⟩ := Int.eq_ofNat_of_zero_le e0
    obtain ⟨d, hd⟩ := Int.eq_ofNat_of_zero_le (show 0 ≤ input.degX by omega)
    -- the product
    suffices hs : ∃ c L, (if 0 ≤ search o.rhs input.degX then
          andThen (vget o.rhs (search o.rhs input.degX).toNat) fun df =>
          andThen (toKron g.e0 input (v.degX + df)) fun inK =>
          andThen (vget o.fft (search o.rhs input.degX).toNat) fun w =>
          andThen (mulFrom (np2 (((degs v).2 + v.len) * (v.degX + df + 1))) inK w (v.len * (v.degX + df + 1))) fun tmp =>
          fromKron g.ce0 res tmp (v.degX + df)
        else
          andThen (toKron g.e0 input (v.degX + input.degX)) fun inK =>
          andThen (toKron g.e0 v (v.degX + input.degX)) fun repK =>
          andThen (mulFrom (np2 (((degs v).2 + (degs input).2 + 1) * (v.degX + input.degX + 1))) inK
            (toR (np2 (((degs v).2 + (degs input).2 + 1) * (v.degX + input.degX + 1))) repK)
            (min ((degs v).2 + (degs input).2 + 1) v.len * (v.degX + input.degX + 1))) fun tmp =>
          fromKron g.ce0 res tmp (v.degX + input.degX)) = .ok c ∧ Blocks c L (input.poly * v.poly) ∧ L ≤ v.len ∧
          ∀ k, L ≤ k → k < v.len → (input.poly * v.poly).coeff k = 0 by
      obtain ⟨c, L, e1, e2, e3, e4⟩ := hs
      rw [e1, Bivar.andThen_ok]
      obtain ⟨w, f1, f2, f3⟩ := fill_ok e2 e3 e4
      refine ⟨w, f1, f2, fun i hi => ?_⟩
      rw [f3 i hi, mul_comm, sum_tri hl.symm hi, hl]
    rcases search_spec o.rhs input.degX with hs | ⟨i, hi, hs, hle⟩
    · rw [hs, if_neg (by omega)]
      have hD : v.degX + input.degX = ((a + d : Nat) : Int) := by omega
      rw [hD, toKron_ok _ (by omega), Bivar.andThen_ok, toKron_ok _ (by omega), Bivar.andThen_ok]
      have hM : ∀ k, b + e + 1 ≤ k → (input.poly * v.poly).coeff k = 0 := fun k hk =>
        mul_coeff_high (a := e + 1) (b := b + 1) (fun i hi hi' => s4 i hi (by omega)) (fun i hi hi' => t4 i hi (by omega)) (by omega)
      obtain ⟨A, c, k1, k2, k3⟩ := kmul g res (u := input) (v := v) (D := a + d) (M := b + e + 1)
        (K := np2 (((degs v).2 + (degs input).2 + 1) * (((a + d : Nat) : Int) + 1))) (min (b + e + 1) v.len)
        (h := min ((degs v).2 + (degs input).2 + 1) v.len * (((a + d : Nat) : Int) + 1))
        (le_of_eq hd) (le_of_eq ha) (by omega) hM (np2_le (by rw [hb, he]; push_cast; ring)) (by rw [hb, he]; push_cast; ring)
      rw [k1, Bivar.andThen_ok, k2]
      exact ⟨c, _, rfl, k3, by omega, fun k hk hk' => hM k (by omega)⟩
    · rw [hs, if_pos (by omega), Int.toNat_natCast]
      have hv1 : vget o.rhs i = .ok (o.rhs.e i) := if_pos hi
      have hv2 : vget o.fft i = .ok (o.fft.e i) := if_pos (by rw [h.len]; exact hi)
      obtain ⟨f, hf⟩ := Int.eq_ofNat_of_zero_le (h.nn i hi)
      have hD : v.degX + (f : Int) = ((a + f : Nat) : Int) := by omega
      rw [hv1, Bivar.andThen_ok, hf, hD, toKron_ok _ (by omega), Bivar.andThen_ok, hv2, Bivar.andThen_ok, h.rep i hi, h.dY, h.n, h.dX, hf, hD,
        Int.toNat_natCast]
      have hM : ∀ k, b + v.len ≤ k → (input.poly * v.poly).coeff k = 0 := fun k hk =>
        mul_coeff_high (a := input.len) (b := b + 1) (fun i hi hi' => by omega) (fun i hi hi' => t4 i hi (by omega)) (by omega)
      obtain ⟨A, c, k1, k2, k3⟩ := kmul g res (u := input) (v := v) (D := a + f) (M := b + v.len)
        (K := np2 (((degs v).2 + (v.len : Int)) * (((a + f : Nat) : Int) + 1))) v.len
        (h := v.len * (((a + f : Nat) : Int) + 1))
        (le_of_eq hd) (le_of_eq ha) (by omega) hM (np2_le (by rw [hb]; push_cast; ring)) (by push_cast; ring)
      rw [k1, Bivar.andThen_ok, k2]
      exact ⟨c, _, rfl, k3, le_refl _, fun k hk hk' => by omega⟩

theorem truncV_at (v : PVec F) (s i : Nat) : (truncV v s).at' i = v.at' i %ₘ X ^ s := ptrunc_mod _ _

theorem truncV_len (v : PVec F) (s : Nat) : (truncV v s).len = v.len := rfl

/-- The product of Kronecker images, truncated or not. -/
theorem kmulT (g : Junk F) (old : PVec F) {u v : PVec F} {D : Nat} (L : Nat) {a b : Nat} (ha : u.degX ≤ a) (hb : v.degX ≤ b)
    (hD : a + b ≤ D) {A : F[X]}
    (hA : ∀ t, A.coeff t = if t < L * (D + 1) then (u.poly.eval (X ^ (D + 1)) * v.poly.eval (X ^ (D + 1))).coeff t else 0) :
    ∃ c, fromKron g.ce0 old A D = .ok c ∧ Blocks c L (u.poly * v.poly) := by
  have hdeg : DegXLe (u.poly * v.poly) D := fun i j hj => mul_degX (degX_poly ha) (degX_poly hb) i j (by omega)
  exact fromKron_blocks g.ce0 old hdeg L fun t => by rw [hA, eval_mul]

/-- **C92**. `mul_right_trunc` of a lower triangular Toeplitz matrix. -/
theorem C92_tri_right_trunc {v : PVec F} {o : Tri F} (ho : Tri.Reach v o) (g : Junk F) (res input : PVec F) (s : Nat) :
    (input.len = v.len → IsRightMod s (o.mulRightTrunc g res input s) v.len v.len (triEntry v.at') input.at') ∧
    (input.len ≠ v.len → o.mulRightTrunc g res input s = .error) := by
  have h := Tri.reach_inv ho
  unfold Tri.mulRightTrunc
  rw [h.n]
  refine ⟨fun hl => ?_, fun hl => if_pos hl⟩
  rw [if_neg (not_not.2 hl)]
  dsimp only
  rw [h.data]
  have key : ∀ i, i < v.len → (∑ j ∈ Finset.range v.len, triEntry (truncV v s).at' i j * (truncV input s).at' j) %ₘ X ^ s =
      (∑ j ∈ Finset.range v.len, triEntry v.at' i j * input.at' j) %ₘ X ^ s := by
    intro i hi
    rw [← sum_trunc (triEntry v.at' i) input.at']
    refine congrArg (· %ₘ X ^ s) (Finset.sum_congr rfl fun j _ => ?_)
    unfold triEntry
    rw [truncV_at, truncV_at]
    split
    · rfl
    · rw [zero_modByMonic]
  split
  · rename_i hz
    obtain ⟨w, e, hw, hw'⟩ := zeros_ok res v.len
    refine ⟨w, e, hw, fun i hi => ?_⟩
    rw [hw' i hi, ← key i hi]
    rw [Finset.sum_eq_zero, zero_modByMonic]
    intro j hj
    rw [Finset.mem_range] at hj
    rcases hz with hz | hz
    · unfold triEntry
      split
      · rw [degX_neg hz (by rw [truncV_len]; omega), zero_mul]
      · rw [zero_mul]
    · rw [degX_neg hz (by rw [truncV_len]; omega), mul_zero]
  · rename_i hz
    have i0 := degX_ge (truncV input s)
    have v0 := degX_ge (truncV v s)
    obtain ⟨a, ha⟩ := Int.eq_ofNat_of_zero_le (show 0 ≤ (truncV v s).degX by omega)
    obtain ⟨d, hd⟩ := Int.eq_ofNat_of_zero_le (show 0 ≤ (truncV input s).degX by omega)
    obtain ⟨D, hD⟩ := Int.eq_ofNat_of_zero_le (show 0 ≤ (truncV v s).degX + (truncV input s).degX by omega)
    rw [hD]
    have k1 := toKron_ok g.e0 (u := truncV input s) (D := D) (by omega)
    have k2 := toKron_ok g.e0 (u := truncV v s) (D := D) (by omega)
    obtain ⟨c, k3, k4⟩ := kmulT g res (u := truncV input s) (v := truncV v s) (D := D) v.len (le_of_eq hd) (le_of_eq ha) (by omega)
      (A := ptrunc ((truncV input s).poly.eval (X ^ (D + 1)) * (truncV v s).poly.eval (X ^ (D + 1))) ((v.len : Int) * ((D : Int) + 1)).toNat) (fun t => by
        rw [ptrunc_coeff, show ((v.len : Int) * ((D : Int) + 1)).toNat = v.len * (D + 1) by
          rw [show (v.len : Int) * ((D : Int) + 1) = ((v.len * (D + 1) : Nat) : Int) by push_cast; ring, Int.toNat_natCast]])
    rw [k1, Bivar.andThen_ok, k2, Bivar.andThen_ok, k3, Bivar.andThen_ok]
    obtain ⟨w, f1, f2, f3⟩ := truncFill_ok (s := s) k4 (le_refl _) (fun k hk hk' => by omega)
    refine ⟨w, f1, f2, fun i hi => ?_⟩
    rw [f3 i hi, ptrunc_mod, mul_comm, sum_tri (by rw [truncV_len, truncV_len, hl]) (by rw [truncV_len]; omega), truncV_len, hl, key i hi]

theorem sum_reflect (n : Nat) (f : Nat → F[X]) : ∑ j ∈ Finset.range n, f (n - 1 - j) = ∑ j ∈ Finset.range n, f j :=
  Finset.sum_range_reflect f n

/-- **C92**. `mul_left` of a lower triangular Toeplitz matrix. -/
theorem C92_tri_left {v : PVec F} {o : Tri F} (ho : Tri.Reach v o) (g : Junk F) (res input : PVec F) :
    (input.len = v.len → IsLeft (o.mulLeft g res input) v.len v.len (triEntry v.at') input.at') ∧
    (input.len ≠ v.len → o.mulLeft g res input = .error) := by
  have h := Tri.reach_inv ho
  unfold Tri.mulLeft
  rw [h.n]
  refine ⟨fun hl => ?_, fun hl => if_pos hl⟩
  rw [if_neg (not_not.2 hl)]
  obtain ⟨r, r1, r2, r3⟩ := rev_ok (t := g.old) (v := input) (n := v.len) (by omega)
  rw [r1, Bivar.andThen_ok]
  obtain ⟨w, w1, w2, w3⟩ := (C92_tri_right ho g g.old r).1 r2
  rw [w1, Bivar.andThen_ok]
  obtain ⟨z, z1, z2, z3⟩ := rev_ok (t := res) (v := w) (n := v.len) (by omega)
  refine ⟨z, z1, z2, fun j hj => ?_⟩
  rw [z3 j hj, w3 _ (by omega), ← sum_reflect]
  refine Finset.sum_congr rfl fun i hi => ?_
  rw [Finset.mem_range] at hi
  rw [r3 _ (by omega), show v.len - 1 - (v.len - 1 - i) = i by omega, mul_comm]
  congr 1
  unfold triEntry
  by_cases hc : j ≤ i
  · rw [if_pos (by omega), if_pos hc, show v.len - 1 - j - (v.len - 1 - i) = i - j by omega]
  · rw [if_neg (by omega), if_neg hc]

/-- **C92**. `mul_left_trunc` of a lower triangular Toeplitz matrix. -/
theorem C92_tri_left_trunc {v : PVec F} {o : Tri F} (ho : Tri.Reach v o) (g : Junk F) (res input : PVec F) (s : Nat) :
    (input.len = v.len → IsLeftMod s (o.mulLeftTrunc g res input s) v.len v.len (triEntry v.at') input.at') ∧
    (input.len ≠ v.len → o.mulLeftTrunc g res input s = .error) := by
  have h := Tri.reach_inv ho
  unfold Tri.mulLeftTrunc
  rw [h.n]
  refine ⟨fun hl => ?_, fun hl => if_pos hl⟩
  rw [if_neg (not_not.2 hl)]
  obtain ⟨r, r1, r2, r3⟩ := rev_ok (t := g.old) (v := input) (n := v.len) (by omega)
  rw [r1, Bivar.andThen_ok]
  obtain ⟨w, w1, w2, w3⟩ := (C92_tri_right_trunc ho g g.old r s).1 r2
  rw [w1, Bivar.andThen_ok]
  obtain ⟨z, z1, z2, z3⟩ := rev_ok (t := res) (v := w) (n := v.len) (by omega)
  refine ⟨z, z1, z2, fun j hj => ?_⟩
  rw [z3 j hj, w3 _ (by omega), ← sum_reflect]
  refine congrArg (· %ₘ X ^ s) (Finset.sum_congr rfl fun i hi => ?_)
  rw [Finset.mem_range] at hi
  rw [r3 _ (by omega), show v.len - 1 - (v.len - 1 - i) = i by omega, mul_comm]
  congr 1
  unfold triEntry
  by_cases hc : j ≤ i
  · rw [if_pos (by omega), if_pos hc, show v.len - 1 - j - (v.len - 1 - i) = i - j by omega]
  · rw [if_neg (by omega), if_neg hc]

/-- A column of `to_dense`. -/
theorem col_write (n j : Nat) (a : Nat → F[X]) : ∀ (k : Nat) (e : Nat × Nat → F[X]) (x y : Nat),
    forN k (fun k e => write (j + k, j) (a (j + k - j)) e) e (x, y) = if y = j ∧ j ≤ x ∧ x < j + k then a (x - y) else e (x, y)
  | 0, e, x, y => by
    rw [if_neg (by omega)]
    rfl
  | k + 1, e, x, y => by
    show write (j + k, j) (a (j + k - j)) (forN k (fun k e => write (j + k, j) (a (j + k - j)) e) e) (x, y) = _
    by_cases h : (x, y) = (j + k, j)
    · obtain ⟨rfl, rfl⟩ := Prod.mk.inj h
      rw [Utils.write_self, if_pos (by omega)]
    · have h' : ¬(x = j + k ∧ y = j) := fun hc => h (by rw [hc.1, hc.2])
      rw [show write (j + k, j) (a (j + k - j)) (forN k (fun k e => write (j + k, j) (a (j + k - j)) e) e) (x, y) =
        forN k (fun k e => write (j + k, j) (a (j + k - j)) e) e (x, y) from Function.update_of_ne h _ _, col_write n j a k e x y]
      by_cases hc : y = j ∧ j ≤ x ∧ x < j + k
      · rw [if_pos hc, if_pos (by omega)]
      · rw [if_neg hc, if_neg (by omega)]

theorem cols_write (n : Nat) (a : Nat → F[X]) (e : Nat × Nat → F[X]) : ∀ (m x y : Nat), x < n →
    forN m (fun j e => forN (n - j) (fun k e => write (j + k, j) (a (j + k - j)) e) e) e (x, y) =
      if y < m ∧ y ≤ x then a (x - y) else e (x, y)
  | 0, x, y, _ => by
    rw [if_neg (by omega)]
    rfl
  | m + 1, x, y, hx => by
    show forN (n - m) (fun k e => write (m + k, m) (a (m + k - m)) e) (forN m _ e) (x, y) = _
    rw [col_write n m a, cols_write n a e m x y hx]
    by_cases h : y = m
    · subst h
      by_cases h2 : y ≤ x
      · rw [if_pos (by omega), if_pos (by omega)]
      · rw [if_neg (by omega), if_neg (by omega), if_neg (by omega)]
    · rw [if_neg (by omega)]
      by_cases h2 : y < m ∧ y ≤ x
      · rw [if_pos h2, if_pos (by omega)]
      · rw [if_neg h2, if_neg (by omega)]

/-- **C92**. `to_dense` of a lower triangular Toeplitz matrix, in a matrix which has not `n` columns or which is zero above the diagonal. -/
theorem C92_tri_dense_partial {v : PVec F} {o : Tri F} (ho : Tri.Reach v o) (x : PMat F[X])
    (hx : x.cols ≠ v.len ∨ ∀ i j, i < j → j < v.len → x.e (i, j) = 0) : IsMat (.ok (o.toDense x)) v.len v.len (triEntry v.at') := by
  have h := Tri.reach_inv ho
  refine ⟨_, rfl, h.n, h.n, fun i j hi hj => ?_⟩
  unfold Tri.toDense
  dsimp only
  rw [h.n, h.data, cols_write v.len v.at' _ v.len i j hi]
  unfold triEntry
  by_cases hc : j ≤ i
  · rw [if_pos ⟨hj, hc⟩, if_pos hc]
  · rw [if_neg (by omega), if_neg hc]
    unfold PMat.setDims
    dsimp only
    split
    · rename_i e
      exact (hx.resolve_left (not_not.2 e)) i j (by omega) hj
    · rfl

/-- **C92**, finding. `to_dense` leaves the entries above the diagonal of an output which already has `n` columns. -/
theorem C92_tri_dense_stale {v : PVec F} {o : Tri F} (ho : Tri.Reach v o) (x : PMat F[X]) (hx : x.cols = v.len) {i j : Nat} (hij : i < j)
    (hj : j < v.len) : (o.toDense x).e (i, j) = x.e (i, j) ∧ (x.e (i, j) ≠ 0 → ¬ IsMat (.ok (o.toDense x)) v.len v.len (triEntry v.at')) := by
  have h := Tri.reach_inv ho
  have key : (o.toDense x).e (i, j) = x.e (i, j) := by
    unfold Tri.toDense
    dsimp only
    rw [h.n, h.data, cols_write v.len v.at' _ v.len i j (by omega), if_neg (by omega)]
    unfold PMat.setDims
    dsimp only
    rw [if_pos hx]
  refine ⟨key, fun hne => ?_⟩
  rintro ⟨w, hw, -, -, hM⟩
  cases hw
  have := hM i j (by omega) hj
  rw [key] at this
  unfold triEntry at this
  rw [if_neg (by omega)] at this
  exact hne this

end PML.Ntl.StructX
