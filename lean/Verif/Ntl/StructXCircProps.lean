import Verif.Ntl.StructXCirc

/-! # Products by circulant matrices over `K[X]` -/

namespace PML.Ntl.StructX

open Polynomial PML.Ntl.Utils PML.Ntl.Inv PML.Ntl.Solve PML.Ntl.Struct PML.Ntl.Bivar PML.Ntl.FftPoints

variable {F : Type} [Field F]

theorem Circ.make_empty (g : Junk F) (v : PVec F) (n : Nat) (hv : v.len = 0) : Circ.make g v n = .ub := by
  unfold Circ.make
  dsimp only
  have : v.get ((v.len : Int) - 1) = .ub := if_neg (by omega)
  rw [this]
  rfl

theorem Circ.reach_inv {v : PVec F} {n : Nat} {o : Circ F} (h : Circ.Reach v n o) : CircInv v n o := by
  induction h with
  | make g he =>
    by_cases hv : v.len = 0
    · rw [Circ.make_empty g v n hv] at he
      exact absurd he (by simp)
    · obtain ⟨o', e, hi⟩ := Circ.make_inv g v n (by omega)
      rw [he] at e
      cases e
      exact hi
  | prep g d _ hd he ih =>
    obtain ⟨o'', e, hi⟩ := Circ.prepare_inv ih g hd
    rw [he] at e
    cases e
    exact hi

/-- **C92**. The constructor of circulant matrices succeeds if and only if the vector is not empty; for an empty vector it reads `input[-1]`. -/
theorem C92_circ_make (g : Junk F) (v : PVec F) (n : Nat) :
    (0 < v.len → ∃ o, Circ.make g v n = .ok o ∧ Circ.Reach v n o) ∧ (v.len = 0 → Circ.make g v n = .ub) := by
  refine ⟨fun h => ?_, Circ.make_empty g v n⟩
  obtain ⟨o, e, -⟩ := Circ.make_inv g v n h
  exact ⟨o, e, .make g e⟩

/-- **C92**. `prepare_degree(d)` succeeds for all `d ≥ -1`, on a circulant matrix. -/
theorem C92_circ_prepare {v : PVec F} {n : Nat} {o : Circ F} (h : Circ.Reach v n o) (g : Junk F) {d : Int} (hd : -1 ≤ d) :
    ∃ o', o.prepare g d = .ok o' ∧ Circ.Reach v n o' := by
  obtain ⟨o', e, -⟩ := Circ.prepare_inv (Circ.reach_inv h) g hd
  exact ⟨o', e, .prep g d h hd e⟩

theorem right_index {m i j : Nat} (hj : j < m) : ((i % m + (m - j)) % m + (m - 1)) % m = (i + (m - 1 - j)) % m := by
  rw [Nat.mod_add_mod, Nat.add_assoc, Nat.mod_add_mod, show m - j + (m - 1) = (m - 1 - j) + m by omega, ← Nat.add_assoc, Nat.add_mod_right]

theorem left_index {m i j : Nat} (hj : j < m) : m - 1 - (j + (m - i % m)) % m = (i + (m - 1 - j)) % m := by
  have ha : i % m < m := Nat.mod_lt _ (by omega)
  rw [← Nat.mod_add_mod i]
  generalize i % m = a at ha ⊢
  by_cases h : a ≤ j
  · rw [show j + (m - a) = (j - a) + m by omega, Nat.add_mod_right, Nat.mod_eq_of_lt (by omega), Nat.mod_eq_of_lt (by omega)]
    omega
  · rw [Nat.mod_eq_of_lt (by omega), show a + (m - 1 - j) = (a - 1 - j) + m by omega, Nat.add_mod_right, Nat.mod_eq_of_lt (by omega)]
    omega

theorem CircInv.zero {v : PVec F} {n : Nat} {o : Circ F} (h : CircInv v n o) (hz : ∀ k, k < v.len → o.dataRev.at' k = 0) {k : Nat} (hk : k < v.len) :
    v.at' k = 0 := by
  rw [h.at_rev hk, hz _ (Nat.mod_lt _ h.pos)]

theorem circEntry_zero {v : PVec F} (hz : ∀ k, k < v.len → v.at' k = 0) (i : Nat) {j : Nat} (hj : j < v.len) : circEntry v.len v.at' i j = 0 :=
  hz _ (Nat.mod_lt _ (by omega))

/-- **C92**. `mul_right` of a circulant matrix, after any calls to `prepare_degree`. -/
theorem C92_circ_right {v : PVec F} {n : Nat} {o : Circ F} (ho : Circ.Reach v n o) (g : Junk F) (res input : PVec F) :
    (input.len = v.len → IsRight (o.mulRight g res input) n v.len (circEntry v.len v.at') input.at') ∧
    (input.len ≠ v.len → o.mulRight g res input = .error) := by
  have h := Circ.reach_inv ho
  have hp := h.pos
  unfold Circ.mulRight
  rw [h.m, h.n]
  refine ⟨fun hl => ?_, fun hl => if_pos hl⟩
  rw [if_neg (not_not.2 hl)]
  dsimp only
  obtain ⟨s1, s2, s3, s4, -⟩ := degs_spec input
  obtain ⟨-, t2, t3, t4, -⟩ := degs_spec o.dataRev
  have hlen := h.rlen
  rw [s1, h.dY, h.dX]
  split
  · rename_i hz
    obtain ⟨w, e, hw, hw'⟩ := zeros_ok res n
    refine ⟨w, e, hw, fun i hi => ?_⟩
    rw [hw' i hi]
    refine (Finset.sum_eq_zero fun j hj => ?_).symm
    rw [Finset.mem_range] at hj
    rcases hz with hz | hz
    · rw [degX_neg hz (by omega), mul_zero]
    · rw [circEntry_zero (fun k hk => h.zero (fun k hk => t4 k (by omega) (by omega)) hk) i hj, zero_mul]
  · rename_i hz
    have hdx : input.degX ≠ -1 := fun e => hz (.inl e)
    have hdy : (degs o.dataRev).2 ≠ -1 := fun e => hz (.inr e)
    have i0 := degX_ge input
    have v0 := degX_of_dY hdy
    have e0 := dY_of_degX hdx
    obtain ⟨a, ha⟩ := Int.eq_ofNat_of_zero_le v0
    obtain ⟨b, hb⟩ := Int.eq_ofNat_of_zero_le (show 0 ≤ (degs o.dataRev).2 by omega)
    obtain ⟨e, he⟩ := Int.eq_ofNat_of_zero_le e0
    obtain ⟨d, hd⟩ := Int.eq_ofNat_of_zero_le (show 0 ≤ input.degX by omega)
    suffices hs : ∃ c L, (if 0 ≤ search o.rhs input.degX then
          andThen (vget o.rhs (search o.rhs input.degX).toNat) fun df =>
          andThen (toKron g.e0 input (o.dataRev.degX + df)) fun inK =>
          andThen (vget o.fft (search o.rhs input.degX).toNat) fun w =>
          andThen (mulFrom (np2 (((degs o.dataRev).2 + v.len) * (o.dataRev.degX + df + 1))) inK w
            (((degs o.dataRev).2 + v.len) * (o.dataRev.degX + df + 1))) fun tmp =>
          fromKron g.ce0 g.old tmp (o.dataRev.degX + df)
        else
          andThen (toKron g.e0 input (o.dataRev.degX + input.degX)) fun inK =>
          andThen (toKron g.e0 o.dataRev (o.dataRev.degX + input.degX)) fun repK =>
          andThen (mulFrom (np2 (((degs o.dataRev).2 + (degs input).2 + 1) * (o.dataRev.degX + input.degX + 1))) inK
            (toR (np2 (((degs o.dataRev).2 + (degs input).2 + 1) * (o.dataRev.degX + input.degX + 1))) repK)
            (((degs o.dataRev).2 + (degs input).2 + 1) * (o.dataRev.degX + input.degX + 1))) fun tmp =>
          fromKron g.ce0 g.old tmp (o.dataRev.degX + input.degX)) = .ok c ∧ Blocks c L (input.poly * o.dataRev.poly) ∧ L ≤ 2 * v.len ∧
          ∀ k, L ≤ k → (input.poly * o.dataRev.poly).coeff k = 0 by
      obtain ⟨c, L, e1, e2, e3, e4⟩ := hs
      rw [e1, Bivar.andThen_ok]
      obtain ⟨w, f1, f2, f3⟩ := fill_ok e2 e3 (fun k hk _ => e4 k hk)
      rw [f1, Bivar.andThen_ok]
      obtain ⟨z, z1, z2, z3⟩ := foldRows_ok (n := n) (res := res) h.pos f2
      refine ⟨z, z1, z2, fun i hi => ?_⟩
      have hi' : i % v.len < v.len := Nat.mod_lt _ h.pos
      rw [z3 i hi, f3 _ (by omega), f3 _ (by omega), mul_comm, cyc_fold h.rlen (by omega) hi']
      unfold cyc circEntry
      rw [hl]
      refine Finset.sum_congr rfl fun j hj => ?_
      rw [Finset.mem_range] at hj
      rw [h.rat _ (Nat.mod_lt _ h.pos), right_index hj]
    rcases search_spec o.rhs input.degX with hs | ⟨i, hi, hs, hle⟩
    · rw [hs, if_neg (by omega)]
      have hD : o.dataRev.degX + input.degX = ((a + d : Nat) : Int) := by omega
      rw [hD, toKron_ok _ (by omega), Bivar.andThen_ok, toKron_ok _ (by omega), Bivar.andThen_ok]
      have hM : ∀ k, b + e + 1 ≤ k → (input.poly * o.dataRev.poly).coeff k = 0 := fun k hk =>
        mul_coeff_high (a := e + 1) (b := b + 1) (fun i hi hi' => s4 i hi (by omega)) (fun i hi hi' => t4 i hi (by omega)) (by omega)
      obtain ⟨A, c, k1, k2, k3⟩ := kmul g g.old (u := input) (v := o.dataRev) (D := a + d) (M := b + e + 1)
        (K := np2 (((degs o.dataRev).2 + (degs input).2 + 1) * (((a + d : Nat) : Int) + 1))) (b + e + 1)
        (h := ((degs o.dataRev).2 + (degs input).2 + 1) * (((a + d : Nat) : Int) + 1))
        (le_of_eq hd) (le_of_eq ha) (by omega) hM (np2_le (by rw [hb, he]; push_cast; ring)) (by rw [hb, he]; push_cast; ring)
      rw [k1, Bivar.andThen_ok, k2]
      exact ⟨c, _, rfl, k3, by omega, hM⟩
    · rw [hs, if_pos (by omega), Int.toNat_natCast]
      have hv1 : vget o.rhs i = .ok (o.rhs.e i) := if_pos hi
      have hv2 : vget o.fft i = .ok (o.fft.e i) := if_pos (by rw [h.len1]; exact hi)
      obtain ⟨f, hf⟩ := Int.eq_ofNat_of_zero_le (h.nn i hi)
      have hD : o.dataRev.degX + (f : Int) = ((a + f : Nat) : Int) := by omega
      rw [hv1, Bivar.andThen_ok, hf, hD, toKron_ok _ (by omega), Bivar.andThen_ok, hv2, Bivar.andThen_ok, h.rep1 i hi, h.dY, h.m, h.dX, hf, hD,
        Int.toNat_natCast]
      have hM : ∀ k, b + v.len ≤ k → (input.poly * o.dataRev.poly).coeff k = 0 := fun k hk =>
        mul_coeff_high (a := input.len) (b := b + 1) (fun i hi hi' => by omega) (fun i hi hi' => t4 i hi (by omega)) (by omega)
      obtain ⟨A, c, k1, k2, k3⟩ := kmul g g.old (u := input) (v := o.dataRev) (D := a + f) (M := b + v.len)
        (K := np2 (((degs o.dataRev).2 + (v.len : Int)) * (((a + f : Nat) : Int) + 1))) (b + v.len)
        (h := ((degs o.dataRev).2 + (v.len : Int)) * (((a + f : Nat) : Int) + 1))
        (le_of_eq hd) (le_of_eq ha) (by omega) hM (np2_le (by rw [hb]; push_cast; ring)) (by rw [hb]; push_cast; ring)
      rw [k1, Bivar.andThen_ok, k2]
      exact ⟨c, _, rfl, k3, by omega, hM⟩

theorem mod_add_mod (f g : F[X]) (s : Nat) : (f + g) %ₘ X ^ s = f %ₘ X ^ s + g %ₘ X ^ s := add_modByMonic _ _

/-- **C92**. `mul_right_trunc` of a circulant matrix. -/
theorem C92_circ_right_trunc {v : PVec F} {n : Nat} {o : Circ F} (ho : Circ.Reach v n o) (g : Junk F) (res input : PVec F) (s : Nat) :
    (input.len = v.len → IsRightMod s (o.mulRightTrunc g res input s) n v.len (circEntry v.len v.at') input.at') ∧
    (input.len ≠ v.len → o.mulRightTrunc g res input s = .error) := by
  have h := Circ.reach_inv ho
  have hp := h.pos
  have hlen := h.rlen
  unfold Circ.mulRightTrunc
  rw [h.m, h.n]
  refine ⟨fun hl => ?_, fun hl => if_pos hl⟩
  rw [if_neg (not_not.2 hl)]
  dsimp only
  have key : ∀ i, (cyc v.len (truncV o.dataRev s).at' v.len (truncV input s).at' (i % v.len)) %ₘ X ^ s =
      (∑ j ∈ Finset.range v.len, circEntry v.len v.at' i j * input.at' j) %ₘ X ^ s := by
    intro i
    rw [← sum_trunc (circEntry v.len v.at' i) input.at']
    refine congrArg (· %ₘ X ^ s) (Finset.sum_congr rfl fun j hj => ?_)
    rw [Finset.mem_range] at hj
    unfold circEntry
    rw [truncV_at, truncV_at, h.rat _ (Nat.mod_lt _ h.pos), right_index hj]
  split
  · rename_i hz
    obtain ⟨w, e, hw, hw'⟩ := zeros_ok res n
    refine ⟨w, e, hw, fun i hi => ?_⟩
    rw [hw' i hi, ← key i]
    unfold cyc
    rw [Finset.sum_eq_zero, zero_modByMonic]
    intro j hj
    rw [Finset.mem_range] at hj
    rcases hz with hz | hz
    · rw [degX_neg hz (by rw [truncV_len, hlen]; exact Nat.mod_lt _ h.pos), zero_mul]
    · rw [degX_neg hz (by rw [truncV_len]; omega), mul_zero]
  · rename_i hz
    have i0 := degX_ge (truncV input s)
    have v0 := degX_ge (truncV o.dataRev s)
    obtain ⟨a, ha⟩ := Int.eq_ofNat_of_zero_le (show 0 ≤ (truncV o.dataRev s).degX by omega)
    obtain ⟨d, hd⟩ := Int.eq_ofNat_of_zero_le (show 0 ≤ (truncV input s).degX by omega)
    obtain ⟨D, hD⟩ := Int.eq_ofNat_of_zero_le (show 0 ≤ (truncV o.dataRev s).degX + (truncV input s).degX by omega)
    rw [hD]
    have k1 := toKron_ok g.e0 (u := truncV input s) (D := D) (by omega)
    have k2 := toKron_ok g.e0 (u := truncV o.dataRev s) (D := D) (by omega)
    have hdeg : DegXLe ((truncV input s).poly * (truncV o.dataRev s).poly) D := fun i j hj =>
      mul_degX (degX_poly (le_of_eq hd)) (degX_poly (le_of_eq ha)) i j (by omega)
    have hM : ∀ k, 2 * v.len ≤ k + 1 → ((truncV input s).poly * (truncV o.dataRev s).poly).coeff k = 0 := fun k hk =>
      mul_coeff_high (a := v.len) (b := v.len) (fun i hi _ => by rw [truncV_len] at hi; omega) (fun i hi _ => by rw [truncV_len] at hi; omega) (by omega)
    obtain ⟨c, k3, k4⟩ := kmulT g g.old (u := truncV input s) (v := truncV o.dataRev s) (D := D) (2 * v.len) (le_of_eq hd) (le_of_eq ha) (by omega)
      (A := (truncV input s).poly.eval (X ^ (D + 1)) * (truncV o.dataRev s).poly.eval (X ^ (D + 1))) (fun t => by
        split
        · rfl
        · rw [← eval_mul]
          exact eval_coeff_high hdeg (L := 2 * v.len) (fun k hk => hM k (by omega)) t (by omega))
    rw [k1, Bivar.andThen_ok, k2, Bivar.andThen_ok, k3, Bivar.andThen_ok]
    obtain ⟨w, f1, f2, f3⟩ := truncFill_ok (s := s) (n := v.len + v.len) k4 (by omega) (fun k hk hk' => hM k (by omega))
    rw [f1, Bivar.andThen_ok]
    obtain ⟨z, z1, z2, z3⟩ := foldRows_ok (n := n) (res := res) h.pos (c := w) (by omega)
    refine ⟨z, z1, z2, fun i hi => ?_⟩
    have hi' : i % v.len < v.len := Nat.mod_lt _ h.pos
    rw [z3 i hi, f3 _ (by omega), f3 _ (by omega), ptrunc_mod, ptrunc_mod, ← mod_add_mod, mul_comm,
      cyc_fold (by rw [truncV_len, hlen]) (by rw [truncV_len]; omega) hi', truncV_len, hl, key i]

theorem CircInv.split {v : PVec F} {n : Nat} {o : Circ F} (h : CircInv v n o) (hn : 0 < n) :
    n = o.nb * v.len + o.leftover ∧ 0 < o.leftover ∧ o.leftover ≤ v.len := by
  unfold Circ.nb Circ.leftover
  rw [h.m, h.n]
  have h1 := Nat.div_add_mod' n v.len
  have h2 := Nat.mod_lt n h.pos
  split
  · rename_i h0
    rw [h0, Nat.add_zero] at h1
    refine ⟨?_, h.pos, le_refl _⟩
    have : 0 < n / v.len := by
      by_contra hc
      rw [Nat.eq_zero_of_not_pos hc] at h1
      omega
    rw [Nat.sub_mul, Nat.one_mul]
    have : v.len ≤ n / v.len * v.len := Nat.le_mul_of_pos_left _ this
    omega
  · rename_i h0
    exact ⟨h1.symm, by omega, by omega⟩

theorem left_sum {v rd : PVec F} (hr : IsRev v rd) (input : Nat → F[X]) (n : Nat) {j : Nat} (hj : j < v.len) :
    ∑ i ∈ Finset.range n, rd.at' ((j + (v.len - i % v.len)) % v.len) * input i = ∑ i ∈ Finset.range n, input i * circEntry v.len v.at' i j := by
  refine Finset.sum_congr rfl fun i _ => ?_
  rw [hr.2 _ (Nat.mod_lt _ (by omega)), left_index hj, mul_comm]
  rfl

theorem part_degX {t v w : PVec F} {off n : Nat} (h : off + n ≤ v.len) (e : part t v off n = .ok w) : w.degX ≤ v.degX := by
  obtain ⟨w', e', h2, h3⟩ := part_ok (t := t) h
  rw [e] at e'
  cases e'
  refine (degX_le _ _).2 ⟨degX_ge _, fun i hi => ?_⟩
  rw [h3 i (by omega)]
  exact degX_get _ (by omega)

theorem chunk_le {nb m lo r : Nat} (hr : r < nb) : r * m + m ≤ nb * m + lo := by
  have : (r + 1) * m ≤ nb * m := Nat.mul_le_mul_right _ hr
  rw [Nat.add_mul, Nat.one_mul] at this
  omega

/-- **C92**. `mul_left` of a circulant matrix, after any calls to `prepare_degree`. -/
theorem C92_circ_left {v : PVec F} {n : Nat} {o : Circ F} (ho : Circ.Reach v n o) (g : Junk F) (res input : PVec F) :
    (input.len = n → IsLeft (o.mulLeft g res input) n v.len (circEntry v.len v.at') input.at') ∧
    (input.len ≠ n → o.mulLeft g res input = .error) := by
  have h := Circ.reach_inv ho
  have hp := h.pos
  unfold Circ.mulLeft
  rw [h.m, h.n]
  refine ⟨fun hl => ?_, fun hl => if_pos hl⟩
  rw [if_neg (not_not.2 hl)]
  dsimp only
  obtain ⟨s1, s2, s3, s4, -⟩ := degs_spec input
  obtain ⟨-, t2, t3, t4, -⟩ := degs_spec o.dataRev
  have hlen := h.rlen
  rw [s1, h.dY]
  split
  · rename_i hz
    obtain ⟨w, e, hw, hw'⟩ := zeros_ok res v.len
    refine ⟨w, e, hw, fun j hj => ?_⟩
    rw [hw' j hj]
    refine (Finset.sum_eq_zero fun i hi => ?_).symm
    rw [Finset.mem_range] at hi
    rcases hz with hz | hz
    · rw [degX_neg hz (by omega), zero_mul]
    · rw [circEntry_zero (fun k hk => h.zero (fun k hk => t4 k (by omega) (by omega)) hk) i hj, mul_zero]
  · rename_i hz
    rw [if_neg (by omega)]
    have hdx : input.degX ≠ -1 := fun e => hz (.inl e)
    have hdy : (degs o.dataRev).2 ≠ -1 := fun e => hz (.inr e)
    have i0 := degX_ge input
    have v0 : 0 ≤ o.dX := by rw [h.dX]; exact degX_of_dY hdy
    have hn : 0 < n := by
      have := dY_of_degX hdx
      omega
    obtain ⟨hsplit, hlo0, hlo⟩ := h.split hn
    obtain ⟨a, ha⟩ := Int.eq_ofNat_of_zero_le v0
    obtain ⟨d, hd⟩ := Int.eq_ofNat_of_zero_le (show 0 ≤ input.degX by omega)
    obtain ⟨rd, r1, r2, r3⟩ := rev_ok (t := g.old) (v := v) (n := v.len) (le_refl _)
    have hrd : IsRev v rd := ⟨r2, r3⟩
    have hrdeg := h.rev_deg hrd
    generalize hLo : o.leftover = lo at *
    generalize hNb : o.nb = nb at *
    -- the parameter of the substitution and the transforms
    suffices hs : ∃ D : Nat, a + d ≤ D ∧ (if 0 ≤ search o.lhs input.degX then
          andThen (vget o.lhs (search o.lhs input.degX).toNat) fun df =>
          andThen (vget o.fft2 (search o.lhs input.degX).toNat) fun w2 =>
          andThen (vget o.fft3 (search o.lhs input.degX).toNat) fun w3 => .ok (o.dX + df, w2, w3)
        else
          andThen (rev g.old o.data v.len) fun tmp =>
          andThen (toKron g.e0 tmp (o.dX + input.degX)) fun matK =>
          .ok (o.dX + input.degX, toR (np2 (((v.len : Int) + lo - 1) * (o.dX + input.degX + 1))) matK,
            toR (np2 ((2 * (v.len : Int) - 1) * (o.dX + input.degX + 1))) matK)) =
        .ok ((D : Int), toR (np2 (((v.len : Int) + lo - 1) * ((D : Int) + 1))) (rd.poly.eval (X ^ (D + 1))),
          toR (np2 ((2 * (v.len : Int) - 1) * ((D : Int) + 1))) (rd.poly.eval (X ^ (D + 1)))) by
      obtain ⟨D, hD, e1⟩ := hs
      rw [e1, Bivar.andThen_ok]
      dsimp only
      -- a chunk
      have chunk : ∀ (l : PVec F) (k : Nat) (sz : Int), 0 < k → k ≤ v.len → l.len = k → l.degX ≤ input.degX → sz = (((v.len + k - 1 : Nat) : Nat) : Int) →
          ∃ c w, (andThen (mulFrom (np2 (sz * ((D : Int) + 1))) (l.poly.eval (X ^ (D + 1))) (toR (np2 (sz * ((D : Int) + 1))) (rd.poly.eval (X ^ (D + 1))))
            (sz * ((D : Int) + 1))) fun rk => fromKron g.ce0 g.old rk D) = .ok c ∧ fill c (v.len + k) = .ok w ∧ w.len = v.len + k ∧
            ∀ i, i < v.len + k → w.at' i = (rd.poly * l.poly).coeff i := by
        intro l k sz hk0 hk hl hdeg hsz
        have hM : ∀ t, v.len + k - 1 ≤ t → (l.poly * rd.poly).coeff t = 0 := fun t ht =>
          mul_coeff_high (a := k) (b := v.len) (fun i _ _ => by omega) (fun i _ _ => by omega) (by omega)
        obtain ⟨A, c, k1, k2, k3⟩ := kmul g g.old (u := l) (v := rd) (D := D) (M := v.len + k - 1) (K := np2 (sz * ((D : Int) + 1))) (v.len + k - 1)
          (h := sz * ((D : Int) + 1)) (a := d) (b := a) (by omega) (by omega) (by omega) hM
          (np2_le (by rw [hsz]; push_cast; ring)) (by rw [hsz]; push_cast; ring)
        obtain ⟨w, w1, w2, w3⟩ := fill_ok (n := v.len + k) k3 (by omega) (fun t ht _ => hM t ht)
        refine ⟨c, w, ?_, w1, w2, fun i hi => ?_⟩
        · rw [k1, Bivar.andThen_ok, k2]
        · rw [w3 i hi, mul_comm]
      obtain ⟨l, l1, l2, l3⟩ := part_ok (t := g.old) (v := input) (off := nb * v.len) (n := lo) (by omega)
      have ldeg := part_degX (by omega) l1
      obtain ⟨c, w, c1, c2, c3, c4⟩ := chunk l lo ((v.len : Int) + lo - 1) hlo0 hlo l2 ldeg (by omega)
      rw [l1, Bivar.andThen_ok, toKron_ok _ (by omega), Bivar.andThen_ok]
      rcases hq : mulFrom (np2 (((v.len : Int) + lo - 1) * ((D : Int) + 1))) (l.poly.eval (X ^ (D + 1)))
        (toR (np2 (((v.len : Int) + lo - 1) * ((D : Int) + 1))) (rd.poly.eval (X ^ (D + 1)))) (((v.len : Int) + lo - 1) * ((D : Int) + 1)) with A | _ | _ | _
      · rw [hq, Bivar.andThen_ok] at c1
        rw [Bivar.andThen_ok, c1, Bivar.andThen_ok, c2, Bivar.andThen_ok]
        obtain ⟨z, z1, z2, z3⟩ := left_core (nb := nb) (res := { res with len := v.len }) (c := w) (T := id) rfl (fun _ _ => rfl) hlo r2 rfl l2 l3 c3 c4
          (f := fun r res =>
            andThen (part g.old input (r * v.len) v.len) fun tmp =>
            andThen (toKron g.e0 tmp D) fun inX =>
            andThen (mulFrom (np2 ((2 * (v.len : Int) - 1) * ((D : Int) + 1))) inX (toR (np2 ((2 * (v.len : Int) - 1) * ((D : Int) + 1))) (rd.poly.eval (X ^ (D + 1))))
              (((v.len : Int) + v.len - 1) * ((D : Int) + 1))) fun rk =>
            andThen (fromKron g.ce0 g.old rk D) fun c =>
            andThen (fill c (v.len + v.len)) fun c =>
            foldMore v.len res c) (fun r hr res => by
              have hle := chunk_le (m := v.len) (lo := lo) hr
              obtain ⟨l, l1, l2, l3⟩ := part_ok (t := g.old) (v := input) (off := r * v.len) (n := v.len) (by omega)
              have ldeg := part_degX (by omega) l1
              obtain ⟨c, w, c1, c2, c3, c4⟩ := chunk l v.len (2 * (v.len : Int) - 1) h.pos (le_refl _) l2 ldeg (by omega)
              refine ⟨l, w, ?_, l2, l3, c3, c4⟩
              rw [l1, Bivar.andThen_ok, toKron_ok _ (by omega), Bivar.andThen_ok, show (v.len : Int) + v.len - 1 = 2 * (v.len : Int) - 1 by ring]
              rcases hq : mulFrom (np2 ((2 * (v.len : Int) - 1) * ((D : Int) + 1))) (l.poly.eval (X ^ (D + 1)))
                (toR (np2 ((2 * (v.len : Int) - 1) * ((D : Int) + 1))) (rd.poly.eval (X ^ (D + 1)))) ((2 * (v.len : Int) - 1) * ((D : Int) + 1)) with A | _ | _ | _
              · rw [hq, Bivar.andThen_ok] at c1
                rw [Bivar.andThen_ok, c1, Bivar.andThen_ok, c2, Bivar.andThen_ok]
              all_goals
                rw [hq] at c1
                exact absurd c1 (by simp [andThen]))
        refine ⟨z, z1, z2, fun j hj => ?_⟩
        rw [z3 j hj, id, ← hsplit, left_sum hrd _ _ hj]
      all_goals
        rw [hq] at c1
        exact absurd c1 (by simp [andThen])
    rcases search_spec o.lhs input.degX with hs | ⟨i, hi, hs, hle⟩
    · rw [hs, if_neg (by omega), h.data, r1, Bivar.andThen_ok]
      have hD : o.dX + input.degX = ((a + d : Nat) : Int) := by omega
      rw [hD, toKron_ok _ (by omega), Bivar.andThen_ok]
      exact ⟨a + d, le_refl _, rfl⟩
    · have e0 := h.len0
      rw [e0] at hi hle
      rw [hs, if_pos (by omega), Int.toNat_natCast, e0]
      have hv1 : vget o.rhs i = .ok (o.rhs.e i) := if_pos hi
      have hv2 : vget o.fft2 i = .ok (o.fft2.e i) := if_pos (by rw [h.len2]; exact hi)
      have hv3 : vget o.fft3 i = .ok (o.fft3.e i) := if_pos (by rw [h.len3]; exact hi)
      obtain ⟨f, hf⟩ := Int.eq_ofNat_of_zero_le (h.nn i hi)
      have hD : o.dX + (f : Int) = ((a + f : Nat) : Int) := by omega
      rw [hv1, Bivar.andThen_ok, hv2, Bivar.andThen_ok, hv3, Bivar.andThen_ok, h.rep2 i hi rd hrd, h.rep3 i hi rd hrd, h.m, hLo, hf, hD, Int.toNat_natCast]
      exact ⟨a + f, by omega, rfl⟩

/-- **C92**. `mul_left_trunc` of a circulant matrix. -/
theorem C92_circ_left_trunc {v : PVec F} {n : Nat} {o : Circ F} (ho : Circ.Reach v n o) (g : Junk F) (res input : PVec F) (s : Nat) :
    (input.len = n → IsLeftMod s (o.mulLeftTrunc g res input s) n v.len (circEntry v.len v.at') input.at') ∧
    (input.len ≠ n → o.mulLeftTrunc g res input s = .error) := by
  have h := Circ.reach_inv ho
  have hp := h.pos
  unfold Circ.mulLeftTrunc
  rw [h.m, h.n]
  refine ⟨fun hl => ?_, fun hl => if_pos hl⟩
  rw [if_neg (not_not.2 hl), h.data]
  obtain ⟨rd, r1, r2, r3⟩ := rev_ok (t := g.old) (v := v) (n := v.len) (le_refl _)
  have hrd : IsRev v rd := ⟨r2, r3⟩
  rw [r1, Bivar.andThen_ok]
  dsimp only
  have key : ∀ j, j < v.len → (∑ i ∈ Finset.range n, (truncV rd s).at' ((j + (v.len - i % v.len)) % v.len) * (truncV input s).at' i) %ₘ X ^ s =
      (∑ i ∈ Finset.range n, input.at' i * circEntry v.len v.at' i j) %ₘ X ^ s := by
    intro j hj
    rw [← left_sum hrd _ _ hj, ← sum_trunc (fun i => rd.at' ((j + (v.len - i % v.len)) % v.len)) input.at']
    exact congrArg (· %ₘ X ^ s) (Finset.sum_congr rfl fun i _ => by rw [truncV_at, truncV_at])
  split
  · rename_i hz
    obtain ⟨w, e, hw, hw'⟩ := zeros_ok res v.len
    refine ⟨w, e, hw, fun j hj => ?_⟩
    rw [hw' j hj, ← key j hj, Finset.sum_eq_zero, zero_modByMonic]
    intro i hi
    rw [Finset.mem_range] at hi
    rcases hz with hz | hz
    · rw [degX_neg hz (by rw [truncV_len, r2]; exact Nat.mod_lt _ h.pos), zero_mul]
    · rw [degX_neg hz (by rw [truncV_len]; omega), mul_zero]
  · rename_i hz
    rw [if_neg (by omega)]
    have i0 := degX_ge (truncV input s)
    have v0 := degX_ge (truncV rd s)
    have hn : 0 < n := by
      have := dY_of_degX (v := truncV input s) (by tauto)
      have h2 := (degs_spec (truncV input s)).2.2.1
      rw [truncV_len] at h2
      omega
    obtain ⟨hsplit, hlo0, hlo⟩ := h.split hn
    obtain ⟨a, ha⟩ := Int.eq_ofNat_of_zero_le (show 0 ≤ (truncV rd s).degX by omega)
    obtain ⟨d, hd⟩ := Int.eq_ofNat_of_zero_le (show 0 ≤ (truncV input s).degX by omega)
    obtain ⟨D, hD⟩ := Int.eq_ofNat_of_zero_le (show 0 ≤ (truncV rd s).degX + (truncV input s).degX by omega)
    rw [hD]
    generalize hLo : o.leftover = lo at *
    generalize hNb : o.nb = nb at *
    have chunk : ∀ (l : PVec F) (k : Nat), 0 < k → k ≤ v.len → l.len = k → l.degX ≤ (truncV input s).degX →
        ∃ c w, fromKron g.ce0 g.old (l.poly.eval (X ^ (D + 1)) * (truncV rd s).poly.eval (X ^ (D + 1))) D = .ok c ∧ truncFill s c (v.len + k) = .ok w ∧
          w.len = v.len + k ∧ ∀ i, i < v.len + k → w.at' i = ((truncV rd s).poly * l.poly).coeff i %ₘ X ^ s := by
      intro l k hk0 hk hl hdeg
      have hM : ∀ t, v.len + k - 1 ≤ t → (l.poly * (truncV rd s).poly).coeff t = 0 := fun t ht =>
        mul_coeff_high (a := k) (b := v.len) (fun i _ _ => by omega) (fun i hi _ => by rw [truncV_len] at hi; omega) (by omega)
      have hdeg' : DegXLe (l.poly * (truncV rd s).poly) D := fun i j hj =>
        mul_degX (degX_poly (d := d) (by omega)) (degX_poly (le_of_eq ha)) i j (by omega)
      obtain ⟨c, k3, k4⟩ := kmulT g g.old (u := l) (v := truncV rd s) (D := D) (v.len + k - 1) (a := d) (b := a) (by omega) (by omega) (by omega)
        (A := l.poly.eval (X ^ (D + 1)) * (truncV rd s).poly.eval (X ^ (D + 1))) (fun t => by
          split
          · rfl
          · rw [← eval_mul]
            exact eval_coeff_high hdeg' hM t (by omega))
      obtain ⟨w, w1, w2, w3⟩ := truncFill_ok (s := s) (n := v.len + k) k4 (by omega) (fun t ht _ => hM t ht)
      exact ⟨c, w, k3, w1, w2, fun i hi => by rw [w3 i hi, ptrunc_mod, mul_comm]⟩
    obtain ⟨l, l1, l2, l3⟩ := part_ok (t := g.old) (v := truncV input s) (off := nb * v.len) (n := lo) (by rw [truncV_len]; omega)
    have ldeg := part_degX (by rw [truncV_len]; omega) l1
    obtain ⟨c, w, c1, c2, c3, c4⟩ := chunk l lo hlo0 hlo l2 ldeg
    have k0 := toKron_ok g.e0 (u := l) (D := D) (by omega)
    have k1 := toKron_ok g.e0 (u := truncV rd s) (D := D) (by omega)
    rw [l1, Bivar.andThen_ok, k0, Bivar.andThen_ok, k1, Bivar.andThen_ok, c1, Bivar.andThen_ok, c2, Bivar.andThen_ok]
    obtain ⟨z, z1, z2, z3⟩ := left_core (nb := nb) (res := { res with len := v.len }) (c := w) (T := fun f => f %ₘ X ^ s) (zero_modByMonic _)
      (fun f g => mod_add_mod f g s) hlo (rd := truncV rd s) (input := truncV input s) (by rw [truncV_len, r2]) rfl l2 l3 c3 c4
      (f := fun r res =>
        andThen (part g.old (truncV input s) (r * v.len) v.len) fun sl =>
        andThen (toKron g.e0 sl D) fun kin =>
        andThen (fromKron g.ce0 g.old (kin * (truncV rd s).poly.eval (X ^ (D + 1))) D) fun c =>
        andThen (truncFill s c (v.len + v.len)) fun c =>
        foldMore v.len res c) (fun r hr res => by
          have hle := chunk_le (m := v.len) (lo := lo) hr
          obtain ⟨l, l1, l2, l3⟩ := part_ok (t := g.old) (v := truncV input s) (off := r * v.len) (n := v.len) (by rw [truncV_len]; omega)
          have ldeg := part_degX (by rw [truncV_len]; omega) l1
          obtain ⟨c, w, c1, c2, c3, c4⟩ := chunk l v.len h.pos (le_refl _) l2 ldeg
          refine ⟨l, w, ?_, l2, l3, c3, c4⟩
          rw [l1, Bivar.andThen_ok, toKron_ok _ (by omega), Bivar.andThen_ok, c1, Bivar.andThen_ok, c2, Bivar.andThen_ok])
    refine ⟨z, z1, z2, fun j hj => ?_⟩
    rw [z3 j hj, ← hsplit, key j hj]

/-- A full rewriting of a matrix. -/
theorem mat_write (b : Nat → Nat → F[X]) (m : Nat) (e : Nat × Nat → F[X]) : ∀ (n x y : Nat),
    forN n (fun i e => forN m (fun j e => write (i, j) (b i j) e) e) e (x, y) = if x < n ∧ y < m then b x y else e (x, y) := by
  have row : ∀ (i : Nat) (m : Nat) (e : Nat × Nat → F[X]) (x y : Nat), forN m (fun j e => write (i, j) (b i j) e) e (x, y) =
      if x = i ∧ y < m then b x y else e (x, y) := by
    intro i m e x y
    induction m with
    | zero => rw [if_neg (by omega)]; rfl
    | succ m ih =>
      show write (i, m) (b i m) (forN m (fun j e => write (i, j) (b i j) e) e) (x, y) = _
      by_cases h : (x, y) = (i, m)
      · obtain ⟨rfl, rfl⟩ := Prod.mk.inj h
        rw [Utils.write_self, if_pos (by omega)]
      · have h' : ¬(x = i ∧ y = m) := fun hc => h (by rw [hc.1, hc.2])
        rw [show write (i, m) (b i m) (forN m (fun j e => write (i, j) (b i j) e) e) (x, y) = forN m (fun j e => write (i, j) (b i j) e) e (x, y)
          from Function.update_of_ne h _ _, ih]
        by_cases hc : x = i ∧ y < m
        · rw [if_pos hc, if_pos (by omega)]
        · rw [if_neg hc, if_neg (by omega)]
  intro n x y
  induction n with
  | zero => rw [if_neg (by omega)]; rfl
  | succ n ih =>
    show forN m (fun j e => write (n, j) (b n j) e) (forN n _ e) (x, y) = _
    rw [row, ih]
    by_cases hc : x = n ∧ y < m
    · rw [if_pos hc, if_pos (by omega)]
    · rw [if_neg hc]
      by_cases hc2 : x < n ∧ y < m
      · rw [if_pos hc2, if_pos (by omega)]
      · rw [if_neg hc2, if_neg (by omega)]

/-- **C92**. `to_dense` of a circulant matrix, whatever the earlier content of the output. -/
theorem C92_circ_dense {v : PVec F} {n : Nat} {o : Circ F} (ho : Circ.Reach v n o) (x : PMat F[X]) :
    IsMat (.ok (o.toDense x)) n v.len (circEntry v.len v.at') := by
  have h := Circ.reach_inv ho
  refine ⟨_, rfl, h.n, h.m, fun i j hi hj => ?_⟩
  unfold Circ.toDense
  dsimp only
  rw [h.n, h.m, h.data, mat_write, if_pos ⟨hi, hj⟩]
  unfold circEntry
  congr 1
  rw [← Int.add_emod_right, show (i : Int) - j - 1 + v.len = ((i + (v.len - 1 - j) : Nat) : Int) by omega, ← Int.natCast_emod, Int.toNat_natCast]

end PML.Ntl.StructX
