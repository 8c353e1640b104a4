import Verif.Ntl.BlockSeqMul

/-!
# Lemmas for C108: powers, blocks and quotients
-/

namespace PML.Ntl.BlockSeq

open Polynomial PML.Ntl.Utils PML.Ntl.Inv PML.Ntl.Solve PML.Ntl.MatEval PML.Ntl.MatMul
open PML.Ntl.Struct (loopOut NVec)

variable {F : Type} [Field F]

theorem loopOut_run {σ : Type} (P : Nat → σ → Prop) {f : Nat → σ → Out σ} {s : σ} (n : Nat) (h0 : P 0 s)
    (hf : ∀ k t, k < n → P k t → ∃ t', f k t = .ok t' ∧ P (k + 1) t') : ∃ t, loopOut n f s = .ok t ∧ P n t := by
  induction n with
  | zero => exact ⟨s, rfl, h0⟩
  | succ n ih =>
    obtain ⟨t, e, ht⟩ := ih fun k t hk => hf k t (by omega)
    obtain ⟨t', e', ht'⟩ := hf n t (by omega) ht
    refine ⟨t', ?_, ht'⟩
    change andThen (loopOut n f s) (f n) = _
    rw [e]; exact e'

theorem write_at {ι α : Type} [DecidableEq ι] (i : ι) (w : α) (x : ι → α) (j : ι) : write i w x j = if j = i then w else x j := by
  unfold write Function.update
  by_cases h : j = i
  · subst h; simp
  · simp [h]

theorem pdeg_pos {g : F[X]} (h : 0 < g.natDegree) : pdeg g = g.natDegree := pdeg_ne _ fun h0 => by rw [h0, natDegree_zero] at h; omega

theorem pdeg_lt_pdeg {g a : F[X]} (h : 0 < g.natDegree) : pdeg a < pdeg g ↔ a.natDegree < g.natDegree := by
  rw [pdeg_pos h]
  by_cases ha : a = 0
  · rw [ha, pdeg_zero, natDegree_zero]; omega
  · rw [pdeg_ne _ ha]; omega

theorem coeff_of_pdeg_lt {f : F[X]} {k : Nat} (h : pdeg f < (k : Int)) : f.coeff k = 0 := by
  by_cases hf : f = 0
  · rw [hf, coeff_zero]
  · rw [pdeg_ne _ hf] at h
    exact coeff_eq_zero_of_natDegree_lt (by omega)

theorem preverse_zero (N : Int) : preverse (0 : F[X]) N = 0 := by
  ext k
  rw [preverse_coeff]
  simp

/-- The entries of `upper` after `gen_pows`. -/
noncomputable def upv (fft : Bool) (cross : Nat) (g A : F[X]) : F[X] := if fft = true ∧ (cross : Int) < pdeg A then up g A else 0

theorem mulModLocal_spec (fft : Bool) (cross : Nat) (b g A up0 : F[X]) (hn : 0 < g.natDegree) (hA : A.natDegree < g.natDegree) :
    ∃ y, mulModLocal fft cross b g A up0 = .ok y ∧ y.1 = A * b % g ∧ (up0 = 0 → preverse y.2 (pdeg g - 2) = upv fft cross g A) := by
  unfold mulModLocal upv
  dsimp only
  rw [if_neg (by have := (pdeg_lt_pdeg (a := A) hn).2 hA; omega)]
  by_cases h0 : pdeg A < 0
  · rw [if_pos h0]
    have hA0 : A = 0 := (pdeg_neg_iff A).1 (by have := Utils.pdeg_ge A; omega)
    refine ⟨_, rfl, ?_, fun h => ?_⟩
    · rw [hA0, zero_mul, EuclideanDomain.zero_mod]
    · rw [if_neg (by omega), h, preverse_zero]
  · rw [if_neg h0]
    by_cases h1 : (!fft) = true ∨ pdeg A ≤ cross
    · rw [if_pos h1]
      refine ⟨_, rfl, rfl, fun _ => ?_⟩
      rw [preverse_zero, if_neg]
      rintro ⟨h2, h3⟩
      rcases h1 with h1 | h1
      · rw [h2] at h1; cases h1
      · omega
    · rw [if_neg h1]
      refine ⟨_, rfl, rfl, fun _ => ?_⟩
      rw [not_or] at h1
      rw [if_pos ⟨by simpa using h1.1, by omega⟩, pdeg_pos hn]
      rfl

theorem natDegree_mod {g : F[X]} (hn : 0 < g.natDegree) (f : F[X]) : (f % g).natDegree < g.natDegree := natDegree_mod_lt f (by omega)

theorem mod_small {g f : F[X]} (hf : f.natDegree < g.natDegree) : f % g = f := by
  have hg : g ≠ 0 := fun h => by rw [h, natDegree_zero] at hf; omega
  rw [Polynomial.mod_eq_self_iff hg]
  exact degree_lt_degree hf

theorem pow_step (t a g : F[X]) (s i : Nat) : t * a ^ (s * i) % g * (a ^ s % g) % g = t * a ^ (s * (i + 1)) % g := by
  rw [← Polynomial.mul_mod, mul_assoc, ← pow_add, mul_add, mul_one]

/-- `gen_pows` without the upper products. -/
theorem genPows_false (fft : Bool) (cross : Nat) (upper : NVec F[X]) {t a g : F[X]} (s : Nat) {l : Nat} (hn : 0 < g.natDegree)
    (ht : t.natDegree < g.natDegree) (ha : a.natDegree < g.natDegree) (hl : 0 < l) :
    ∃ p, genPows fft cross upper t a s g l false = .ok (⟨l, p⟩, upper) ∧ ∀ i, i < l → p i = t * a ^ (s * i) % g := by
  unfold genPows
  dsimp only
  have hp := pdeg_pos hn
  rw [if_neg (by omega), if_neg (by have := (pdeg_lt_pdeg (a := a) hn).2 ha; omega), if_neg (by omega)]
  simp only [Bool.false_eq_true, if_false]
  obtain ⟨p, e, h⟩ := loopOut_run (fun k (x : Nat → F[X]) => ∀ i, i ≤ k → x i = t * a ^ (s * i) % g)
    (f := fun i pow => if pdeg g ≤ pdeg (pow i) then .error else .ok (write (i + 1) (pow i * (a ^ s % g) % g) pow)) (s := write 0 t fun _ => 0) (l - 1)
    (fun i hi => by rw [Nat.le_zero.1 hi, write_at, if_pos rfl, Nat.mul_zero, pow_zero, mul_one, mod_small ht]) (fun k x hk hx => by
      have hd : (x k).natDegree < g.natDegree := by rw [hx k le_rfl]; exact natDegree_mod hn _
      refine ⟨_, if_neg (by have := (pdeg_lt_pdeg (a := x k) hn).2 hd; omega), fun i hi => ?_⟩
      rw [write_at]
      by_cases h : i = k + 1
      · rw [if_pos h, hx k le_rfl, pow_step, h]
      · rw [if_neg h, hx i (by omega)])
  rw [e]
  exact ⟨p, rfl, fun i hi => h i (by omega)⟩

/-- `gen_pows` with the upper products. -/
theorem genPows_true (fft : Bool) (cross : Nat) {t a g : F[X]} (s : Nat) {l : Nat} (hn : 0 < g.natDegree)
    (ht : t.natDegree < g.natDegree) (ha : a.natDegree < g.natDegree) (hl : 0 < l) :
    ∃ p q, genPows fft cross ⟨0, fun _ => 0⟩ t a s g l true = .ok (⟨l, p⟩, ⟨l, q⟩) ∧ (∀ i, i < l → p i = t * a ^ (s * i) % g) ∧
      ∀ i, i < l → q i = upv fft cross g (t * a ^ (s * i) % g) := by
  unfold genPows
  dsimp only
  have hp := pdeg_pos hn
  rw [if_neg (by omega), if_neg (by have := (pdeg_lt_pdeg (a := a) hn).2 ha; omega), if_neg (by omega)]
  simp only [if_true]
  obtain ⟨x, e, h1, h2, h3⟩ := loopOut_run (fun k (x : (Nat → F[X]) × (Nat → F[X])) => (∀ i, i ≤ k → x.1 i = t * a ^ (s * i) % g) ∧
      (∀ i, i < k → x.2 i = upv fft cross g (t * a ^ (s * i) % g)) ∧ ∀ i, k ≤ i → x.2 i = 0)
    (f := fun i (x : (Nat → F[X]) × (Nat → F[X])) =>
          andThen (mulModLocal fft cross (a ^ s % g) g (x.1 i) (x.2 i)) fun y =>
          .ok (write (i + 1) y.1 x.1, write i (preverse y.2 (pdeg g - 2)) x.2)) (s := (write 0 t fun _ => 0, fun _ => 0)) (l - 1)
    ⟨fun i hi => by
      show write 0 t (fun _ => 0) i = _
      rw [Nat.le_zero.1 hi, write_at, if_pos rfl, Nat.mul_zero, pow_zero, mul_one, mod_small ht], fun i hi => absurd hi (by omega), fun _ _ => rfl⟩
    (fun k x hk ⟨hx1, hx2, hx3⟩ => by
      have hd : (x.1 k).natDegree < g.natDegree := by rw [hx1 k le_rfl]; exact natDegree_mod hn _
      obtain ⟨y, ey, y1, y2⟩ := mulModLocal_spec fft cross (a ^ s % g) g (x.1 k) (x.2 k) hn hd
      rw [ey]
      refine ⟨_, rfl, fun i hi => ?_, fun i hi => ?_, fun i hi => ?_⟩
      · dsimp only
        rw [write_at]
        by_cases h : i = k + 1
        · rw [if_pos h, y1, hx1 k le_rfl, pow_step, h]
        · rw [if_neg h, hx1 i (by omega)]
      · dsimp only
        rw [write_at]
        by_cases h : i = k
        · rw [if_pos h, y2 (hx3 k le_rfl), hx1 k le_rfl, h]
        · rw [if_neg h, hx2 i (by omega)]
      · dsimp only
        rw [write_at, if_neg (by omega), hx3 i (by omega)])
  rw [e]
  have hd : (x.1 (l - 1)).natDegree < g.natDegree := by rw [h1 _ le_rfl]; exact natDegree_mod hn _
  obtain ⟨y, ey, -, y2⟩ := mulModLocal_spec fft cross (a ^ s % g) g (x.1 (l - 1)) (x.2 (l - 1)) hn hd
  simp only [andThen, ey]
  refine ⟨_, _, rfl, fun i hi => h1 i (by omega), fun i hi => ?_⟩
  rw [write_at]
  by_cases h : i = l - 1
  · rw [if_pos h, y2 (h3 _ le_rfl), h1 _ le_rfl, h]
  · rw [if_neg h, h2 i (by omega)]

/-! ### Blocks -/

theorem colBlocks_spec (len m : Nat) (u : F[X]) (j : Nat) (hj : j < len) (k : Nat) :
    ((colBlocks len m u).2 (len - 1 - j)).coeff k = if k < 2 * m then u.coeff (2 * m * j + k) else 0 := by
  have inv : ∀ t, t ≤ len →
      let x := forN t (fun j (x : Int × (Nat → F[X])) =>
        let dg := min (2 * (m : Int) - 1) (pdeg u - x.1)
        (x.1 + (dg + 1), write (len - j - 1) (ofCoeffs (2 * m) fun k => if (k : Int) ≤ dg then u.coeff (x.1 + k).toNat else 0) x.2)) (0, fun _ => 0)
      x.1 = min ((2 * m * t : Nat) : Int) (pdeg u + 1) ∧ ∀ j, j < t → ∀ k, (x.2 (len - 1 - j)).coeff k = if k < 2 * m then u.coeff (2 * m * j + k) else 0 := by
    intro t
    induction t with
    | zero =>
      intro _
      refine ⟨?_, fun j hj => absurd hj (by omega)⟩
      have := Utils.pdeg_ge u
      show (0 : Int) = _
      rw [Nat.mul_zero]
      omega
    | succ t ih =>
      intro ht
      obtain ⟨i1, i2⟩ := ih (by omega)
      generalize hx : forN t (fun j (x : Int × (Nat → F[X])) =>
        let dg := min (2 * (m : Int) - 1) (pdeg u - x.1)
        (x.1 + (dg + 1), write (len - j - 1) (ofCoeffs (2 * m) fun k => if (k : Int) ≤ dg then u.coeff (x.1 + k).toNat else 0) x.2)) (0, fun _ => 0) = x at i1 i2
      have hpd := Utils.pdeg_ge u
      have hL : 2 * m * (t + 1) = 2 * m * t + 2 * m := by ring
      intro y
      have hy : y = (x.1 + (min (2 * (m : Int) - 1) (pdeg u - x.1) + 1), write (len - t - 1) (ofCoeffs (2 * m) fun k =>
          if (k : Int) ≤ min (2 * (m : Int) - 1) (pdeg u - x.1) then u.coeff (x.1 + k).toNat else 0) x.2) := by rw [← hx]; rfl
      rw [hy]
      refine ⟨?_, fun j hj k => ?_⟩
      · dsimp only
        rw [hL]
        generalize 2 * m * t = T at *
        push_cast; omega
      · dsimp only
        rw [write_at]
        by_cases h : j = t
        · subst h
          rw [if_pos (by omega), ofCoeffs_coeff]
          generalize 2 * m * j = T at *
          by_cases hk : k < 2 * m
          · rw [if_pos hk, if_pos hk]
            by_cases hu : pdeg u < ((T + k : Nat) : Int)
            · rw [if_neg (by push_cast at hu ⊢; omega), coeff_of_pdeg_lt hu]
            · rw [if_pos (by push_cast at hu; omega)]
              congr 1
              push_cast at hu
              omega
          · rw [if_neg hk, if_neg hk]
        · rw [if_neg (by omega), i2 j (by omega)]
  exact (inv len le_rfl).2 j hj k

/-- The padding, when `deg g > 2 m`. -/
theorem pad_spec (n m : Nat) (hm : 0 < m) (hn : 2 * m < n) :
    ∃ pad : Nat, 2 * (m : Int) - ((n : Int) - 2 * m - 1).tmod (2 * m) = pad ∧ 2 * m * ceilDiv n (2 * m) = n - 1 + pad := by
  have h1 : ((n : Int) - 2 * m - 1).tmod (2 * m) = (((n - 2 * m - 1) % (2 * m) : Nat) : Int) := by
    rw [show (n : Int) - 2 * m - 1 = ((n - 2 * m - 1 : Nat) : Int) by omega, show (2 * (m : Int)) = ((2 * m : Nat) : Int) by push_cast; rfl]
    rfl
  rw [h1]
  have h2 := Nat.mod_lt (n - 2 * m - 1) (show 0 < 2 * m by omega)
  have h3 := Nat.div_add_mod (n - 2 * m - 1) (2 * m)
  refine ⟨2 * m - (n - 2 * m - 1) % (2 * m), by omega, ?_⟩
  have h4 : ceilDiv n (2 * m) = (n - 2 * m - 1) / (2 * m) + 2 := by
    unfold ceilDiv
    refine Nat.div_eq_of_lt_le ?_ ?_
    · rw [mul_comm]
      rw [Nat.mul_add]
      omega
    · rw [Nat.add_mul, Nat.add_mul, mul_comm ((n - 2 * m - 1) / (2 * m)) (2 * m)]
      omega
  rw [h4, Nat.mul_add]
  omega

theorem rowBlock_spec (n m pad : Nat) (α : F[X]) (j k : Nat) :
    (rowBlock n m (pad : Int) α j).coeff k = if k < 2 * m then (X ^ pad * preverse α ((n : Int) - 1)).coeff (2 * m * j + k) else 0 := by
  unfold rowBlock coeffZ
  rw [ofCoeffs_coeff]
  by_cases hk : k < 2 * m
  · rw [if_pos hk, if_pos hk, coeff_X_pow_mul']
    generalize 2 * m * j + k = T
    by_cases h : pad ≤ T
    · rw [if_pos h, if_neg (by omega)]; congr 1; omega
    · rw [if_neg h, if_pos (by omega)]
  · rw [if_neg hk, if_neg hk]

theorem getQuos_spec {inv : Nat → (Nat × Nat → F) → Option (Nat × Nat → F)} (hinv : InvOk inv) {g : F[X]} {m n l : Nat} (hm : 0 < m) (hn : 2 * m < n)
    (hg : g.natDegree = n) (α U : Nat → F[X]) (h1 : ∃ u k, u < l ∧ 0 < k ∧ k < n ∧ (α u).coeff k ≠ 0) (h2 : ∃ v k, v < l ∧ k < n ∧ (U v).coeff k ≠ 0)
    (hinj : ∀ r r' : Nat, r ≤ 4 * m - 2 → r' ≤ 4 * m - 2 → (r : F) = (r' : F) → r = r') :
    ∃ quos, getQuos inv ⟨l, α⟩ ⟨l, U⟩ g m = .ok quos ∧
      ∀ u v s, u < l → v < l → s < 2 * m → (quos (u, v)).coeff s = (preverse (α u) ((n : Int) - 1) * U v).coeff (n - 2 - s) := by
  obtain ⟨pad, hp, hlen⟩ := pad_spec n m hm hn
  unfold getQuos
  dsimp only
  rw [hg, hp]
  generalize hlen' : ceilDiv n (2 * m) = len at hlen
  have hlpos : 0 < len := Nat.pos_of_ne_zero fun h => by rw [h, Nat.mul_zero] at hlen; omega
  have hpad : 0 < pad ∧ pad ≤ 2 * m := by
    have := hp
    have h1 := Int.tmod_lt_of_pos ((n : Int) - 2 * m - 1) (show (0 : Int) < 2 * m by omega)
    have h2 := Int.tmod_nonneg (2 * (m : Int)) (show (0 : Int) ≤ (n : Int) - 2 * m - 1 by omega)
    omega
  set mat1 : PMat F[X] := ⟨l, len, fun x => rowBlock n m (pad : Int) (α x.1) x.2⟩
  set mat2 : PMat F[X] := ⟨len, l, fun x => (colBlocks len m (U x.2)).2 x.1⟩
  have d1 : deg mat1 < ((2 * m : Nat) : Int) := (deg_lt_iff mat1 (2 * m)).2 fun i j hi hj k hk => by
    show (rowBlock n m (pad : Int) (α i) j).coeff k = 0
    rw [rowBlock_spec, if_neg (by omega)]
  have d2 : deg mat2 < ((2 * m : Nat) : Int) := (deg_lt_iff mat2 (2 * m)).2 fun i j hi hj k hk => by
    have hi : i < len := hi
    show ((colBlocks len m (U j)).2 i).coeff k = 0
    have := colBlocks_spec len m (U j) (len - 1 - i) (by omega) k
    rw [show len - 1 - (len - 1 - i) = i by omega] at this
    rw [this, if_neg (by omega)]
  have e1 : 0 ≤ deg mat1 := by
    by_contra hc
    obtain ⟨u, k, hu, hk0, hk, hne⟩ := h1
    have hz := (deg_lt_iff mat1 0).1 (by omega)
    -- the coefficient n - 1 - k of the reverse, at position n - 1 - k + pad
    have hpos : n - 1 - k + pad < 2 * m * len := by omega
    have hj : (n - 1 - k + pad) / (2 * m) < len := Nat.div_lt_of_lt_mul hpos
    have := hz u ((n - 1 - k + pad) / (2 * m)) hu hj ((n - 1 - k + pad) % (2 * m)) (Nat.zero_le _)
    change (rowBlock n m (pad : Int) (α u) _).coeff _ = 0 at this
    rw [rowBlock_spec, if_pos (Nat.mod_lt _ (by omega)), Nat.div_add_mod, coeff_X_pow_mul', if_pos (by omega), preverse_coeff, if_pos (by omega)] at this
    refine hne ?_
    rw [← this]; congr 1; omega
  have e2 : 0 ≤ deg mat2 := by
    by_contra hc
    obtain ⟨v, k, hv, hk, hne⟩ := h2
    have hz := (deg_lt_iff mat2 0).1 (by omega)
    have hj : k / (2 * m) < len := Nat.div_lt_of_lt_mul (by omega)
    have := hz (len - 1 - k / (2 * m)) v (show len - 1 - k / (2 * m) < len from Nat.lt_of_le_of_lt (Nat.sub_le _ _) (Nat.sub_lt hlpos Nat.one_pos)) hv (k % (2 * m)) (Nat.zero_le _)
    change ((colBlocks len m (U v)).2 _).coeff _ = 0 at this
    rw [colBlocks_spec _ _ _ _ hj, if_pos (Nat.mod_lt _ (by omega)), Nat.div_add_mod] at this
    exact hne this
  obtain ⟨r, er, ⟨-, -, r1⟩, -, -, r2⟩ := mulSpecial_spec hinv mat1 mat2 rfl e1 e2 fun r r' hr hr' => hinj r r' (by omega) (by omega)
  rw [er]
  refine ⟨_, rfl, fun u v s hu hv hs => ?_⟩
  have hw := window_blocks (2 * m) len (by omega) (X ^ pad * preverse (α u) ((n : Int) - 1)) (U v) (fun j => rowBlock n m (pad : Int) (α u) j)
    (fun j => (colBlocks len m (U v)).2 (len - 1 - j)) (fun j _ k => rowBlock_spec n m pad (α u) j k) (fun j hj k => colBlocks_spec len m (U v) j hj k) hlpos
    (2 * m - 1 - s) (by omega)
  have hidx : 2 * m * (len - 1) + (2 * m - 1 - s) = n - 2 - s + pad := by
    rw [Nat.mul_sub, Nat.mul_one]; omega
  rw [hidx, mul_assoc, coeff_X_pow_mul] at hw
  have s1 : (r.1.e (u, v)).coeff (2 * m - 1 - s) =
      (∑ j ∈ Finset.range len, rowBlock n m (pad : Int) (α u) j * (colBlocks len m (U v)).2 (len - 1 - (len - 1 - j))).coeff (2 * m - 1 - s) := by
    refine congrArg (fun p : F[X] => p.coeff (2 * m - 1 - s)) ((r1 u v hu hv).trans (Finset.sum_congr rfl fun j hj => ?_))
    have hj : j < len := Finset.mem_range.1 hj
    exact congrArg (fun t => rowBlock n m (pad : Int) (α u) j * (colBlocks len m (U v)).2 t) (show j = len - 1 - (len - 1 - j) by omega)
  have s2 : (r.2.e (u, v)).coeff (2 * m + (2 * m - 1 - s)) =
      (∑ j ∈ Finset.range len, if j + 1 < len then rowBlock n m (pad : Int) (α u) j * (colBlocks len m (U v)).2 (len - 1 - (len - 2 - j)) else 0).coeff
        (2 * m + (2 * m - 1 - s)) := by
    refine congrArg (fun p : F[X] => p.coeff (2 * m + (2 * m - 1 - s))) ((r2 u v hu hv).trans (Finset.sum_congr rfl fun j hj => ?_))
    have hj : j < len := Finset.mem_range.1 hj
    show rowBlock n m (pad : Int) (α u) j * (if j + 1 < len then (colBlocks len m (U v)).2 (j + 1) else 0) = _
    by_cases h : j + 1 < len
    · rw [if_pos h, if_pos h]
      exact congrArg (fun t => rowBlock n m (pad : Int) (α u) j * (colBlocks len m (U v)).2 t) (show j + 1 = len - 1 - (len - 2 - j) by omega)
    · rw [if_neg h, if_neg h, mul_zero]
  rw [hw, ← s1, ← s2, preverse_coeff, if_pos (by omega), coeff_add, ptrunc_coeff, if_pos (by omega), pshift_coeff, if_pos (by omega)]
  have i1 : (2 * (m : Int) - 1 - (s : Int)).toNat = 2 * m - 1 - s := by omega
  have i2 : (((2 * m - 1 - s : Nat) : Int) - -(2 * (m : Int))).toNat = 2 * m + (2 * m - 1 - s) := by omega
  rw [i1, i2]

end PML.Ntl.BlockSeq
