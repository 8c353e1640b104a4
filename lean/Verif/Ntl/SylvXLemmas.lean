import Verif.Ntl.SylvXSpec
import Verif.Ntl.StructXLike

/-! # Sylvester matrices over `K[X]`: lemmas -/

namespace PML.Ntl.SylvX

open Polynomial PML.Ntl.Utils PML.Ntl.Inv PML.Ntl.Solve PML.Ntl.Struct PML.Ntl.Bivar PML.Ntl.FftPoints PML.Ntl.StructX

variable {F : Type} [Field F]

theorem andThen_eq {α β : Type} {x : Out α} {f : α → Out β} {w : β} (h : andThen x f = .ok w) : ∃ y, x = .ok y ∧ f y = .ok w := by
  cases x with
  | ok y => exact ⟨y, rfl, h⟩
  | _ => exact absurd h (by simp [andThen])

/-- Two vectors with the same entries. -/
def Same (u v : PVec F) : Prop := u.len = v.len ∧ ∀ i, i < v.len → u.at' i = v.at' i

theorem Same.degX {u v : PVec F} (h : Same u v) : u.degX = v.degX := by
  refine le_antisymm ((degX_le _ _).2 ⟨degX_ge _, fun i hi => ?_⟩) ((degX_le _ _).2 ⟨degX_ge _, fun i hi => ?_⟩)
  · rw [h.2 i (by rw [← h.1]; exact hi)]
    exact degX_get _ (by rw [← h.1]; exact hi)
  · rw [← h.2 i hi]
    exact degX_get _ (by rw [h.1]; exact hi)

theorem Same.poly {u v : PVec F} (h : Same u v) : u.poly = v.poly := by
  unfold PVec.poly
  rw [h.1]
  exact Finset.sum_congr rfl fun i hi => by rw [h.2 i (Finset.mem_range.1 hi)]

theorem Same.trunc {u v : PVec F} (h : Same u v) (s : Nat) : Same (truncV u s) (truncV v s) :=
  ⟨h.1, fun i hi => by show ptrunc _ _ = ptrunc _ _; rw [h.2 i hi]⟩

theorem Same.room {u u' v v' : PVec F} (hu : Same u u') (hv : Same v v') (h : Room u v) : Room u' v' := by
  unfold Room at h ⊢
  rw [← hu.degX, ← hv.degX]
  rcases h with h | ⟨h1, h2, h3⟩ | ⟨h1, h2, h3⟩
  · exact .inl h
  · exact .inr (.inl ⟨h1, h2, fun n hn => by rw [← hu.2 n (by omega)]; exact h3 n (by rw [hu.1, hn])⟩)
  · exact .inr (.inr ⟨h1, h2, fun n hn => by rw [← hv.2 n (by omega)]; exact h3 n (by rw [hv.1, hn])⟩)

theorem Same.symm {u v : PVec F} (h : Same u v) : Same v u := ⟨h.1.symm, fun i hi => (h.2 i (by rw [← h.1]; exact hi)).symm⟩

theorem part_same {t v : PVec F} {off n : Nat} (h : off + n ≤ v.len) : ∃ w, part t v off n = .ok w ∧ Same w (secondPart v off n) := by
  obtain ⟨w, h1, h2, h3⟩ := part_ok (t := t) h
  exact ⟨w, h1, h2, h3⟩

theorem rev_same {t v : PVec F} : ∃ w, rev t v v.len = .ok w ∧ Same w (reversed v) := by
  obtain ⟨w, h1, h2, h3⟩ := rev_ok (t := t) (v := v) (n := v.len) (le_refl _)
  exact ⟨w, h1, h2, h3⟩

theorem reversed_degX (v : PVec F) : (reversed v).degX = v.degX := by
  refine le_antisymm ((degX_le _ _).2 ⟨degX_ge _, fun i hi => degX_get v (i := v.len - 1 - i) ?_⟩) ((degX_le _ _).2 ⟨degX_ge _, fun i hi => ?_⟩)
  · have : i < v.len := hi
    omega
  · have h := degX_get (reversed v) (i := v.len - 1 - i) (by show v.len - 1 - i < v.len; omega)
    have e : (reversed v).at' (v.len - 1 - i) = v.at' i := by
      show v.at' (v.len - 1 - (v.len - 1 - i)) = v.at' i
      congr 1
      omega
    rwa [e] at h

/-! ### The substitution -/

theorem aput_loop (N : Nat) (off lo hi : Int) (v : Int → F) (e : Nat → F) (h0 : 0 ≤ off + lo) (h : off + hi < N) :
    ∃ e', loopI lo hi (fun j e => aput N e (off + j) (v j)) e = .ok e' := by
  unfold loopI
  obtain ⟨e', h, -⟩ := loopOut_inv (f := fun (k : Nat) e => aput N e (off + (lo + k)) (v (lo + k))) (s := e) (fun _ _ => True) (hi + 1 - lo).toNat trivial
    (fun k t hk _ => ⟨_, if_pos (by omega), trivial⟩)
  exact ⟨e', h⟩

theorem kronBlock_total (N : Nat) (degX off : Int) (x : F[X]) (e : Nat → F) (h0 : 0 ≤ off) (h1 : off + degX < N) (h2 : off + Bivar.pdeg x < N) :
    ∃ e', kronBlock N degX off x e = .ok e' := by
  unfold kronBlock
  dsimp only
  split
  · obtain ⟨e', h⟩ := aput_loop N off 0 (Bivar.pdeg x) (fun j => x.coeff j.toNat) e (by omega) h2
    rw [h, Bivar.andThen_ok]
    exact aput_loop N off _ _ (fun _ => 0) e' (by omega) h1
  · exact aput_loop N off _ _ (fun _ => 0) e (by omega) h1

/-- `to_kronecker` succeeds when the entries but the last one are of degree at most `D + 1`. -/
theorem toKron_total (e0 : Nat → F) {u : PVec F} {D : Nat} (h : u.degX ≤ D + 1) (hl : ∀ n, u.len = n + 1 → Bivar.pdeg (u.at' n) ≤ D) :
    ∃ x, toKron e0 u (D : Int) = .ok x := by
  unfold toKron
  split
  · exact ⟨0, rfl⟩
  rename_i h0
  dsimp only
  have hN : ((D : Int) + 1) * ((u.len : Int) - 1 + 1) = ((u.len * (D + 1) : Nat) : Int) := by push_cast; ring
  rw [hN, if_neg (by omega), Int.toNat_natCast, loopI_zero]
  obtain ⟨s, e, -⟩ := loopOut_inv (f := fun (i : Nat) (s : Int × (Nat → F)) => andThen (u.get i) fun x =>
      andThen (kronBlock (u.len * (D + 1)) D s.1 x s.2) fun e => .ok (s.1 + ((D : Int) + 1), e)) (s := ((0 : Int), e0))
      (fun k s => s.1 = ((k * (D + 1) : Nat) : Int)) u.len (by simp)
      (by
        intro k s hk hs
        rw [get_ok' hk, Bivar.andThen_ok]
        have hle : (k + 1) * (D + 1) ≤ u.len * (D + 1) := Nat.mul_le_mul_right _ hk
        have hk1 : (k + 1) * (D + 1) = k * (D + 1) + (D + 1) := by rw [Nat.add_mul, Nat.one_mul]
        have hp : (k * (D + 1) : Nat) + Bivar.pdeg (u.at' k) < ((u.len * (D + 1) : Nat) : Int) := by
          by_cases hc : u.len = k + 1
          · have := hl k hc
            omega
          · have h2 : (k + 2) * (D + 1) ≤ u.len * (D + 1) := Nat.mul_le_mul_right _ (by omega)
            have hk2 : (k + 2) * (D + 1) = k * (D + 1) + 2 * (D + 1) := by rw [Nat.add_mul]
            have := degX_get u hk
            omega
        obtain ⟨e', he⟩ := kronBlock_total (u.len * (D + 1)) D s.1 (u.at' k) s.2 (by omega) (by omega) (by omega)
        rw [he, Bivar.andThen_ok]
        exact ⟨_, rfl, by show s.1 + ((D : Int) + 1) = _; rw [hs]; push_cast; ring⟩)
  rw [e, Bivar.andThen_ok]
  exact ⟨_, rfl⟩

theorem loopOut_each {σ : Type} {f : Nat → σ → Out σ} {s w : σ} {m : Nat} (h : loopOut m f s = .ok w) {k : Nat} (hk : k < m) :
    ∃ t t', loopOut k f s = .ok t ∧ f k t = .ok t' := by
  induction m generalizing w with
  | zero => omega
  | succ m ih =>
    obtain ⟨t, h1, h2⟩ := andThen_eq (show andThen (loopOut m f s) (fun t => f m t) = .ok w from h)
    rcases Nat.lt_succ_iff_lt_or_eq.1 hk with h3 | h3
    · exact ih h1 h3
    · subst h3
      exact ⟨t, w, h1, h2⟩

/-- `to_kronecker` with step 0 writes outside of an empty array. -/
theorem toKron_neg_one (e0 : Nat → F) {u : PVec F} {n : Nat} (hn : n < u.len) (h : 0 ≤ Bivar.pdeg (u.at' n)) : ∀ x, toKron e0 u (-1) ≠ .ok x := by
  intro x hx
  unfold toKron at hx
  rw [if_neg (by omega)] at hx
  dsimp only at hx
  rw [show (-1 + 1 : Int) * ((u.len : Int) - 1 + 1) = 0 by ring, if_neg (by omega), loopI_zero] at hx
  obtain ⟨s, h1, -⟩ := andThen_eq hx
  obtain ⟨t, t', h2, h3⟩ := loopOut_each h1 hn
  rw [get_ok' hn, Bivar.andThen_ok] at h3
  have inv : ∀ k t, loopOut k (fun (i : Nat) (s : Int × (Nat → F)) => andThen (u.get i) fun x =>
      andThen (kronBlock (0 : Int).toNat (-1) s.1 x s.2) fun e => .ok (s.1 + (-1 + 1 : Int), e)) ((0 : Int), e0) = .ok t → t.1 = 0 := by
    intro k
    induction k with
    | zero =>
      intro t ht
      cases ht
      rfl
    | succ k ih =>
      intro t ht
      obtain ⟨t', h4, h5⟩ := andThen_eq (show andThen (loopOut k _ _) _ = .ok t from ht)
      obtain ⟨y, -, h6⟩ := andThen_eq h5
      obtain ⟨z, -, h7⟩ := andThen_eq h6
      cases h7
      have := ih t' h4
      show t'.1 + (-1 + 1 : Int) = 0
      omega
  have h0 := inv n t h2
  rw [h0, show (0 : Int) = ((0 : Nat) : Int) from rfl, Int.toNat_natCast, kronBlock_ub 0 (-1) 0 _ _ (le_refl _) (by push_cast; omega)] at h3
  exact absurd h3 (by simp [andThen])

theorem toKron_neg_two (e0 : Nat → F) {u : PVec F} (hn : 0 < u.len) : ∀ x, toKron e0 u (-2) ≠ .ok x := by
  intro x hx
  unfold toKron at hx
  rw [if_neg (by omega)] at hx
  dsimp only at hx
  rw [if_pos (by omega)] at hx
  exact absurd hx (by simp)

theorem degX_zero {u : PVec F} (h : u.degX = -1) : u.poly = 0 := by
  ext1 k
  rw [poly_coeff, coeff_zero]
  split
  · rename_i hk
    exact degX_neg h hk
  · rfl

theorem toKron_zero (e0 : Nat → F) {u : PVec F} (h : u.degX = -1) (D : Nat) : toKron e0 u (D : Int) = .ok 0 := by
  rw [toKron_ok e0 (by omega), degX_zero h, eval_zero]

theorem degX_attained {u : PVec F} (h : 0 ≤ u.degX) : ∃ i, i < u.len ∧ Bivar.pdeg (u.at' i) = u.degX := by
  by_contra hc
  have := (degX_le u (u.degX - 1)).2 ⟨by omega, fun i hi => by
    have h1 := degX_get u hi
    have h2 : Bivar.pdeg (u.at' i) ≠ u.degX := fun e => hc ⟨i, hi, e⟩
    omega⟩
  omega

theorem zero_degX (P Q : Polynomial F[X]) (h : P = 0 ∨ Q = 0) (D : Nat) : DegXLe (P * Q) D := by
  rcases h with h | h <;> · subst h; intro i j _; simp

/-- The product of two substitutions with room for both. -/
theorem room_mul (e0 : Nat → F) {u v : PVec F} (h : Room u v) :
    ∃ D : Nat, u.degX + v.degX = D ∧ DegXLe (u.poly * v.poly) D ∧
      ∃ x y, toKron e0 u (u.degX + v.degX) = .ok x ∧ toKron e0 v (u.degX + v.degX) = .ok y ∧ x * y = (u.poly * v.poly).eval (X ^ (D + 1)) ∧
        ((0 ≤ u.degX ∧ 0 ≤ v.degX ∧ x = u.poly.eval (X ^ (D + 1)) ∧ y = v.poly.eval (X ^ (D + 1))) ∨ ((x = 0 ∨ y = 0) ∧ u.poly * v.poly = 0)) := by
  rcases h with ⟨h1, h2⟩ | ⟨h1, h2, h3⟩ | ⟨h1, h2, h3⟩
  · obtain ⟨a, ha⟩ := Int.eq_ofNat_of_zero_le h1
    obtain ⟨b, hb⟩ := Int.eq_ofNat_of_zero_le h2
    have hD : u.degX + v.degX = ((a + b : Nat) : Int) := by omega
    refine ⟨a + b, hD, fun i j hj => mul_degX (degX_poly (le_of_eq ha)) (degX_poly (le_of_eq hb)) i j (by omega), _, _, ?_, ?_, (eval_mul ..).symm,
      .inl ⟨h1, h2, rfl, rfl⟩⟩
    · rw [hD, toKron_ok e0 (by omega)]
    · rw [hD, toKron_ok e0 (by omega)]
  · obtain ⟨a, ha⟩ := Int.eq_ofNat_of_zero_le (show 0 ≤ u.degX by omega)
    have hD : u.degX + v.degX = ((a - 1 : Nat) : Int) := by omega
    obtain ⟨x, hx⟩ := toKron_total e0 (u := u) (D := a - 1) (by omega) (fun n hn => by have := h3 n hn; omega)
    refine ⟨a - 1, hD, zero_degX _ _ (.inr (degX_zero h1)) _, x, 0, ?_, ?_, ?_, .inr ⟨.inr rfl, ?_⟩⟩
    · rw [hD, hx]
    · rw [hD, toKron_zero e0 h1]
    · rw [degX_zero h1]; simp
    · rw [degX_zero h1, mul_zero]
  · obtain ⟨a, ha⟩ := Int.eq_ofNat_of_zero_le (show 0 ≤ v.degX by omega)
    have hD : u.degX + v.degX = ((a - 1 : Nat) : Int) := by omega
    obtain ⟨x, hx⟩ := toKron_total e0 (u := v) (D := a - 1) (by omega) (fun n hn => by have := h3 n hn; omega)
    refine ⟨a - 1, hD, zero_degX _ _ (.inl (degX_zero h1)) _, 0, x, ?_, ?_, ?_, .inr ⟨.inl rfl, ?_⟩⟩
    · rw [hD, toKron_zero e0 h1]
    · rw [hD, hx]
    · rw [degX_zero h1]; simp
    · rw [degX_zero h1, zero_mul]

theorem room_of_left (e0 : Nat → F) {u : PVec F} {x : F[X]} (h0 : 0 ≤ u.degX) (h : toKron e0 u (u.degX + -1) = .ok x) :
    1 ≤ u.degX ∧ ∀ n, u.len = n + 1 → Bivar.pdeg (u.at' n) < u.degX := by
  obtain ⟨i, hi, he⟩ := degX_attained h0
  by_cases hd : u.degX = 0
  · rw [hd] at h
    exact absurd h (toKron_neg_one e0 hi (by omega) x)
  · refine ⟨by omega, fun n hn => ?_⟩
    by_contra hc
    obtain ⟨a, ha⟩ := Int.eq_ofNat_of_zero_le h0
    rw [show u.degX + -1 = ((a - 1 : Nat) : Int) by omega, C89_to_kronecker_overflow e0 u (a - 1) n hn (by omega)] at h
    exact absurd h (by simp)

/-- If both substitutions succeed, there is room for both. -/
theorem room_of_ok (e0 : Nat → F) {u v : PVec F} (hl : 0 < u.len ∨ 0 < v.len) {x y : F[X]} (hx : toKron e0 u (u.degX + v.degX) = .ok x)
    (hy : toKron e0 v (u.degX + v.degX) = .ok y) : Room u v := by
  have hu := degX_ge u
  have hv := degX_ge v
  by_cases h1 : 0 ≤ u.degX <;> by_cases h2 : 0 ≤ v.degX
  · exact .inl ⟨h1, h2⟩
  · have h2 : v.degX = -1 := by omega
    rw [h2] at hx
    exact .inr (.inl ⟨h2, room_of_left e0 h1 hx⟩)
  · have h1 : u.degX = -1 := by omega
    rw [h1, add_comm] at hy
    exact .inr (.inr ⟨h1, room_of_left e0 h2 hy⟩)
  · rw [show u.degX + v.degX = -2 by omega] at hx hy
    rcases hl with hl | hl
    · exact absurd hx (toKron_neg_two e0 hl x)
    · exact absurd hy (toKron_neg_two e0 hl y)

/-! ### The objects -/

structure Inv (A B : PVec F) (o : Sylv F) : Prop where
  la : A.len = o.dAy + 1
  lb : B.len = o.dBy + 1
  na : A.at' o.dAy ≠ 0
  nb : B.at' o.dBy ≠ 0
  n : o.n = o.dAy + o.dBy
  dA : o.dAx = A.degX
  dB : o.dBx = B.degX
  a : o.a = A
  b : o.b = B
  rA : Same o.revA (reversed A)
  rB : Same o.revB (reversed B)

theorem made_inv {A B : PVec F} {o : Sylv F} (h : Made A B o) : Inv A B o := by
  obtain ⟨g, h⟩ := h
  unfold Sylv.make at h
  obtain ⟨x, h1, h2⟩ := andThen_eq h
  obtain ⟨bad, h3, h4⟩ := andThen_eq h2
  by_cases hb : bad = true
  · rw [if_pos hb] at h4
    exact absurd h4 (by simp)
  rw [if_neg hb] at h4
  obtain ⟨rA, h5, h6⟩ := andThen_eq h4
  obtain ⟨rB, h7, h8⟩ := andThen_eq h6
  have hx0 : x ≠ 0 := by
    intro e
    rw [if_pos e] at h3
    cases h3
    exact hb rfl
  rw [if_neg hx0] at h3
  obtain ⟨y, h9, h10⟩ := andThen_eq h3
  have hy0 : y ≠ 0 := by
    intro e
    cases h10
    exact hb (by simp [e])
  have lA : 0 < A.len := by
    by_contra hc
    unfold PVec.get at h1
    rw [if_neg (by omega)] at h1
    exact absurd h1 (by simp)
  have lB : 0 < B.len := by
    by_contra hc
    unfold PVec.get at h9
    rw [if_neg (by omega)] at h9
    exact absurd h9 (by simp)
  rw [show (A.len : Int) - 1 = ((A.len - 1 : Nat) : Int) by omega, get_ok' (by omega)] at h1
  rw [show (B.len : Int) - 1 = ((B.len - 1 : Nat) : Int) by omega, get_ok' (by omega)] at h9
  cases h1
  cases h9
  obtain ⟨w, e1, e2⟩ := rev_same (t := g.old) (v := A)
  obtain ⟨w', e3, e4⟩ := rev_same (t := g.old) (v := B)
  rw [e1] at h5
  rw [e3] at h7
  cases h5
  cases h7
  cases h8
  exact ⟨by dsimp only; omega, by dsimp only; omega, hx0, hy0, rfl, rfl, rfl, rfl, rfl, e2, e4⟩

/-! ### The entries -/

theorem shift_coeff (A : PVec F) (i j : Nat) : (A.poly * X ^ j).coeff i = if j ≤ i ∧ i - j < A.len then A.at' (i - j) else 0 := by
  rw [coeff_mul_X_pow']
  by_cases h : j ≤ i
  · rw [if_pos h, poly_coeff]
    by_cases h2 : i - j < A.len
    · rw [if_pos h2, if_pos ⟨h, h2⟩]
    · rw [if_neg h2, if_neg (fun h' => h2 h'.2)]
  · rw [if_neg h, if_neg (fun h' => h h'.1)]

theorem mul_coeff' (u v : PVec F) (t : Nat) : (u.poly * v.poly).coeff t = ∑ j ∈ Finset.range v.len, (u.poly * X ^ j).coeff t * v.at' j := by
  rw [mul_coeff]
  exact Finset.sum_congr rfl fun j _ => by rw [shift_coeff]

theorem sylv_right {A B : PVec F} {a b : Nat} (hb : B.len = b + 1) (v : Nat → F[X]) (i : Nat) :
    ∑ j ∈ Finset.range (a + b), sylvEntry A B i j * v j =
      ∑ j ∈ Finset.range b, (A.poly * X ^ j).coeff i * v j + ∑ j ∈ Finset.range a, (B.poly * X ^ j).coeff i * v (j + b) := by
  rw [Nat.add_comm a b, Finset.sum_range_add]
  congr 1
  · refine Finset.sum_congr rfl fun j hj => ?_
    rw [Finset.mem_range] at hj
    rw [sylvEntry, if_pos (by omega)]
  · refine Finset.sum_congr rfl fun j _ => ?_
    rw [sylvEntry, if_neg (by omega), Nat.add_comm b j, show j + b - (B.len - 1) = j by omega]

theorem trunc_shift (A : PVec F) (s i j : Nat) : ((truncV A s).poly * X ^ j).coeff i = (A.poly * X ^ j).coeff i %ₘ X ^ s := by
  rw [shift_coeff, shift_coeff]
  show (if j ≤ i ∧ i - j < A.len then ptrunc (A.at' (i - j)) s else 0) = _
  split
  · rw [ptrunc_mod]
  · rw [zero_modByMonic]

theorem rev_coeff (A v : PVec F) {a : Nat} (ha : A.len = a + 1) (k : Nat) :
    ((reversed A).poly * v.poly).coeff (a + k) = ∑ i ∈ Finset.range v.len, v.at' i * (A.poly * X ^ k).coeff i := by
  rw [mul_coeff]
  refine Finset.sum_congr rfl fun j _ => ?_
  rw [shift_coeff, mul_comm]
  congr 1
  show (if j ≤ a + k ∧ a + k - j < A.len then A.at' (A.len - 1 - (a + k - j)) else 0) = _
  by_cases h : k ≤ j ∧ j - k < A.len
  · rw [if_pos h, if_pos ⟨by omega, by omega⟩]
    congr 1
    omega
  · rw [if_neg h, if_neg (by omega)]

/-! ### Sums and parts -/

theorem addParts_ok {f : F[X] → F[X]} (f0 : f 0 = 0) {n : Nat} (out : PVec F) {o1 o2 : PVec F} {P Q : Polynomial F[X]} (h1 : Blocks o1 n P)
    (h2 : Blocks o2 n Q) : ∃ w, addParts f n out o1 o2 = .ok w ∧ w.len = n ∧ ∀ k, k < n → w.at' k = f (P.coeff k) + f (Q.coeff k) := by
  obtain ⟨w, e1, e2, e3⟩ := loopPut_ok (lo := 0) (n := n) (f := fun i (_ : PVec F) =>
    andThen (if i < o1.len then andThen (o1.get (i : Int)) fun x => .ok (f x) else .ok 0) fun z =>
    if i < o2.len then andThen (o2.get (i : Int)) fun x => .ok (z + f x) else .ok z) (r := { out with len := n })
    (fun k => f (P.coeff k) + f (Q.coeff k)) (by simp) (fun i hi r' _ _ => by
      have p1 := h1.2 i hi
      have p2 := h2.2 i hi
      rw [Nat.zero_add]
      by_cases c1 : i < o1.len <;> by_cases c2 : i < o2.len
      · rw [if_pos c1] at p1
        rw [if_pos c2] at p2
        simp only [if_pos c1, if_pos c2, get_ok' c1, get_ok' c2, Bivar.andThen_ok, p1, p2]
      · rw [if_pos c1] at p1
        rw [if_neg c2] at p2
        simp only [if_pos c1, if_neg c2, get_ok' c1, Bivar.andThen_ok, p1, ← p2, f0, add_zero]
      · rw [if_neg c1] at p1
        rw [if_pos c2] at p2
        simp only [if_neg c1, if_pos c2, get_ok' c2, Bivar.andThen_ok, ← p1, p2, f0]
      · rw [if_neg c1] at p1
        rw [if_neg c2] at p2
        simp only [if_neg c1, if_neg c2, Bivar.andThen_ok, ← p1, ← p2, f0, add_zero])
  exact ⟨w, e1, e2, fun k hk => by rw [e3, if_pos (by omega)]⟩

theorem joinParts_ok {f : F[X] → F[X]} (f0 : f 0 = 0) {dA dB : Nat} (out : PVec F) {oA oB : PVec F} {P Q : Polynomial F[X]} (h1 : Blocks oA dB P)
    (h2 : Blocks oB dA Q) : ∃ w, joinParts f (dA + dB) dA dB out oA oB = .ok w ∧ w.len = dA + dB ∧
      (∀ k, k < dB → w.at' k = f (P.coeff k)) ∧ ∀ k, k < dA → w.at' (k + dB) = f (Q.coeff k) := by
  obtain ⟨l1, h1⟩ := h1
  obtain ⟨l2, h2⟩ := h2
  unfold joinParts
  obtain ⟨r1, e1, e2, e3⟩ := loopPut_ok (lo := 0) (n := oA.len) (f := fun i (_ : PVec F) => andThen (oA.get (i : Int)) fun x => .ok (f x))
    (r := { out with len := dA + dB }) (fun k => f (oA.at' k)) (by dsimp only; omega) (fun i hi _ _ _ => by
      rw [get_ok' hi, Bivar.andThen_ok, Nat.zero_add])
  dsimp only at e2
  rw [e1, Bivar.andThen_ok]
  obtain ⟨r2, e4, e5, e6⟩ := loopPut_ok (lo := oA.len) (n := dB - oA.len) (f := fun _ _ => .ok 0) (r := r1) (fun _ => 0)
    (by omega) (fun _ _ _ _ _ => rfl)
  rw [e4, Bivar.andThen_ok]
  obtain ⟨r3, e7, e8, e9⟩ := loopPut_ok (lo := dB) (n := oB.len) (f := fun i (_ : PVec F) => andThen (oB.get (i : Int)) fun x => .ok (f x))
    (r := r2) (fun k => f (oB.at' (k - dB))) (by omega) (fun i hi _ _ _ => by
      rw [get_ok' hi, Bivar.andThen_ok, Nat.add_sub_cancel_left])
  rw [e7, Bivar.andThen_ok]
  obtain ⟨r4, e10, e11, e12⟩ := loopPut_ok (lo := dB + oB.len) (n := dA - oB.len) (f := fun _ _ => .ok 0) (r := r3) (fun _ => 0)
    (by omega) (fun _ _ _ _ _ => rfl)
  refine ⟨r4, e10, by omega, fun k hk => ?_, fun k hk => ?_⟩
  · rw [e12, if_neg (by omega), e9, if_neg (by omega), e6, ← h1 k hk]
    by_cases c : k < oA.len
    · rw [if_neg (by omega), e3, if_pos (by omega), if_pos c]
    · rw [if_pos (by omega), if_neg c, f0]
  · rw [e12, ← h2 k hk]
    by_cases c : k < oB.len
    · rw [if_neg (by omega), e9, if_pos (by omega), if_pos c, Nat.add_sub_cancel]
    · rw [if_pos (by omega), if_neg c, f0]

/-! ### Middle products -/

/-- The coefficients `L, ..., L + l - 1`. -/
noncomputable def midQ (P : Polynomial F[X]) (L l : Nat) : Polynomial F[X] := ofCoeffs l fun k => P.coeff (L + k)

theorem midQ_coeff (P : Polynomial F[X]) (L l k : Nat) : (midQ P L l).coeff k = if k < l then P.coeff (L + k) else 0 := ofCoeffs_coeff ..

theorem midQ_eval {P : Polynomial F[X]} {D : Nat} (h : DegXLe P D) (L l t : Nat) (ht : t < l * (D + 1)) :
    ((midQ P L l).eval (X ^ (D + 1))).coeff t = (P.eval (X ^ (D + 1))).coeff (L * (D + 1) + t) := by
  have hq : DegXLe (midQ P L l) D := by
    intro i j hj
    rw [midQ_coeff]
    split
    · exact h _ _ hj
    · exact coeff_zero _
  have e1 := kron_coeff (midQ P L l) (D + 1) (fun i j hj => hq i j (by omega)) (t / (D + 1)) (t % (D + 1)) (Nat.mod_lt _ (by omega))
  have e2 := kron_coeff P (D + 1) (fun i j hj => h i j (by omega)) (L + t / (D + 1)) (t % (D + 1)) (Nat.mod_lt _ (by omega))
  rw [Nat.div_add_mod'] at e1
  rw [Nat.add_mul, Nat.add_assoc, Nat.div_add_mod'] at e2
  rw [e1, e2, midQ_coeff, if_pos ((Nat.div_lt_iff_lt_mul (by omega)).2 ht)]

theorem eval_mod {u : PVec F} {L a D : Nat} (hl : u.len = L + 1) (ha : u.degX = a) (hD : a ≤ D) :
    (u.poly.eval (X ^ (D + 1))) %ₘ X ^ (L * (D + 1) + a + 1) = u.poly.eval (X ^ (D + 1)) := by
  ext t
  rw [coeff_mod_X_pow]
  split
  · rfl
  · rename_i ht
    have hdeg := degX_poly (le_of_eq ha)
    have h := kron_coeff u.poly (D + 1) (fun i j hj => hdeg i j (by omega)) (t / (D + 1)) (t % (D + 1)) (Nat.mod_lt _ (by omega))
    rw [Nat.div_add_mod'] at h
    rw [h]
    by_cases hc : L < t / (D + 1)
    · rw [poly_coeff, if_neg (by omega), coeff_zero]
    · refine (hdeg _ _ ?_).symm
      have h2 := Nat.div_add_mod' t (D + 1)
      have h3 : t / (D + 1) * (D + 1) ≤ L * (D + 1) := Nat.mul_le_mul_right _ (by omega)
      omega

theorem shl_zero (k : Int) : shl (0 : F[X]) k = 0 := by
  unfold shl
  split
  · exact zero_mul _
  · exact zero_divByMonic _

/-- A middle product and the vector read in it. -/
theorem mid_block {mp : F[X] → F[X] → Int → Int → Out F[X]} (hmp : MidOK mp) (g : Junk F) {u v : PVec F} (h : Room u v) {L : Nat} (hl : u.len = L + 1)
    (l : Nat) : ∃ x y z o, toKron g.e0 u (u.degX + v.degX) = .ok x ∧ toKron g.e0 v (u.degX + v.degX) = .ok y ∧
      mp x (shl y u.degX) (L * (u.degX + v.degX + 1) + u.degX) (l * (u.degX + v.degX + 1) - 1) = .ok z ∧
      fromKron g.ce0 g.old z (u.degX + v.degX) = .ok o ∧ Blocks o l (midQ (u.poly * v.poly) L l) := by
  obtain ⟨D, hD, hdeg, x, y, hx, hy, hxy, hc⟩ := room_mul g.e0 h
  have hq : DegXLe (midQ (u.poly * v.poly) L l) D := by
    intro i j hj
    rw [midQ_coeff]
    split
    · exact hdeg _ _ hj
    · exact coeff_zero _
  rcases hc with ⟨h1, h2, ex, ey⟩ | ⟨h0, hp⟩
  · obtain ⟨a, ha⟩ := Int.eq_ofNat_of_zero_le h1
    obtain ⟨z, hz, hz'⟩ := hmp.mid x (shl y u.degX) (L * (D + 1) + a) (l * (D + 1))
    obtain ⟨o, ho, hb⟩ := fromKron_blocks g.ce0 g.old hq l (A := z) (fun t => by
      rw [hz']
      split
      · rename_i ht
        rw [midQ_eval hdeg L l t ht, ← hxy, ex, eval_mod hl ha (by omega), ha, shl, if_pos (by omega), Int.toNat_natCast,
          ← mul_assoc, coeff_mul_X_pow', if_pos (by omega)]
        congr 1
        omega
      · rfl)
    refine ⟨x, y, z, o, hx, hy, ?_, ?_, hb⟩
    · rw [← hz, hD, ha]
      push_cast
      rfl
    · rw [hD, ho]
  · have hz : mp x (shl y u.degX) (L * (u.degX + v.degX + 1) + u.degX) (l * (u.degX + v.degX + 1) - 1) = .ok 0 := hmp.zero _ _ _ _ (by
      rcases h0 with h0 | h0
      · exact .inl h0
      · right
        rw [h0, shl_zero])
    obtain ⟨o, ho, hb⟩ := fromKron_blocks g.ce0 g.old hq l (A := 0) (fun t => by
      rw [hp]
      split
      · rename_i ht
        rw [midQ_eval (by rw [← hp]; exact hdeg) L l t ht]
        simp
      · simp)
    exact ⟨x, y, 0, o, hx, hy, hz, by rw [hD, ho], hb⟩

theorem midParts_ok {mp : F[X] → F[X] → Int → Int → Out F[X]} (hmp : MidOK mp) (g : Junk F) {rA rB v : PVec F} {dA dB : Nat} (hA : rA.len = dA + 1)
    (hB : rB.len = dB + 1) (h1 : Room rA v) (h2 : Room rB v) : ∃ oA oB, midParts g mp dA dB rA.degX rB.degX rA rB v = .ok (oA, oB) ∧
      Blocks oA dB (midQ (rA.poly * v.poly) dA dB) ∧ Blocks oB dA (midQ (rB.poly * v.poly) dB dA) := by
  obtain ⟨x, y, z, o, e1, e2, e3, e4, e5⟩ := mid_block hmp g h1 hA dB
  obtain ⟨x', y', z', o', e1', e2', e3', e4', e5'⟩ := mid_block hmp g h2 hB dA
  refine ⟨o, o', ?_, e5, e5'⟩
  unfold midParts
  dsimp only
  rw [e1, Bivar.andThen_ok, e1', Bivar.andThen_ok]
  split
  · rename_i he
    rw [← he] at e2' e3' e4' ⊢
    rw [e2] at e2'
    cases e2'
    rw [e2, Bivar.andThen_ok, e3, Bivar.andThen_ok, e3', Bivar.andThen_ok, e4, Bivar.andThen_ok, e4', Bivar.andThen_ok]
  · rw [e2, Bivar.andThen_ok, e2', Bivar.andThen_ok, e3, Bivar.andThen_ok, e3', Bivar.andThen_ok, e4, Bivar.andThen_ok, e4', Bivar.andThen_ok]

theorem midParts_room {mp : F[X] → F[X] → Int → Int → Out F[X]} (g : Junk F) {rA rB v : PVec F} {dA dB : Nat} (hA : rA.len = dA + 1)
    (hB : rB.len = dB + 1) {w : PVec F × PVec F} (h : midParts g mp dA dB rA.degX rB.degX rA rB v = .ok w) : Room rA v ∧ Room rB v := by
  unfold midParts at h
  dsimp only at h
  obtain ⟨x, h1, h⟩ := andThen_eq h
  obtain ⟨x', h1', h⟩ := andThen_eq h
  split at h
  · rename_i he
    obtain ⟨y, h2, -⟩ := andThen_eq h
    exact ⟨room_of_ok g.e0 (.inl (by omega)) h1 h2, room_of_ok g.e0 (.inl (by omega)) h1' (by rw [← he]; exact h2)⟩
  · obtain ⟨y, h2, h⟩ := andThen_eq h
    obtain ⟨y', h2', -⟩ := andThen_eq h
    exact ⟨room_of_ok g.e0 (.inl (by omega)) h1 h2, room_of_ok g.e0 (.inl (by omega)) h1' h2'⟩

end PML.Ntl.SylvX
