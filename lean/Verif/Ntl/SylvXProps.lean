import Verif.Ntl.SylvXLemmas

/-! # Properties of the Sylvester matrices over `K[X]`: products (C93) -/

namespace PML.Ntl.SylvX

open Polynomial PML.Ntl.Utils PML.Ntl.Inv PML.Ntl.Solve PML.Ntl.Struct PML.Ntl.Bivar PML.Ntl.FftPoints PML.Ntl.StructX

variable {F : Type} [Field F]

/-- **C93**. The constructor succeeds exactly for two non-empty vectors with nonzero last entries; a vanishing last entry is an error. -/
theorem C93_make (g : Junk F) (A B : PVec F) :
    (∀ a b, A.len = a + 1 → B.len = b + 1 → A.at' a ≠ 0 → B.at' b ≠ 0 → ∃ o, Sylv.make g A B = .ok o ∧ o.n = a + b) ∧
    (∀ a, A.len = a + 1 → A.at' a = 0 → Sylv.make g A B = .error) ∧
    (∀ a b, A.len = a + 1 → B.len = b + 1 → B.at' b = 0 → Sylv.make g A B = .error) ∧
    (A.len = 0 → Sylv.make g A B = .ub) ∧
    (∀ a, A.len = a + 1 → A.at' a ≠ 0 → B.len = 0 → Sylv.make g A B = .ub) := by
  have last : ∀ (v : PVec F) a, v.len = a + 1 → v.get ((v.len : Int) - 1) = .ok (v.at' a) := fun v a h => by
    rw [show (v.len : Int) - 1 = (a : Int) by omega, get_ok' (by omega)]
  have none : ∀ v : PVec F, v.len = 0 → v.get ((v.len : Int) - 1) = .ub := fun v h => by
    unfold PVec.get
    rw [if_neg (by omega)]
  unfold Sylv.make
  refine ⟨fun a b ha hb na nb => ?_, fun a ha na => ?_, fun a b ha hb nb => ?_, fun ha => ?_, fun a ha na hb => ?_⟩
  · obtain ⟨rA, h1, -⟩ := rev_same (t := g.old) (v := A)
    obtain ⟨rB, h2, -⟩ := rev_same (t := g.old) (v := B)
    rw [last A a ha, Bivar.andThen_ok, if_neg na, last B b hb, Bivar.andThen_ok, Bivar.andThen_ok, if_neg (by simp [nb]), h1, Bivar.andThen_ok, h2,
      Bivar.andThen_ok]
    exact ⟨_, rfl, by dsimp only; omega⟩
  · rw [last A a ha, Bivar.andThen_ok, if_pos na, Bivar.andThen_ok, if_pos rfl]
  · rw [last A a ha, Bivar.andThen_ok]
    split
    · rfl
    · rw [last B b hb, Bivar.andThen_ok, Bivar.andThen_ok, if_pos (by simp [nb])]
  · rw [none A ha]
    rfl
  · rw [last A a ha, Bivar.andThen_ok, if_neg na, none B hb]
    rfl

/-! ### Products on the right -/

theorem three {a x y z : Prop} (h : a → x ∧ y) (hz : z) : (a → x) ∧ (a → y) ∧ z := ⟨fun ha => (h ha).1, fun ha => (h ha).2, hz⟩

theorem prod_high {u v : PVec F} {a b : Nat} (ha : u.len = a + 1) (hb : v.len = b) {k : Nat} (hk : a + b ≤ k) : (u.poly * v.poly).coeff k = 0 :=
  mul_coeff_high (a := a + 1) (b := b) (fun i hi h => by omega) (fun i hi h => by omega) (by omega)

theorem blocks_of {P : Polynomial F[X]} {D : Nat} (g : Junk F) (old : PVec F) (hD : DegXLe P D) {n : Nat} (hn : ∀ k, n ≤ k → P.coeff k = 0) {x : F[X]}
    (hx : x = P.eval (X ^ (D + 1))) : ∃ o, fromKron g.ce0 old x (D : Int) = .ok o ∧ Blocks o n P :=
  fromKron_blocks g.ce0 old hD n fun t => by
    split
    · rw [hx]
    · rename_i ht
      rw [hx, eval_coeff_high hD hn t (by omega)]

/-- The body shared by the two products on the right. -/
theorem right_core {f : F[X] → F[X]} (f0 : f 0 = 0) (fa : ∀ x y, f (x + y) = f x + f y) (fin : PVec F → Nat → Out (PVec F))
    (hfin : ∀ (v : PVec F) (n : Nat) (P : Polynomial F[X]), Blocks v n P → ∃ w, fin v n = .ok w ∧ w.len = n ∧ ∀ k, k < n → w.at' k = f (P.coeff k))
    (g : Junk F) (out : PVec F) {A B U V : PVec F} {a b : Nat} (hA : A.len = a + 1) (hB : B.len = b + 1) (hU : U.len = b) (hV : V.len = a) (h1 : Room A U)
    (h2 : Room B V) :
    ∃ w, (andThen (toKron g.e0 A (A.degX + U.degX)) fun kA =>
      andThen (toKron g.e0 U (A.degX + U.degX)) fun kF =>
      andThen (toKron g.e0 B (B.degX + V.degX)) fun kB =>
      andThen (toKron g.e0 V (B.degX + V.degX)) fun kG =>
      if A.degX + U.degX = B.degX + V.degX then
        andThen (fromKron g.ce0 out (kA * kF + kB * kG) (A.degX + U.degX)) fun r => fin r (a + b)
      else
        andThen (fromKron g.ce0 g.old (kA * kF) (A.degX + U.degX)) fun o1 =>
        andThen (fromKron g.ce0 g.old (kB * kG) (B.degX + V.degX)) fun o2 =>
        addParts f (a + b) out o1 o2) = .ok w ∧ w.len = a + b ∧
      ∀ k, k < a + b → w.at' k = f ((A.poly * U.poly).coeff k + (B.poly * V.poly).coeff k) := by
  obtain ⟨D, hD, hdeg, x, y, hx, hy, hxy, -⟩ := room_mul g.e0 h1
  obtain ⟨D', hD', hdeg', x', y', hx', hy', hxy', -⟩ := room_mul g.e0 h2
  rw [hx, Bivar.andThen_ok, hy, Bivar.andThen_ok, hx', Bivar.andThen_ok, hy', Bivar.andThen_ok]
  have z1 : ∀ k, a + b ≤ k → (A.poly * U.poly).coeff k = 0 := fun k hk => prod_high hA hU hk
  have z2 : ∀ k, a + b ≤ k → (B.poly * V.poly).coeff k = 0 := fun k hk => prod_high hB hV (by omega)
  rw [hD, hD']
  split
  · rename_i he
    have he : D = D' := by omega
    subst he
    obtain ⟨o, e1, e2⟩ := blocks_of (P := A.poly * U.poly + B.poly * V.poly) (D := D) (n := a + b) g out (fun i j hj => by
      rw [coeff_add, coeff_add, hdeg i j hj, hdeg' i j hj, add_zero]) (fun k hk => by rw [coeff_add, z1 k hk, z2 k hk, add_zero])
      (x := x * y + x' * y') (by rw [hxy, hxy', eval_add])
    rw [e1, Bivar.andThen_ok]
    obtain ⟨w, e3, e4, e5⟩ := hfin o (a + b) _ e2
    exact ⟨w, e3, e4, fun k hk => by rw [e5 k hk, coeff_add]⟩
  · obtain ⟨o1, e1, e2⟩ := blocks_of g g.old hdeg z1 hxy
    obtain ⟨o2, e3, e4⟩ := blocks_of g g.old hdeg' z2 hxy'
    rw [e1, Bivar.andThen_ok, e3, Bivar.andThen_ok]
    obtain ⟨w, e5, e6, e7⟩ := addParts_ok f0 out e2 e4
    exact ⟨w, e5, e6, fun k hk => by rw [e7 k hk, fa]⟩

theorem right_room (g : Junk F) {A B U V : PVec F} {a b : Nat} (hA : A.len = a + 1) (hB : B.len = b + 1) {w : PVec F} {K : F[X] → F[X] → F[X] → F[X] → Out (PVec F)}
    (h : (andThen (toKron g.e0 A (A.degX + U.degX)) fun kA =>
      andThen (toKron g.e0 U (A.degX + U.degX)) fun kF =>
      andThen (toKron g.e0 B (B.degX + V.degX)) fun kB =>
      andThen (toKron g.e0 V (B.degX + V.degX)) fun kG => K kA kF kB kG) = .ok w) : Room A U ∧ Room B V := by
  obtain ⟨x, h1, h⟩ := andThen_eq h
  obtain ⟨y, h2, h⟩ := andThen_eq h
  obtain ⟨x', h3, h⟩ := andThen_eq h
  obtain ⟨y', h4, -⟩ := andThen_eq h
  exact ⟨room_of_ok g.e0 (.inl (by omega)) h1 h2, room_of_ok g.e0 (.inl (by omega)) h3 h4⟩

theorem ptrunc_add (x y : F[X]) (s : Nat) : ptrunc (x + y) s = ptrunc x s + ptrunc y s := by
  rw [ptrunc_mod, ptrunc_mod, ptrunc_mod, mod_add_mod]

theorem ptrunc_zero (s : Nat) : ptrunc (0 : F[X]) s = 0 := by rw [ptrunc_mod, zero_modByMonic]

/-- **C93**. `mul_right` gives the product by the Sylvester matrix exactly when there is room for the products `A F` and `B G`. -/
theorem C93_right {A B : PVec F} {o : Sylv F} (ho : Made A B o) (g : Junk F) (out inp : PVec F) :
    (inp.len = o.n → Room A (firstPart inp (B.len - 1)) → Room B (secondPart inp (B.len - 1) (A.len - 1)) →
      IsRight (o.mulRight g out inp) o.n o.n (sylvEntry A B) inp.at') ∧
    (inp.len = o.n → ¬ (Room A (firstPart inp (B.len - 1)) ∧ Room B (secondPart inp (B.len - 1) (A.len - 1))) →
      ∀ w, o.mulRight g out inp ≠ .ok w) ∧
    (inp.len ≠ o.n → o.mulRight g out inp = .error) := by
  have h := made_inv ho
  unfold Sylv.mulRight
  rw [h.a, h.b, h.dA, h.dB, show B.len - 1 = o.dBy by have := h.lb; omega, show A.len - 1 = o.dAy by have := h.la; omega]
  have hn := h.n
  refine three (fun hl => ?_) (fun hl => if_pos hl)
  rw [if_neg (not_not.2 hl)]
  obtain ⟨U, e1, sU⟩ := part_same (t := g.old) (v := inp) (off := 0) (n := o.dBy) (by omega)
  obtain ⟨V, e2, sV⟩ := part_same (t := g.old) (v := inp) (off := o.dBy) (n := o.dAy) (by omega)
  have sA : Same A A := ⟨rfl, fun _ _ => rfl⟩
  have sB : Same B B := ⟨rfl, fun _ _ => rfl⟩
  have sU' : Same U (firstPart inp o.dBy) := sU
  rw [e1, Bivar.andThen_ok, e2, Bivar.andThen_ok]
  dsimp only
  constructor
  · intro r1 r2
    obtain ⟨w, h1, h2, h3⟩ := right_core (f := fun x => x) rfl (fun _ _ => rfl) fill (fun v n P hb => fill_ok hb (le_refl _) (fun k hk hk' => by omega)) g out
      h.la h.lb sU.1 sV.1 (sA.room sU'.symm r1) (sB.room sV.symm r2)
    refine ⟨w, by rw [hn]; exact h1, by omega, fun i hi => ?_⟩
    rw [h3 i (by omega), hn, sylv_right h.lb, sU.poly, sV.poly, mul_coeff', mul_coeff']
    rfl
  · intro hr w hw
    refine hr ?_
    obtain ⟨r1, r2⟩ := right_room g h.la h.lb hw
    exact ⟨sA.room sU' r1, sB.room sV r2⟩

/-- **C93**. `mul_right_trunc` gives the product by the Sylvester matrix modulo `X^s` exactly when there is room for the truncated products. -/
theorem C93_right_trunc {A B : PVec F} {o : Sylv F} (ho : Made A B o) (g : Junk F) (out inp : PVec F) (s : Nat) :
    (inp.len = o.n → Room (truncV A s) (truncV (firstPart inp (B.len - 1)) s) → Room (truncV B s) (truncV (secondPart inp (B.len - 1) (A.len - 1)) s) →
      IsRightMod s (o.mulRightTrunc g out inp s) o.n o.n (sylvEntry A B) inp.at') ∧
    (inp.len = o.n → ¬ (Room (truncV A s) (truncV (firstPart inp (B.len - 1)) s) ∧ Room (truncV B s) (truncV (secondPart inp (B.len - 1) (A.len - 1)) s)) →
      ∀ w, o.mulRightTrunc g out inp s ≠ .ok w) ∧
    (inp.len ≠ o.n → o.mulRightTrunc g out inp s = .error) := by
  have h := made_inv ho
  unfold Sylv.mulRightTrunc
  rw [h.a, h.b, show B.len - 1 = o.dBy by have := h.lb; omega, show A.len - 1 = o.dAy by have := h.la; omega]
  have hn := h.n
  refine three (fun hl => ?_) (fun hl => if_pos hl)
  rw [if_neg (not_not.2 hl)]
  obtain ⟨U, e1, sU⟩ := part_same (t := g.old) (v := inp) (off := 0) (n := o.dBy) (by omega)
  obtain ⟨V, e2, sV⟩ := part_same (t := g.old) (v := inp) (off := o.dBy) (n := o.dAy) (by omega)
  have sA : Same (truncV A s) (truncV A s) := ⟨rfl, fun _ _ => rfl⟩
  have sB : Same (truncV B s) (truncV B s) := ⟨rfl, fun _ _ => rfl⟩
  have sU' : Same (truncV U s) (truncV (firstPart inp o.dBy) s) := sU.trunc s
  have sV' := sV.trunc s
  rw [e1, Bivar.andThen_ok, e2, Bivar.andThen_ok]
  dsimp only
  constructor
  · intro r1 r2
    obtain ⟨w, h1, h2, h3⟩ := right_core (f := fun x => ptrunc x s) (ptrunc_zero s) (fun x y => ptrunc_add x y s) (truncFill s)
      (fun v n P hb => truncFill_ok hb (le_refl _) (fun k hk hk' => by omega)) g out
      (A := truncV A s) (B := truncV B s) h.la h.lb sU'.1 sV'.1 (sA.room sU'.symm r1) (sB.room sV'.symm r2)
    refine ⟨w, by rw [hn]; exact h1, by omega, fun i hi => ?_⟩
    rw [h3 i (by omega), hn, sylv_right h.lb, sU'.poly, sV'.poly, mul_coeff', mul_coeff', ptrunc_mod]
    simp only [trunc_shift]
    have p1 := StructX.sum_trunc (s := s) (k := o.dBy) (fun j => (A.poly * X ^ j).coeff i) inp.at'
    have p2 := StructX.sum_trunc (s := s) (k := o.dAy) (fun j => (B.poly * X ^ j).coeff i) (fun j => inp.at' (j + o.dBy))
    rw [mod_add_mod, mod_add_mod, ← p1, ← p2]
    simp only [← ptrunc_mod]
    rfl
  · intro hr w hw
    refine hr ?_
    obtain ⟨r1, r2⟩ := right_room g (A := truncV A s) (B := truncV B s) h.la h.lb hw
    exact ⟨sA.room sU' r1, sB.room sV' r2⟩

/-! ### Products on the left -/

theorem sylv_left {A B v : PVec F} {a b : Nat} (ha : A.len = a + 1) (hb : B.len = b + 1) (hv : v.len = a + b) (j : Nat) :
    (j < b → ((reversed A).poly * v.poly).coeff (a + j) = ∑ i ∈ Finset.range (a + b), v.at' i * sylvEntry A B i j) ∧
    (((reversed B).poly * v.poly).coeff (b + j) = ∑ i ∈ Finset.range (a + b), v.at' i * sylvEntry A B i (j + b)) := by
  refine ⟨fun hj => ?_, ?_⟩
  · rw [rev_coeff A v ha j, hv]
    exact Finset.sum_congr rfl fun i _ => by rw [sylvEntry, if_pos (by omega)]
  · rw [rev_coeff B v hb j, hv]
    exact Finset.sum_congr rfl fun i _ => by rw [sylvEntry, if_neg (by omega), show j + b - (B.len - 1) = j by omega]

theorem left_core {f : F[X] → F[X]} (f0 : f 0 = 0) {mp : F[X] → F[X] → Int → Int → Out F[X]} (hmp : MidOK mp) (g : Junk F) (out : PVec F)
    {rA rB v : PVec F} {a b : Nat} (hA : rA.len = a + 1) (hB : rB.len = b + 1) (h1 : Room rA v) (h2 : Room rB v) :
    ∃ w, (andThen (midParts g mp a b rA.degX rB.degX rA rB v) fun r => joinParts f (a + b) a b out r.1 r.2) = .ok w ∧ w.len = a + b ∧
      (∀ k, k < b → w.at' k = f ((rA.poly * v.poly).coeff (a + k))) ∧ (∀ k, k < a → w.at' (k + b) = f ((rB.poly * v.poly).coeff (b + k))) := by
  obtain ⟨oA, oB, e1, e2, e3⟩ := midParts_ok hmp g hA hB h1 h2
  rw [e1, Bivar.andThen_ok]
  obtain ⟨w, e4, e5, e6, e7⟩ := joinParts_ok f0 out e2 e3
  refine ⟨w, e4, e5, fun k hk => ?_, fun k hk => ?_⟩
  · rw [e6 k hk, midQ_coeff, if_pos hk]
  · rw [e7 k hk, midQ_coeff, if_pos hk]

/-- **C93**. `mul_left` gives the product by the Sylvester matrix when there is room for the products of the reversals by the input. -/
theorem C93_left {A B : PVec F} {o : Sylv F} (ho : Made A B o) (g : Junk F) {mp : F[X] → F[X] → Int → Int → Out F[X]} (hmp : MidOK mp)
    (out inp : PVec F) :
    (inp.len = o.n → Room (reversed A) inp → Room (reversed B) inp → IsLeft (o.mulLeft g mp out inp) o.n o.n (sylvEntry A B) inp.at') ∧
    (inp.len = o.n → ¬ (Room (reversed A) inp ∧ Room (reversed B) inp) → ∀ w, o.mulLeft g mp out inp ≠ .ok w) ∧
    (inp.len ≠ o.n → o.mulLeft g mp out inp = .error) := by
  have h := made_inv ho
  have hn := h.n
  unfold Sylv.mulLeft
  have dA : o.dAx = o.revA.degX := by rw [h.rA.degX, reversed_degX, h.dA]
  have dB : o.dBx = o.revB.degX := by rw [h.rB.degX, reversed_degX, h.dB]
  have lA : o.revA.len = o.dAy + 1 := h.rA.1.trans h.la
  have lB : o.revB.len = o.dBy + 1 := h.rB.1.trans h.lb
  rw [dA, dB]
  have sI : Same inp inp := ⟨rfl, fun _ _ => rfl⟩
  refine ⟨fun hl r1 r2 => ?_, fun hl hr w hw => hr ?_, fun hl => if_pos hl⟩
  · rw [if_neg (not_not.2 hl)]
    obtain ⟨w, e1, e2, e3, e4⟩ := left_core (f := fun x => x) rfl hmp g out lA lB (h.rA.symm.room sI r1) (h.rB.symm.room sI r2)
    refine ⟨w, by rw [hn]; exact e1, by omega, fun j hj => ?_⟩
    rw [h.rA.poly] at e3
    rw [h.rB.poly] at e4
    rw [hn]
    by_cases hc : j < o.dBy
    · rw [e3 j hc, (sylv_left h.la h.lb (by omega) j).1 hc]
    · have := e4 (j - o.dBy) (by omega)
      rw [(sylv_left h.la h.lb (by omega) _).2, Nat.sub_add_cancel (by omega)] at this
      exact this
  · rw [if_neg (not_not.2 hl)] at hw
    obtain ⟨p, h1, -⟩ := andThen_eq hw
    obtain ⟨r1, r2⟩ := midParts_room g lA lB h1
    exact ⟨h.rA.room sI r1, h.rB.room sI r2⟩

theorem rev_trunc (C v : PVec F) {c : Nat} (hC : C.len = c + 1) (s k : Nat) :
    ptrunc (((truncV (reversed C) s).poly * (truncV v s).poly).coeff (c + k)) s = (((reversed C).poly * v.poly).coeff (c + k)) %ₘ X ^ s := by
  have hr : truncV (reversed C) s = reversed (truncV C s) := rfl
  have e1 := rev_coeff (truncV C s) (truncV v s) (a := c) hC k
  have e2 := rev_coeff C v hC k
  have e3 := StructX.sum_trunc (s := s) (k := v.len) v.at' (fun i => (C.poly * X ^ k).coeff i)
  rw [hr, e1, e2, ptrunc_mod, ← e3]
  congr 1
  refine Finset.sum_congr rfl fun i _ => ?_
  rw [trunc_shift, ← ptrunc_mod (v.at' i)]
  rfl

/-- **C93**. `mul_left_trunc` gives the product by the Sylvester matrix modulo `X^s` when there is room for the truncated products. -/
theorem C93_left_trunc {A B : PVec F} {o : Sylv F} (ho : Made A B o) (g : Junk F) {mp : F[X] → F[X] → Int → Int → Out F[X]} (hmp : MidOK mp)
    (out inp : PVec F) (s : Nat) :
    (inp.len = o.n → Room (truncV (reversed A) s) (truncV inp s) → Room (truncV (reversed B) s) (truncV inp s) →
      IsLeftMod s (o.mulLeftTrunc g mp out inp s) o.n o.n (sylvEntry A B) inp.at') ∧
    (inp.len = o.n → ¬ (Room (truncV (reversed A) s) (truncV inp s) ∧ Room (truncV (reversed B) s) (truncV inp s)) →
      ∀ w, o.mulLeftTrunc g mp out inp s ≠ .ok w) ∧
    (inp.len ≠ o.n → o.mulLeftTrunc g mp out inp s = .error) := by
  have h := made_inv ho
  have hn := h.n
  unfold Sylv.mulLeftTrunc
  have sA := h.rA.trunc s
  have sB := h.rB.trunc s
  have lA : (truncV o.revA s).len = o.dAy + 1 := h.rA.1.trans h.la
  have lB : (truncV o.revB s).len = o.dBy + 1 := h.rB.1.trans h.lb
  have sI : Same (truncV inp s) (truncV inp s) := ⟨rfl, fun _ _ => rfl⟩
  refine ⟨fun hl r1 r2 => ?_, fun hl hr w hw => hr ?_, fun hl => if_pos hl⟩
  · rw [if_neg (not_not.2 hl)]
    obtain ⟨w, e1, e2, e3, e4⟩ := left_core (f := fun x => ptrunc x s) (ptrunc_zero s) hmp g out lA lB (sA.symm.room sI r1) (sB.symm.room sI r2)
    refine ⟨w, by rw [hn]; exact e1, by omega, fun j hj => ?_⟩
    have key : ∀ (C : PVec F) {c : Nat} (_ : C.len = c + 1) (k : Nat), ptrunc (((truncV (reversed C) s).poly * (truncV inp s).poly).coeff (c + k)) s =
        (((reversed C).poly * inp.poly).coeff (c + k)) %ₘ X ^ s := fun C _ hC k => rev_trunc C inp hC s k
    rw [sA.poly] at e3
    rw [sB.poly] at e4
    rw [hn]
    by_cases hc : j < o.dBy
    · rw [e3 j hc, key A h.la, (sylv_left h.la h.lb (by omega) j).1 hc]
    · have := e4 (j - o.dBy) (by omega)
      rw [key B h.lb, (sylv_left h.la h.lb (by omega) _).2, Nat.sub_add_cancel (by omega)] at this
      exact this
  · rw [if_neg (not_not.2 hl)] at hw
    obtain ⟨p, h1, -⟩ := andThen_eq hw
    obtain ⟨r1, r2⟩ := midParts_room g lA lB h1
    exact ⟨sA.room sI r1, sB.room sI r2⟩

end PML.Ntl.SylvX
