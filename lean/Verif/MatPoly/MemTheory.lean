import Verif.MatPoly.MemSpec
import Verif.MatPoly.Lemmas

/-!
# Storage of matrix polynomials: the functions on consistent objects
-/

namespace PML.MatPoly.Mem

open PML.MatOps PML.MatPoly

variable {K : Type} [Field K] [DecidableEq K]

set_option linter.unusedSectionVars false

@[simp] theorem bind_ok {α β : Type} (a : α) (f : α → Res β) : (Res.ok a).bind f = f a := rfl

/-- The consistent object with capacity `a` which represents `P`. -/
def mk (r c a : Nat) (P : MatPoly K) : Obj K :=
  ⟨r, c, decide (a ≠ 0), a, a, P.len, fun i => if i < P.len then some (P.co i) else none⟩

theorem mk_congr (r c a : Nat) {P Q : MatPoly K} (h : Same P Q) : mk r c a P = mk r c a Q := by
  obtain ⟨h1, h2⟩ := h
  unfold mk
  rw [← h1]
  congr 1
  funext i
  by_cases hi : i < P.len
  · rw [if_pos hi, if_pos hi, h2 i hi]
  · rw [if_neg hi, if_neg hi]

theorem good_mk (r c a : Nat) (P : MatPoly K) (h : P.len ≤ a) : Good (mk r c a P) where
  size := rfl
  null := by simp [mk]
  fits := h
  live := by intro i; by_cases hi : i < P.len <;> simp [mk, hi]

theorem eq_mk_of_good {o : Obj K} (h : Good o) : o = Mem.mk o.r o.c o.alloc (content o) := by
  obtain ⟨r, c, ptr, size, alloc, length, cell⟩ := o
  obtain ⟨h1, h2, h3, h4⟩ := h
  simp only at h1 h2 h3 h4
  simp only [Mem.mk, content, Obj.mk.injEq, true_and]
  refine ⟨?_, h1, ?_⟩
  · by_cases ha : alloc = 0
    · have : ptr ≠ true := fun hp => h2.1 hp ha
      simp only [Bool.not_eq_true] at this
      simp [this, ha]
    · simp [h2.2 ha, ha]
  · funext i
    by_cases hi : i < length
    · obtain ⟨A, hA⟩ := Option.isSome_iff_exists.1 ((h4 i).2 hi)
      simp [hi, hA]
    · have : ¬ (cell i).isSome := fun hs => hi ((h4 i).1 hs)
      simp only [Option.isSome_iff_ne_none, not_not] at this
      simp [hi, this]

theorem content_mk (r c a : Nat) (P : MatPoly K) : Same (content (mk r c a P)) P :=
  ⟨rfl, fun k hk => by
    have hk : k < P.len := hk
    simp [content, mk, hk]⟩

theorem Same.refl (P : MatPoly K) : Same P P := ⟨rfl, fun _ _ => rfl⟩

theorem Same.symm {P Q : MatPoly K} (h : Same P Q) : Same Q P := ⟨h.1.symm, fun k hk => (h.2 k (h.1 ▸ hk)).symm⟩

theorem Same.trans {P Q R : MatPoly K} (h : Same P Q) (g : Same Q R) : Same P R :=
  ⟨h.1.trans g.1, fun k hk => (h.2 k hk).trans (g.2 k (h.1 ▸ hk))⟩

/-! ### Loops over the cells -/

theorem clear_loop : ∀ (n lo : Nat) (o : Obj K), (∀ j, lo ≤ j → j < lo + n → j < o.size ∧ (o.cell j).isSome) →
    loop matClear lo n o = .ok { o with cell := fun j => if lo ≤ j ∧ j < lo + n then none else o.cell j }
  | 0, lo, o, _ => by
    have : (fun j => if lo ≤ j ∧ j < lo + 0 then none else o.cell j) = o.cell := by
      funext j; rw [if_neg (by omega)]
    rw [this]; rfl
  | n + 1, lo, o, h => by
    have h0 := h lo le_rfl (by omega)
    unfold loop
    rw [matClear, if_pos h0, bind_ok, clear_loop n (lo + 1) _ ?_]
    · congr 2
      funext j
      by_cases hj : j = lo
      · subst hj; simp
      · by_cases hc : lo + 1 ≤ j ∧ j < lo + 1 + n
        · rw [if_pos hc, if_pos (by omega)]
        · rw [if_neg hc, if_neg (by omega)]; simp [Function.update, hj]
    · intro j hj hj'
      have := h j (by omega) (by omega)
      refine ⟨this.1, ?_⟩
      simp only [Function.update]
      rw [dif_neg (by omega)]
      exact this.2

theorem init_loop : ∀ (n lo : Nat) (o : Obj K), (∀ j, lo ≤ j → j < lo + n → j < o.size ∧ o.cell j = none) →
    loop matInit lo n o = .ok { o with cell := fun j => if lo ≤ j ∧ j < lo + n then some matZero else o.cell j }
  | 0, lo, o, _ => by
    have : (fun j => if lo ≤ j ∧ j < lo + 0 then some matZero else o.cell j) = o.cell := by
      funext j; rw [if_neg (by omega)]
    rw [this]; rfl
  | n + 1, lo, o, h => by
    have h0 := h lo le_rfl (by omega)
    unfold loop
    rw [matInit, if_pos h0.1, if_neg (by simp [h0.2]), bind_ok, init_loop n (lo + 1) _ ?_]
    · congr 2
      funext j
      by_cases hj : j = lo
      · subst hj; simp
      · by_cases hc : lo + 1 ≤ j ∧ j < lo + 1 + n
        · rw [if_pos hc, if_pos (by omega)]
        · rw [if_neg hc, if_neg (by omega)]; simp [Function.update, hj]
    · intro j hj hj'
      have := h j (by omega) (by omega)
      refine ⟨this.1, ?_⟩
      simp only [Function.update]
      rw [dif_neg (by omega)]
      exact this.2

theorem matGet_mk (r c a : Nat) (P : MatPoly K) (h : P.len ≤ a) {i : Nat} (hi : i < P.len) : matGet i (mk r c a P) = .ok (P.co i) := by
  have h1 : i < (mk r c a P).size := lt_of_lt_of_le hi h
  have h2 : (mk r c a P).cell i = some (P.co i) := if_pos hi
  unfold matGet
  rw [if_pos h1, h2]

theorem matPut_mk (r c a : Nat) (P : MatPoly K) (h : P.len ≤ a) {i : Nat} (hi : i < P.len) (A : Mat K) :
    matPut i A (mk r c a P) = .ok (mk r c a ⟨P.len, Function.update P.co i A⟩) := by
  have h1 : i < (mk r c a P).size ∧ ((mk r c a P).cell i).isSome := ⟨lt_of_lt_of_le hi h, by simp [mk, hi]⟩
  rw [matPut, if_pos h1]
  unfold mk
  simp only
  congr 2
  funext j
  by_cases hj : j = i
  · subst hj; simp [hi]
  · simp [Function.update, hj]

/-- Writing the cells `m + lo, ..., m + lo + n - 1` one after the other. -/
theorem put_loop (r c a len m : Nat) (f : Nat → Obj K → Res (Obj K)) (v : Nat → Mat K → Mat K) : ∀ (n lo : Nat) (co : Nat → Mat K),
    (∀ j, lo ≤ j → j < lo + n → ∀ co : Nat → Mat K,
      f j (mk r c a ⟨len, co⟩) = .ok (mk r c a ⟨len, Function.update co (m + j) (v j (co (m + j)))⟩)) →
    loop f lo n (mk r c a ⟨len, co⟩) = .ok (mk r c a ⟨len, fun j => if m + lo ≤ j ∧ j < m + lo + n then v (j - m) (co j) else co j⟩)
  | 0, lo, co, _ => by
    have : (fun j => if m + lo ≤ j ∧ j < m + lo + 0 then v (j - m) (co j) else co j) = co := by
      funext j; rw [if_neg (by omega)]
    rw [this]; rfl
  | n + 1, lo, co, hf => by
    unfold loop
    rw [hf lo le_rfl (by omega) co, bind_ok, put_loop r c a len m f v n (lo + 1) _ fun j h1 h2 => hf j (by omega) (by omega)]
    congr 3
    funext j
    by_cases hj : j = m + lo
    · subst hj
      rw [if_neg (by omega), if_pos (by omega), Nat.add_sub_cancel_left]; simp
    · by_cases hc : m + (lo + 1) ≤ j ∧ j < m + (lo + 1) + n
      · rw [if_pos hc, if_pos (by omega)]; simp [Function.update, hj]
      · rw [if_neg hc, if_neg (by omega)]; simp [Function.update, hj]

/-! ### Memory management -/

theorem init_eq (r c : Nat) : (init r c : Obj K) = mk r c 0 ⟨0, fun _ => matZero⟩ := by
  simp [init, mk]

theorem init2_eq (r c a : Nat) : (init2 r c a : Obj K) = mk r c a ⟨0, fun _ => matZero⟩ := by
  unfold init2
  by_cases ha : a = 0
  · subst ha; simp [mk]
  · simp [mk, ha]

theorem setLength_mk (r c a : Nat) (P : MatPoly K) (h : P.len ≤ a) (n : Nat) (hn : n ≤ a) :
    setLength (mk r c a P) n = .ok (mk r c a (MatPoly.setLength P n)) := by
  unfold setLength
  by_cases hc : P.len > n
  · rw [if_pos (show (mk r c a P).length > n from hc), clear_loop _ _ _ ?_, bind_ok]
    · unfold mk MatPoly.setLength
      simp only
      congr 2
      funext j
      by_cases h1 : j < n
      · rw [if_neg (by omega), if_pos (by omega), if_pos h1, if_neg (by omega)]
      · rw [if_neg h1]
        by_cases h2 : j < P.len
        · rw [if_pos (by omega)]
        · rw [if_neg (by omega), if_neg h2]
    · intro j h1 h2
      have h3 : j < P.len := by simp only [mk] at h2; omega
      exact ⟨lt_of_lt_of_le h3 h, by simp [mk, h3]⟩
  · rw [if_neg (show ¬ (mk r c a P).length > n from hc), init_loop _ _ _ ?_, bind_ok]
    · unfold mk MatPoly.setLength
      simp only
      congr 2
      funext j
      by_cases h1 : j < P.len
      · rw [if_neg (by omega), if_pos h1, if_pos (by omega), if_neg (by omega)]
      · by_cases h2 : j < n
        · rw [if_pos (by omega), if_pos h2, if_pos (by omega)]
        · rw [if_neg (by omega), if_neg h1, if_neg h2]
    · intro j h1 h2
      have h3 : P.len ≤ j := h1
      have h4 : j < P.len + (n - P.len) := h2
      exact ⟨show j < a by omega, by simp only [mk]; rw [if_neg (by omega)]⟩

theorem normLoop_mk (r c a : Nat) (co : Nat → Mat K) : ∀ (n : Nat), n ≤ a →
    normLoop n (mk r c a ⟨n, co⟩) = .ok (mk r c a ⟨normLen r c co n, co⟩)
  | 0, _ => rfl
  | n + 1, h => by
    unfold normLoop
    rw [if_neg (show ¬ (mk r c a ⟨n + 1, co⟩).length = 0 from Nat.succ_ne_zero n)]
    have e : (mk r c a (⟨n + 1, co⟩ : MatPoly K)).length - 1 = n := rfl
    rw [e, matGet_mk r c a ⟨n + 1, co⟩ h (Nat.lt_succ_self n), bind_ok]
    change (if matIsZero r c (co n) = true then _ else _) = _
    unfold normLen
    by_cases hz : matIsZero r c (co n) = true
    · rw [if_pos hz, if_pos hz, matClear, if_pos ⟨show n < a by omega, by simp [mk]⟩, bind_ok, ← normLoop_mk r c a co n (by omega)]
      congr 1
      unfold mk
      simp only [Nat.add_sub_cancel]
      congr 1
      funext j
      by_cases hj : j = n
      · subst hj; simp
      · simp only [Function.update, hj, dif_neg, not_false_iff]
        by_cases h1 : j < n
        · rw [if_pos h1, if_pos (by omega)]
        · rw [if_neg h1, if_neg (by omega)]
    · rw [if_neg hz, if_neg hz]

theorem normalise_mk (r c a : Nat) (P : MatPoly K) (h : P.len ≤ a) :
    normalise (mk r c a P) = .ok (mk r c a (MatPoly.normalise r c P)) := normLoop_mk r c a P.co P.len h

theorem truncate_mk (r c a : Nat) (P : MatPoly K) (h : P.len ≤ a) (n : Nat) :
    truncate (mk r c a P) n = .ok (mk r c a (MatPoly.truncate r c P n)) := by
  unfold truncate MatPoly.truncate
  by_cases hc : P.len > n
  · rw [if_pos (show (mk r c a P).length > n from hc), if_pos hc, clear_loop _ _ _ ?_, bind_ok, ← normalise_mk r c a ⟨n, P.co⟩ (show n ≤ a by omega)]
    · congr 1
      unfold mk
      simp only
      congr 1
      funext j
      by_cases h1 : j < n
      · rw [if_neg (by omega), if_pos (by omega), if_pos h1]
      · rw [if_neg h1]
        by_cases h2 : j < P.len
        · rw [if_pos (by omega)]
        · rw [if_neg (by omega), if_neg h2]
    · intro j h1 h2
      have h3 : j < P.len := by simp only [mk] at h2; omega
      exact ⟨lt_of_lt_of_le h3 h, by simp [mk, h3]⟩
  · rw [if_neg (show ¬ (mk r c a P).length > n from hc), if_neg hc]

theorem clear_mk (r c a : Nat) (P : MatPoly K) (h : P.len ≤ a) : clear (mk r c a P) = .ok () := by
  unfold clear
  rw [clear_loop _ _ _ ?_, bind_ok]
  · split_ifs
    · unfold freeArr
      rw [if_neg]
      rintro ⟨i, _, h2⟩
      simp only [mk] at h2
      by_cases hi : i < P.len
      · simp [hi] at h2
      · simp [hi] at h2
    · rfl
  · intro j _ h2
    have h3 : j < P.len := by simp only [mk] at h2; omega
    exact ⟨lt_of_lt_of_le h3 h, by simp [mk, h3]⟩

theorem truncate_len_le (r c : Nat) (P : MatPoly K) (n : Nat) : (MatPoly.truncate r c P n).len ≤ n := by
  unfold MatPoly.truncate
  split_ifs with h
  · exact normLen_le _ _ _ _
  · omega

theorem truncate_of_le (r c : Nat) (P : MatPoly K) {n : Nat} (h : P.len ≤ n) : MatPoly.truncate r c P n = P := by
  unfold MatPoly.truncate; rw [if_neg (by omega)]

theorem realloc_mk (r c a : Nat) (P : MatPoly K) (h : P.len ≤ a) (n : Nat) :
    realloc (mk r c a P) n = .ok (mk r c n (MatPoly.truncate r c P n)) := by
  unfold realloc
  have ht := truncate_len_le r c P n
  by_cases hn : n = 0
  · subst hn
    rw [if_pos rfl, clear_mk r c a P h, bind_ok]
    have hl : (MatPoly.truncate r c P 0).len = 0 := by omega
    unfold mk
    rw [hl]
    simp
  · rw [if_neg hn]
    by_cases ha : a = 0
    · subst ha
      have hl : P.len = 0 := by omega
      rw [if_neg (show ¬ (mk r c 0 P).alloc ≠ 0 from fun h => h rfl), mallocArr, if_neg (by simp [mk]), bind_ok, truncate_of_le r c P (by omega)]
      unfold mk
      rw [hl]
      simp [hn]
    · rw [if_pos (show (mk r c a P).alloc ≠ 0 from ha), truncate_mk r c a P h n, bind_ok]
      unfold reallocArr
      rw [if_neg]
      · rw [bind_ok]
        have hl : (MatPoly.truncate r c P n).len ≤ a := by
          unfold MatPoly.truncate
          split_ifs with h1
          · exact (normLen_le _ _ _ _).trans (by simp only; omega)
          · exact h
        generalize MatPoly.truncate r c P n = Q at ht hl ⊢
        unfold mk
        simp only [Res.ok.injEq, Obj.mk.injEq, true_and]
        refine ⟨by simp [hn], ?_⟩
        funext j
        by_cases h1 : j < Q.len
        · rw [if_pos (by omega)]
        · rw [if_neg h1, ite_self]
      · rintro ⟨i, _, h2, h3⟩
        simp only [mk] at h3
        rw [if_neg (by omega)] at h3
        simp at h3

/-- The capacity after `nmod_mat_poly_fit_length`. -/
def fitAlloc (a n : Nat) : Nat := if n > a then (if n < 2 * a then 2 * a else n) else a

theorem fitAlloc_ge (a n : Nat) : n ≤ fitAlloc a n ∧ a ≤ fitAlloc a n := by
  unfold fitAlloc; split_ifs <;> omega

theorem fitLength_mk (r c a : Nat) (P : MatPoly K) (h : P.len ≤ a) (n : Nat) :
    fitLength (mk r c a P) n = .ok (mk r c (fitAlloc a n) P) := by
  have hg := fitAlloc_ge a n
  unfold fitLength
  change (if n > a then realloc (mk r c a P) (if n < 2 * a then 2 * a else n) else _) = _
  unfold fitAlloc at hg ⊢
  by_cases hn : n > a
  · rw [if_pos hn] at hg
    rw [if_pos hn, if_pos hn, realloc_mk r c a P h, truncate_of_le r c P (by omega)]
  · rw [if_neg hn, if_neg hn]

theorem zero_mk (r c a : Nat) (P : MatPoly K) (h : P.len ≤ a) : zero (mk r c a P) = .ok (mk r c a (MatPoly.zero P)) :=
  setLength_mk r c a P h 0 (Nat.zero_le a)

/-- `fit_length`, then `set_length`. -/
theorem grow_mk {α : Type} (r c a : Nat) (P : MatPoly K) (h : P.len ≤ a) (n : Nat) (f : Obj K → Res α) :
    ((fitLength (mk r c a P) n).bind fun o => (setLength o n).bind f) = f (mk r c (fitAlloc a n) (MatPoly.setLength P n)) := by
  have hg := fitAlloc_ge a n
  rw [fitLength_mk r c a P h n, bind_ok, setLength_mk r c _ P (by omega) n hg.1, bind_ok]

theorem one_mk (r c a : Nat) (P : MatPoly K) (h : P.len ≤ a) : one (mk r c a P) = .ok (mk r c (fitAlloc a 1) (MatPoly.one P)) := by
  unfold one
  rw [grow_mk r c a P h 1, matPut_mk r c _ _ (fitAlloc_ge a 1).1 (show 0 < (MatPoly.setLength P 1).len from Nat.one_pos)]
  rfl

theorem setFromMat_mk (r c a : Nat) (P : MatPoly K) (h : P.len ≤ a) (A : Mat K) :
    setFromMat (mk r c a P) A = .ok (mk r c (if matIsZero r c A then a else fitAlloc a 1) (MatPoly.setFromMat r c P A)) := by
  unfold setFromMat MatPoly.setFromMat
  change (if matIsZero r c A = true then _ else _) = _
  by_cases hz : matIsZero r c A = true
  · rw [if_pos hz, if_pos hz, if_pos hz, zero_mk r c a P h]
  · rw [if_neg hz, if_neg hz, if_neg hz, grow_mk r c a P h 1, matPut_mk r c _ _ (fitAlloc_ge a 1).1 (show 0 < (MatPoly.setLength P 1).len from Nat.one_pos)]

theorem set_mk (r c a b : Nat) (P Q : MatPoly K) (h : P.len ≤ a) (g : Q.len ≤ b) :
    set (mk r c a P) (mk r c b Q) = .ok (mk r c (fitAlloc a Q.len) (MatPoly.set P Q)) := by
  unfold set
  rw [if_neg (show ¬ ((mk r c a P).r ≠ (mk r c b Q).r ∨ (mk r c a P).c ≠ (mk r c b Q).c) by simp [mk])]
  have e : (mk r c b Q).length = Q.len := rfl
  rw [e, grow_mk r c a P h Q.len]
  have := put_loop r c (fitAlloc a Q.len) Q.len 0 (fun i o => (matGet i (mk r c b Q)).bind fun A => matPut i A o) (fun i _ => Q.co i) Q.len 0
    (MatPoly.setLength P Q.len).co (by
      intro j _ hj co
      simp only [Nat.zero_add] at hj ⊢
      rw [matGet_mk r c b Q g hj, bind_ok, matPut_mk r c _ ⟨Q.len, co⟩ (fitAlloc_ge a Q.len).1 hj])
  refine Eq.trans this ?_
  congr 1
  apply mk_congr
  refine ⟨rfl, fun k hk => ?_⟩
  have hk : k < Q.len := hk
  simp [MatPoly.set, hk]

theorem rand_mk (r c a : Nat) (P : MatPoly K) (h : P.len ≤ a) (n : Nat) (v : Nat → Mat K) :
    rand (mk r c a P) n v = .ok (mk r c (fitAlloc a n) (MatPoly.normalise r c ⟨n, v⟩)) := by
  unfold rand
  rw [grow_mk r c a P h n]
  have := put_loop r c (fitAlloc a n) n 0 (fun i o => matPut i (v i) o) (fun i _ => v i) n 0 (MatPoly.setLength P n).co (by
      intro j _ hj co
      simp only [Nat.zero_add] at hj ⊢
      rw [matPut_mk r c _ ⟨n, co⟩ (fitAlloc_ge a n).1 hj])
  have e : mk r c (fitAlloc a n) (MatPoly.setLength P n) = mk r c (fitAlloc a n) ⟨n, (MatPoly.setLength P n).co⟩ := rfl
  rw [e, this, bind_ok, ← normalise_mk r c (fitAlloc a n) ⟨n, v⟩ (fitAlloc_ge a n).1]
  congr 1
  apply mk_congr
  refine ⟨rfl, fun k hk => ?_⟩
  have hk : k < n := hk
  simp [hk]

theorem initSet_eq (r c : Nat) (A : Mat K) :
    initSet r c A = .ok (mk r c 1 (MatPoly.setFromMat r c ⟨0, fun _ => matZero⟩ A)) := by
  unfold initSet MatPoly.setFromMat
  by_cases hz : matIsZero r c A = true
  · rw [if_pos hz, if_pos hz, init2_eq]
    rfl
  · rw [if_neg hz, if_neg hz]
    simp only [init2, matInit, matPut, mk, MatPoly.setLength, Res.bind]
    simp
    funext j
    by_cases hj : j = 0
    · subst hj; simp
    · simp [Function.update, hj]

theorem setEntry_mk (r c a : Nat) (P : MatPoly K) (h : P.len ≤ a) {k i j : Nat} (hk : k < P.len) (hi : i < r) (hj : j < c) (x : K) :
    setEntry (mk r c a P) k i j x = .ok (mk r c a ⟨P.len, Function.update P.co k fun u v => if u = i ∧ v = j then x else P.co k u v⟩) := by
  unfold setEntry
  rw [matGet_mk r c a P h hk, bind_ok, if_pos ⟨hi, hj⟩, matPut_mk r c a P h hk]

theorem permuteRows_mk (r c a : Nat) (P : MatPoly K) (h : P.len ≤ a) (act : Nat → Nat) (hact : ∀ i, i < r → act i < r) :
    permuteRowsObj (mk r c a P) act = .ok (mk r c a ⟨P.len, fun k u v => if u < r then P.co k (act u) v else P.co k u v⟩) := by
  unfold permuteRowsObj
  rw [if_pos (show ∀ i, i < (mk r c a P).r → act i < (mk r c a P).r from hact)]
  have := put_loop r c a P.len 0 (fun k o => (matGet k o).bind fun A => matPut k (permuteRows o.r A act none).1 o)
    (fun _ A => (permuteRows r A act none).1) P.len 0 P.co (by
      intro j _ hj co
      simp only [Nat.zero_add] at hj ⊢
      rw [matGet_mk r c a ⟨P.len, co⟩ h hj, bind_ok, matPut_mk r c a ⟨P.len, co⟩ h hj]
      rfl)
  refine Eq.trans this (congrArg Res.ok (mk_congr r c a ⟨rfl, fun k hk => ?_⟩))
  have hk : k < P.len := hk
  funext u v
  simp only [Nat.zero_add, Nat.zero_le, true_and, if_pos hk, permuteRows]
  split_ifs <;> rfl

theorem setTrunc_mk (r c a : Nat) (P : MatPoly K) (h : P.len ≤ a) (M : Mat (Polynomial K)) (n : Nat) :
    setTrunc (mk r c a P) M n
      = .ok (mk r c (fitAlloc a (if n > maxLength r c M then maxLength r c M else n)) (MatPoly.setTruncFromPolyMat r c P M n)) := by
  unfold setTrunc MatPoly.setTruncFromPolyMat
  have e : maxLength (mk r c a P).r (mk r c a P).c M = maxLength r c M := rfl
  simp only [e]
  generalize maxLength r c M = len
  generalize (if n > len then len else n) = m
  rw [grow_mk r c a P h m]
  have := put_loop r c (fitAlloc a m) m 0
    (fun k o => (matGet k o).bind fun A => matPut k (fun i j => if i < o.r ∧ j < o.c then (M i j).coeff k else A i j) o)
    (fun k A i j => if i < r ∧ j < c then (M i j).coeff k else A i j) m 0 (MatPoly.setLength P m).co (by
      intro j _ hj co
      simp only [Nat.zero_add] at hj ⊢
      rw [matGet_mk r c _ ⟨m, co⟩ (fitAlloc_ge a m).1 hj, bind_ok, matPut_mk r c _ ⟨m, co⟩ (fitAlloc_ge a m).1 hj]
      rfl)
  have e : mk r c (fitAlloc a m) (MatPoly.setLength P m) = mk r c (fitAlloc a m) ⟨m, (MatPoly.setLength P m).co⟩ := rfl
  rw [e, this, bind_ok]
  have e2 : mk r c (fitAlloc a m) ⟨m, fun j => if 0 + 0 ≤ j ∧ j < 0 + 0 + m then (fun i k => if i < r ∧ k < c then (M i k).coeff (j - 0)
      else (MatPoly.setLength P m).co j i k) else (MatPoly.setLength P m).co j⟩ = mk r c (fitAlloc a m) (fillFromPolyMat r c P M m) := by
    apply mk_congr
    refine ⟨rfl, fun k hk => ?_⟩
    have hk : k < m := hk
    funext i j
    simp [fillFromPolyMat, hk]
  rw [e2]
  by_cases hm : m < len
  · rw [if_pos hm, if_pos hm, normalise_mk r c _ _ (show m ≤ _ from (fitAlloc_ge a m).1)]
  · rw [if_neg hm, if_neg hm]

theorem zeroCells_mk (r c a len n : Nat) (h : len ≤ a) (hn : n ≤ len) (co : Nat → Mat K) :
    loop (fun i o => matPut i matZero o) 0 n (mk r c a ⟨len, co⟩) = .ok (mk r c a ⟨len, zeroLoop matZero n co⟩) := by
  rw [put_loop r c a len 0 (fun i o => matPut i matZero o) (fun _ _ => matZero) n 0 co (by
      intro j _ hj co
      simp only [Nat.zero_add] at hj ⊢
      rw [matPut_mk r c a ⟨len, co⟩ h (show j < len by omega)])]
  congr 3
  funext j
  rw [zeroLoop_apply]
  simp

theorem shiftLeft_mk (r c a b : Nat) (P Q : MatPoly K) (h : P.len ≤ a) (g : Q.len ≤ b) (n : Nat) :
    ∃ a', shiftLeft (mk r c a P) (mk r c b Q) n = .ok (mk r c a' (MatPoly.shiftLeft P Q n)) ∧ (MatPoly.shiftLeft P Q n).len ≤ a' := by
  unfold shiftLeft MatPoly.shiftLeft
  by_cases hn : n = 0
  · rw [if_pos hn, if_pos hn]
    exact ⟨_, set_mk r c a b P Q h g, (fitAlloc_ge a Q.len).1⟩
  rw [if_neg hn, if_neg hn]
  have e : (mk r c b Q).length = Q.len := rfl
  rw [e]
  by_cases hq : Q.len = 0
  · rw [if_pos hq, if_pos hq]
    exact ⟨a, zero_mk r c a P h, Nat.zero_le a⟩
  rw [if_neg hq, if_neg hq, if_neg (show ¬ ((mk r c a P).r ≠ (mk r c b Q).r ∨ (mk r c a P).c ≠ (mk r c b Q).c) by simp [mk]), grow_mk r c a P h]
  have hg := (fitAlloc_ge a (Q.len + n)).1
  refine ⟨fitAlloc a (Q.len + n), ?_, hg⟩
  have e : mk r c (fitAlloc a (Q.len + n)) (MatPoly.setLength P (Q.len + n))
      = mk r c (fitAlloc a (Q.len + n)) ⟨Q.len + n, (MatPoly.setLength P (Q.len + n)).co⟩ := rfl
  rw [e, put_loop r c _ (Q.len + n) n _ (fun i _ => Q.co i) (Q.len - n) 0 _ (by
      intro j _ hj co
      rw [matGet_mk r c b Q g (show j < Q.len by omega), bind_ok, matPut_mk r c _ ⟨Q.len + n, co⟩ hg (show n + j < Q.len + n by omega)]),
    bind_ok, zeroCells_mk r c _ _ _ hg (by omega)]
  congr 3
  congr 1
  funext j
  rw [copyLoop_apply]
  simp

theorem matSwap_mk (r c a len : Nat) (h : len ≤ a) {i j : Nat} (hi : i < len) (hj : j < len) (co : Nat → Mat K) :
    matSwap i j (mk r c a ⟨len, co⟩) = .ok (mk r c a ⟨len, swapAt i j co⟩) := by
  unfold matSwap
  rw [matGet_mk r c a ⟨len, co⟩ h hi, bind_ok, matGet_mk r c a ⟨len, co⟩ h hj, bind_ok, matPut_mk r c a ⟨len, co⟩ h hi, bind_ok,
    matPut_mk r c a ⟨len, _⟩ h hj]
  congr 3
  funext k
  simp only [swapAt]
  by_cases hij : i = j
  · subst hij
    rw [if_neg (fun h => h rfl)]
    by_cases h1 : k = i
    · subst h1; simp
    · simp [Function.update, h1]
  · rw [if_pos hij]
    by_cases h1 : k = i
    · subst h1; simp [Function.update, hij]
    · by_cases h2 : k = j
      · subst h2; simp [Function.update, h1]
      · simp [Function.update, h1, h2]

theorem swapCells_mk (r c a len n : Nat) (h : len ≤ a) : ∀ (m : Nat) (co : Nat → Mat K), n + m ≤ len →
    downLoop (fun i o => matSwap (n + i) i o) m (mk r c a ⟨len, co⟩) = .ok (mk r c a ⟨len, swapLoop n m co⟩)
  | 0, _, _ => rfl
  | m + 1, co, hm => by
    unfold downLoop swapLoop
    rw [matSwap_mk r c a len h (by omega) (by omega), bind_ok, swapCells_mk r c a len n h m _ (by omega)]

theorem shiftLeftAliased_mk (r c a : Nat) (P : MatPoly K) (h : P.len ≤ a) (n : Nat) :
    ∃ a', shiftLeftAliased (mk r c a P) n = .ok (mk r c a' (MatPoly.shiftLeftAliased P n)) ∧ (MatPoly.shiftLeftAliased P n).len ≤ a' := by
  unfold shiftLeftAliased MatPoly.shiftLeftAliased
  by_cases hn : n = 0
  · rw [if_pos hn, if_pos hn]
    exact ⟨a, rfl, h⟩
  rw [if_neg hn, if_neg hn]
  have e : (mk r c a P).length = P.len := rfl
  rw [e]
  by_cases hq : P.len = 0
  · rw [if_pos hq, if_pos hq]
    exact ⟨a, zero_mk r c a P h, Nat.zero_le a⟩
  have hg := (fitAlloc_ge a (P.len + n)).1
  rw [if_neg hq, if_neg hq, fitLength_mk r c a P h, bind_ok]
  have e : (mk r c (fitAlloc a (P.len + n)) P).length = P.len := rfl
  rw [e, setLength_mk r c _ P (by omega) _ hg, bind_ok]
  refine ⟨fitAlloc a (P.len + n), ?_, hg⟩
  have e : mk r c (fitAlloc a (P.len + n)) (MatPoly.setLength P (P.len + n))
      = mk r c (fitAlloc a (P.len + n)) ⟨P.len + n, (MatPoly.setLength P (P.len + n)).co⟩ := rfl
  have e2 : (mk r c (fitAlloc a (P.len + n)) (MatPoly.setLength P (P.len + n))).length - n = P.len := Nat.add_sub_cancel P.len n
  have e3 : (MatPoly.setLength P (P.len + n)).len - n = P.len := Nat.add_sub_cancel P.len n
  rw [e2, e, swapCells_mk r c _ _ n hg _ _ (by omega), bind_ok, zeroCells_mk r c _ _ _ hg (by omega)]
  simp only [e3]
  rfl

/-! ### Functions that read -/

theorem getCoeff_mk (r c a : Nat) (P : MatPoly K) (h : P.len ≤ a) (k : Nat) : getCoeff (mk r c a P) k = .ok (MatPoly.getCoeff P k) := by
  unfold getCoeff MatPoly.getCoeff
  by_cases hk : k < P.len
  · rw [if_pos (show k < (mk r c a P).length from hk), if_pos hk, matGet_mk r c a P h hk]
  · rw [if_neg (show ¬ k < (mk r c a P).length from hk), if_neg hk]

theorem getEntry_mk (r c a : Nat) (P : MatPoly K) (h : P.len ≤ a) {k i j : Nat} (hk : k < P.len) (hi : i < r) (hj : j < c) :
    getEntry (mk r c a P) k i j = .ok (P.co k i j) := by
  unfold getEntry
  rw [matGet_mk r c a P h hk, bind_ok, if_pos ⟨hi, hj⟩]

theorem isOne_mk (r c a : Nat) (P : MatPoly K) (h : P.len ≤ a) : isOne (mk r c a P) = .ok (MatPoly.isOne r c P) := by
  unfold isOne MatPoly.isOne
  by_cases h1 : P.len = 1
  · rw [if_pos (show (mk r c a P).length = 1 from h1), matGet_mk r c a P h (by omega), bind_ok]
    simp [h1, mk]
  · rw [if_neg (show ¬ (mk r c a P).length = 1 from h1)]
    simp [h1]

theorem mulLoop_mk (r c n d a b : Nat) (P Q : MatPoly K) (h : P.len ≤ a) (g : Q.len ≤ b) (k : Nat) : ∀ (s i : Nat) (acc : Mat K),
    i + s ≤ P.len → i + s ≤ k + 1 → k + 1 - Q.len ≤ i →
    loop (fun i acc => (matGet i (mk r c a P)).bind fun A => (matGet (k - i) (mk n d b Q)).bind fun B => .ok (matAdd acc (matMul c A B))) i s acc
      = .ok (mulCoeffLoop c P Q k s i acc)
  | 0, _, _, _, _, _ => rfl
  | s + 1, i, acc, h1, h2, h3 => by
    unfold loop mulCoeffLoop
    rw [matGet_mk r c a P h (show i < P.len by omega), bind_ok, matGet_mk n d b Q g (show k - i < Q.len by omega), bind_ok, bind_ok,
      mulLoop_mk r c n d a b P Q h g k s (i + 1) _ (by omega) (by omega) (by omega)]

theorem mulCoeff_mk (r n d a b : Nat) (P Q : MatPoly K) (h : P.len ≤ a) (g : Q.len ≤ b) (k : Nat) :
    mulCoeff (mk r n a P) (mk n d b Q) k = .ok (MatPoly.mulCoeff n P Q k) := by
  unfold mulCoeff MatPoly.mulCoeff
  have e1 : (mk r n a P).length = P.len := rfl
  have e2 : (mk n d b Q).length = Q.len := rfl
  have e3 : (mk r n a P).c = n := rfl
  have e4 : (mk n d b Q).r = n := rfl
  simp only [e1, e2, e3, e4]
  by_cases hc : k + 1 - Q.len ≥ min (k + 1) P.len
  · rw [if_pos hc, if_pos hc]
  · rw [if_neg hc, if_neg hc, if_neg (fun h => h rfl), matGet_mk r n a P h (by omega), bind_ok, matGet_mk n d b Q g (by omega), bind_ok,
      mulLoop_mk r n n d a b P Q h g k _ _ _ (by omega) (by omega) (by omega)]

theorem horner_mk (r c a : Nat) (P : MatPoly K) (h : P.len ≤ a) (pt : K) : ∀ (n : Nat) (e : Mat K), n ≤ P.len →
    downLoop (fun k e => (matGet k (mk r c a P)).bind fun A => .ok (matScalarAddmul A e pt)) n e = .ok (hornerLoop P pt n e)
  | 0, _, _ => rfl
  | n + 1, e, hn => by
    unfold downLoop hornerLoop
    rw [matGet_mk r c a P h (show n < P.len by omega), bind_ok, bind_ok, horner_mk r c a P h pt n _ (by omega)]

theorem evaluate_mk (r c a : Nat) (P : MatPoly K) (h : P.len ≤ a) (pt : K) : evaluate (mk r c a P) pt = .ok (MatPoly.evaluate P pt) := by
  unfold evaluate MatPoly.evaluate
  have e1 : (mk r c a P).length = P.len := rfl
  rw [e1]
  by_cases h0 : P.len = 0
  · rw [if_pos h0, if_pos h0]
  rw [if_neg h0, if_neg h0]
  by_cases h1 : P.len = 1 ∨ pt = 0
  · rw [if_pos h1, if_pos h1, matGet_mk r c a P h (by omega)]
  · rw [if_neg h1, if_neg h1, matGet_mk r c a P h (by omega), bind_ok, horner_mk r c a P h pt _ _ (by omega)]

end PML.MatPoly.Mem
