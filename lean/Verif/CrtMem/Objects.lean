import Verif.CrtMem.Theory

/-!
# The blocks of each object
-/

namespace PML.CrtMem

theorem free_head {b n : Nat} {L : Blocks} {h : Heap} (H : Has ((b, n) :: L) h) (hd : (ids ((b, n) :: L)).Nodup) :
    ∃ h', free b h = .ok ((), h') ∧ Frees [b] h h' ∧ Has L h' ∧ (ids L).Nodup := by
  obtain ⟨h', e, F⟩ := free_ok (H (b, n) (by simp))
  have hd' : b ∉ ids L ∧ (ids L).Nodup := List.nodup_cons.1 hd
  refine ⟨h', e, F, F.keep (fun x hx => H x (List.mem_cons_of_mem _ hx)) fun c hc => ?_, hd'.2⟩
  obtain rfl := List.mem_singleton.1 hc
  exact hd'.1

theorem table_free {n : Nat} {own : Nat → Blocks} {K : Blocks} {body : Nat → M Unit} {h : Heap} (H : Has ((List.range n).flatMap own ++ K) h)
    (hd : (ids ((List.range n).flatMap own ++ K)).Nodup)
    (hb : ∀ i, i < n → ∀ h, Has (K ++ own i) h → (ids (K ++ own i)).Nodup → ∃ h', body i h = .ok ((), h') ∧ Frees (ids (own i)) h h') :
    ∃ h', rep n body h = .ok ((), h') ∧ Frees (ids ((List.range n).flatMap own)) h h' ∧ Has K h' ∧ (ids K).Nodup := by
  have hp : ((List.range n).flatMap own ++ K).Perm (K ++ (List.range n).flatMap own) := List.perm_append_comm
  obtain ⟨h', e, F⟩ := rep_frees (K := K) own (n := n) (body := body) (h := h) (fun x hx => H x (hp.mem_iff.2 hx)) ((hp.map Prod.fst).nodup_iff.1 hd) hb
  rw [ids_append, List.nodup_append] at hd
  exact ⟨h', e, F, F.keep (Has.append.1 H).2 fun b hb hk => hd.2.2 b hb b hk rfl, hd.2.1⟩

theorem limbs_pos {P : Nat} (h : 0 < P) : 0 < limbs P := by
  have := Nat.size_pos.2 h
  unfold limbs
  omega

theorem prodTo_pos {p : Nat → Nat} : ∀ {n : Nat}, (∀ i, i < n → 0 < p i) → 0 < prodTo p n
  | 0, _ => one_pos
  | n + 1, h => Nat.mul_pos (prodTo_pos fun i hi => h i (by omega)) (h n (by omega))

theorem coprime_prod {p : Nat → Nat} {x : Nat} : ∀ {n : Nat}, (∀ i, i < n → Nat.Coprime (p i) x) → Nat.Coprime (prodTo p n) x
  | 0, _ => Nat.coprime_one_left x
  | n + 1, h => Nat.Coprime.mul_left (coprime_prod fun i hi => h i (by omega)) (h n (by omega))

theorem prod_split {p : Nat → Nat} {i : Nat} : ∀ {n : Nat}, i < n → (∀ j, j < n → j ≠ i → Nat.Coprime (p j) (p i)) →
    ∃ Q, prodTo p n = p i * Q ∧ Nat.Coprime Q (p i)
  | 0, h, _ => absurd h (Nat.not_lt_zero _)
  | n + 1, h, hc => by
    by_cases hin : i = n
    · subst hin
      exact ⟨prodTo p i, Nat.mul_comm _ _, coprime_prod fun j hj => hc j (by omega) (by omega)⟩
    · obtain ⟨Q, e, c⟩ := prod_split (n := n) (by omega) fun j hj => hc j (by omega)
      refine ⟨Q * p n, ?_, Nat.Coprime.mul_left c (hc n (by omega) (by omega))⟩
      show prodTo p n * p n = _
      rw [e, Nat.mul_assoc]

/-! ## Multimodular reduction -/

/-- The blocks of an object, in the order in which they are freed. -/
def ownMmod (o : Mmod) : Blocks :=
  (o.primes, o.num) :: (o.mod, o.num) :: ((List.range o.num).flatMap (fun i => [(o.row i, rowLen o.small o.limbs)]) ++ [(o.pow, o.num), (o.prod, 1)])

theorem mmodInit_full (p : Nat → Nat) (n : Nat) (hp : ∀ i, i < n → 0 < p i) (h : Heap) (hw : WF h) :
    ∃ o h', mmodInit p n h = .ok (o, h') ∧ Adds (ownMmod o) h h' ∧ o.num = n ∧ o.limbs = limbs (prodTo p n) ∧ o.small = decide (maxTo p n < 2 ^ 30) := by
  obtain ⟨b1, h1, e1, A1⟩ := malloc_ok n h hw
  obtain ⟨b2, h2, e2, A2⟩ := malloc_ok n h1 (A1.wf hw)
  have A12 := A1.trans A2 hw
  obtain ⟨b3, h3, e3, A3⟩ := malloc_ok n h2 (A12.wf hw)
  have A13 := A12.trans A3 hw
  obtain ⟨b4, h4, e4, A4⟩ := malloc_ok 1 h3 (A13.wf hw)
  have A14 := A13.trans A4 hw
  have hw4 := A14.wf hw
  have H4 := A14.has
  have hl : 0 < limbs (prodTo p n) := limbs_pos (prodTo_pos hp)
  unfold mmodInit
  rw [bind_ok e1, bind_ok e2, bind_ok e3, bind_ok e4, bind_ok (rep_same fun i hi => ?_)]
  swap
  · rw [bind_ok (touch_ok H4 (b := b1) (n := n) (by simp) hi), if_neg (by have := hp i hi; omega)]
    exact touch_ok H4 (b := b2) (n := n) (by simp) hi
  dsimp only
  set l := limbs (prodTo p n) with hld
  set small : Bool := decide (maxTo p n < 2 ^ 30) with hsm
  obtain ⟨row, h5, e5, A5, -⟩ := tab_adds (dflt := 0) (K := [(b2, n), (b3, n)]) (fun v => [(v, rowLen small l)]) (fun _ _ => True) (n := n)
    (body := fun i => do
      touch b2 i
      touch b3 i
      if small then
        let len := rowLen true l
        let v ← alignedAlloc len
        touch v 0
        touch v 1
        touch v 2
        rep ((len - 1) / 3) fun t => do
          let u := 3 + 3 * t
          touch v (u - 3)
          touch v u
          if u + 1 < len then do
            touch v (u + 1)
            if u + 2 < len then touch v (u + 2) else pure ()
          else pure ()
        pure v
      else
        let v ← malloc l
        touch v 0
        rep (l - 1) fun t => do
          touch v t
          touch v (t + 1)
        pure v) hw4 (H4.mono (by simp)) (fun i hi h hw H => by
      rw [bind_ok (touch_ok H (b := b2) (n := n) (by simp) hi), bind_ok (touch_ok H (b := b3) (n := n) (by simp) hi)]
      by_cases hs : small = true
      · rw [if_pos hs, hs]
        dsimp only
        have hlen : 4 ≤ rowLen true l ∧ rowLen true l % 4 = 0 := by
          unfold rowLen
          rw [if_pos rfl]
          omega
        generalize rowLen true l = len at hlen ⊢
        obtain ⟨v, h', e, A⟩ := aligned_ok len hlen.2 h hw
        have ht : ∀ u, u < len → touch v u h' = .ok ((), h') := fun u hu => touch_ok A.has (b := v) (n := len) (by simp) hu
        refine ⟨v, h', ?_, A, trivial⟩
        rw [bind_ok e, bind_ok (ht 0 (by omega)), bind_ok (ht 1 (by omega)), bind_ok (ht 2 (by omega)), bind_ok (rep_same fun t htt => ?_)]
        · rfl
        · rw [bind_ok (ht _ (by omega)), bind_ok (ht _ (by omega))]
          split
          · rename_i h1
            rw [bind_ok (ht _ h1)]
            split
            · rename_i h2
              exact ht _ h2
            · rfl
          · rfl
      · have hs' : small = false := by simpa using hs
        rw [if_neg hs, hs']
        obtain ⟨v, h', e, A⟩ := malloc_ok l h hw
        have ht : ∀ u, u < l → touch v u h' = .ok ((), h') := fun u hu => touch_ok A.has (b := v) (n := l) (by simp) hu
        refine ⟨v, h', ?_, A, trivial⟩
        rw [bind_ok e, bind_ok (ht 0 hl), bind_ok (rep_same fun t htt => ?_)]
        · rfl
        · rw [bind_ok (ht t (by omega))]
          exact ht (t + 1) (by omega))
  refine ⟨⟨n, b1, b2, b3, row, l, small, b4⟩, h5, ?_, ?_, rfl, rfl, rfl⟩
  · exact bind_ok e5
  · refine (A14.trans A5 hw).perm ?_
    exact List.Perm.cons _ (List.Perm.cons _ List.perm_append_comm)

theorem mmodInit_ok (p : Nat → Nat) (n : Nat) (hp : ∀ i, i < n → 0 < p i) (h : Heap) (hw : WF h) :
    ∃ o h', mmodInit p n h = .ok (o, h') ∧ Adds (ownMmod o) h h' ∧ o.num = n := by
  obtain ⟨o, h', h1, h2, h3, -⟩ := mmodInit_full p n hp h hw
  exact ⟨o, h', h1, h2, h3⟩

theorem mmodClear_ok (o : Mmod) (h : Heap) (H : Has (ownMmod o) h) (hd : (ids (ownMmod o)).Nodup) :
    ∃ h', mmodClear o h = .ok ((), h') ∧ Frees (ids (ownMmod o)) h h' := by
  obtain ⟨h1, e1, F1, H1, d1⟩ := free_head H hd
  obtain ⟨h2, e2, F2, H2, d2⟩ := free_head H1 d1
  obtain ⟨h3, e3, F3, H3, d3⟩ := table_free (body := fun i => do touch o.pow i; free (o.row i)) H2 d2 (fun i hi h H _ => by
    rw [bind_ok (touch_ok H (b := o.pow) (n := o.num) (by simp) hi)]
    exact free_ok (H (o.row i, rowLen o.small o.limbs) (by simp)))
  obtain ⟨h4, e4, F4, H4, d4⟩ := free_head H3 d3
  obtain ⟨h5, e5, F5, -, -⟩ := free_head H4 d4
  refine ⟨h5, ?_, ?_⟩
  · unfold mmodClear
    rw [bind_ok e1, bind_ok e2, bind_ok e3, bind_ok e4]
    exact e5
  · refine (F1.trans (F2.trans (F3.trans (F4.trans F5)))).perm ?_
    unfold ownMmod
    simp [ids]

/-! ## Chinese remaindering -/

/-- The blocks of an object, in the order in which they are freed. -/
def ownNaive (o : Naive) : Blocks :=
  (o.primes, o.num) :: (o.inverses, o.num) :: ((List.range o.limbs).flatMap (fun i => [(o.row i, o.num)]) ++ [(o.coeffs, o.limbs), (o.mod, o.num), (o.prod, 1)])

theorem naiveInit_ok (p : Nat → Nat) (n : Nat) (hp : GoodModuli p n) (h : Heap) (hw : WF h) :
    ∃ o h', naiveInit p n h = .ok (o, h') ∧ Adds (ownNaive o) h h' ∧ o.num = n := by
  obtain ⟨b1, h1, e1, A1⟩ := malloc_ok n h hw
  obtain ⟨b2, h2, e2, A2⟩ := malloc_ok n h1 (A1.wf hw)
  have A12 := A1.trans A2 hw
  obtain ⟨b3, h3, e3, A3⟩ := malloc_ok n h2 (A12.wf hw)
  have A13 := A12.trans A3 hw
  obtain ⟨b4, h4, e4, A4⟩ := malloc_ok 1 h3 (A13.wf hw)
  have A14 := A13.trans A4 hw
  have hw4 := A14.wf hw
  have H4 := A14.has
  have hP : 0 < prodTo p n := prodTo_pos hp.pos
  have hl : 0 < limbs (prodTo p n) := limbs_pos hP
  unfold naiveInit
  rw [bind_ok e1, bind_ok e2, bind_ok e3, bind_ok e4, bind_ok (rep_same fun i hi => ?_)]
  swap
  · rw [if_neg (by have := hp.pos i hi; omega)]
    exact touch_ok H4 (b := b3) (n := n) (by simp) hi
  dsimp only
  rw [show (Nat.size (prodTo p n) + 63) / 64 = limbs (prodTo p n) from rfl]
  obtain ⟨b5, h5, e5, A5⟩ := malloc_ok (limbs (prodTo p n)) h4 hw4
  have A15 := A14.trans A5 hw
  have hw5 := A15.wf hw
  have H5 := A15.has
  rw [bind_ok e5]
  obtain ⟨row, h6, e6, A6, -⟩ := tab_adds (dflt := 0) (K := [(b5, limbs (prodTo p n))]) (fun v => [(v, n)]) (fun _ _ => True) (n := limbs (prodTo p n))
    (body := fun k => do touch b5 k; malloc n) hw5 (H5.mono (by simp)) (fun k hk h hw H => by
      rw [bind_ok (touch_ok H (b := b5) (n := limbs (prodTo p n)) (by simp) hk)]
      obtain ⟨v, h', e, A⟩ := malloc_ok n h hw
      exact ⟨v, h', e, A, trivial⟩)
  have A16 := A15.trans A6 hw
  have hw6 := A16.wf hw
  have H6 := A16.has
  rw [bind_ok e6]
  have hrow : ∀ k, k < limbs (prodTo p n) → (row k, n) ∈ (List.range (limbs (prodTo p n))).flatMap fun i => [(row i, n)] := fun k hk =>
    List.mem_flatMap.2 ⟨k, List.mem_range.2 hk, by simp⟩
  generalize hR : (List.range (limbs (prodTo p n))).flatMap (fun i => [(row i, n)]) = R at *
  have main : ∃ h7, rep n (fun i => do
      let cofactor ← malloc 1
      let c := prodTo p n / p i
      if Nat.gcd (c % p i) (p i) ≠ 1 then raise
      else do
        touch b2 i
        writeCofactor b5 row (limbs (prodTo p n)) c i
        free cofactor) h6 = .ok ((), h7) ∧ Adds [] h6 h7 := by
    refine rep_adds hw6 H6 fun i hi h hw H => ?_
    obtain ⟨b, h', e, A⟩ := malloc_ok 1 h hw
    have H' := A.keep hw H
    have hc : Nat.gcd (prodTo p n / p i % p i) (p i) = 1 := by
      obtain ⟨Q, eQ, cQ⟩ := prod_split hi fun j hj hji => hp.coprime j i hj hi hji
      rw [eQ, Nat.mul_div_cancel_left _ (hp.pos i hi), ← Nat.gcd_rec, Nat.gcd_comm]
      exact cQ
    have hle : limbs (prodTo p n / p i) ≤ limbs (prodTo p n) := by
      have := Nat.size_le_size (Nat.div_le_self (prodTo p n) (p i))
      unfold limbs
      omega
    have t5 : ∀ k, k < limbs (prodTo p n) → touch b5 k h' = .ok ((), h') := fun k hk => touch_ok H' (b := b5) (n := limbs (prodTo p n)) (by simp) hk
    have tr : ∀ k, k < limbs (prodTo p n) → touch (row k) i h' = .ok ((), h') := fun k hk =>
      touch_ok H' (b := row k) (n := n) (by rw [List.mem_append]; exact .inr (hrow k hk)) hi
    obtain ⟨h'', e'', F⟩ := free_ok (A.has (b, 1) (by simp))
    refine ⟨h'', ?_, Adds.frees (L := []) (K := [(b, 1)]) A hw F⟩
    rw [bind_ok e]
    rw [if_neg (by rw [hc]; simp), bind_ok (touch_ok H' (b := b2) (n := n) (by simp) hi)]
    have hmid : writeCofactor b5 row (limbs (prodTo p n)) (prodTo p n / p i) i h' = .ok ((), h') := by
      unfold writeCofactor
      split
      · rw [bind_ok (t5 0 hl), bind_ok (tr 0 hl)]
        refine rep_same fun k hk => ?_
        rw [bind_ok (t5 _ (by omega))]
        exact tr _ (by omega)
      · rw [bind_ok (rep_same fun j hj => ?_)]
        · refine rep_same fun k hk => ?_
          rw [bind_ok (t5 _ (by omega))]
          exact tr _ (by omega)
        · rw [bind_ok (t5 _ (by omega))]
          exact tr _ (by omega)
    rw [bind_ok hmid]
    exact e''
  obtain ⟨h7, e7, A7⟩ := main
  refine ⟨⟨n, limbs (prodTo p n), b1, b2, b3, b5, row, b4⟩, h7, bind_ok e7, ?_, rfl⟩
  refine (A16.trans A7 hw).perm ?_
  rw [List.append_nil]
  unfold ownNaive
  dsimp only
  rw [hR]
  refine List.Perm.cons _ (List.Perm.cons _ ?_)
  refine List.Perm.trans (l₂ := [(b5, limbs (prodTo p n)), (b3, n), (b4, 1)] ++ R) (List.Perm.append_right R ?_) List.perm_append_comm
  exact (List.perm_append_comm (l₁ := [(b3, n), (b4, 1)]) (l₂ := [(b5, limbs (prodTo p n))]))

theorem naiveClear_ok (o : Naive) (h : Heap) (H : Has (ownNaive o) h) (hd : (ids (ownNaive o)).Nodup) :
    ∃ h', naiveClear o h = .ok ((), h') ∧ Frees (ids (ownNaive o)) h h' := by
  obtain ⟨h1, e1, F1, H1, d1⟩ := free_head H hd
  obtain ⟨h2, e2, F2, H2, d2⟩ := free_head H1 d1
  obtain ⟨h3, e3, F3, H3, d3⟩ := table_free (body := fun i => do touch o.coeffs i; free (o.row i)) H2 d2 (fun i hi h H _ => by
    rw [bind_ok (touch_ok H (b := o.coeffs) (n := o.limbs) (by simp) hi)]
    exact free_ok (H (o.row i, o.num) (by simp)))
  obtain ⟨h4, e4, F4, H4, d4⟩ := free_head H3 d3
  obtain ⟨h5, e5, F5, H5, d5⟩ := free_head H4 d4
  obtain ⟨h6, e6, F6, -, -⟩ := free_head H5 d5
  refine ⟨h6, ?_, ?_⟩
  · unfold naiveClear
    rw [bind_ok e1, bind_ok e2, bind_ok e3, bind_ok e4, bind_ok e5]
    exact e6
  · refine (F1.trans (F2.trans (F3.trans (F4.trans (F5.trans F6))))).perm ?_
    unfold ownNaive
    simp [ids]

end PML.CrtMem
