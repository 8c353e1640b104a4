import Verif.CrtMem.ReduceModel
import Verif.CrtMem.Objects

/-!
# C110: memory accesses of multimodular reduction
-/

namespace PML.CrtMem

theorem limbs_mono {a b : Nat} (h : a ≤ b) : limbs a ≤ limbs b := by
  unfold limbs
  have := Nat.size_le_size h
  omega

theorem reduceBelow_ok {o : Mmod} {out m a : Nat} {h : Heap} (hw : WF h) (H : Has (ownMmod o) h) (ho : Has [(out, m)] h) (hm : o.num ≤ m) (ha : limbs a ≤ o.limbs) :
    ∃ h', reduceBelow o out a h = .ok ((), h') ∧ Adds [] h h' := by
  have Hm : (o.mod, o.num) ∈ ownMmod o := by simp [ownMmod]
  have Hp : (o.pow, o.num) ∈ ownMmod o := by simp [ownMmod]
  have Hr : ∀ i, i < o.num → (o.row i, rowLen o.small o.limbs) ∈ ownMmod o := fun i hi => by
    simp only [ownMmod, List.mem_cons, List.mem_append, List.mem_flatMap, List.mem_range]
    exact .inr (.inr (.inl ⟨i, hi, .inl rfl⟩))
  unfold reduceBelow
  by_cases hs : o.small = true
  · rw [if_pos hs]
    unfold reduceSmall
    split
    · refine ⟨h, rep_same fun i hi => ?_, Adds.refl h⟩
      rw [bind_ok (touch_ok H Hm hi)]
      exact touch_ok ho (List.mem_singleton.2 rfl) (by omega)
    · dsimp only
      generalize hk : limbs a = k at ha
      have hlen : (3 * k + 3) / 4 * 4 ≤ rowLen o.small o.limbs := by
        unfold rowLen
        rw [if_pos hs]
        omega
      have h3 : 3 * k ≤ (3 * k + 3) / 4 * 4 := by omega
      generalize hl : (3 * k + 3) / 4 * 4 = len at hlen h3
      obtain ⟨s, h1, e1, A1⟩ := aligned_ok len (by omega) h hw
      have H1 := A1.keep hw H
      have ho1 := A1.keep hw ho
      have hts : ∀ u, u < len → touch s u h1 = .ok ((), h1) := fun u hu => touch_ok A1.has (List.mem_singleton.2 rfl) hu
      rw [bind_ok e1, bind_ok (rep_same fun i hi => ?_), bind_ok (rep_same fun t ht => hts _ (by omega)), bind_ok (rep_same fun i hi => ?_)]
      · obtain ⟨h2, e2, F2⟩ := free_ok (A1.has (s, len) (List.mem_singleton.2 rfl))
        exact ⟨h2, e2, Adds.frees (L := []) (K := [(s, len)]) A1 hw F2⟩
      · rw [bind_ok (touch_ok H1 Hm hi), bind_ok (touch_ok H1 Hp hi), bind_ok (rep_same fun u hu => ?_)]
        · exact touch_ok ho1 (List.mem_singleton.2 rfl) (by omega)
        · rw [bind_ok (touch_ok H1 (Hr i hi) (by omega))]
          exact hts u hu
      · rw [bind_ok (hts _ (by omega)), bind_ok (hts _ (by omega))]
        exact hts _ (by omega)
  · rw [if_neg hs]
    unfold reduceLarge
    refine ⟨h, rep_same fun i hi => ?_, Adds.refl h⟩
    have hl : rowLen o.small o.limbs = o.limbs := by
      unfold rowLen
      rw [if_neg hs]
    rw [bind_ok (touch_ok H Hp hi), bind_ok (touch_ok H Hm hi)]
    split
    · exact touch_ok ho (List.mem_singleton.2 rfl) (by omega)
    · rw [bind_ok (rep_same fun u hu => touch_ok H (Hr i hi) (by rw [hl]; omega))]
      exact touch_ok ho (List.mem_singleton.2 rfl) (by omega)

/-- C110: after `fmpz_multimod_naive_init`, and as long as what was allocated then is still allocated, `fmpz_multimod_naive_reduce` of every integer, of
    any size and sign, into an array of at least as many entries as moduli, only accesses memory which is allocated, and frees what it allocates. -/
theorem C110_reduce (p : Nat → Nat) (n : Nat) (hp : ∀ i, i < n → 0 < p i) (h : Heap) (hw : WF h) :
    ∃ o h1, mmodInit p n h = .ok (o, h1) ∧ ∀ (h' : Heap) (out m : Nat) (A : Int), WF h' → (∀ b k, h1.live b = some k → h.live b = none → h'.live b = some k) →
      h'.live out = some m → n ≤ m → ∃ h'', mmodReduce (prodTo p n) o out A h' = .ok ((), h'') ∧ h''.live = h'.live := by
  obtain ⟨o, h1, e, Ad, hn, hl, -⟩ := mmodInit_full p n hp h hw
  refine ⟨o, h1, e, fun h' out m A hw' hk ho hm => ?_⟩
  have H : Has (ownMmod o) h' := fun x hx => hk x.1 x.2 (Ad.has x hx) (hw x.1 (Ad.fresh x.1 (mem_ids hx)).1)
  have ho' : Has [(out, m)] h' := fun x hx => by
    rw [List.mem_singleton.1 hx]
    exact ho
  have hP := prodTo_pos hp
  have hlive : ∀ {h2 : Heap}, Adds [] h' h2 → h2.live = h'.live := fun B => funext fun b => B.other b (by simp [ids])
  unfold mmodReduce
  split
  · obtain ⟨b, h2, e2, A2⟩ := malloc_ok 1 h' hw'
    have hlt : (A % (prodTo p n : Int)).natAbs < prodTo p n := by
      have h5 := Int.emod_lt_of_pos A (b := (prodTo p n : Int)) (by omega)
      have h6 := Int.emod_nonneg A (b := (prodTo p n : Int)) (by omega)
      omega
    obtain ⟨h3, e3, A3⟩ := reduceBelow_ok (a := (A % (prodTo p n : Int)).natAbs) (A2.wf hw') (A2.keep hw' H) (A2.keep hw' ho') (by omega)
      (by rw [hl]; exact limbs_mono hlt.le)
    have A23 := A2.trans A3 hw'
    obtain ⟨h4, e4, F4⟩ := free_ok (A23.has (b, 1) (by simp))
    rw [bind_ok e2, if_neg (by omega), bind_ok e3]
    exact ⟨h4, e4, hlive (Adds.frees (L := []) (K := [(b, 1)]) A23 hw' F4)⟩
  · obtain ⟨h3, e3, A3⟩ := reduceBelow_ok (a := A.natAbs) hw' H ho' (by omega) (by rw [hl]; exact limbs_mono (by omega))
    exact ⟨h3, e3, hlive A3⟩

/-- The hypotheses are met by the heap without blocks and the moduli 2, 3, 4, ... -/
example : (∀ i, i < 5 → 0 < (fun i => i + 2) i) ∧ WF ⟨fun _ => none, 0⟩ := ⟨fun _ _ => Nat.succ_pos _, fun _ _ => rfl⟩

theorem combine_ok {o : Naive} {m k : Nat} {h : Heap} (hw : WF h) (H : Has (ownNaive o) h) (ho : Has [(m, k)] h) (hm : o.num ≤ k) :
    ∃ h', combine o m h = .ok ((), h') ∧ Adds [] h h' := by
  have Hc : (o.coeffs, o.limbs) ∈ ownNaive o := by simp [ownNaive]
  have Hr : ∀ i, i < o.limbs → (o.row i, o.num) ∈ ownNaive o := fun i hi => by
    simp only [ownNaive, List.mem_cons, List.mem_append, List.mem_flatMap, List.mem_range]
    exact .inr (.inr (.inl ⟨i, hi, .inl rfl⟩))
  unfold combine
  obtain ⟨s, h1, e1, A1⟩ := malloc_ok (o.limbs + 2) h hw
  have H1 := A1.keep hw H
  have ho1 := A1.keep hw ho
  have hts : ∀ u, u < o.limbs + 2 → touch s u h1 = .ok ((), h1) := fun u hu => touch_ok A1.has (List.mem_singleton.2 rfl) hu
  rw [bind_ok e1, bind_ok (rep_same fun i hi => hts i hi), bind_ok (rep_same fun i hi => ?_), bind_ok (rep_same fun t ht => hts _ (by omega))]
  · obtain ⟨h2, e2, F2⟩ := free_ok (A1.has (s, o.limbs + 2) (List.mem_singleton.2 rfl))
    exact ⟨h2, e2, Adds.frees (L := []) (K := [(s, o.limbs + 2)]) A1 hw F2⟩
  · rw [bind_ok (touch_ok H1 Hc hi), bind_ok (rep_same fun j hj => ?_), bind_ok (hts _ (by omega)), bind_ok (hts _ (by omega))]
    · exact hts _ (by omega)
    · rw [bind_ok (touch_ok H1 (Hr i hi) hj)]
      exact touch_ok ho1 (List.mem_singleton.2 rfl) (by omega)

theorem naiveCRT_ok {o : Naive} {m k : Nat} {h : Heap} (hw : WF h) (H : Has (ownNaive o) h) (ho : Has [(m, k)] h) (hm : o.num ≤ k) :
    ∃ h', naiveCRT o m h = .ok ((), h') ∧ Adds [] h h' := by
  have Hi : (o.inverses, o.num) ∈ ownNaive o := by simp [ownNaive]
  have Hm : (o.mod, o.num) ∈ ownNaive o := by simp [ownNaive]
  have Hp : (o.prod, 1) ∈ ownNaive o := by simp [ownNaive]
  unfold naiveCRT
  obtain ⟨c, h1, e1, A1⟩ := malloc_ok 1 h hw
  obtain ⟨q, h2, e2, A2⟩ := malloc_ok o.num h1 (A1.wf hw)
  have A12 := A1.trans A2 hw
  have hw2 := A12.wf hw
  have H2 := A12.keep hw H
  have ho2 := A12.keep hw ho
  obtain ⟨h3, e3, A3⟩ := combine_ok hw2 H2 (A2.has) le_rfl
  have A13 := A12.trans A3 hw
  have H3 := A3.keep hw2 H2
  rw [bind_ok e1, bind_ok e2, bind_ok (rep_same fun i hi => ?_), bind_ok e3, bind_ok (touch_ok H3 Hp Nat.one_pos)]
  · obtain ⟨h4, e4, F4⟩ := free_ok (A13.has (c, 1) (by simp))
    have A14 : Adds [(q, o.num)] h h4 := Adds.frees (L := [(q, o.num)]) (K := [(c, 1)]) (A13.perm (List.Perm.swap _ _ _)) hw F4
    obtain ⟨h5, e5, F5⟩ := free_ok (A14.has (q, o.num) (by simp))
    rw [bind_ok e4]
    exact ⟨h5, e5, Adds.frees (L := []) (K := [(q, o.num)]) A14 hw F5⟩
  · rw [bind_ok (touch_ok ho2 (List.mem_singleton.2 rfl) (by omega)), bind_ok (touch_ok H2 Hi hi), bind_ok (touch_ok H2 Hm hi)]
    exact touch_ok A2.has (List.mem_singleton.2 rfl) hi

/-- C110: the same for `fmpz_CRT_naive_combine` and `fmpz_CRT_naive_CRT` after `fmpz_CRT_naive_init`. -/
theorem C110_crt (p : Nat → Nat) (n : Nat) (hp : GoodModuli p n) (h : Heap) (hw : WF h) :
    ∃ o h1, naiveInit p n h = .ok (o, h1) ∧ ∀ (h' : Heap) (m k : Nat), WF h' → (∀ b k, h1.live b = some k → h.live b = none → h'.live b = some k) →
      h'.live m = some k → n ≤ k →
      (∃ h'', combine o m h' = .ok ((), h'') ∧ h''.live = h'.live) ∧ ∃ h'', naiveCRT o m h' = .ok ((), h'') ∧ h''.live = h'.live := by
  obtain ⟨o, h1, e, Ad, hn⟩ := naiveInit_ok p n hp h hw
  refine ⟨o, h1, e, fun h' m k hw' hk ho hm => ?_⟩
  have H : Has (ownNaive o) h' := fun x hx => hk x.1 x.2 (Ad.has x hx) (hw x.1 (Ad.fresh x.1 (mem_ids hx)).1)
  have ho' : Has [(m, k)] h' := fun x hx => by
    rw [List.mem_singleton.1 hx]
    exact ho
  have hlive : ∀ {h2 : Heap}, Adds [] h' h2 → h2.live = h'.live := fun B => funext fun b => B.other b (by simp [ids])
  obtain ⟨h2, e2, A2⟩ := combine_ok hw' H ho' (by omega)
  obtain ⟨h3, e3, A3⟩ := naiveCRT_ok hw' H ho' (by omega)
  exact ⟨⟨h2, e2, hlive A2⟩, h3, e3, hlive A3⟩

end PML.CrtMem
