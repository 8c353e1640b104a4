import Verif.CrtMem.Objects

/-!
# The blocks of the tree and of the objects for words
-/

namespace PML.CrtMem

theorem flatMap_split {f g : Nat → Blocks} : ∀ L : List Nat, (L.flatMap fun i => f i ++ g i).Perm (L.flatMap f ++ L.flatMap g)
  | [] => List.Perm.nil
  | a :: L => by
    rw [List.flatMap_cons, List.flatMap_cons, List.flatMap_cons]
    refine List.Perm.trans (List.Perm.append_left _ (flatMap_split L)) ?_
    rw [List.perm_iff_count]
    intro x
    simp only [List.count_append]
    omega

/-- The blocks of a leaf, in the order in which they are freed. -/
def ownLeaf (o : Tree) (i : Nat) : Blocks := (o.product i, 1) :: (ownMmod (o.leafMod i) ++ ownNaive (o.leafCrt i))

/-- The blocks of an object, in the order in which they are freed. -/
def ownTree (o : Tree) : Blocks :=
  (o.prod, 1) :: (o.topMod, 1) :: (o.topCrt, 1) :: ((List.range o.leaves).flatMap (ownLeaf o) ++
    [(o.leavesMod, o.leaves), (o.leavesCrt, o.leaves), (o.products, o.leaves), (o.inverse, o.num)])

theorem leaf_bound {n size i : Nat} (hs : 0 < size) (hi : i < (n + size - 1) / size) : i * size < n := by
  have h1 : (i + 1) * size ≤ n + size - 1 := (Nat.mul_le_mul_right size hi).trans (Nat.div_mul_le_self _ _)
  have : (i + 1) * size = i * size + size := by ring
  omega

theorem cptAt_eq {n size : Nat} (hs : 0 < size) {nb : Nat → Nat} : ∀ i, i < (n + size - 1) / size → (∀ j, j < (n + size - 1) / size → nb j = leafNum n size j) →
    cptAt nb i = i * size
  | 0, _, _ => by rw [Nat.zero_mul]; rfl
  | i + 1, hi, hn => by
    have h1 := leaf_bound hs hi
    have h2 : (i + 1) * size = i * size + size := by ring
    show cptAt nb i + nb i = _
    rw [cptAt_eq hs i (by omega) hn, hn i (by omega), h2]
    unfold leafNum
    omega

theorem leaf_moduli {p : Nat → Nat} {n size : Nat} (hp : GoodModuli p n) (i : Nat) : GoodModuli (fun j => p (i * size + j)) (leafNum n size i) := by
  refine ⟨fun j hj => hp.pos _ ?_, fun j k hj hk hjk => hp.coprime _ _ ?_ ?_ (by omega)⟩ <;> unfold leafNum at * <;> omega

theorem leaf_coprime {p : Nat → Nat} {n size : Nat} (hp : GoodModuli p n) {i j : Nat} (hij : i ≠ j) :
    Nat.Coprime (prodTo (fun k => p (i * size + k)) (leafNum n size i)) (prodTo (fun k => p (j * size + k)) (leafNum n size j)) := by
  refine coprime_prod fun a ha => ((coprime_prod fun b hb => ?_).symm)
  have h1 : a < size ∧ i * size + a < n := by unfold leafNum at ha; omega
  have h2 : b < size ∧ j * size + b < n := by unfold leafNum at hb; omega
  refine hp.coprime _ _ h2.2 h1.2 fun e => ?_
  rcases Nat.lt_or_gt_of_ne hij with h | h
  · have := Nat.mul_le_mul_right size (show i + 1 ≤ j from h)
    have e2 : (i + 1) * size = i * size + size := by ring
    omega
  · have := Nat.mul_le_mul_right size (show j + 1 ≤ i from h)
    have e2 : (j + 1) * size = j * size + size := by ring
    omega

theorem treeInit_ok (big : Nat) (p : Nat → Nat) (n : Nat) (hp : GoodModuli p n) (hn : 0 < n) (hbig : 0 < big) (h : Heap) (hw : WF h) :
    ∃ o h', treeInit big p n h = .ok (o, h') ∧ Adds (ownTree o) h h' := by
  unfold treeInit
  dsimp only
  have hs : 0 < (if n < 200 then n else big) := by split <;> assumption
  generalize (if n < 200 then n else big) = size at hs ⊢
  rw [if_neg (by omega)]
  generalize hL : (n + size - 1) / size = leaves
  obtain ⟨b1, h1, e1, A1⟩ := malloc_ok leaves h hw
  obtain ⟨b2, h2, e2, A2⟩ := malloc_ok leaves h1 (A1.wf hw)
  have B2 := A1.trans A2 hw
  obtain ⟨b3, h3, e3, A3⟩ := malloc_ok leaves h2 (B2.wf hw)
  have B3 := B2.trans A3 hw
  obtain ⟨b4, h4, e4, A4⟩ := malloc_ok n h3 (B3.wf hw)
  have B4 := B3.trans A4 hw
  obtain ⟨b5, h5, e5, A5⟩ := malloc_ok 1 h4 (B4.wf hw)
  have B5 := B4.trans A5 hw
  obtain ⟨b6, h6, e6, A6⟩ := malloc_ok n h5 (B5.wf hw)
  have B6 := B5.trans A6 hw
  obtain ⟨b7, h7, e7, A7⟩ := malloc_ok n h6 (B6.wf hw)
  have B7 := B6.trans A7 hw
  obtain ⟨b8, h8, e8, A8⟩ := malloc_ok leaves h7 (B7.wf hw)
  have B8 := B7.trans A8 hw
  obtain ⟨b9, h9, e9, A9⟩ := malloc_ok 1 h8 (B8.wf hw)
  have B9 := B8.trans A9 hw
  have hw9 := B9.wf hw
  have H9 := B9.has
  rw [bind_ok e1, bind_ok e2, bind_ok e3, bind_ok e4, bind_ok e5, bind_ok e6, bind_ok e7, bind_ok e8, bind_ok e9,
    bind_ok (rep_same fun i hi => touch_ok H9 (b := b7) (n := n) (by simp) hi)]
  obtain ⟨leaf, h10, e10, A10, hleaf⟩ := tab_adds (dflt := (default : Mmod × Nat × Naive × Nat)) (K := [(b1, leaves), (b2, leaves), (b3, leaves), (b7, n), (b8, leaves)])
    (fun x => ((x.2.1, 1) :: (ownMmod x.1 ++ ownNaive x.2.2.1)) ++ [(x.2.2.2, 1)]) (fun i x => x.2.2.1.num = leafNum n size i) (n := leaves)
    (body := fun i => do
      touch b1 i
      let a ← mmodInit (fun j => p (i * size + j)) (leafNum n size i)
      touch b2 i
      let b ← malloc 1
      touch b3 i
      let c ← naiveInit (fun j => p (i * size + j)) (leafNum n size i)
      touch b8 i
      let d ← malloc 1
      rep c.num fun j => touch b7 (i * size + j)
      pure (a, b, c, d)) hw9 (H9.mono (by simp)) (fun i hi h hw H => by
      have gm := leaf_moduli (size := size) hp i
      rw [bind_ok (touch_ok H (b := b1) (n := leaves) (by simp) hi)]
      obtain ⟨a, k1, f1, C1, -⟩ := mmodInit_ok _ _ gm.pos h hw
      have K1 := C1.keep hw H
      obtain ⟨b, k2, f2, C2⟩ := malloc_ok 1 k1 (C1.wf hw)
      have D2 := C1.trans C2 hw
      have K2 := D2.keep hw H
      obtain ⟨c, k3, f3, C3, hc⟩ := naiveInit_ok _ _ gm k2 (D2.wf hw)
      have D3 := D2.trans C3 hw
      have K3 := D3.keep hw H
      obtain ⟨d, k4, f4, C4⟩ := malloc_ok 1 k3 (D3.wf hw)
      have D4 := D3.trans C4 hw
      have K4 := D4.keep hw H
      refine ⟨(a, b, c, d), k4, ?_, D4.perm ?_, hc⟩
      · rw [bind_ok f1, bind_ok (touch_ok K1 (b := b2) (n := leaves) (by simp) hi), bind_ok f2, bind_ok (touch_ok K2 (b := b3) (n := leaves) (by simp) hi),
          bind_ok f3, bind_ok (touch_ok K3 (b := b8) (n := leaves) (by simp) hi), bind_ok f4, bind_ok (rep_same fun j hj => ?_)]
        · rfl
        · refine touch_ok K4 (b := b7) (n := n) (by simp) ?_
          rw [hc] at hj
          unfold leafNum at hj
          omega
      · refine List.Perm.append_right _ ?_
        have : (ownMmod a ++ [(b, 1)]).Perm ((b, 1) :: ownMmod a) := List.perm_append_comm
        exact (this.append_right _))
  have B10 := B9.trans A10 hw
  obtain ⟨t1, h11, e11, A11⟩ := malloc_ok 1 h10 (B10.wf hw)
  have B11 := B10.trans A11 hw
  obtain ⟨t2, h12, e12, A12⟩ := malloc_ok 1 h11 (B11.wf hw)
  have B12 := B11.trans A12 hw
  have hw12 := B12.wf hw
  rw [bind_ok e10, bind_ok e11, bind_ok e12, if_neg (by rintro ⟨i, -, j, -, hij, hc⟩; exact hc (leaf_coprime hp hij))]
  set o : Tree := ⟨n, size, leaves, b1, b2, b3, b4, b5, fun i => (leaf i).1, fun i => (leaf i).2.1, fun i => (leaf i).2.2.1, t1, t2⟩ with ho
  have hperm : Adds (ownTree o ++ ((b9, 1) :: ((List.range leaves).flatMap (fun i => [((leaf i).2.2.2, 1)]) ++ [(b8, leaves), (b6, n), (b7, n)]))) h h12 := by
    refine B12.perm ?_
    have hf := flatMap_split (f := fun i => ((leaf i).2.1, 1) :: (ownMmod (leaf i).1 ++ ownNaive (leaf i).2.2.1)) (g := fun i => [((leaf i).2.2.2, 1)]) (List.range leaves)
    refine List.Perm.trans (List.Perm.append_right _ (List.Perm.append_right _ (List.Perm.append_left _ hf))) ?_
    have hO : (List.range o.leaves).flatMap (ownLeaf o) = (List.range leaves).flatMap (fun i => ((leaf i).2.1, 1) :: (ownMmod (leaf i).1 ++ ownNaive (leaf i).2.2.1)) := rfl
    unfold ownTree
    rw [hO, ho]
    dsimp only
    generalize (List.range leaves).flatMap (fun i => ((leaf i).2.1, 1) :: (ownMmod (leaf i).1 ++ ownNaive (leaf i).2.2.1)) = R
    generalize (List.range leaves).flatMap (fun i => [((leaf i).2.2.2, 1)]) = T
    rw [List.perm_iff_count]
    intro x
    simp only [List.count_append, List.count_cons, List.count_nil]
    omega
  obtain ⟨K12, H12⟩ := Has.append.1 hperm.has
  have hd := hperm.nodup
  rw [ids_append, List.nodup_append] at hd
  obtain ⟨h13, e13, F13, H13, d13⟩ := free_head H12 hd.2.1
  obtain ⟨h14, e14, F14, H14, d14⟩ := table_free (body := fun i => do touch b8 i; free (leaf i).2.2.2) H13 d13 (fun i hi h H _ => by
    rw [bind_ok (touch_ok H (b := b8) (n := leaves) (by simp) hi)]
    exact free_ok (H ((leaf i).2.2.2, 1) (by simp)))
  obtain ⟨h15, e15, F15, H15, d15⟩ := free_head H14 d14
  obtain ⟨h16, e16, F16, H16, d16⟩ := free_head H15 d15
  obtain ⟨h17, e17, F17, -, -⟩ := free_head H16 d16
  refine ⟨o, h17, ?_, hperm.frees hw ?_⟩
  · have t6 : ∀ k, k < n → touch b6 k h12 = .ok ((), h12) := fun k hk => touch_ok H12 (b := b6) (n := n) (by simp) hk
    have t4 : ∀ k, k < n → touch b4 k h12 = .ok ((), h12) := fun k hk => touch_ok K12 (b := b4) (n := n) (by simp [ownTree, ho]) hk
    rw [bind_ok (rep_same t6), bind_ok (rep_same fun i hi => ?_), bind_ok e13, bind_ok e14, bind_ok e15, bind_ok e16, bind_ok e17]
    · rfl
    · rw [bind_ok (touch_ok K12 (b := b3) (n := leaves) (by simp [ownTree, ho]) hi)]
      refine rep_same fun j hj => ?_
      have hc : cptAt (fun i => (leaf i).2.2.1.num) i + j < n := by
        rw [cptAt_eq (n := n) hs i (by rw [hL]; exact hi) (fun j hj => hleaf j (by rw [← hL]; exact hj))]
        rw [hleaf i hi] at hj
        unfold leafNum at hj
        omega
      rw [bind_ok (t6 _ hc), bind_ok (touch_ok K12 (b := (leaf i).2.2.1.mod) (n := (leaf i).2.2.1.num) ?_ hj)]
      · exact t4 _ hc
      · unfold ownTree
        refine List.mem_cons_of_mem _ (List.mem_cons_of_mem _ (List.mem_cons_of_mem _ (List.mem_append.2 (.inl (List.mem_flatMap.2 ⟨i, List.mem_range.2 hi, ?_⟩)))))
        unfold ownLeaf ownNaive
        simp [ho]
  · refine (F13.trans (F14.trans (F15.trans (F16.trans F17)))).perm ?_
    simp [ids]

theorem treeClear_ok (o : Tree) (h : Heap) (H : Has (ownTree o) h) (hd : (ids (ownTree o)).Nodup) :
    ∃ h', treeClear o h = .ok ((), h') ∧ Frees (ids (ownTree o)) h h' := by
  obtain ⟨h1, e1, F1, H1, d1⟩ := free_head H hd
  obtain ⟨h2, e2, F2, H2, d2⟩ := free_head H1 d1
  obtain ⟨h3, e3, F3, H3, d3⟩ := free_head H2 d2
  obtain ⟨h4, e4, F4, H4, d4⟩ := table_free (body := fun i => do
      touch o.products i
      free (o.product i)
      touch o.leavesMod i
      mmodClear (o.leafMod i)
      touch o.leavesCrt i
      naiveClear (o.leafCrt i)) H3 d3 (fun i hi h H hn => by
    obtain ⟨HK, HL⟩ := Has.append.1 H
    rw [ids_append, List.nodup_append] at hn
    obtain ⟨dK, dL, hdis⟩ := hn
    obtain ⟨k1, f1, G1, HL1, dL1⟩ := free_head HL dL
    have hk1 := G1.keep HK (fun b hb hk => hdis b hk b (by
      obtain rfl := List.mem_singleton.1 hb
      exact List.mem_cons_self) rfl)
    obtain ⟨Ha, Hc⟩ := Has.append.1 HL1
    rw [ids_append, List.nodup_append] at dL1
    obtain ⟨da, dc, hac⟩ := dL1
    obtain ⟨k2, f2, G2⟩ := mmodClear_ok _ k1 Ha da
    have hk2 := G2.keep hk1 (fun b hb hk => hdis b hk b (by
      refine List.mem_cons_of_mem _ ?_
      change b ∈ ids (ownMmod (o.leafMod i) ++ ownNaive (o.leafCrt i))
      rw [ids_append]
      exact List.mem_append.2 (.inl hb)) rfl)
    have Hc2 := G2.keep Hc (fun b hb hk => hac b hb b hk rfl)
    obtain ⟨k3, f3, G3⟩ := naiveClear_ok _ k2 Hc2 dc
    refine ⟨k3, ?_, ?_⟩
    · rw [bind_ok (touch_ok HK (b := o.products) (n := o.leaves) (by simp) hi), bind_ok f1,
        bind_ok (touch_ok hk1 (b := o.leavesMod) (n := o.leaves) (by simp) hi), bind_ok f2,
        bind_ok (touch_ok hk2 (b := o.leavesCrt) (n := o.leaves) (by simp) hi)]
      exact f3
    · refine (G1.trans (G2.trans G3)).perm ?_
      simp [ids, ownLeaf])
  obtain ⟨h5, e5, F5, H5, d5⟩ := free_head H4 d4
  obtain ⟨h6, e6, F6, H6, d6⟩ := free_head H5 d5
  obtain ⟨h7, e7, F7, H7, d7⟩ := free_head H6 d6
  obtain ⟨h8, e8, F8, -, -⟩ := free_head H7 d7
  refine ⟨h8, ?_, ?_⟩
  · unfold treeClear
    rw [bind_ok e1, bind_ok e2, bind_ok e3, bind_ok e4, bind_ok e5, bind_ok e6, bind_ok e7]
    exact e8
  · refine (F1.trans (F2.trans (F3.trans (F4.trans (F5.trans (F6.trans (F7.trans F8))))))).perm ?_
    unfold ownTree
    simp [ids]

end PML.CrtMem
