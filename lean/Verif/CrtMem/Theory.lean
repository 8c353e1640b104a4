import Verif.CrtMem.Spec
import Mathlib.Data.List.Nodup
import Mathlib.Data.List.Range
import Mathlib.Tactic.Ring
import Mathlib.Tactic.Linarith

/-!
# Blocks which are added and freed
-/

namespace PML.CrtMem

/-- Blocks with their sizes. -/
abbrev Blocks : Type := List (Nat × Nat)

/-- The names of the blocks. -/
def ids (L : Blocks) : List Nat := L.map Prod.fst

theorem ids_append (L K : Blocks) : ids (L ++ K) = ids L ++ ids K := List.map_append

/-- Blocks that have not been allocated yet are not in use. -/
def WF (h : Heap) : Prop := ∀ b, h.next ≤ b → h.live b = none

/-- The blocks `K` are allocated. -/
def Has (K : Blocks) (h : Heap) : Prop := ∀ x ∈ K, h.live x.1 = some x.2

/-- The heap `h'` is the heap `h` with the additional blocks `L`. -/
structure Adds (L : Blocks) (h h' : Heap) : Prop where
  nodup : (ids L).Nodup
  has : Has L h'
  fresh : ∀ b ∈ ids L, h.next ≤ b ∧ b < h'.next
  other : ∀ b, b ∉ ids L → h'.live b = h.live b
  le : h.next ≤ h'.next

/-- The heap `h'` is the heap `h` without the blocks `L`. -/
structure Frees (L : List Nat) (h h' : Heap) : Prop where
  gone : ∀ b ∈ L, h'.live b = none
  other : ∀ b, b ∉ L → h'.live b = h.live b
  next : h'.next = h.next

theorem mem_ids {x : Nat × Nat} {L : Blocks} (h : x ∈ L) : x.1 ∈ ids L := List.mem_map_of_mem h

theorem Has.append {K L : Blocks} {h : Heap} : Has (K ++ L) h ↔ Has K h ∧ Has L h := by
  unfold Has
  simp only [List.mem_append]
  exact ⟨fun H => ⟨fun x hx => H x (.inl hx), fun x hx => H x (.inr hx)⟩, fun H x hx => hx.elim (H.1 x) (H.2 x)⟩

theorem Has.mono {K L : Blocks} {h : Heap} (H : Has L h) (hs : ∀ x ∈ K, x ∈ L) : Has K h := fun x hx => H x (hs x hx)

theorem Has.lt {K : Blocks} {h : Heap} (H : Has K h) (hw : WF h) : ∀ b ∈ ids K, b < h.next := by
  intro b hb
  obtain ⟨x, hx, rfl⟩ := List.mem_map.1 hb
  by_contra hc
  have := H x hx
  rw [hw x.1 (by omega)] at this
  exact absurd this (by simp)

theorem Adds.refl (h : Heap) : Adds [] h h := ⟨List.nodup_nil, fun _ h => absurd h (by simp), fun _ h => absurd h (by simp [ids]), fun _ _ => rfl, le_rfl⟩

theorem Adds.wf {L : Blocks} {h h' : Heap} (A : Adds L h h') (hw : WF h) : WF h' := fun b hb => by
  rw [A.other b (fun hm => by have := (A.fresh b hm).2; omega)]
  exact hw b (by have := A.le; omega)

theorem Adds.keep {L K : Blocks} {h h' : Heap} (A : Adds L h h') (hw : WF h) (H : Has K h) : Has K h' := fun x hx => by
  rw [A.other x.1 (fun hm => by have := (A.fresh _ hm).1; have := H.lt hw _ (mem_ids hx); omega)]
  exact H x hx

theorem Adds.trans {L K : Blocks} {h h' h'' : Heap} (A : Adds L h h') (B : Adds K h' h'') (hw : WF h) : Adds (L ++ K) h h'' := by
  have hw' := A.wf hw
  refine ⟨?_, Has.append.2 ⟨B.keep hw' A.has, B.has⟩, ?_, ?_, A.le.trans B.le⟩
  · rw [ids_append, List.nodup_append]
    refine ⟨A.nodup, B.nodup, fun a ha b hb => ?_⟩
    have := (A.fresh a ha).2
    have := (B.fresh b hb).1
    omega
  · intro b hb
    rw [ids_append, List.mem_append] at hb
    have := A.le
    have := B.le
    rcases hb with hb | hb
    · have := A.fresh b hb; omega
    · have := B.fresh b hb; omega
  · intro b hb
    rw [ids_append, List.mem_append] at hb
    rw [B.other b (fun h => hb (.inr h)), A.other b (fun h => hb (.inl h))]

theorem Adds.perm {L K : Blocks} {h h' : Heap} (A : Adds L h h') (hp : L.Perm K) : Adds K h h' := by
  have hi : (ids L).Perm (ids K) := hp.map _
  exact ⟨hi.nodup_iff.1 A.nodup, fun x hx => A.has x (hp.mem_iff.2 hx), fun b hb => A.fresh b (hi.mem_iff.2 hb), fun b hb => A.other b fun h => hb (hi.mem_iff.1 h), A.le⟩

/-- Freeing some of the blocks that were added. -/
theorem Adds.frees {L K : Blocks} {h h' h'' : Heap} (A : Adds (L ++ K) h h') (hw : WF h) (B : Frees (ids K) h' h'') : Adds L h h'' := by
  have hn := A.nodup
  rw [ids_append, List.nodup_append] at hn
  refine ⟨hn.1, fun x hx => ?_, fun b hb => ?_, fun b hb => ?_, by rw [B.next]; exact A.le⟩
  · rw [B.other x.1 (fun hm => hn.2.2 x.1 (mem_ids hx) x.1 hm rfl)]
    exact A.has x (List.mem_append.2 (.inl hx))
  · rw [B.next]
    exact A.fresh b (by rw [ids_append]; exact List.mem_append.2 (.inl hb))
  · by_cases hm : b ∈ ids K
    · rw [B.gone b hm, hw b (A.fresh b (by rw [ids_append]; exact List.mem_append.2 (.inr hm))).1]
    · rw [B.other b hm, A.other b (by rw [ids_append, List.mem_append]; tauto)]

theorem Frees.refl (h : Heap) : Frees [] h h := ⟨fun _ h => absurd h (by simp), fun _ _ => rfl, rfl⟩

theorem Frees.trans {L K : List Nat} {h h' h'' : Heap} (A : Frees L h h') (B : Frees K h' h'') : Frees (L ++ K) h h'' := by
  refine ⟨fun b hb => ?_, fun b hb => ?_, B.next.trans A.next⟩
  · by_cases hk : b ∈ K
    · exact B.gone b hk
    · rw [B.other b hk]
      exact A.gone b ((List.mem_append.1 hb).resolve_right hk)
  · rw [List.mem_append] at hb
    rw [B.other b (fun h => hb (.inr h)), A.other b (fun h => hb (.inl h))]

theorem Frees.keep {L : List Nat} {K : Blocks} {h h' : Heap} (A : Frees L h h') (H : Has K h) (hd : ∀ b ∈ L, b ∉ ids K) : Has K h' := fun x hx => by
  rw [A.other x.1 (fun hm => hd _ hm (mem_ids hx))]
  exact H x hx

theorem Frees.perm {L K : List Nat} {h h' : Heap} (A : Frees L h h') (hp : L.Perm K) : Frees K h h' :=
  ⟨fun b hb => A.gone b (hp.mem_iff.2 hb), fun b hb => A.other b fun h => hb (hp.mem_iff.1 h), A.next⟩

/-! ## Steps -/

theorem bind_ok {α β : Type} {m : M α} {f : α → M β} {h h' : Heap} {a : α} (e : m h = .ok (a, h')) : (m >>= f) h = f a h' := by
  show (match m h with | .ok (a, h') => f a h' | .ub => .ub | .error => .error) = _
  rw [e]

theorem pure_ok {α : Type} (a : α) (h : Heap) : (pure a : M α) h = .ok (a, h) := rfl

theorem malloc_ok (n : Nat) (h : Heap) (hw : WF h) : ∃ b h', malloc n h = .ok (b, h') ∧ Adds [(b, n)] h h' := by
  refine ⟨h.next, _, rfl, by simp [ids], ?_, ?_, ?_, Nat.le_succ _⟩
  · intro x hx
    obtain rfl := List.mem_singleton.1 hx
    exact Function.update_self ..
  · intro b hb
    obtain rfl : b = h.next := by simpa [ids] using hb
    exact ⟨le_rfl, Nat.lt_succ_self _⟩
  · intro b hb
    exact Function.update_of_ne (by simpa [ids] using hb) _ _

theorem aligned_ok (n : Nat) (hn : n % 4 = 0) (h : Heap) (hw : WF h) : ∃ b h', alignedAlloc n h = .ok (b, h') ∧ Adds [(b, n)] h h' := by
  unfold alignedAlloc
  rw [if_pos (by omega)]
  exact malloc_ok n h hw

theorem free_ok {b n : Nat} {h : Heap} (hb : h.live b = some n) : ∃ h', free b h = .ok ((), h') ∧ Frees [b] h h' := by
  refine ⟨⟨Function.update h.live b none, h.next⟩, ?_, ?_, ?_, rfl⟩
  · unfold free
    rw [hb]
  · intro c hc
    obtain rfl := List.mem_singleton.1 hc
    exact Function.update_self ..
  · intro c hc
    exact Function.update_of_ne (by simpa using hc) _ _

theorem touch_ok {K : Blocks} {b n i : Nat} {h : Heap} (H : Has K h) (hb : (b, n) ∈ K) (hi : i < n) : touch b i h = .ok ((), h) := by
  unfold touch
  rw [H _ hb]
  exact if_pos hi

theorem rep_same {h : Heap} : ∀ {n : Nat} {body : Nat → M Unit}, (∀ i, i < n → body i h = .ok ((), h)) → rep n body h = .ok ((), h)
  | 0, _, _ => rfl
  | n + 1, body, hb => by
    show (rep n body >>= fun _ => body n) h = _
    rw [bind_ok (rep_same fun i hi => hb i (by omega))]
    exact hb n (by omega)

/-- A loop of bodies which leave nothing behind. -/
theorem rep_adds {K : Blocks} : ∀ {n : Nat} {body : Nat → M Unit} {h : Heap}, WF h → Has K h →
    (∀ i, i < n → ∀ h, WF h → Has K h → ∃ h', body i h = .ok ((), h') ∧ Adds [] h h') → ∃ h', rep n body h = .ok ((), h') ∧ Adds [] h h'
  | 0, _, h, _, _, _ => ⟨h, rfl, Adds.refl h⟩
  | n + 1, body, h, hw, H, hb => by
    obtain ⟨h1, e1, A1⟩ := rep_adds (n := n) (body := body) hw H fun i hi => hb i (by omega)
    obtain ⟨h2, e2, A2⟩ := hb n (by omega) h1 (A1.wf hw) (A1.keep hw H)
    exact ⟨h2, (bind_ok e1).trans e2, A1.trans A2 hw⟩

/-- A loop which builds a table of objects. -/
theorem tab_adds {α : Type} {dflt : α} {K : Blocks} (own : α → Blocks) (P : Nat → α → Prop) : ∀ {n : Nat} {body : Nat → M α} {h : Heap}, WF h → Has K h →
    (∀ i, i < n → ∀ h, WF h → Has K h → ∃ a h', body i h = .ok (a, h') ∧ Adds (own a) h h' ∧ P i a) →
    ∃ f h', tab dflt n body h = .ok (f, h') ∧ Adds ((List.range n).flatMap fun i => own (f i)) h h' ∧ ∀ i, i < n → P i (f i)
  | 0, _, h, _, _, _ => ⟨_, h, rfl, Adds.refl h, fun _ hi => absurd hi (Nat.not_lt_zero _)⟩
  | n + 1, body, h, hw, H, hb => by
    obtain ⟨f, h1, e1, A1, P1⟩ := tab_adds (dflt := dflt) own P (n := n) (body := body) hw H fun i hi => hb i (by omega)
    obtain ⟨a, h2, e2, A2, P2⟩ := hb n (by omega) h1 (A1.wf hw) (A1.keep hw H)
    have hf : ∀ i, i < n → Function.update f n a i = f i := fun i hi => Function.update_of_ne (by omega) _ _
    refine ⟨Function.update f n a, h2, ?_, ?_, fun i hi => ?_⟩
    · show (tab dflt n body >>= fun f => body n >>= fun a => pure (Function.update f n a)) h = _
      rw [bind_ok e1, bind_ok e2]
      rfl
    · rw [List.range_succ, List.flatMap_append]
      have := A1.trans A2 hw
      have e : (List.range n).flatMap (fun i => own (Function.update f n a i)) = (List.range n).flatMap fun i => own (f i) :=
        List.flatMap_congr fun i hi => by rw [hf i (List.mem_range.1 hi)]
      rw [e]
      simpa using this
    · by_cases hin : i = n
      · subst hin
        rw [Function.update_self]
        exact P2
      · rw [hf i (by omega)]
        exact P1 i (by omega)

/-- A loop which frees tables of objects. -/
theorem rep_frees {K : Blocks} (own : Nat → Blocks) : ∀ {n : Nat} {body : Nat → M Unit} {h : Heap}, Has (K ++ (List.range n).flatMap own) h →
    (ids (K ++ (List.range n).flatMap own)).Nodup →
    (∀ i, i < n → ∀ h, Has (K ++ own i) h → (ids (K ++ own i)).Nodup → ∃ h', body i h = .ok ((), h') ∧ Frees (ids (own i)) h h') →
    ∃ h', rep n body h = .ok ((), h') ∧ Frees (ids ((List.range n).flatMap own)) h h'
  | 0, _, h, _, _, _ => ⟨h, rfl, Frees.refl h⟩
  | n + 1, body, h, H, hd, hb => by
    rw [List.range_succ, List.flatMap_append, ← List.append_assoc] at H hd
    have hsing : [n].flatMap own = own n := by simp
    rw [hsing] at H hd
    rw [ids_append, List.nodup_append] at hd
    obtain ⟨h1, e1, F1⟩ := rep_frees own (n := n) (body := body) (Has.append.1 H).1 hd.1 fun i hi => hb i (by omega)
    have hd1 := hd.1
    rw [ids_append, List.nodup_append] at hd1
    have H1 : Has (K ++ own n) h1 := by
      refine Has.append.2 ⟨F1.keep (Has.append.1 (Has.append.1 H).1).1 fun b hb hk => hd1.2.2 b hk b hb rfl,
        F1.keep (Has.append.1 H).2 fun b hb hk => hd.2.2 b ?_ b hk rfl⟩
      rw [ids_append]
      exact List.mem_append.2 (.inr hb)
    have hdn : (ids (K ++ own n)).Nodup := by
      rw [ids_append, List.nodup_append]
      refine ⟨hd1.1, hd.2.1, fun a ha b hb => hd.2.2 a ?_ b hb⟩
      rw [ids_append]
      exact List.mem_append.2 (.inl ha)
    obtain ⟨h2, e2, F2⟩ := hb n (by omega) h1 H1 hdn
    refine ⟨h2, (bind_ok e1).trans e2, ?_⟩
    rw [List.range_succ, List.flatMap_append, hsing, ids_append]
    exact F1.trans F2

end PML.CrtMem
