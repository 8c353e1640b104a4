import Verif.CrtMem.Tree

/-!
# C110: memory of the objects for Chinese remaindering
-/

namespace PML.CrtMem

/-! ## Word-size modulus -/

/-- The number of primes that is used. -/
def primesOf (num : Nat) : Nat := if num = 0 then 4 else num

/-- The blocks of an object. -/
def ownWord (o : Word) : Blocks :=
  match o.data with
  | some b => [(b, primesOf o.num * primesOf o.num + primesOf o.num + primesOf o.num)]
  | none => []

/-- `clear` looks at the number of primes and the modulus to know if there is a table. -/
def ShapeWord (avx2 : Bool) (o : Word) : Prop := o.data = none ↔ ((avx2 ∧ o.p < 2 ^ 50) ∨ o.num ≤ 1)

theorem wordInit_ok (avx2 : Bool) (p num : Nat) (h : Heap) (hw : WF h) :
    ∃ o h', wordInit avx2 p num h = .ok (o, h') ∧ Adds (ownWord o) h h' ∧ o.num = num ∧ o.p = p ∧ (o.data = none ↔ ((avx2 ∧ p < 2 ^ 50) ∨ num = 1)) := by
  unfold wordInit
  dsimp only
  by_cases hc : avx2 = true ∧ p < 2 ^ 50
  · rw [if_pos hc]
    exact ⟨_, h, rfl, Adds.refl h, rfl, rfl, fun _ => .inl hc, fun _ => rfl⟩
  rw [if_neg hc]
  by_cases hk : (if num = 0 then 4 else num) = 1
  · rw [if_pos hk]
    exact ⟨_, h, rfl, Adds.refl h, rfl, rfl, fun _ => .inr (by split at hk <;> omega), fun _ => rfl⟩
  rw [if_neg hk]
  have hkn : (if num = 0 then 4 else num) = primesOf num := rfl
  have hnum : num ≠ 1 := by
    rintro rfl
    exact hk rfl
  rw [hkn]
  generalize hK : primesOf num = k
  obtain ⟨b1, h1, e1, A1⟩ := malloc_ok 1 h hw
  obtain ⟨b2, h2, e2, A2⟩ := malloc_ok (k * k + k + k) h1 (A1.wf hw)
  have B2 := A1.trans A2 hw
  have H2 := B2.has
  rw [bind_ok e1, bind_ok e2, bind_ok (rep_same fun i hi => touch_ok H2 (b := b2) (n := k * k + k + k) (by simp) hi),
    bind_ok (rep_same fun i hi => touch_ok H2 (b := b2) (n := k * k + k + k) (by simp) (by omega)),
    bind_ok (rep_same fun i hi => by
      have hik : i * k + k ≤ k * k := by
        have := Nat.mul_le_mul_right k (show i + 1 ≤ k from hi)
        have e : (i + 1) * k = i * k + k := by ring
        omega
      rw [bind_ok (rep_same fun j hj => touch_ok H2 (b := b2) (n := k * k + k + k) (by simp) (by omega))]
      exact touch_ok H2 (b := b2) (n := k * k + k + k) (by simp) (by omega))]
  have B2' : Adds ([(b2, k * k + k + k)] ++ [(b1, 1)]) h h2 := B2.perm List.perm_append_comm
  obtain ⟨h3, e3, F3⟩ := free_ok (H2 (b1, 1) (by simp))
  rw [bind_ok e3]
  refine ⟨_, h3, rfl, ?_, rfl, rfl, ?_⟩
  · have := B2'.frees hw (K := [(b1, 1)]) F3
    unfold ownWord
    dsimp only
    rw [hK]
    exact this
  · constructor
    · intro hh
      exact absurd hh (by simp)
    · rintro (hh | hh)
      · exact absurd hh hc
      · exact absurd hh hnum

theorem wordClear_ok (avx2 : Bool) (o : Word) (hs : ShapeWord avx2 o) (h : Heap) (H : Has (ownWord o) h) :
    ∃ h', wordClear avx2 o h = .ok ((), h') ∧ Frees (ids (ownWord o)) h h' := by
  unfold wordClear ShapeWord at *
  unfold ownWord at *
  obtain ⟨num, p, data⟩ := o
  dsimp only at *
  cases data with
  | none =>
    have := hs.1 rfl
    by_cases hc : avx2 = true ∧ p < 2 ^ 50
    · rw [if_pos hc]
      exact ⟨h, rfl, Frees.refl h⟩
    · rw [if_neg hc, if_neg (by have := this.resolve_left hc; omega)]
      exact ⟨h, rfl, Frees.refl h⟩
  | some b =>
    have hc : ¬((avx2 = true ∧ p < 2 ^ 50) ∨ num ≤ 1) := fun hc => absurd (hs.2 hc) (by simp)
    rw [if_neg (fun hh => hc (.inl hh)), if_pos (by by_contra hh; exact hc (.inr (by omega)))]
    exact free_ok (H _ (List.mem_singleton.2 rfl))

/-! ## All objects -/

/-- The blocks of an object. -/
def own : Obj → Blocks
  | .mmod o => ownMmod o
  | .naive o => ownNaive o
  | .tree o => ownTree o
  | .word o => ownWord o

/-- What `clear` relies on besides the blocks. -/
def Shape (avx2 : Bool) : Obj → Prop
  | .word o => ShapeWord avx2 o
  | _ => True

theorem objClear_ok (avx2 : Bool) (o : Obj) (hs : Shape avx2 o) (h : Heap) (H : Has (own o) h) (hd : (ids (own o)).Nodup) :
    ∃ h', objClear avx2 o h = .ok ((), h') ∧ Frees (ids (own o)) h h' := by
  cases o with
  | mmod o => exact mmodClear_ok o h H hd
  | naive o => exact naiveClear_ok o h H hd
  | tree o => exact treeClear_ok o h H hd
  | word o => exact wordClear_ok avx2 o hs h H

/-- Variables own disjoint blocks which are allocated, and nothing else is allocated. -/
structure Inv (avx2 : Bool) (s : Store) (h : Heap) : Prop where
  wf : WF h
  has : ∀ d o, s d = some o → Has (own o) h
  nodup : ∀ d o, s d = some o → (ids (own o)).Nodup
  shape : ∀ d o, s d = some o → Shape avx2 o
  disjoint : ∀ d e o q, s d = some o → s e = some q → d ≠ e → ∀ b ∈ ids (own o), b ∉ ids (own q)
  owned : ∀ b, h.live b ≠ none → ∃ d o, s d = some o ∧ b ∈ ids (own o)

theorem inv_add {avx2 : Bool} {s : Store} {h h' : Heap} {d : Nat} {o : Obj} (I : Inv avx2 s h) (hd : s d = none) (A : Adds (own o) h h') (hs : Shape avx2 o) :
    Inv avx2 (Function.update s d (some o)) h' := by
  have look : ∀ e q, Function.update s d (some o) e = some q → (e = d ∧ q = o) ∨ (e ≠ d ∧ s e = some q) := by
    intro e q he
    by_cases hed : e = d
    · subst hed
      rw [Function.update_self] at he
      exact .inl ⟨rfl, (Option.some.inj he).symm⟩
    · rw [Function.update_of_ne hed] at he
      exact .inr ⟨hed, he⟩
  have old : ∀ e q, s e = some q → ∀ b ∈ ids (own q), b ∉ ids (own o) := fun e q he b hb hn => by
    have := (I.has e q he).lt I.wf b hb
    have := (A.fresh b hn).1
    omega
  refine ⟨A.wf I.wf, fun e q he => ?_, fun e q he => ?_, fun e q he => ?_, fun e f q r he hf hef b hb => ?_, fun b hb => ?_⟩
  · rcases look e q he with ⟨rfl, rfl⟩ | ⟨-, he⟩
    · exact A.has
    · exact A.keep I.wf (I.has e q he)
  · rcases look e q he with ⟨rfl, rfl⟩ | ⟨-, he⟩
    · exact A.nodup
    · exact I.nodup e q he
  · rcases look e q he with ⟨rfl, rfl⟩ | ⟨-, he⟩
    · exact hs
    · exact I.shape e q he
  · rcases look e q he with ⟨he1, he2⟩ | ⟨-, he2⟩ <;> rcases look f r hf with ⟨hf1, hf2⟩ | ⟨-, hf2⟩
    · exact absurd (he1.trans hf1.symm) hef
    · rw [he2] at hb
      exact fun hr => old f r hf2 b hr hb
    · rw [hf2]
      exact old e q he2 b hb
    · exact I.disjoint e f q r he2 hf2 hef b hb
  · by_cases hm : b ∈ ids (own o)
    · exact ⟨d, o, Function.update_self .., hm⟩
    · rw [A.other b hm] at hb
      obtain ⟨e, q, he, hq⟩ := I.owned b hb
      have hed : e ≠ d := by
        rintro rfl
        rw [hd] at he
        exact absurd he (by simp)
      exact ⟨e, q, by rw [Function.update_of_ne hed]; exact he, hq⟩

theorem inv_free {avx2 : Bool} {s : Store} {h h' : Heap} {d : Nat} {o : Obj} (I : Inv avx2 s h) (hd : s d = some o) (F : Frees (ids (own o)) h h') :
    Inv avx2 (Function.update s d none) h' := by
  have look : ∀ e q, Function.update s d none e = some q → e ≠ d ∧ s e = some q := by
    intro e q he
    by_cases hed : e = d
    · subst hed
      rw [Function.update_self] at he
      exact absurd he (by simp)
    · rw [Function.update_of_ne hed] at he
      exact ⟨hed, he⟩
  refine ⟨fun b hb => ?_, fun e q he => ?_, fun e q he => I.nodup e q (look e q he).2, fun e q he => I.shape e q (look e q he).2,
    fun e f q r he hf hef => I.disjoint e f q r (look e q he).2 (look f r hf).2 hef, fun b hb => ?_⟩
  · by_cases hm : b ∈ ids (own o)
    · exact F.gone b hm
    · rw [F.other b hm]
      exact I.wf b (by rw [← F.next]; exact hb)
  · obtain ⟨hne, he⟩ := look e q he
    exact F.keep (I.has e q he) fun b hb hq => I.disjoint d e o q hd he (Ne.symm hne) b hb hq
  · have hm : b ∉ ids (own o) := fun hm => hb (F.gone b hm)
    rw [F.other b hm] at hb
    obtain ⟨e, q, he, hq⟩ := I.owned b hb
    have hed : e ≠ d := by
      rintro rfl
      rw [hd] at he
      obtain rfl := Option.some.inj he
      exact hm hq
    exact ⟨e, q, by rw [Function.update_of_ne hed]; exact he, hq⟩

theorem exec_ok {avx2 : Bool} {op : Op} {s : Store} {h : Heap} (I : Inv avx2 s h) (ha : Allowed op s) :
    ∃ s' h', exec avx2 op s h = .ok (s', h') ∧ Inv avx2 s' h' := by
  cases op with
  | mmodInit d p n =>
    obtain ⟨o, h', e, A, -⟩ := mmodInit_ok p n ha.2 h I.wf
    exact ⟨_, h', bind_ok e, inv_add (o := .mmod o) I ha.1 A trivial⟩
  | naiveInit d p n =>
    obtain ⟨o, h', e, A, -⟩ := naiveInit_ok p n ha.2 h I.wf
    exact ⟨_, h', bind_ok e, inv_add (o := .naive o) I ha.1 A trivial⟩
  | treeInit d big p n =>
    obtain ⟨o, h', e, A⟩ := treeInit_ok big p n ha.2.1 ha.2.2.1 ha.2.2.2 h I.wf
    exact ⟨_, h', bind_ok e, inv_add (o := .tree o) I ha.1 A trivial⟩
  | wordInit d p num =>
    obtain ⟨o, h', e, A, hn, hp, hs⟩ := wordInit_ok avx2 p num h I.wf
    refine ⟨_, h', bind_ok e, inv_add (o := .word o) I ha.1 A ?_⟩
    show ShapeWord avx2 o
    unfold ShapeWord
    rw [hn, hp, hs]
    have := ha.2.1
    constructor
    · exact fun hh => hh.imp_right fun e => by omega
    · exact fun hh => hh.imp_right fun e => by omega
  | clear d =>
    cases hd : s d with
    | none => exact absurd hd ha
    | some o =>
      obtain ⟨h', e, F⟩ := objClear_ok avx2 o (I.shape d o hd) h (I.has d o hd) (I.nodup d o hd)
      refine ⟨_, h', ?_, inv_free I hd F⟩
      show (match s d with | some o => (do objClear avx2 o; pure (Function.update s d none) : M Store) | none => ub) h = _
      rw [hd]
      exact bind_ok e

theorem run_ok {avx2 : Bool} : ∀ {ops : List Op} {s : Store} {h : Heap}, Inv avx2 s h → AllowedRun avx2 ops s h →
    ∃ s' h', run avx2 ops s h = .ok (s', h') ∧ Inv avx2 s' h'
  | [], s, h, I, _ => ⟨s, h, rfl, I⟩
  | op :: ops, s, h, I, ha => by
    obtain ⟨s1, h1, e1, I1⟩ := exec_ok I ha.1
    obtain ⟨s2, h2, e2, I2⟩ := run_ok I1 (ha.2 s1 h1 e1)
    exact ⟨s2, h2, (bind_ok e1).trans e2, I2⟩

theorem inv_empty (avx2 : Bool) : Inv avx2 (fun _ => none) Heap.empty :=
  ⟨fun _ _ => rfl, fun _ _ h => absurd h (by simp), fun _ _ h => absurd h (by simp), fun _ _ h => absurd h (by simp), fun _ _ _ _ h => absurd h (by simp),
    fun _ h => absurd rfl h⟩

/-- **C110.** Every history of allowed calls of `init` and `clear` on objects for Chinese remaindering, from the start of the program, is free of accesses
    outside of allocated blocks, of double frees and of errors; and when all objects have been cleared no block is left.
    Missing: the default number of primes of `nmod_multimod_CRT_init`, for which it is wrong (`C110_default_leak`). -/
theorem C110_safe_partial (avx2 : Bool) (ops : List Op) (ha : AllowedRun avx2 ops (fun _ => none) Heap.empty) :
    ∃ s h, run avx2 ops (fun _ => none) Heap.empty = .ok (s, h) ∧ ((∀ d, s d = none) → ∀ b, h.live b = none) := by
  obtain ⟨s, h, e, I⟩ := run_ok (inv_empty avx2) ha
  refine ⟨s, h, e, fun hs b => ?_⟩
  by_contra hb
  obtain ⟨d, o, hd, -⟩ := I.owned b hb
  rw [hs d] at hd
  exact absurd hd (by simp)

/-- **C110.** `init` leaves what is allocated as it is, and `init` followed by `clear` gives the memory back exactly, for each of the four types of
    objects. -/
theorem C110_restores (avx2 : Bool) (d : Nat) (op : Op) (s : Store) (hd : s d = none) (hop : match op with
      | .mmodInit e _ _ | .naiveInit e _ _ | .treeInit e _ _ _ | .wordInit e _ _ => e = d
      | .clear _ => False) (ha : Allowed op s) (h : Heap) (hw : ∀ b, h.next ≤ b → h.live b = none) :
    ∃ s1 h1 s2 h2, exec avx2 op s h = .ok (s1, h1) ∧ (∀ b n, h.live b = some n → h1.live b = some n) ∧ (∀ e, e ≠ d → s1 e = s e) ∧
      exec avx2 (.clear d) s1 h1 = .ok (s2, h2) ∧ s2 = s ∧ ∀ b, h2.live b = h.live b := by
  have fin : ∀ (o : Obj) (h1 : Heap), exec avx2 op s h = .ok (Function.update s d (some o), h1) → Adds (own o) h h1 → Shape avx2 o →
      ∃ s1 h1 s2 h2, exec avx2 op s h = .ok (s1, h1) ∧ (∀ b n, h.live b = some n → h1.live b = some n) ∧ (∀ e, e ≠ d → s1 e = s e) ∧
        exec avx2 (.clear d) s1 h1 = .ok (s2, h2) ∧ s2 = s ∧ ∀ b, h2.live b = h.live b := by
    intro o h1 e A hs
    obtain ⟨h2, e2, F⟩ := objClear_ok avx2 o hs h1 A.has A.nodup
    have A2 : Adds ([] ++ own o) h h1 := A
    have A3 := A2.frees hw F
    refine ⟨_, h1, Function.update (Function.update s d (some o)) d none, h2, e, fun b n hb => ?_, fun e he => Function.update_of_ne he _ _, ?_, ?_,
      fun b => A3.other b (by simp [ids])⟩
    · have := A.keep hw (K := [(b, n)]) (fun x hx => by obtain rfl := List.mem_singleton.1 hx; exact hb)
      exact this (b, n) (by simp)
    · show (match Function.update s d (some o) d with
        | some q => (do objClear avx2 q; pure (Function.update (Function.update s d (some o)) d none) : M Store) | none => ub) h1 = _
      rw [Function.update_self]
      exact bind_ok e2
    · funext c
      by_cases hc : c = d
      · subst hc
        rw [Function.update_self, hd]
      · rw [Function.update_of_ne hc, Function.update_of_ne hc]
  cases op with
  | mmodInit e p n =>
    obtain rfl : e = d := hop
    obtain ⟨o, h', e, A, -⟩ := mmodInit_ok p n ha.2 h hw
    exact fin (.mmod o) h' (bind_ok e) A trivial
  | naiveInit e p n =>
    obtain rfl : e = d := hop
    obtain ⟨o, h', e, A, -⟩ := naiveInit_ok p n ha.2 h hw
    exact fin (.naive o) h' (bind_ok e) A trivial
  | treeInit e big p n =>
    obtain rfl : e = d := hop
    obtain ⟨o, h', e, A⟩ := treeInit_ok big p n ha.2.1 ha.2.2.1 ha.2.2.2 h hw
    exact fin (.tree o) h' (bind_ok e) A trivial
  | wordInit e p num =>
    obtain rfl : e = d := hop
    obtain ⟨o, h', e, A, hn, hp, hs⟩ := wordInit_ok avx2 p num h hw
    refine fin (.word o) h' (bind_ok e) A ?_
    show ShapeWord avx2 o
    unfold ShapeWord
    rw [hn, hp, hs]
    have := ha.2.1
    exact ⟨fun hh => hh.imp_right fun e => by omega, fun hh => hh.imp_right fun e => by omega⟩
  | clear e => exact absurd hop id

example := C110_restores false 3 (.mmodInit 3 (fun i => i + 2) 5) (fun _ => none) rfl rfl ⟨rfl, fun _ _ => Nat.succ_pos _⟩ Heap.empty (fun _ _ => rfl)

/-- **C110, negative.** With the default number of primes (argument 0) `nmod_multimod_CRT_init` allocates a table, unless the modulus is small and AVX2 is
    available, and `nmod_multimod_CRT_clear` does not free it. -/
theorem C110_default_leak (avx2 : Bool) (p : Nat) (hp : avx2 = false ∨ 2 ^ 50 ≤ p) :
    ∃ s h, run avx2 [.wordInit 0 p 0, .clear 0] (fun _ => none) Heap.empty = .ok (s, h) ∧ (∀ d, s d = none) ∧ ∃ b, h.live b ≠ none := by
  have hc : ¬(avx2 = true ∧ p < 2 ^ 50) := by
    rintro ⟨rfl, h2⟩
    rcases hp with h | h
    · exact absurd h (by simp)
    · omega
  obtain ⟨o, h, e, A, hn, hq, hs⟩ := wordInit_ok avx2 p 0 Heap.empty (fun _ _ => rfl)
  refine ⟨Function.update (Function.update (fun _ => none) 0 (some (.word o))) 0 none, h, ?_, fun d => ?_, ?_⟩
  · show (exec avx2 (.wordInit 0 p 0) (fun _ => none) >>= fun s' => run avx2 [.clear 0] s') Heap.empty = _
    rw [bind_ok (show exec avx2 (.wordInit 0 p 0) (fun _ => none) Heap.empty = .ok (Function.update (fun _ => none) 0 (some (.word o)), h) from bind_ok e)]
    have hcl : wordClear avx2 o h = .ok ((), h) := by
      unfold wordClear
      rw [hn, hq, if_neg hc]
      rfl
    refine bind_ok (m := exec avx2 (.clear 0) _) (a := _) (h' := h) ?_ |>.trans rfl
    show (match Function.update (fun _ => none) 0 (some (Obj.word o)) 0 with
        | some o => (do objClear avx2 o; pure _ : M Store) | none => ub) h = _
    rw [Function.update_self]
    exact bind_ok hcl
  · by_cases hd : d = 0
    · subst hd
      rw [Function.update_self]
    · rw [Function.update_of_ne hd, Function.update_of_ne hd]
  · cases hdt : o.data with
    | none =>
      rcases hs.1 hdt with hh | hh
      · exact absurd hh hc
      · exact absurd hh (by omega)
    | some b =>
      refine ⟨b, ?_⟩
      have := A.has (b, primesOf o.num * primesOf o.num + primesOf o.num + primesOf o.num) (by unfold ownWord; rw [hdt]; simp)
      rw [this]
      simp

/-- **C110, negative.** `fmpz_multimod_CRT_init` for no moduli divides by zero. -/
theorem C110_no_moduli_undefined (avx2 : Bool) (d big : Nat) (p : Nat → Nat) (s : Store) (h : Heap) : exec avx2 (.treeInit d big p 0) s h = .ub := rfl

/-- **C110, negative.** To initialise an object again without clearing it loses the blocks of the first one. -/
theorem C110_twice_leak (avx2 : Bool) (p : Nat → Nat) (n : Nat) (hp : ∀ i, i < n → 0 < p i) :
    ∃ s h, run avx2 [.mmodInit 0 p n, .mmodInit 0 p n, .clear 0] (fun _ => none) Heap.empty = .ok (s, h) ∧ (∀ d, s d = none) ∧ ∃ b, h.live b ≠ none := by
  obtain ⟨o, h1, e1, A1, -⟩ := mmodInit_ok p n hp Heap.empty (fun _ _ => rfl)
  have hw1 : WF h1 := A1.wf (fun _ _ => rfl)
  obtain ⟨q, h2, e2, A2, -⟩ := mmodInit_ok p n hp h1 hw1
  obtain ⟨h3, e3, F⟩ := mmodClear_ok q h2 A2.has A2.nodup
  have A2' : Adds ([] ++ ownMmod q) h1 h2 := A2
  have A3 := A2'.frees hw1 F
  set s1 : Store := Function.update (fun _ => none) 0 (some (.mmod o)) with hs1
  set s2 : Store := Function.update s1 0 (some (.mmod q)) with hs2
  have c1 : exec avx2 (.mmodInit 0 p n) (fun _ => none) Heap.empty = .ok (s1, h1) := bind_ok e1
  have c2 : exec avx2 (.mmodInit 0 p n) s1 h1 = .ok (s2, h2) := bind_ok e2
  have c3 : exec avx2 (.clear 0) s2 h2 = .ok (Function.update s2 0 none, h3) := by
    show (match s2 0 with | some o => (do objClear avx2 o; pure (Function.update s2 0 none) : M Store) | none => ub) h2 = _
    rw [hs2, Function.update_self]
    exact bind_ok e3
  refine ⟨Function.update s2 0 none, h3, ?_, fun d => ?_, o.prod, ?_⟩
  · show (exec avx2 (.mmodInit 0 p n) (fun _ => none) >>= fun s => exec avx2 (.mmodInit 0 p n) s >>= fun s => exec avx2 (.clear 0) s >>= fun s => pure s) Heap.empty = _
    rw [bind_ok c1, bind_ok c2, bind_ok c3]
    rfl
  · by_cases hd : d = 0
    · subst hd
      rw [Function.update_self]
    · rw [Function.update_of_ne hd, hs2, Function.update_of_ne hd, hs1, Function.update_of_ne hd]
  · rw [A3.other _ (by simp [ids]), A1.has (o.prod, 1) (by simp [ownMmod])]
    simp

example := C110_twice_leak true (fun i => i + 2) 5 (fun _ _ => Nat.succ_pos _)

example := C110_default_leak false 7 (.inl rfl)

theorem bind_inv {α β : Type} {m : M α} {f : α → M β} {h h' : Heap} {b : β} (e : (m >>= f) h = .ok (b, h')) : ∃ a h1, m h = .ok (a, h1) ∧ f a h1 = .ok (b, h') := by
  have e' : (match m h with | .ok (a, h') => f a h' | .ub => .ub | .error => .error) = Res.ok (b, h') := e
  cases hm : m h with
  | ok x =>
    obtain ⟨a, h1⟩ := x
    rw [hm] at e'
    exact ⟨a, h1, rfl, e'⟩
  | ub => rw [hm] at e'; exact absurd e' (by simp)
  | error => rw [hm] at e'; exact absurd e' (by simp)

theorem exec_tree {avx2 : Bool} {d big n : Nat} {p : Nat → Nat} {s s' : Store} {h h' : Heap} (e : exec avx2 (.treeInit d big p n) s h = .ok (s', h')) :
    ∃ o, s' = Function.update s d (some o) := by
  obtain ⟨o, h1, -, e1⟩ := bind_inv e
  exact ⟨.tree o, (Prod.mk.inj (Res.ok.inj e1)).1.symm⟩

theorem exec_word {avx2 : Bool} {d p n : Nat} {s s' : Store} {h h' : Heap} (e : exec avx2 (.wordInit d p n) s h = .ok (s', h')) :
    ∃ o, s' = Function.update s d (some o) := by
  obtain ⟨o, h1, -, e1⟩ := bind_inv e
  exact ⟨.word o, (Prod.mk.inj (Res.ok.inj e1)).1.symm⟩

theorem exec_naive {avx2 : Bool} {d n : Nat} {p : Nat → Nat} {s s' : Store} {h h' : Heap} (e : exec avx2 (.naiveInit d p n) s h = .ok (s', h')) :
    ∃ o, s' = Function.update s d (some o) := by
  obtain ⟨o, h1, -, e1⟩ := bind_inv e
  exact ⟨.naive o, (Prod.mk.inj (Res.ok.inj e1)).1.symm⟩

theorem exec_clear {avx2 : Bool} {d : Nat} {s s' : Store} {h h' : Heap} (e : exec avx2 (.clear d) s h = .ok (s', h')) :
    s' = Function.update s d none := by
  have e' : (match s d with | some o => (do objClear avx2 o; pure (Function.update s d none) : M Store) | none => ub) h = .ok (s', h') := e
  cases hd : s d with
  | none => rw [hd] at e'; exact absurd e' (by simp [ub])
  | some o =>
    rw [hd] at e'
    obtain ⟨u, h1, -, e1⟩ := bind_inv e'
    exact (Prod.mk.inj (Res.ok.inj e1)).1.symm

/-- The hypotheses are met: three objects of different types are live at the same time, and are cleared in another order. -/
example : ∃ s h, run false [.treeInit 0 1 (fun i => i + 2) 2, .wordInit 1 1000 3, .naiveInit 2 (fun i => i + 4) 2, .clear 1, .clear 0, .clear 2] (fun _ => none) Heap.empty
    = .ok (s, h) ∧ ((∀ d, s d = none) → ∀ b, h.live b = none) := by
  apply C110_safe_partial
  have g : ∀ a, 0 < a → GoodModuli (fun i => i + a) 2 := fun a ha => ⟨fun i _ => by omega, fun i j hi hj hij => by
    have h1 : (i = 0 ∧ j = 1) ∨ (i = 1 ∧ j = 0) := by omega
    have hc : Nat.Coprime a (1 + a) := by rw [Nat.coprime_iff_gcd_eq_one, Nat.gcd_comm, Nat.gcd_add_self_left]; exact Nat.gcd_one_left a
    rcases h1 with ⟨rfl, rfl⟩ | ⟨rfl, rfl⟩
    · simpa using hc
    · simpa using hc.symm⟩
  refine ⟨⟨rfl, g 2 (by omega), by omega, by omega⟩, fun s1 h1 e1 => ?_⟩
  obtain ⟨o1, rfl⟩ := exec_tree e1
  refine ⟨⟨by simp [Function.update], by omega, by omega⟩, fun s1 h1 e1 => ?_⟩
  obtain ⟨o2, rfl⟩ := exec_word e1
  refine ⟨⟨by simp [Function.update], g 4 (by omega)⟩, fun s1 h1 e1 => ?_⟩
  obtain ⟨o3, rfl⟩ := exec_naive e1
  refine ⟨by simp [Allowed, Function.update], fun s1 h1 e1 => ?_⟩
  obtain rfl := exec_clear e1
  refine ⟨by simp [Allowed, Function.update], fun s1 h1 e1 => ?_⟩
  obtain rfl := exec_clear e1
  exact ⟨by simp [Allowed, Function.update], fun s1 h1 e1 => trivial⟩

end PML.CrtMem
