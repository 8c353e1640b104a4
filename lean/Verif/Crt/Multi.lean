import Verif.Crt.Reduce

/-!
# Subproduct-tree multimodular reduction and Chinese remaindering
-/

namespace PML.Crt

open PML.Word PML.Crt.Spec Finset

/-! ### Contract of the external precomputations -/

/-- Set of inputs combined in a source. -/
def srcSet (σ : Nat → Option (Finset Nat)) (b : Int) : Option (Finset Nat) :=
  if b < 0 then some {(-b - 1).toNat} else σ b.toNat

/-- `prog` is a well-formed combination of all inputs `0, ..., k-1`: each instruction
    merges two disjoint sets of inputs, its two moduli being the products over these sets; its target
    is none of the temporary register and its second source. `σ` is the content of the
    registers. -/
def Tracks (M : Nat → Nat) (k t3 : Nat) : List Instr → (Nat → Option (Finset Nat)) → Option Nat → Prop
  | [], σ, last => ∃ a, last = some a ∧ a ≠ t3 ∧ σ a = some (range k)
  | ins :: rest, σ, _ => ∃ S T, srcSet σ ins.b = some S ∧ srcSet σ ins.c = some T ∧ Disjoint S T ∧
      ins.a ≠ t3 ∧ ins.b ≠ (t3 : Int) ∧ ins.c ≠ (t3 : Int) ∧ ins.c ≠ (ins.a : Int) ∧
      ins.bm = ∏ i ∈ S, (M i : Int) ∧ ins.cm = ∏ i ∈ T, (M i : Int) ∧
      Tracks M k t3 rest (Function.update σ ins.a (some (S ∪ T))) (some ins.a)

/-- Contract of `fmpz_multi_CRT_precompute`. -/
structure TreeOK (M : Nat → Nat) (k : Nat) (T : Tree) : Prop where
  count : T.count = k
  tracks : 2 ≤ k → Tracks M k T.t3 T.prog (fun _ => none) none
  final : 2 ≤ k → T.final = ∏ i ∈ range k, (M i : Int)

/-- Contract of the external functions. -/
structure ExtOK (e : Ext) : Prop where
  inv : InvOK e.inv
  top : ∀ M k A i, (∀ j, j < k → 0 < M j) → i < k → e.top M k A i = A % (M i : Int)
  tree : ∀ M k, (∀ j, j < k → 0 < M j) →
    (∀ i j, i < k → j < k → i ≠ j → Nat.Coprime (M i) (M j)) → TreeOK M k (e.tree M k)

/-- A program that adds the inputs one by one. -/
def chain (M : Nat → Nat) (i : Nat) : Nat → List Instr
  | 0 => []
  | d + 1 => ⟨0, 0, -(i : Int) - 1, ∏ j ∈ range i, (M j : Int), (M i : Int)⟩ :: chain M (i + 1) d

theorem chain_tracks (M : Nat → Nat) (k : Nat) : ∀ d i (σ : Nat → Option (Finset Nat)) last, i + d = k →
    σ 0 = some (range i) → last = some 0 → Tracks M k 1 (chain M i d) σ last := by
  intro d
  induction d with
  | zero =>
    intro i σ last hi hσ hl
    exact ⟨0, hl, by omega, by rw [hσ, ← hi, Nat.add_zero]⟩
  | succ d ih =>
    intro i σ last hi hσ _
    refine ⟨range i, {i}, ?_, ?_, ?_, by simp, by simp, by simp; omega, by simp; omega, rfl, by simp, ?_⟩
    · simpa [srcSet] using hσ
    · unfold srcSet
      rw [if_pos (by simp only; omega)]
      congr 2
      simp
    · simp
    · refine ih (i + 1) _ _ (by omega) ?_ rfl
      rw [Function.update_self, range_add_one, insert_eq, union_comm]

/-- The contracts are satisfiable. -/
theorem extOK_satisfiable : ∃ e, ExtOK e := by
  obtain ⟨inv, hinv⟩ := invOK_satisfiable
  refine ⟨⟨inv, fun M _ A i => A % (M i : Int),
    fun M k => ⟨k, ⟨0, -1, -2, (M 0 : Int), (M 1 : Int)⟩ :: chain M 2 (k - 2), 1,
      ∏ i ∈ range k, (M i : Int)⟩, fun _ => 0⟩, hinv, fun _ _ _ _ _ _ => rfl, fun M k _ _ => ⟨rfl, fun hk => ?_,
      fun _ => rfl⟩⟩
  refine ⟨{0}, {1}, by simp [srcSet], by simp [srcSet], by simp, by simp, by simp, by simp, by simp, by simp,
    by simp, ?_⟩
  refine chain_tracks M k (k - 2) 2 _ _ (by omega) ?_ rfl
  rw [Function.update_self]
  rfl

/-! ### The combination along the tree -/

theorem runProg_tracks (M : Nat → Nat) (k t3 : Nat) (inp : Nat → Int) : ∀ prog σ last regs,
    Tracks M k t3 prog σ last →
    (∀ r S, r ≠ t3 → σ r = some S → regs r = cs (fun i => (M i : Int)) inp S) →
    ∃ a regs', prog.foldl (fun st ins => (some ins.a, instrStep inp t3 ins st.2)) (last, regs) =
      (some a, regs') ∧ regs' a = cs (fun i => (M i : Int)) inp (range k) := by
  intro prog
  induction prog with
  | nil =>
    intro σ last regs ht hσ
    obtain ⟨a, h1, h2, h3⟩ := ht
    exact ⟨a, regs, by rw [List.foldl_nil, h1], hσ a _ h2 h3⟩
  | cons ins rest ih =>
    intro σ last regs ht hσ
    obtain ⟨S, T, hS, hT, hd, hat, hbt, hct, hca, hbm, hcm, hrest⟩ := ht
    rw [List.foldl_cons]
    refine ih _ _ _ hrest ?_
    have hsrc : ∀ (b : Int) (U : Finset Nat), b ≠ (t3 : Int) → srcSet σ b = some U →
        source inp regs b = cs (fun i => (M i : Int)) inp U := by
      intro b U hb hU
      unfold srcSet at hU
      unfold source
      by_cases h : b < 0
      · rw [if_pos h] at hU ⊢
        rw [← Option.some.inj hU, cs_singleton]
      · rw [if_neg h] at hU ⊢
        exact hσ _ _ (by omega) hU
    have hsrc2 : source inp (Function.update regs ins.a (source inp regs ins.b * ins.cm)) ins.c =
        source inp regs ins.c := by
      unfold source
      by_cases h : ins.c < 0
      · rw [if_pos h, if_pos h]
      · rw [if_neg h, if_neg h, Function.update_of_ne (by omega)]
    intro r U hr hU
    unfold instrStep
    simp only
    by_cases hra : r = ins.a
    · rw [hra] at hU ⊢
      rw [Function.update_self] at hU ⊢
      rw [Function.update_of_ne hat, Function.update_self, Function.update_self, hsrc2, hsrc _ _ hbt hS,
        hsrc _ _ hct hT, ← Option.some.inj hU, cs_union _ _ hd, hbm, hcm]
    · rw [Function.update_of_ne hra] at hU ⊢
      rw [Function.update_of_ne hr, Function.update_of_ne hra]
      exact hσ r U hr hU

theorem treeCombine_spec {M : Nat → Nat} {k : Nat} {T : Tree} (h : TreeOK M k T) (hk : 1 ≤ k)
    (inp : Nat → Int) : treeCombine T inp = some (if k = 1 then inp 0 else
      cs (fun i => (M i : Int)) inp (range k) % ∏ i ∈ range k, (M i : Int)) := by
  unfold treeCombine
  rw [h.count]
  by_cases h1 : k = 1
  · rw [if_pos h1, if_pos h1]
  · rw [if_neg h1, if_neg h1]
    have h2 : 2 ≤ k := by omega
    obtain ⟨a, regs', e1, e2⟩ := runProg_tracks M k T.t3 inp T.prog _ none (fun _ => 0) (h.tracks h2)
      (fun r S _ hS => by simp at hS)
    unfold runProg
    simp only [e1, Option.map_some, e2, h.final h2]

/-! ### Leaves -/

variable {p : Nat → Nat} {n : Nat}

/-- Number of moduli of leaf `i`. -/
def leafN (n size i : Nat) : Nat := min (n - i * size) size

/-- Indices of the moduli of leaf `i`. -/
def leafSet (n size i : Nat) : Finset Nat := (range (leafN n size i)).map (addLeftEmbedding (i * size))

theorem mem_leafSet {n size i k : Nat} (hs : 1 ≤ size) : k ∈ leafSet n size i ↔ k < n ∧ k / size = i := by
  unfold leafSet leafN
  rw [mem_map]
  constructor
  · rintro ⟨j, hj, rfl⟩
    have := mem_range.1 hj
    show i * size + j < n ∧ (i * size + j) / size = i
    refine ⟨by omega, ?_⟩
    rw [mul_comm, Nat.mul_add_div (by omega), Nat.div_eq_of_lt (by omega), Nat.add_zero]
  · rintro ⟨h1, rfl⟩
    refine ⟨k % size, mem_range.2 ?_, ?_⟩
    · have := Nat.div_add_mod k size
      have h3 := Nat.mod_lt k (show 0 < size by omega)
      rw [mul_comm] at this
      omega
    · show k / size * size + k % size = k
      rw [mul_comm]; exact Nat.div_add_mod k size

theorem leafSet_disjoint {n size : Nat} (hs : 1 ≤ size) (i j : Nat) (hij : i ≠ j) :
    Disjoint (leafSet n size i) (leafSet n size j) := by
  rw [disjoint_left]
  intro k hi hj
  exact hij (((mem_leafSet hs).1 hi).2.symm.trans ((mem_leafSet hs).1 hj).2)

theorem leafSet_union {n size : Nat} (hs : 1 ≤ size) :
    (range ((n + size - 1) / size)).biUnion (leafSet n size) = range n := by
  ext k
  rw [mem_biUnion, mem_range]
  constructor
  · rintro ⟨i, _, hk⟩
    exact ((mem_leafSet hs).1 hk).1
  · intro hk
    refine ⟨k / size, mem_range.2 ?_, (mem_leafSet hs).2 ⟨hk, rfl⟩⟩
    rw [Nat.div_lt_iff_lt_mul (by omega)]
    have h1 : (n + size - 1) / size * size + (n + size - 1) % size = n + size - 1 := by
      rw [mul_comm]; exact Nat.div_add_mod _ _
    have h2 := Nat.mod_lt (n + size - 1) (show 0 < size by omega)
    omega

theorem leaf_moduli (h : Moduli p n) {size : Nat} (i : Nat) :
    Moduli (fun j => p (i * size + j)) (leafN n size i) := by
  unfold leafN
  refine ⟨fun j hj => h.two_le _ (by omega), fun j hj => h.word _ (by omega), fun j j' hj hj' hne => ?_⟩
  exact h.coprime _ _ (by omega) (by omega) (by omega)

theorem leaf_prod (p : Nat → Nat) (n size i : Nat) :
    modProd (fun j => p (i * size + j)) (leafN n size i) = ∏ k ∈ leafSet n size i, p k := by
  unfold modProd leafSet
  rw [prod_map]
  rfl

/-- All the moduli of leaf `i` are multiplied. -/
def leafProd (p : Nat → Nat) (n size i : Nat) : Nat := ∏ k ∈ leafSet n size i, p k

theorem leafProd_pos (h : Moduli p n) {size : Nat} (hs : 1 ≤ size) (i : Nat) : 0 < leafProd p n size i :=
  prod_pos fun k hk => by have := h.two_le k ((mem_leafSet hs).1 hk).1; omega

theorem leafProd_coprime (h : Moduli p n) {size : Nat} (hs : 1 ≤ size) (i j : Nat) (hij : i ≠ j) :
    Nat.Coprime (leafProd p n size i) (leafProd p n size j) := by
  refine Nat.Coprime.prod_left fun k hk => Nat.Coprime.prod_right fun l hl => ?_
  refine h.coprime k l ((mem_leafSet hs).1 hk).1 ((mem_leafSet hs).1 hl).1 fun e => hij ?_
  rw [← ((mem_leafSet hs).1 hk).2, e, ((mem_leafSet hs).1 hl).2]

theorem leafProd_prod {size : Nat} (hs : 1 ≤ size) :
    ∏ i ∈ range ((n + size - 1) / size), leafProd p n size i = modProd p n := by
  unfold leafProd modProd
  rw [← prod_biUnion fun i _ j _ hij => leafSet_disjoint hs i j hij, leafSet_union hs]

/-! ### Loops with a running index -/

theorem fillLeaf_spec (f : Nat → Nat → Nat) (cpt : Nat) (arr : Nat → Nat) : ∀ J,
    (fillLeaf f cpt arr J).1 = cpt + J ∧ ∀ k, (fillLeaf f cpt arr J).2 k =
      if cpt ≤ k ∧ k < cpt + J then f k (k - cpt) else arr k := by
  intro J
  induction J with
  | zero => exact ⟨rfl, fun k => by rw [if_neg (by omega)]; rfl⟩
  | succ J ih =>
    rw [fillLeaf]
    refine ⟨by show _ + 1 = _; rw [ih.1]; omega, fun k => ?_⟩
    show Function.update (fillLeaf f cpt arr J).2 (fillLeaf f cpt arr J).1 _ k = _
    rw [ih.1]
    by_cases hk : k = cpt + J
    · rw [hk, Function.update_self, if_pos (by omega)]
      congr 1
      omega
    · rw [Function.update_of_ne hk, ih.2]
      by_cases h : cpt ≤ k ∧ k < cpt + J
      · rw [if_pos h, if_pos (by omega)]
      · rw [if_neg h, if_neg (by omega)]

/-- The running index after `i` leaves. -/
theorem leaf_cpt {n size : Nat} (i : Nat) :
    min n (i * size) + leafN n size i = min n ((i + 1) * size) := by
  unfold leafN
  have : (i + 1) * size = i * size + size := by ring
  omega

/-- Any loop over the leaves which fills an array. -/
theorem leafLoop_spec (F : Nat → Nat) (n size : Nat) (loop : Nat → Nat × (Nat → Nat)) (f : Nat → Nat → Nat → Nat)
    (h0 : (loop 0).1 = 0) (hs : ∀ i, loop (i + 1) = fillLeaf (f i) (loop i).1 (loop i).2 (leafN n size i))
    (hf : ∀ i j, j < leafN n size i → f i (i * size + j) j = F (i * size + j)) :
    ∀ i, (loop i).1 = min n (i * size) ∧ ∀ k, k < min n (i * size) → (loop i).2 k = F k := by
  intro i
  induction i with
  | zero => exact ⟨by rw [h0]; omega, fun k hk => by omega⟩
  | succ i ih =>
    obtain ⟨f1, f2⟩ := fillLeaf_spec (f i) (loop i).1 (loop i).2 (leafN n size i)
    rw [hs]
    rw [ih.1] at f1 f2
    rw [ih.1]
    refine ⟨f1.trans (leaf_cpt i), fun k hk => ?_⟩
    rw [← leaf_cpt] at hk
    rw [f2]
    by_cases h : min n (i * size) ≤ k ∧ k < min n (i * size) + leafN n size i
    · rw [if_pos h]
      have hle : i * size ≤ n := by
        by_contra hc
        have : leafN n size i = 0 := by unfold leafN; omega
        omega
      rw [min_eq_right hle] at h ⊢
      have := hf i (k - i * size) (by omega)
      rwa [show i * size + (k - i * size) = k by omega] at this
    · rw [if_neg h]
      exact ih.2 k (by omega)

/-! ### Reduction -/

theorem multiBase_mod (e : Ext) (size i : Nat) : (multiBase e size p n).leavesMod i =
    naiveModInit e.fresh (fun j => p (i * size + j)) (leafN n size i) := rfl

theorem multiBase_crt (e : Ext) (size i : Nat) : (multiBase e size p n).leavesCrt i =
    naiveCrtInit e.inv (fun j => p (i * size + j)) (leafN n size i) := rfl

theorem multiBase_products (e : Ext) (size : Nat) :
    (multiBase e size p n).products = leafProd p n size := by
  funext i
  show prodLoop _ _ = _
  rw [prodLoop_eq]
  exact leaf_prod p n size i

/-- The description of a set of moduli, up to the last field. -/
def IsBase (e : Ext) (size : Nat) (p : Nat → Nat) (n : Nat) (mm : MultiCrt) : Prop :=
  ∃ c, mm = { multiBase e size p n with invCof := c }

theorem reduceLeaves_spec (e : Ext) (h : Moduli p n) {size : Nat} (hs : 1 ≤ size) {mm : MultiCrt}
    (hmm : IsBase e size p n mm) (A : Int) (tmp : Nat → Int)
    (htmp : ∀ i, i < (n + size - 1) / size → tmp i = A % (leafProd p n size i : Int))
    (out : Nat → Option Nat) : ∀ i, i ≤ (n + size - 1) / size → ∀ k, k < min n (i * size) →
    ∃ r, reduceLeaves mm tmp out i k = some r ∧ (r : Int) = A % (p k : Int) := by
  obtain ⟨c, rfl⟩ := hmm
  intro i
  induction i with
  | zero => intro _ k hk; omega
  | succ i ih =>
    intro hi k hk
    rw [reduceLeaves]
    show ∃ r, (if size * i ≤ k ∧ k < size * i + leafN n size i then
      naiveReduce (tmp i) (naiveModInit e.fresh (fun j => p (i * size + j)) (leafN n size i)) (k - size * i)
      else _) = some r ∧ _
    rw [mul_comm size i]
    by_cases hc : i * size ≤ k ∧ k < i * size + leafN n size i
    · rw [if_pos hc]
      obtain ⟨r, h1, h2⟩ := naiveReduce_spec (leaf_moduli h (size := size) i) e.fresh (tmp i)
        (k - i * size) (by omega)
      refine ⟨r, h1, ?_⟩
      rw [h2, htmp i (by omega)]
      show A % (leafProd p n size i : Int) % (p (i * size + (k - i * size)) : Int) = _
      rw [show i * size + (k - i * size) = k by omega]
      refine Int.emod_emod_of_dvd _ ?_
      have hkm : k ∈ leafSet n size i := by
        unfold leafSet
        exact mem_map.2 ⟨k - i * size, mem_range.2 (by omega), by show i * size + _ = k; omega⟩
      exact_mod_cast dvd_prod_of_mem p hkm
    · rw [if_neg hc]
      refine ih (by omega) k ?_
      rw [← leaf_cpt] at hk
      by_contra hn
      have hle : i * size ≤ n := by
        by_contra hc
        have : leafN n size i = 0 := by unfold leafN; omega
        omega
      omega

theorem multiReduce_spec {e : Ext} (he : ExtOK e) (h : Moduli p n) {size : Nat} (hs : 1 ≤ size)
    {mm : MultiCrt} (hmm : IsBase e size p n mm) (out : Nat → Option Nat) (A : Int) :
    ∀ k, k < n → ∃ r, multiReduce e mm out A k = some r ∧ (r : Int) = A % (p k : Int) := by
  intro k hk
  have hmm' := hmm
  obtain ⟨c, rfl⟩ := hmm
  unfold multiReduce
  show ∃ r, (if (n + size - 1) / size = 1 then _ else _ : Nat → Option Nat) k = some r ∧ _
  by_cases h1 : (n + size - 1) / size = 1
  · rw [if_pos h1]
    have hle : n ≤ size := by
      by_contra hc
      have : 2 * size ≤ n + size - 1 := by omega
      have := (Nat.le_div_iff_mul_le (by omega)).2 this
      omega
    have hl : leafN n size 0 = n := by unfold leafN; omega
    show ∃ r, (if k < leafN n size 0 then naiveReduce A (naiveModInit e.fresh (fun j => p (0 * size + j))
      (leafN n size 0)) k else _) = some r ∧ _
    rw [if_pos (by omega)]
    obtain ⟨r, h2, h3⟩ := naiveReduce_spec (leaf_moduli h (size := size) 0) e.fresh A k (by omega)
    refine ⟨r, h2, h3.trans ?_⟩
    show A % (p (0 * size + k) : Int) = _
    rw [Nat.zero_mul, Nat.zero_add]
  · rw [if_neg h1]
    refine reduceLeaves_spec e h hs hmm' A _ (fun i hi => ?_) out _ (le_refl _) k ?_
    · show e.top (multiBase e size p n).products ((n + size - 1) / size) A i = _
      rw [multiBase_products, he.top _ _ _ _ (fun j _ => leafProd_pos h hs j) hi]
    · show k < min n ((n + size - 1) / size * size)
      have h1 : (n + size - 1) / size * size + (n + size - 1) % size = n + size - 1 := by
        rw [mul_comm]; exact Nat.div_add_mod _ _
      have h2 := Nat.mod_lt (n + size - 1) (show 0 < size by omega)
      omega

/-- Nothing is written from index `n` on. -/
theorem multiReduce_frame {e : Ext} {size : Nat} (hs : 1 ≤ size) {mm : MultiCrt} (hmm : IsBase e size p n mm)
    (out : Nat → Option Nat) (A : Int) (k : Nat) (hk : n ≤ k) : multiReduce e mm out A k = out k := by
  obtain ⟨c, rfl⟩ := hmm
  have hnum : ∀ i, ((multiBase e size p n).leavesMod i).num = leafN n size i := fun i => rfl
  unfold multiReduce
  dsimp only
  split_ifs with h1
  · dsimp only
    rw [if_neg]
    rw [hnum]
    unfold leafN
    omega
  · have : ∀ i, reduceLeaves { multiBase e size p n with invCof := c } (e.top (multiBase e size p n).products
        (multiBase e size p n).leaves A) out i k = out k := by
      intro i
      induction i with
      | zero => rfl
      | succ i ih =>
        rw [reduceLeaves]
        dsimp only
        rw [if_neg, ih]
        rw [hnum, show (multiBase e size p n).size = size from rfl]
        unfold leafN
        rw [mul_comm size i]
        omega
    exact this _

/-! ### Combination of the leaves -/

theorem combineAll_spec {e : Ext} (h : Moduli p n) {size : Nat} {mm : MultiCrt}
    (hmm : IsBase e size p n mm) (m : Nat → Nat → Nat) (μ : Nat → Nat)
    (hμ : ∀ i j, j < leafN n size i → m i j = μ (i * size + j) ∧ μ (i * size + j) < p (i * size + j)) :
    ∀ i, ∃ t, combineAll mm m i = some t ∧ ∀ i', i' < i →
      t i' = cs (fun k => (p k : Int)) (fun k => (μ k : Int)) (leafSet n size i') := by
  obtain ⟨c, rfl⟩ := hmm
  intro i
  induction i with
  | zero => exact ⟨_, rfl, fun i' hi' => by omega⟩
  | succ i ih =>
    obtain ⟨t, h1, h2⟩ := ih
    have hm := leaf_moduli h (size := size) i
    have hc := combine_spec e.inv hm (m i) fun j hj => by rw [(hμ i j hj).1]; exact (hμ i j hj).2
    rw [combineAll, h1]
    show ∃ t', (match some t, combine (naiveCrtInit e.inv (fun j => p (i * size + j)) (leafN n size i)) (m i) with
      | some t, some v => some (Function.update t i v) | _, _ => none) = some t' ∧ _
    rw [hc]
    refine ⟨_, rfl, fun i' hi' => ?_⟩
    by_cases hii : i' = i
    · rw [hii, Function.update_self, combSum_eq hm]
      unfold leafSet
      rw [cs_map]
      unfold cs
      refine sum_congr rfl fun j hj => ?_
      have := (hμ i j (mem_range.1 hj)).1
      simp only [this]
      rfl
    · rw [Function.update_of_ne hii]
      exact h2 i' (by omega)

/-- The total, for all leaves. -/
theorem total_eq {size : Nat} (hs : 1 ≤ size) (μ : Nat → Nat) (t : Nat → Int)
    (ht : ∀ i', i' < (n + size - 1) / size →
      t i' = cs (fun k => (p k : Int)) (fun k => (μ k : Int)) (leafSet n size i')) :
    cs (fun i => (leafProd p n size i : Int)) t (range ((n + size - 1) / size)) =
      cs (fun k => (p k : Int)) (fun k => (μ k : Int)) (range n) := by
  rw [← leafSet_union (n := n) hs, ← cs_biUnion _ _ _ fun i j hij => leafSet_disjoint hs i j hij]
  unfold cs
  refine sum_congr rfl fun i hi => ?_
  rw [ht i (mem_range.1 hi)]
  unfold leafProd cs
  push_cast
  rfl

theorem num_leaves_pos {size : Nat} (hs : 1 ≤ size) (hn : 1 ≤ n) : 1 ≤ (n + size - 1) / size :=
  (Nat.le_div_iff_mul_le (by omega)).2 (by omega)

theorem one_leaf {size : Nat} (hs : 1 ≤ size) (h1 : (n + size - 1) / size = 1) :
    leafSet n size 0 = range n := by
  have := leafSet_union (n := n) hs
  rw [h1] at this
  simpa using this

theorem tree_spec {e : Ext} (he : ExtOK e) (h : Moduli p n) {size : Nat} (hs : 1 ≤ size) (hn : 1 ≤ n)
    {mm : MultiCrt} (hmm : IsBase e size p n mm) (μ : Nat → Nat) (t : Nat → Int)
    (ht : ∀ i', i' < (n + size - 1) / size →
      t i' = cs (fun k => (p k : Int)) (fun k => (μ k : Int)) (leafSet n size i')) :
    treeCombine mm.tree t = some (if (n + size - 1) / size = 1 then
        cs (fun k => (p k : Int)) (fun k => (μ k : Int)) (range n)
      else cs (fun k => (p k : Int)) (fun k => (μ k : Int)) (range n) % (modProd p n : Int)) := by
  obtain ⟨c, rfl⟩ := hmm
  have hT : TreeOK (leafProd p n size) ((n + size - 1) / size) (multiBase e size p n).tree := by
    have hp := multiBase_products (p := p) (n := n) e size
    have : (multiBase e size p n).tree = e.tree (multiBase e size p n).products ((n + size - 1) / size) := rfl
    rw [this, hp]
    exact he.tree _ _ (fun j _ => leafProd_pos h hs j) fun i j _ _ hij => leafProd_coprime h hs i j hij
  show treeCombine (multiBase e size p n).tree t = _
  have hpos := num_leaves_pos hs hn
  rw [treeCombine_spec hT hpos t, total_eq hs μ t ht]
  by_cases h1 : (n + size - 1) / size = 1
  · rw [if_pos h1, if_pos h1, ht 0 (by omega), one_leaf hs h1]
  · rw [if_neg h1, if_neg h1, ← leafProd_prod (p := p) hs]
    push_cast
    rfl

/-! ### Initialisation -/

theorem multiInit_spec {e : Ext} (he : ExtOK e) (h : Moduli p n) {size : Nat} (hs : 1 ≤ size) (hn : 1 ≤ n) :
    ∃ mm, multiInit e size p n = some mm ∧ IsBase e size p n mm ∧
      ∀ k, k < n → mm.invCof k < p k ∧ mm.invCof k * cofactor p n k % p k = 1 := by
  have hb : IsBase e size p n (multiBase e size p n) := ⟨_, rfl⟩
  obtain ⟨t, t1, t2⟩ := combineAll_spec h hb (fun _ _ => 1) (fun _ => 1)
    (fun i j hj => ⟨rfl, by
      have := (leaf_moduli h (size := size) i).two_le j hj
      show 1 < p (i * size + j)
      omega⟩) ((n + size - 1) / size)
  have ht := tree_spec he h hs hn hb (fun _ => 1) t t2
  unfold multiInit
  have hleaves : (multiBase e size p n).leaves = (n + size - 1) / size := rfl
  simp only [hleaves, t1, ht]
  refine ⟨_, rfl, ⟨_, rfl⟩, fun k hk => ?_⟩
  have hred := multiReduce_spec he h hs hb (fun _ => none) (if (n + size - 1) / size = 1 then
        cs (fun k => (p k : Int)) (fun _ => ((1 : Nat) : Int)) (range n)
      else cs (fun k => (p k : Int)) (fun _ => ((1 : Nat) : Int)) (range n) % (modProd p n : Int))
  generalize multiReduce e (multiBase e size p n) (fun _ => none) _ = cof at *
  have hcof : ∀ k, k < n → (cof k).getD 0 = cofactor p n k % p k := by
    intro k hk
    obtain ⟨r, h1, h2⟩ := hred k hk
    rw [h1, Option.getD_some]
    have hdvd : (p k : Int) ∣ (modProd p n : Int) := by
      exact_mod_cast dvd_prod_of_mem p (mem_range.2 hk)
    have h3 : (r : Int) = cs (fun k => (p k : Int)) (fun _ => ((1 : Nat) : Int)) (range n) % (p k : Int) := by
      rw [h2]
      split
      · rfl
      · exact Int.emod_emod_of_dvd _ hdvd
    rw [cs_mod (fun k => (p k : Int)) _ (mem_range.2 hk)] at h3
    have h4 : (∏ j ∈ (range n).erase k, (p j : Int)) = ((cofactor p n k : Nat) : Int) := by
      unfold cofactor; push_cast; rfl
    rw [h4] at h3
    push_cast at h3
    rw [one_mul] at h3
    exact_mod_cast h3
  have hloop := leafLoop_spec (fun k => e.inv ((cof k).getD 0) (p k)) n size
    (invLoop e (multiBase e size p n) (fun k => (cof k).getD 0) e.fresh)
    (fun i cpt j => e.inv ((cof cpt).getD 0) (p (i * size + j))) rfl (fun i => rfl) (fun i j _ => rfl)
    ((n + size - 1) / size)
  have hcov : k < min n ((n + size - 1) / size * size) := by
    have h1 : (n + size - 1) / size * size + (n + size - 1) % size = n + size - 1 := by
      rw [mul_comm]; exact Nat.div_add_mod _ _
    have h2 := Nat.mod_lt (n + size - 1) (show 0 < size by omega)
    omega
  have hk2 := hloop.2 k hcov
  show (invLoop e (multiBase e size p n) (fun k => (cof k).getD 0) e.fresh ((n + size - 1) / size)).2 k < _ ∧ _
  have hval : (invLoop e (multiBase e size p n) (fun k => (cof k).getD 0) e.fresh
      ((n + size - 1) / size)).2 k = e.inv (cofactor p n k % p k) (p k) := by
    rw [hk2]
    show e.inv ((cof k).getD 0) (p k) = _
    rw [hcof k hk]
  have hcop : Nat.Coprime (cofactor p n k % p k) (p k) := by
    have := cofactor_coprime h hk
    unfold Nat.Coprime at *
    rw [← this, Nat.gcd_comm (cofactor p n k)]
    exact (Nat.gcd_rec _ _).symm
  obtain ⟨i1, i2⟩ := he.inv _ (p k) (h.two_le k hk) hcop
  refine ⟨by rw [hval]; exact i1, ?_⟩
  show (invLoop e (multiBase e size p n) (fun k => (cof k).getD 0) e.fresh
      ((n + size - 1) / size)).2 k * _ % _ = 1
  rw [hval, ← i2, Nat.mul_mod, Nat.mul_mod (e.inv _ _), Nat.mod_mod]

theorem multiCrt_spec {e : Ext} (he : ExtOK e) (h : Moduli p n) {size : Nat} (hs : 1 ≤ size) (hn : 1 ≤ n)
    {mm : MultiCrt} (hmm : IsBase e size p n mm)
    (hinv : ∀ k, k < n → mm.invCof k < p k ∧ mm.invCof k * cofactor p n k % p k = 1)
    (m : Nat → Nat) (hm : ∀ k, k < n → m k < p k) : ∃ A, multiCrt e mm m = some A ∧ IsCrt p n m A := by
  have hb := hmm
  obtain ⟨c, rfl⟩ := hmm
  have hloop := leafLoop_spec (fun k => nmodMul (c k) (m k) (p k)) n size
    (premulLoop { multiBase e size p n with invCof := c } m e.fresh)
    (fun i cpt j => nmodMul (c cpt) (m cpt) (p (i * size + j))) rfl (fun i => rfl) (fun i j _ => rfl)
  have harr : ∀ i j, j < leafN n size i →
      (premulLoop { multiBase e size p n with invCof := c } m e.fresh (i + 1)).2 (size * i + j) =
        m (i * size + j) * c (i * size + j) % p (i * size + j) ∧
      m (i * size + j) * c (i * size + j) % p (i * size + j) < p (i * size + j) := by
    intro i j hj
    have hp := (leaf_moduli h (size := size) i).two_le j hj
    have hij : i * size + j < n := by unfold leafN at hj; omega
    refine ⟨?_, Nat.mod_lt _ (by omega)⟩
    rw [mul_comm size i, (hloop (i + 1)).2 _ (by rw [← leaf_cpt]; omega)]
    unfold nmodMul
    rw [mul_comm]
  obtain ⟨t, t1, t2⟩ := combineAll_spec h hb
    (fun i j => (premulLoop { multiBase e size p n with invCof := c } m e.fresh (i + 1)).2 (size * i + j))
    (fun k => m k * c k % p k) harr ((n + size - 1) / size)
  have ht := tree_spec he h hs hn hb (fun k => m k * c k % p k) t t2
  have hres := crt_correct h m c hm fun i hi => (hinv i hi).2
  unfold multiCrt
  have hleaves : (multiBase e size p n).leaves = (n + size - 1) / size := rfl
  have hsize : (multiBase e size p n).size = size := rfl
  refine ⟨_, ?_, hres⟩
  simp only [hleaves, hsize] at t1 ht ⊢
  rw [t1]
  show (if _ then _ else _) = _
  by_cases h1 : (n + size - 1) / size = 1
  · rw [if_pos h1]
    have hprod : ((multiBase e size p n).leavesCrt 0).prod = modProd p n := by
      show prodLoop _ _ = _
      rw [prodLoop_eq]
      have hl := leaf_prod p n size 0
      rw [one_leaf hs h1] at hl
      exact hl
    show some (t 0 % (((multiBase e size p n).leavesCrt 0).prod : Int)) = _
    rw [hprod, t2 0 (by omega), one_leaf hs h1]
  · rw [if_neg h1]
    have := ht
    rw [if_neg h1] at this
    exact this

end PML.Crt
