import Verif.Ntl.LikeLemmas

/-!
# Matrices with displacement structure: theorems (C84)
-/

namespace PML.Ntl.Struct

open Polynomial PML.Ntl.Utils PML.Ntl.Inv PML.Ntl.Solve PML.Ntl.Middle

variable {p : Nat} [NeZero p]

/-! ### The displacement operators are one to one -/

/-- **C84**. At most one matrix has given generators, for each of the four displacement operators. -/
theorem C84_unique {U V : PMat (ZMod p)} {M N : Nat → Nat → ZMod p}
    (h : (HasGens dispTP U V M ∧ HasGens dispTP U V N) ∨ (HasGens dispTM U V M ∧ HasGens dispTM U V N) ∨
      (HasGens dispHP U V M ∧ HasGens dispHP U V N) ∨ (HasGens dispHM U V M ∧ HasGens dispHM U V N))
    (i j : Nat) (hi : i < U.rows) (hj : j < V.rows) : M i j = N i j := by
  -- the indices before and after the operator
  have up : ∀ i, i < U.rows → ∃ i', i' < U.rows ∧ (if i' = 0 then U.rows - 1 else i' - 1) = i := by
    intro i hi
    by_cases h : i + 1 = U.rows
    · exact ⟨0, by omega, by rw [if_pos rfl]; omega⟩
    · exact ⟨i + 1, by omega, by rw [if_neg (by omega)]; omega⟩
  have down : ∀ j, j < V.rows → ∃ j', j' < V.rows ∧ (if j' + 1 = V.rows then 0 else j' + 1) = j := by
    intro j hj
    by_cases h : j = 0
    · exact ⟨V.rows - 1, by omega, by rw [if_pos (by omega)]; omega⟩
    · exact ⟨j - 1, by omega, by rw [if_neg (by omega)]; omega⟩
  rcases h with ⟨hM, hN⟩ | ⟨hM, hN⟩ | ⟨hM, hN⟩ | ⟨hM, hN⟩
  · have key : ∀ d i j, i < U.rows → j < V.rows → V.rows - 1 - j = d → M i j = N i j := by
      intro d
      induction d with
      | zero =>
        intro i j hi hj hd
        obtain ⟨i', hi', e⟩ := up i hi
        have h1 := hM i' j hi' hj
        have h2 := hN i' j hi' hj
        rw [dispTP_eq _ _ _ _ _ hi' hj, e, if_pos (by omega)] at h1 h2
        linear_combination h1 - h2
      | succ d ih =>
        intro i j hi hj hd
        obtain ⟨i', hi', e⟩ := up i hi
        have h1 := hM i' j hi' hj
        have h2 := hN i' j hi' hj
        rw [dispTP_eq _ _ _ _ _ hi' hj, e, if_neg (by omega)] at h1 h2
        rw [ih i' (j + 1) hi' (by omega) (by omega)] at h1
        linear_combination h1 - h2
    exact key _ i j hi hj rfl
  · have key : ∀ i j, i < U.rows → j < V.rows → M i j = N i j := by
      intro i
      induction i with
      | zero =>
        intro j hi hj
        obtain ⟨j', hj', e⟩ := down j hj
        have h1 := hM 0 j' hi hj'
        have h2 := hN 0 j' hi hj'
        rw [dispTM_eq _ _ _ _ _ hi hj', e, if_pos rfl] at h1 h2
        linear_combination h2 - h1
      | succ i ih =>
        intro j hi hj
        obtain ⟨j', hj', e⟩ := down j hj
        have h1 := hM (i + 1) j' hi hj'
        have h2 := hN (i + 1) j' hi hj'
        rw [dispTM_eq _ _ _ _ _ hi hj', e, if_neg (by omega), Nat.add_sub_cancel] at h1 h2
        rw [ih j' (by omega) hj'] at h1
        linear_combination h2 - h1
    exact key i j hi hj
  · have key : ∀ j i, i < U.rows → j < V.rows → M i j = N i j := by
      intro j
      induction j with
      | zero =>
        intro i hi hj
        obtain ⟨i', hi', e⟩ := up i hi
        have h1 := hM i' 0 hi' hj
        have h2 := hN i' 0 hi' hj
        rw [dispHP_eq _ _ _ _ _ hi' hj, e, if_pos rfl] at h1 h2
        linear_combination h1 - h2
      | succ j ih =>
        intro i hi hj
        obtain ⟨i', hi', e⟩ := up i hi
        have h1 := hM i' (j + 1) hi' hj
        have h2 := hN i' (j + 1) hi' hj
        rw [dispHP_eq _ _ _ _ _ hi' hj, e, if_neg (by omega), Nat.add_sub_cancel] at h1 h2
        rw [ih i' hi' (by omega)] at h1
        linear_combination h1 - h2
    exact key j i hi hj
  · have key : ∀ d i j, i < U.rows → j < V.rows → U.rows - 1 - i = d → M i j = N i j := by
      intro d
      induction d with
      | zero =>
        intro i j hi hj hd
        obtain ⟨j', hj', e⟩ := down j hj
        have h1 := hM i j' hi hj'
        have h2 := hN i j' hi hj'
        rw [dispHM_eq _ _ _ _ _ hi hj', e, if_pos (by omega)] at h1 h2
        linear_combination h2 - h1
      | succ d ih =>
        intro i j hi hj hd
        obtain ⟨j', hj', e⟩ := down j hj
        have h1 := hM i j' hi hj'
        have h2 := hN i j' hi hj'
        rw [dispHM_eq _ _ _ _ _ hi hj', e, if_neg (by omega)] at h1 h2
        rw [ih (i + 1) j' (by omega) hj' (by omega)] at h1
        linear_combination h2 - h1
    exact key _ i j hi hj rfl

example : HasGens (p := 7) dispTP ⟨1, 1, fun _ => 3⟩ ⟨1, 1, fun _ => 2⟩ fun _ _ => 6 := by
  intro i j hi hj
  rw [dispTP_eq _ _ _ _ _ hi hj, if_pos (by dsimp only at hj ⊢; omega)]
  simp only [Finset.sum_range_one]
  rfl

/-! ### The displacement of a matrix -/

/-- **C84**. The four functions `phi` compute the displacement of a matrix with at least one row and one column. -/
theorem C84_phi (a : PMat (ZMod p)) (hm : 0 < a.rows) (hn : 0 < a.cols) :
    IsMat (phiTP a) a.rows a.cols (dispTP a.rows a.cols fun i j => a.e (i, j)) ∧
    IsMat (phiTM a) a.rows a.cols (dispTM a.rows a.cols fun i j => a.e (i, j)) ∧
    IsMat (phiHP a) a.rows a.cols (dispHP a.rows a.cols fun i j => a.e (i, j)) ∧
    IsMat (phiHM a) a.rows a.cols (dispHM a.rows a.cols fun i j => a.e (i, j)) :=
  ⟨phi_spec (zMat_spec _ hm 1) (zMat_spec _ hn 0), phi_spec (zMat_spec _ hm 0) (zMat_spec _ hn 1),
    phi_spec (zMat_spec _ hm 1) (zT_spec _ hn 0), phi_spec (zT_spec _ hm 0) (zMat_spec _ hn 1)⟩

example : (0 < (⟨2, 3, fun ij => (ij.1 + 2 * ij.2 : Nat)⟩ : PMat (ZMod 7)).rows) ∧ (0 < (⟨2, 3, fun _ => 1⟩ : PMat (ZMod 7)).cols) := by decide

/-- **C84**, finding. Without rows or without columns, the four functions `phi` write at `[0][-1]` of an empty matrix. -/
theorem C84_phi_empty (a : PMat (ZMod p)) (h : a.rows = 0 ∨ a.cols = 0) :
    phiTP a = .ub ∧ phiTM a = .ub ∧ phiHP a = .ub ∧ phiHM a = .ub := by
  have z0 : ∀ c : ZMod p, zMat 0 c = .ub := fun c => if_pos rfl
  have zz : ∀ (n : Nat) (c : ZMod p), (∃ w, zMat n c = .ok w) ∨ zMat n c = .ub := by
    intro n c
    unfold zMat
    by_cases hn : n = 0
    · exact .inr (if_pos hn)
    · exact .inl ⟨_, if_neg hn⟩
  unfold phiTP phiTM phiHP phiHM phiWith
  rcases h with h | h
  · rw [h, z0, z0]; exact ⟨rfl, rfl, rfl, rfl⟩
  · rw [h, z0, z0]
    have h1 := zz a.rows 0
    have h2 := zz a.rows 1
    rcases h1 with ⟨w, h1⟩ | h1 <;> rcases h2 with ⟨w', h2⟩ | h2 <;> rw [h1, h2] <;> exact ⟨rfl, rfl, rfl, rfl⟩

/-! ### The constructors -/

/-- **C84**. With at least one row in `U` and in `V`, and as many columns in `V` as in `U`, the four constructors succeed and give
    the dimensions of the matrix and the number of generators. -/
theorem C84_constructor (U V : PMat (ZMod p)) (hm : 0 < U.rows) (hn : 0 < V.rows) (hc : U.cols ≤ V.cols) :
    ∀ mk ∈ [Like.makeTP, Like.makeTM, Like.makeHP, Like.makeHM], ∃ t : Like p, mk U V = .ok t ∧ t.m = U.rows ∧ t.n = V.rows ∧ t.gens = U.cols := by
  have plus : ∀ vh, ∃ t, Like.makePlus vh U V = .ok t ∧ t.m = U.rows ∧ t.n = V.rows ∧ t.gens = U.cols := by
    intro vh
    unfold Like.makePlus
    dsimp only
    obtain ⟨s, e, -⟩ := loopOut_inv (fun _ (_ : (Nat → Circ p) × (Nat → Tri p)) => True)
      (f := fun i (s : (Nat → Circ p) × (Nat → Tri p)) => if U.rows = 0 then Out.ub
        else andThen (Circ.makeColumn ⟨U.rows, turnUp U.rows V.rows fun k => U.e (k, i)⟩ V.rows) fun c =>
          if 0 < V.rows ∧ V.cols ≤ i then .ub
          else .ok (write i c s.1, write i (Tri.make ⟨V.rows, vh i⟩) s.2)) (s := (fun _ => Circ.empty, fun _ => Tri.empty))
      (k := U.cols) trivial (by
        intro i s hi _
        obtain ⟨c, hc, -⟩ := ((C83_circulant_constructor ⟨U.rows, turnUp U.rows V.rows fun k => U.e (k, i)⟩ V.rows).2 hm).1
        rw [if_neg (by omega), hc]
        exact ⟨_, if_neg (by omega), trivial⟩)
    rw [e]
    exact ⟨_, rfl, rfl, rfl, rfl⟩
  have minus : ∀ vg, ∃ t, Like.makeMinus vg U V = .ok t ∧ t.m = U.rows ∧ t.n = V.rows ∧ t.gens = U.cols := by
    intro vg
    unfold Like.makeMinus
    dsimp only
    rw [if_neg (by omega)]
    obtain ⟨s, e, -⟩ := loopOut_inv (fun _ (_ : (Nat → Circ p) × (Nat → Tri p)) => True)
      (f := fun i (s : (Nat → Circ p) × (Nat → Tri p)) => if V.cols ≤ i then Out.ub
        else andThen (Circ.makeRow ⟨V.rows, turnDown V.rows fun k => V.e (k, i)⟩ U.rows) fun c =>
          .ok (write i c s.1, write i (Tri.make ⟨U.rows, vg i⟩) s.2)) (s := (fun _ => Circ.empty, fun _ => Tri.empty))
      (k := U.cols) trivial (by
        intro i s hi _
        obtain ⟨c, hc, -⟩ := ((C83_circulant_constructor ⟨V.rows, turnDown V.rows fun k => V.e (k, i)⟩ U.rows).2 hn).2
        rw [if_neg (by omega), hc]
        exact ⟨_, rfl, trivial⟩)
    rw [e]
    exact ⟨_, rfl, rfl, rfl, rfl⟩
  intro mk hmk
  simp only [List.mem_cons, List.not_mem_nil, or_false] at hmk
  rcases hmk with rfl | rfl | rfl | rfl
  · exact plus _
  · exact minus _
  · exact plus _
  · exact minus _

example : ∃ U V : PMat (ZMod 7), 0 < U.rows ∧ 0 < V.rows ∧ U.cols ≤ V.cols ∧ U.cols = 2 :=
  ⟨⟨3, 2, fun _ => 1⟩, ⟨4, 2, fun _ => 1⟩, by decide, by decide, by decide, rfl⟩

/-- **C84**, finding. When `V` has fewer columns than `U`, the columns of `V` are read out of bounds: the dimensions are not tested. -/
theorem C84_constructor_overread (U V : PMat (ZMod p)) (hm : 0 < U.rows) (hn : 0 < V.rows) (hc : V.cols < U.cols) :
    ∀ mk ∈ [Like.makeTP, Like.makeTM, Like.makeHP, Like.makeHM], mk U V = (.ub : Out (Like p)) := by
  have plus : ∀ vh, Like.makePlus vh U V = .ub := by
    intro vh
    unfold Like.makePlus
    dsimp only
    rw [loopOut_ub hc]
    · rfl
    · intro i s hi
      obtain ⟨c, e, -⟩ := ((C83_circulant_constructor ⟨U.rows, turnUp U.rows V.rows fun k => U.e (k, i)⟩ V.rows).2 hm).1
      rw [if_neg (by omega), e]
      show (∃ u, (if 0 < V.rows ∧ V.cols ≤ i then Out.ub else _) = .ok u) ∨ (if 0 < V.rows ∧ V.cols ≤ i then Out.ub else _) = .ub
      by_cases h : 0 < V.rows ∧ V.cols ≤ i
      · exact .inr (if_pos h)
      · exact .inl ⟨_, if_neg h⟩
    · intro s
      obtain ⟨c, e, -⟩ := ((C83_circulant_constructor ⟨U.rows, turnUp U.rows V.rows fun k => U.e (k, V.cols)⟩ V.rows).2 hm).1
      rw [if_neg (by omega), e]
      exact if_pos ⟨hn, Nat.le_refl _⟩
  have minus : ∀ vg, Like.makeMinus vg U V = .ub := by
    intro vg
    unfold Like.makeMinus
    dsimp only
    rw [if_neg (by omega), loopOut_ub hc]
    · rfl
    · intro i s hi
      by_cases h : V.cols ≤ i
      · exact .inr (if_pos h)
      · obtain ⟨c, e, -⟩ := ((C83_circulant_constructor ⟨V.rows, turnDown V.rows fun k => V.e (k, i)⟩ U.rows).2 hn).2
        rw [if_neg h, e]
        exact .inl ⟨_, rfl⟩
    · intro s
      exact if_pos (Nat.le_refl _)
  intro mk hmk
  simp only [List.mem_cons, List.not_mem_nil, or_false] at hmk
  rcases hmk with rfl | rfl | rfl | rfl
  · exact plus _
  · exact minus _
  · exact plus _
  · exact minus _

/-- **C84**, finding. With a generator and no row, the constructors of the two classes `plus` divide by zero. -/
theorem C84_plus_no_rows (U V : PMat (ZMod p)) (hm : U.rows = 0) (hc : 0 < U.cols) : Like.makeTP U V = .ub ∧ Like.makeHP U V = .ub := by
  have plus : ∀ vh, Like.makePlus vh U V = .ub := by
    intro vh
    unfold Like.makePlus
    dsimp only
    rw [(loopOut_first hc).1]
    · rfl
    · exact if_pos hm
  exact ⟨plus _, plus _⟩

/-! ### The matrix and its product by a vector

Missing in the four theorems: the products on the left and the products by matrices, which do nothing
(`C84_missing_products`), and `to_dense` into a matrix with other contents (`C84_dense_stale`). -/

/-- **C84**. A `toeplitz_like_plus` matrix built from `U` and `V` is the matrix `M` with `Z_1 M - M Z_0 = U V^t`: this is the matrix
    that `to_dense` gives, into a fresh output, and by which `mul_right` multiplies. -/
theorem C84_toeplitz_plus_partial [Fact (1 < p)] {U V : PMat (ZMod p)} {t : Like p} (h : Like.makeTP U V = .ok t) :
    ∃ M, HasGens dispTP U V M ∧
      (∀ x : PMat (ZMod p), (x.cols ≠ V.rows ∨ ∀ i j, i < U.rows → j < V.rows → x.e (i, j) = 0) → IsMat (t.denseTP x) U.rows V.rows M) ∧
      (∀ x : PMat (ZMod p), x.cols = V.rows → IsMat (t.denseTP x) U.rows V.rows fun i j => x.e (i, j) + M i j) ∧
      ∀ cross (v : NVec (ZMod p)), v.len = V.rows → 0 < V.rows → IsRight (t.rightTP cross v) U.rows V.rows M v.e := by
  obtain ⟨hm, hn, hg, hk⟩ := makePlus_ok h
  have gen : ∀ x : PMat (ZMod p), IsMat (t.denseTP x) U.rows V.rows fun i j => (x.setDims U.rows V.rows).e (i, j) +
      (fun i j => ∑ k ∈ Finset.range U.cols, termTP U.rows V.rows (fun l => U.e (l, k)) (fun l => V.e (l, k)) i j) i j := by
    intro x
    unfold Like.denseTP Like.sumPlus
    rw [hm, hn, hg]
    obtain ⟨w, e, h1, h2, h3⟩ := sum_loop (k := U.cols) (m := U.rows) (n := V.rows)
      (c := fun i => denseMul ((t.circ i).columnDense newMat) ((t.tri i).dense newMat))
      (F := fun k i j => ∑ l ∈ Finset.range V.rows, circColumnEntry (turnUp U.rows V.rows fun l => U.e (l, k)) U.rows i l *
        triEntry (fun x => V.e (V.rows - 1 - x, k)) l j) (y := x.setDims U.rows V.rows) rfl rfl (by
        intro i hi
        obtain ⟨-, hc, ht⟩ := hk i hi
        rw [ht]
        exact mul_mat (C83_circulant_column_dense hc newMat) (new_tri ⟨V.rows, _⟩))
    refine ⟨w, e, h1, h2, fun i j hi hj => ?_⟩
    rw [h3 i j hi hj]
    refine congrArg _ (Finset.sum_congr rfl fun k hk' => ?_)
    exact prod_TP U.rows V.rows (by omega) (fun l => U.e (l, k)) (fun l => V.e (l, k)) i j hj
  refine ⟨fun i j => ∑ k ∈ Finset.range U.cols, termTP U.rows V.rows (fun l => U.e (l, k)) (fun l => V.e (l, k)) i j, ?_, ?_, ?_, ?_⟩
  · intro i j hi hj
    rw [dispTP_eq _ _ _ _ _ hi hj]
    by_cases e : j + 1 = V.rows
    · rw [if_pos e, sub_zero]
      refine Finset.sum_congr rfl fun k _ => ?_
      rw [← term_dispTP U.rows V.rows (fun l => U.e (l, k)) (fun l => V.e (l, k)) i j hi hj, if_pos e, sub_zero]
    · rw [if_neg e, ← Finset.sum_sub_distrib]
      refine Finset.sum_congr rfl fun k _ => ?_
      have := term_dispTP U.rows V.rows (fun l => U.e (l, k)) (fun l => V.e (l, k)) i j hi hj
      rw [if_neg e] at this
      exact this
  · intro x hx
    refine isMat_congr (gen x) fun i j hi hj => ?_
    rw [setDims_zero hx _ _ (by omega) (by omega), zero_add]
  · intro x hx
    refine isMat_congr (gen x) fun i j hi hj => ?_
    rw [setDims_keep hx]
  · intro cross v hv hpos
    unfold Like.rightTP
    rw [hm, hg]
    obtain ⟨w, e, h1, h2⟩ := acc_loop (k := U.cols) (m := U.rows) (g := fun j => j)
      (W := fun k i => ∑ j ∈ Finset.range V.rows, termTP U.rows V.rows (fun l => U.e (l, k)) (fun l => V.e (l, k)) i j * v.e j)
      (f := fun i out => andThen ((t.tri i).right cross v) fun tmp1 =>
        andThen ((t.circ i).columnRight tmp1) fun tmp2 => .ok (addTo U.rows (fun j => j) tmp2.e out)) (by
        intro k hk'
        obtain ⟨hU, hc, ht⟩ := hk k hk'
        obtain ⟨a, ea, a1, a2⟩ := C83_triangular_right ⟨V.rows, fun j => V.e (V.rows - 1 - j, k)⟩ v cross hv
        obtain ⟨b, eb, b1, b2⟩ := C83_circulant_column_right hc hpos a a1
        refine ⟨b.e, fun out => ?_, fun i hi => ?_⟩
        · rw [ht, ea]
          show andThen ((t.circ k).columnRight a) _ = _
          rw [eb]; rfl
        · rw [b2 i hi]
          rw [Finset.sum_congr rfl fun l hl => by rw [a2 l (Finset.mem_range.1 hl)]]
          rw [comp_sum]
          refine Finset.sum_congr rfl fun j hj => ?_
          rw [← prod_TP U.rows V.rows hU (fun l => U.e (l, k)) (fun l => V.e (l, k)) i j (Finset.mem_range.1 hj)])
    refine ⟨w, e, h1, fun i hi => ?_⟩
    rw [h2 i hi, Finset.sum_comm]
    refine Finset.sum_congr rfl fun j _ => ?_
    rw [Finset.sum_mul]

/-- **C84**. A `toeplitz_like_minus` matrix built from `U` and `V`, with at least one row each, is the matrix `M` with `Z_0 M - M Z_1 = U V^t`:
    this is the matrix that `to_dense` gives, into a fresh output, and by which `mul_right` multiplies. -/
theorem C84_toeplitz_minus_partial [Fact (1 < p)] {U V : PMat (ZMod p)} {t : Like p} (h : Like.makeTM U V = .ok t)
    (hm0 : 0 < U.rows) (hn0 : 0 < V.rows) :
    ∃ M, HasGens dispTM U V M ∧
      (∀ x : PMat (ZMod p), (x.cols ≠ V.rows ∨ ∀ i j, i < U.rows → j < V.rows → x.e (i, j) = 0) → IsMat (t.denseTM x) U.rows V.rows M) ∧
      (∀ x : PMat (ZMod p), x.cols = V.rows → IsMat (t.denseTM x) U.rows V.rows fun i j => x.e (i, j) + M i j) ∧
      ∀ cross (v : NVec (ZMod p)), v.len = V.rows → IsRight (t.rightTM cross v) U.rows V.rows M v.e := by
  obtain ⟨hm, hn, hg, hk⟩ := makeMinus_ok h hm0 hn0
  have gen : ∀ x : PMat (ZMod p), IsMat (t.denseTM x) U.rows V.rows fun i j => (x.setDims U.rows V.rows).e (i, j) +
      (fun i j => ∑ k ∈ Finset.range U.cols, termTM V.rows (fun l => U.e (l, k)) (fun l => V.e (l, k)) i j) i j := by
    intro x
    unfold Like.denseTM Like.sumMinus
    rw [hm, hn, hg]
    obtain ⟨w, e, h1, h2, h3⟩ := sum_loop (k := U.cols) (m := U.rows) (n := V.rows)
      (c := fun i => denseMul ((t.tri i).dense newMat) ((t.circ i).rowDense newMat))
      (F := fun k i j => ∑ l ∈ Finset.range U.rows, triEntry (fun x => -U.e (x, k)) i l *
        circRowEntry (turnDown V.rows fun l => V.e (l, k)) V.rows l j) (y := x.setDims U.rows V.rows) rfl rfl (by
        intro i hi
        obtain ⟨hc, ht⟩ := hk i hi
        rw [ht]
        exact mul_mat (new_tri ⟨U.rows, _⟩) (C83_circulant_row_dense hc newMat))
    refine ⟨w, e, h1, h2, fun i j hi hj => ?_⟩
    rw [h3 i j hi hj]
    refine congrArg _ (Finset.sum_congr rfl fun k hk' => ?_)
    exact prod_TM U.rows V.rows hn0 (fun l => U.e (l, k)) (fun l => V.e (l, k)) i j hi
  refine ⟨fun i j => ∑ k ∈ Finset.range U.cols, termTM V.rows (fun l => U.e (l, k)) (fun l => V.e (l, k)) i j, ?_, ?_, ?_, ?_⟩
  · intro i j hi hj
    rw [dispTM_eq _ _ _ _ _ hi hj]
    by_cases e : i = 0
    · rw [if_pos e, zero_sub, ← Finset.sum_neg_distrib]
      refine Finset.sum_congr rfl fun k _ => ?_
      rw [← term_dispTM V.rows (fun l => U.e (l, k)) (fun l => V.e (l, k)) i j hj, if_pos e, zero_sub]
    · rw [if_neg e, ← Finset.sum_sub_distrib]
      refine Finset.sum_congr rfl fun k _ => ?_
      have := term_dispTM V.rows (fun l => U.e (l, k)) (fun l => V.e (l, k)) i j hj
      rw [if_neg e] at this
      exact this
  · intro x hx
    refine isMat_congr (gen x) fun i j hi hj => ?_
    rw [setDims_zero hx _ _ (by omega) (by omega), zero_add]
  · intro x hx
    refine isMat_congr (gen x) fun i j hi hj => ?_
    rw [setDims_keep hx]
  · intro cross v hv
    unfold Like.rightTM
    rw [hm, hg]
    obtain ⟨w, e, h1, h2⟩ := acc_loop (k := U.cols) (m := U.rows) (g := fun j => j)
      (W := fun k i => ∑ j ∈ Finset.range V.rows, termTM V.rows (fun l => U.e (l, k)) (fun l => V.e (l, k)) i j * v.e j)
      (f := fun i out => andThen ((t.circ i).rowRight v) fun tmp1 =>
        andThen ((t.tri i).right cross tmp1) fun tmp2 => .ok (addTo U.rows (fun j => j) tmp2.e out)) (by
        intro k hk'
        obtain ⟨hc, ht⟩ := hk k hk'
        obtain ⟨a, ea, a1, a2⟩ := C83_circulant_row_right hc v hv
        obtain ⟨b, eb, b1, b2⟩ := C83_triangular_right ⟨U.rows, fun j => -U.e (j, k)⟩ a cross a1
        refine ⟨b.e, fun out => ?_, fun i hi => ?_⟩
        · rw [ea]
          show andThen ((t.tri k).right cross a) _ = _
          rw [ht, eb]; rfl
        · dsimp only at b2 ⊢
          rw [b2 _ hi]
          rw [Finset.sum_congr rfl fun l hl => by rw [a2 l (Finset.mem_range.1 hl)]]
          rw [comp_sum]
          refine Finset.sum_congr rfl fun j hj => ?_
          rw [← prod_TM U.rows V.rows hn0 (fun l => U.e (l, k)) (fun l => V.e (l, k)) i j hi])
    refine ⟨w, e, h1, fun i hi => ?_⟩
    rw [h2 i hi, Finset.sum_comm]
    refine Finset.sum_congr rfl fun j _ => ?_
    rw [Finset.sum_mul]

/-- **C84**. A `hankel_like_plus` matrix built from `U` and `V` is the matrix `M` with `Z_1 M - M Z_0^t = U V^t`: this is the matrix
    that `to_dense` gives, into a fresh output, and by which `mul_right` multiplies.  The input may be longer than the number of columns:
    the entries after it are ignored. -/
theorem C84_hankel_plus_partial [Fact (1 < p)] {U V : PMat (ZMod p)} {t : Like p} (h : Like.makeHP U V = .ok t) :
    ∃ M, HasGens dispHP U V M ∧
      (∀ x : PMat (ZMod p), (x.cols ≠ V.rows ∨ ∀ i j, i < U.rows → j < V.rows → x.e (i, j) = 0) → IsMat (t.denseHP x) U.rows V.rows M) ∧
      (∀ x : PMat (ZMod p), x.cols = V.rows → IsMat (t.denseHP x) U.rows V.rows fun i j => x.e (i, V.rows - 1 - j) + M i j) ∧
      ∀ cross (v : NVec (ZMod p)), V.rows ≤ v.len → 0 < V.rows → IsRight (t.rightHP cross v) U.rows V.rows M v.e := by
  obtain ⟨hm, hn, hg, hk⟩ := makePlus_ok h
  have gen : ∀ x : PMat (ZMod p), IsMat (t.denseHP x) U.rows V.rows fun i j => (x.setDims U.rows V.rows).e (i, V.rows - 1 - j) +
      (fun i j => ∑ k ∈ Finset.range U.cols, termHP U.rows (fun l => U.e (l, k)) (fun l => V.e (l, k)) i j) i j := by
    intro x
    unfold Like.denseHP Like.sumPlus
    rw [hm, hn, hg]
    obtain ⟨w, e, h1, h2, h3⟩ := sum_loop (k := U.cols) (m := U.rows) (n := V.rows)
      (c := fun i => denseMul ((t.circ i).columnDense newMat) ((t.tri i).dense newMat))
      (F := fun k i j => ∑ l ∈ Finset.range V.rows, circColumnEntry (turnUp U.rows V.rows fun l => U.e (l, k)) U.rows i l *
        triEntry (fun x => V.e (x, k)) l j) (y := x.setDims U.rows V.rows) rfl rfl (by
        intro i hi
        obtain ⟨-, hc, ht⟩ := hk i hi
        rw [ht]
        exact mul_mat (C83_circulant_column_dense hc newMat) (new_tri ⟨V.rows, _⟩))
    rw [e]
    obtain ⟨w', e', g1, g2, g3⟩ := mul_j (M := fun i j => w.e (i, j)) ⟨w, rfl, h1, h2, fun _ _ _ _ => rfl⟩
    refine ⟨w', e', g1, g2, fun i j hi hj => ?_⟩
    rw [g3 i j hi hj]
    dsimp only
    rw [h3 i _ hi (by omega)]
    refine congrArg _ (Finset.sum_congr rfl fun k hk' => ?_)
    exact prod_HP U.rows V.rows (by omega) (fun l => U.e (l, k)) (fun l => V.e (l, k)) i j hj
  refine ⟨fun i j => ∑ k ∈ Finset.range U.cols, termHP U.rows (fun l => U.e (l, k)) (fun l => V.e (l, k)) i j, ?_, ?_, ?_, ?_⟩
  · intro i j hi hj
    rw [dispHP_eq _ _ _ _ _ hi hj]
    by_cases e : j = 0
    · rw [if_pos e, sub_zero]
      refine Finset.sum_congr rfl fun k _ => ?_
      rw [← term_dispHP U.rows (fun l => U.e (l, k)) (fun l => V.e (l, k)) i j hi, if_pos e, sub_zero]
    · rw [if_neg e, ← Finset.sum_sub_distrib]
      refine Finset.sum_congr rfl fun k _ => ?_
      have := term_dispHP U.rows (fun l => U.e (l, k)) (fun l => V.e (l, k)) i j hi
      rw [if_neg e] at this
      exact this
  · intro x hx
    refine isMat_congr (gen x) fun i j hi hj => ?_
    rw [setDims_zero hx _ _ (by omega) (by omega), zero_add]
  · intro x hx
    refine isMat_congr (gen x) fun i j hi hj => ?_
    rw [setDims_keep hx]
  · intro cross v hv hpos
    unfold Like.rightHP
    rw [if_neg (by omega), hm, hn, hg]
    obtain ⟨w, e, h1, h2⟩ := acc_loop (k := U.cols) (m := U.rows) (g := fun j => j)
      (W := fun k i => ∑ j ∈ Finset.range V.rows, termHP U.rows (fun l => U.e (l, k)) (fun l => V.e (l, k)) i j * v.e j)
      (f := fun i out => andThen ((t.tri i).right cross ⟨V.rows, fun j => v.e (V.rows - 1 - j)⟩) fun tmp1 =>
        andThen ((t.circ i).columnRight tmp1) fun tmp2 => .ok (addTo U.rows (fun j => j) tmp2.e out)) (by
        intro k hk'
        obtain ⟨hU, hc, ht⟩ := hk k hk'
        obtain ⟨a, ea, a1, a2⟩ := C83_triangular_right ⟨V.rows, fun j => V.e (j, k)⟩ ⟨V.rows, fun j => v.e (V.rows - 1 - j)⟩ cross rfl
        obtain ⟨b, eb, b1, b2⟩ := C83_circulant_column_right hc hpos a a1
        refine ⟨b.e, fun out => ?_, fun i hi => ?_⟩
        · rw [ht, ea]
          show andThen ((t.circ k).columnRight a) _ = _
          rw [eb]; rfl
        · rw [b2 i hi]
          rw [Finset.sum_congr rfl fun l hl => by rw [a2 l (Finset.mem_range.1 hl)]]
          rw [comp_sum, ← Finset.sum_range_reflect]
          refine Finset.sum_congr rfl fun j hj => ?_
          have := Finset.mem_range.1 hj
          dsimp only
          rw [show V.rows - 1 - (V.rows - 1 - j) = j by omega]
          rw [← prod_HP U.rows V.rows hU (fun l => U.e (l, k)) (fun l => V.e (l, k)) i j (Finset.mem_range.1 hj)])
    refine ⟨w, e, h1, fun i hi => ?_⟩
    rw [h2 i hi, Finset.sum_comm]
    refine Finset.sum_congr rfl fun j _ => ?_
    rw [Finset.sum_mul]

/-- **C84**. A `hankel_like_minus` matrix built from `U` and `V`, with at least one row each, is the matrix `M` with `Z_0^t M - M Z_1 = U V^t`:
    this is the matrix that `to_dense` gives, into a fresh output, and by which `mul_right` multiplies. -/
theorem C84_hankel_minus_partial [Fact (1 < p)] {U V : PMat (ZMod p)} {t : Like p} (h : Like.makeHM U V = .ok t)
    (hm0 : 0 < U.rows) (hn0 : 0 < V.rows) :
    ∃ M, HasGens dispHM U V M ∧
      (∀ x : PMat (ZMod p), (x.cols ≠ V.rows ∨ ∀ i j, i < U.rows → j < V.rows → x.e (i, j) = 0) → IsMat (t.denseHM x) U.rows V.rows M) ∧
      (∀ x : PMat (ZMod p), x.cols = V.rows → IsMat (t.denseHM x) U.rows V.rows fun i j => x.e (U.rows - 1 - i, j) + M i j) ∧
      ∀ cross (v : NVec (ZMod p)), v.len = V.rows → IsRight (t.rightHM cross v) U.rows V.rows M v.e := by
  obtain ⟨hm, hn, hg, hk⟩ := makeMinus_ok h hm0 hn0
  have gen : ∀ x : PMat (ZMod p), IsMat (t.denseHM x) U.rows V.rows fun i j => (x.setDims U.rows V.rows).e (U.rows - 1 - i, j) +
      (fun i j => ∑ k ∈ Finset.range U.cols, termHM U.rows V.rows (fun l => U.e (l, k)) (fun l => V.e (l, k)) i j) i j := by
    intro x
    unfold Like.denseHM Like.sumMinus
    rw [hm, hn, hg]
    obtain ⟨w, e, h1, h2, h3⟩ := sum_loop (k := U.cols) (m := U.rows) (n := V.rows)
      (c := fun i => denseMul ((t.tri i).dense newMat) ((t.circ i).rowDense newMat))
      (F := fun k i j => ∑ l ∈ Finset.range U.rows, triEntry (fun x => -U.e (U.rows - 1 - x, k)) i l *
        circRowEntry (turnDown V.rows fun l => V.e (l, k)) V.rows l j) (y := x.setDims U.rows V.rows) rfl rfl (by
        intro i hi
        obtain ⟨hc, ht⟩ := hk i hi
        rw [ht]
        exact mul_mat (new_tri ⟨U.rows, _⟩) (C83_circulant_row_dense hc newMat))
    rw [e]
    obtain ⟨w', e', g1, g2, g3⟩ := j_mul (M := fun i j => w.e (i, j)) ⟨w, rfl, h1, h2, fun _ _ _ _ => rfl⟩
    refine ⟨w', e', g1, g2, fun i j hi hj => ?_⟩
    rw [g3 i j hi hj]
    dsimp only
    rw [h3 _ j (by omega) hj]
    refine congrArg _ (Finset.sum_congr rfl fun k hk' => ?_)
    exact prod_HM U.rows V.rows hn0 (fun l => U.e (l, k)) (fun l => V.e (l, k)) i j hi
  refine ⟨fun i j => ∑ k ∈ Finset.range U.cols, termHM U.rows V.rows (fun l => U.e (l, k)) (fun l => V.e (l, k)) i j, ?_, ?_, ?_, ?_⟩
  · intro i j hi hj
    rw [dispHM_eq _ _ _ _ _ hi hj]
    by_cases e : i + 1 = U.rows
    · rw [if_pos e, zero_sub, ← Finset.sum_neg_distrib]
      refine Finset.sum_congr rfl fun k _ => ?_
      rw [← term_dispHM U.rows V.rows (fun l => U.e (l, k)) (fun l => V.e (l, k)) i j hi hj, if_pos e, zero_sub]
    · rw [if_neg e, ← Finset.sum_sub_distrib]
      refine Finset.sum_congr rfl fun k _ => ?_
      have := term_dispHM U.rows V.rows (fun l => U.e (l, k)) (fun l => V.e (l, k)) i j hi hj
      rw [if_neg e] at this
      exact this
  · intro x hx
    refine isMat_congr (gen x) fun i j hi hj => ?_
    rw [setDims_zero hx _ _ (by omega) (by omega), zero_add]
  · intro x hx
    refine isMat_congr (gen x) fun i j hi hj => ?_
    rw [setDims_keep hx]
  · intro cross v hv
    unfold Like.rightHM
    rw [hm, hg]
    obtain ⟨w, e, h1, h2⟩ := acc_loop (k := U.cols) (m := U.rows) (g := fun j => U.rows - 1 - j)
      (W := fun k i => ∑ j ∈ Finset.range V.rows, termHM U.rows V.rows (fun l => U.e (l, k)) (fun l => V.e (l, k)) i j * v.e j)
      (f := fun i out => andThen ((t.circ i).rowRight v) fun tmp1 =>
        andThen ((t.tri i).right cross tmp1) fun tmp2 => .ok (addTo U.rows (fun j => U.rows - 1 - j) tmp2.e out)) (by
        intro k hk'
        obtain ⟨hc, ht⟩ := hk k hk'
        obtain ⟨a, ea, a1, a2⟩ := C83_circulant_row_right hc v hv
        obtain ⟨b, eb, b1, b2⟩ := C83_triangular_right ⟨U.rows, fun j => -U.e (U.rows - 1 - j, k)⟩ a cross a1
        refine ⟨b.e, fun out => ?_, fun i hi => ?_⟩
        · rw [ea]
          show andThen ((t.tri k).right cross a) _ = _
          rw [ht, eb]; rfl
        · dsimp only at b2 ⊢
          rw [b2 _ (by omega)]
          rw [Finset.sum_congr rfl fun l hl => by rw [a2 l (Finset.mem_range.1 hl)]]
          rw [comp_sum]
          refine Finset.sum_congr rfl fun j hj => ?_
          rw [← prod_HM U.rows V.rows hn0 (fun l => U.e (l, k)) (fun l => V.e (l, k)) i j hi])
    refine ⟨w, e, h1, fun i hi => ?_⟩
    rw [h2 i hi, Finset.sum_comm]
    refine Finset.sum_congr rfl fun j _ => ?_
    rw [Finset.sum_mul]

example : ∃ (U V : PMat (ZMod 7)) (t u v w : Like 7), Like.makeTP U V = .ok t ∧ Like.makeTM U V = .ok u ∧ Like.makeHP U V = .ok v ∧
    Like.makeHM U V = .ok w ∧ U.rows = 3 ∧ V.rows = 4 ∧ U.cols = 2 := by
  have h := C84_constructor (p := 7) ⟨3, 2, fun ij => (ij.1 + ij.2 : Nat)⟩ ⟨4, 2, fun ij => (ij.1 * 2 + ij.2 : Nat)⟩ (by decide) (by decide) (by decide)
  obtain ⟨t, ht, -⟩ := h Like.makeTP (by simp)
  obtain ⟨u, hu, -⟩ := h Like.makeTM (by simp)
  obtain ⟨v, hv, -⟩ := h Like.makeHP (by simp)
  obtain ⟨w, hw, -⟩ := h Like.makeHM (by simp)
  exact ⟨_, _, t, u, v, w, ht, hu, hv, hw, rfl, rfl, rfl⟩

/-- **C84**. Generators, dense matrix, displacement: `phi` of the matrix given by `to_dense` is `U V^t`, for the four classes. -/
theorem C84_round_trip [Fact (1 < p)] {U V : PMat (ZMod p)} (hm : 0 < U.rows) (hn : 0 < V.rows) (hc : U.cols ≤ V.cols) :
    ∃ t u v w : Like p, Like.makeTP U V = .ok t ∧ Like.makeTM U V = .ok u ∧ Like.makeHP U V = .ok v ∧ Like.makeHM U V = .ok w ∧
      ∀ r ∈ [andThen (t.denseTP newMat) phiTP, andThen (u.denseTM newMat) phiTM, andThen (v.denseHP newMat) phiHP,
        andThen (w.denseHM newMat) phiHM], IsMat r U.rows V.rows fun i j => ∑ k ∈ Finset.range U.cols, U.e (i, k) * V.e (j, k) := by
  have h := C84_constructor U V hm hn hc
  obtain ⟨t, ht, -⟩ := h Like.makeTP (by simp)
  obtain ⟨u, hu, -⟩ := h Like.makeTM (by simp)
  obtain ⟨v, hv, -⟩ := h Like.makeHP (by simp)
  obtain ⟨w, hw, -⟩ := h Like.makeHM (by simp)
  refine ⟨t, u, v, w, ht, hu, hv, hw, fun r hr => ?_⟩
  simp only [List.mem_cons, List.not_mem_nil, or_false] at hr
  rcases hr with rfl | rfl | rfl | rfl
  · obtain ⟨M, h1, h2, -, -⟩ := C84_toeplitz_plus_partial ht
    obtain ⟨y, e, y1, y2, y3⟩ := h2 newMat (.inl (show (0 : Nat) ≠ V.rows by omega))
    rw [e]
    have h4 := (C84_phi y (by omega) (by omega)).1
    rw [y1, y2] at h4
    refine isMat_congr h4 fun i j hi hj => ?_
    rw [← h1 i j hi hj]
    unfold dispTP
    dsimp only
    rw [Finset.sum_congr rfl fun l hl => by rw [y3 l j (Finset.mem_range.1 hl) hj]]
    refine congrArg _ (Finset.sum_congr rfl fun l hl => ?_)
    rw [y3 i l hi (Finset.mem_range.1 hl)]
  · obtain ⟨M, h1, h2, -, -⟩ := C84_toeplitz_minus_partial hu hm hn
    obtain ⟨y, e, y1, y2, y3⟩ := h2 newMat (.inl (show (0 : Nat) ≠ V.rows by omega))
    rw [e]
    have h4 := (C84_phi y (by omega) (by omega)).2.1
    rw [y1, y2] at h4
    refine isMat_congr h4 fun i j hi hj => ?_
    rw [← h1 i j hi hj]
    unfold dispTM
    dsimp only
    rw [Finset.sum_congr rfl fun l hl => by rw [y3 l j (Finset.mem_range.1 hl) hj]]
    refine congrArg _ (Finset.sum_congr rfl fun l hl => ?_)
    rw [y3 i l hi (Finset.mem_range.1 hl)]
  · obtain ⟨M, h1, h2, -, -⟩ := C84_hankel_plus_partial hv
    obtain ⟨y, e, y1, y2, y3⟩ := h2 newMat (.inl (show (0 : Nat) ≠ V.rows by omega))
    rw [e]
    have h4 := (C84_phi y (by omega) (by omega)).2.2.1
    rw [y1, y2] at h4
    refine isMat_congr h4 fun i j hi hj => ?_
    rw [← h1 i j hi hj]
    unfold dispHP
    dsimp only
    rw [Finset.sum_congr rfl fun l hl => by rw [y3 l j (Finset.mem_range.1 hl) hj]]
    refine congrArg _ (Finset.sum_congr rfl fun l hl => ?_)
    rw [y3 i l hi (Finset.mem_range.1 hl)]
  · obtain ⟨M, h1, h2, -, -⟩ := C84_hankel_minus_partial hw hm hn
    obtain ⟨y, e, y1, y2, y3⟩ := h2 newMat (.inl (show (0 : Nat) ≠ V.rows by omega))
    rw [e]
    have h4 := (C84_phi y (by omega) (by omega)).2.2.2
    rw [y1, y2] at h4
    refine isMat_congr h4 fun i j hi hj => ?_
    rw [← h1 i j hi hj]
    unfold dispHM
    dsimp only
    rw [Finset.sum_congr rfl fun l hl => by rw [y3 l j (Finset.mem_range.1 hl) hj]]
    refine congrArg _ (Finset.sum_congr rfl fun l hl => ?_)
    rw [y3 i l hi (Finset.mem_range.1 hl)]

/-- **C84**, finding. `to_dense` adds to the old contents of its output: when the output has the right number of columns and a nonzero
    entry in range, the result is not the matrix with generators `U`, `V`. -/
theorem C84_dense_stale [Fact (1 < p)] {U V : PMat (ZMod p)} {t : Like p} {x : PMat (ZMod p)} (hx : x.cols = V.rows) {i j : Nat}
    (hi : i < U.rows) (hj : j < V.rows) (hne : x.e (i, j) ≠ 0) (M : Nat → Nat → ZMod p) :
    (Like.makeTP U V = .ok t → HasGens dispTP U V M → ¬ IsMat (t.denseTP x) U.rows V.rows M) ∧
    (Like.makeTM U V = .ok t → HasGens dispTM U V M → ¬ IsMat (t.denseTM x) U.rows V.rows M) ∧
    (Like.makeHP U V = .ok t → HasGens dispHP U V M → ¬ IsMat (t.denseHP x) U.rows V.rows M) ∧
    (Like.makeHM U V = .ok t → HasGens dispHM U V M → ¬ IsMat (t.denseHM x) U.rows V.rows M) := by
  have hm : 0 < U.rows := by omega
  have hn : 0 < V.rows := by omega
  refine ⟨fun h hM => ?_, fun h hM => ?_, fun h hM => ?_, fun h hM => ?_⟩
  · obtain ⟨N, h1, -, h3, -⟩ := C84_toeplitz_plus_partial h
    rintro ⟨y, e, -, -, y3⟩
    obtain ⟨z, e', -, -, z3⟩ := h3 x hx
    rw [e] at e'
    cases e'
    have g1 := y3 i j (by omega) (by omega)
    have g4 := z3 i j (by omega) (by omega)
    dsimp only at g4
    rw [g1, C84_unique (.inl ⟨h1, hM⟩) i j (by omega) (by omega)] at g4
    exact hne (by linear_combination -g4)
  · obtain ⟨N, h1, -, h3, -⟩ := C84_toeplitz_minus_partial h hm hn
    rintro ⟨y, e, -, -, y3⟩
    obtain ⟨z, e', -, -, z3⟩ := h3 x hx
    rw [e] at e'
    cases e'
    have g1 := y3 i j (by omega) (by omega)
    have g4 := z3 i j (by omega) (by omega)
    dsimp only at g4
    rw [g1, C84_unique (.inr (.inl ⟨h1, hM⟩)) i j (by omega) (by omega)] at g4
    exact hne (by linear_combination -g4)
  · obtain ⟨N, h1, -, h3, -⟩ := C84_hankel_plus_partial h
    rintro ⟨y, e, -, -, y3⟩
    obtain ⟨z, e', -, -, z3⟩ := h3 x hx
    rw [e] at e'
    cases e'
    have g1 := y3 i (V.rows - 1 - j) (by omega) (by omega)
    have g4 := z3 i (V.rows - 1 - j) (by omega) (by omega)
    dsimp only at g4
    rw [g1, C84_unique (.inr (.inr (.inl ⟨h1, hM⟩))) i (V.rows - 1 - j) (by omega) (by omega)] at g4
    rw [show V.rows - 1 - (V.rows - 1 - j) = j by omega] at g4
    exact hne (by linear_combination -g4)
  · obtain ⟨N, h1, -, h3, -⟩ := C84_hankel_minus_partial h hm hn
    rintro ⟨y, e, -, -, y3⟩
    obtain ⟨z, e', -, -, z3⟩ := h3 x hx
    rw [e] at e'
    cases e'
    have g1 := y3 (U.rows - 1 - i) j (by omega) (by omega)
    have g4 := z3 (U.rows - 1 - i) j (by omega) (by omega)
    dsimp only at g4
    rw [g1, C84_unique (.inr (.inr (.inr ⟨h1, hM⟩))) (U.rows - 1 - i) j (by omega) (by omega)] at g4
    rw [show U.rows - 1 - (U.rows - 1 - i) = i by omega] at g4
    exact hne (by linear_combination -g4)

example : ∃ x : PMat (ZMod 7), x.cols = 4 ∧ x.e (1, 2) ≠ 0 := ⟨⟨3, 4, fun _ => 1⟩, rfl, by decide⟩

/-- **C84**. The length of the input of `mul_right`: with a generator, a wrong length is an error, but for `hankel_like_plus` a
    shorter input is read out of bounds. -/
theorem C84_right_length [Fact (1 < p)] {U V : PMat (ZMod p)} {t : Like p} (hm : 0 < U.rows) (hn : 0 < V.rows) (hc : 0 < U.cols)
    (cross : Nat) (v : NVec (ZMod p)) :
    (Like.makeTP U V = .ok t → v.len ≠ V.rows → t.rightTP cross v = .error) ∧
    (Like.makeTM U V = .ok t → v.len ≠ V.rows → t.rightTM cross v = .error) ∧
    (Like.makeHM U V = .ok t → v.len ≠ V.rows → t.rightHM cross v = .error) ∧
    (Like.makeHP U V = .ok t → v.len < V.rows → t.rightHP cross v = .ub) := by
  have row : ∀ {g : Nat → ZMod p} {c : Circ p}, Circ.makeRow ⟨V.rows, g⟩ U.rows = .ok c → v.len ≠ V.rows → c.rowRight v = .error := by
    intro g c hc' hv
    unfold Circ.makeRow at hc'
    dsimp only at hc'
    rw [if_neg (by omega)] at hc'
    cases hc'
    exact if_pos hv
  refine ⟨fun h hv => ?_, fun h hv => ?_, fun h hv => ?_, fun h hv => ?_⟩
  · obtain ⟨-, -, h3, h4⟩ := makePlus_ok h
    unfold Like.rightTP
    rw [h3, (loopOut_first hc).2]
    · rfl
    · rw [(h4 0 hc).2.2]
      have : (Tri.make ⟨V.rows, fun j => V.e (V.rows - 1 - j, 0)⟩).right cross v = .error := if_pos hv
      rw [this]; rfl
  · obtain ⟨-, -, h3, h4⟩ := makeMinus_ok h hm hn
    unfold Like.rightTM
    rw [h3, (loopOut_first hc).2]
    · rfl
    · rw [row (h4 0 hc).1 hv]; rfl
  · obtain ⟨-, -, h3, h4⟩ := makeMinus_ok h hm hn
    unfold Like.rightHM
    rw [h3, (loopOut_first hc).2]
    · rfl
    · rw [row (h4 0 hc).1 hv]; rfl
  · obtain ⟨-, h2, -, -⟩ := makePlus_ok h
    unfold Like.rightHP
    rw [h2]
    exact if_pos hv

/-- **C84**, finding. With a generator and no column, `mul_right` of the two classes `plus` reads before an array. -/
theorem C84_plus_no_columns [Fact (1 < p)] {U V : PMat (ZMod p)} {t : Like p} (hc : 0 < U.cols) (hn : V.rows = 0) (cross : Nat)
    (v : Nat → ZMod p) :
    (Like.makeTP U V = .ok t → t.rightTP cross ⟨0, v⟩ = .ub) ∧ (Like.makeHP U V = .ok t → t.rightHP cross ⟨0, v⟩ = .ub) := by
  have tri : ∀ (w f : Nat → ZMod p), ∃ a : Nat → ZMod p, (Tri.make ⟨0, f⟩).right cross ⟨0, w⟩ = .ok ⟨0, a⟩ := by
    intro w f
    obtain ⟨a, e, h1, -⟩ := C83_triangular_right (⟨0, f⟩ : NVec (ZMod p)) ⟨0, w⟩ cross rfl
    cases a
    dsimp only at h1
    subst h1
    exact ⟨_, e⟩
  have col : ∀ {g : Nat → ZMod p} {c : Circ p} (a : Nat → ZMod p), 0 < U.rows → Circ.makeColumn ⟨U.rows, g⟩ 0 = .ok c → c.columnRight ⟨0, a⟩ = .ub := by
    intro g c a h0 e
    obtain ⟨r, hr, -⟩ := ((C83_circulant_constructor ⟨U.rows, g⟩ 0).2 h0).2
    exact (C83_circulant_empty e hr a).1
  refine ⟨fun h => ?_, fun h => ?_⟩
  · obtain ⟨-, -, h3, h4⟩ := makePlus_ok h
    obtain ⟨g1, g2, g3⟩ := h4 0 hc
    rw [hn] at g2 g3
    unfold Like.rightTP
    rw [h3, (loopOut_first hc).1]
    · rfl
    · rw [g3]
      obtain ⟨a, ea⟩ := tri v fun j => V.e (0 - 1 - j, 0)
      rw [ea]
      show andThen ((t.circ 0).columnRight ⟨0, a⟩) _ = _
      rw [col a g1 g2]; rfl
  · obtain ⟨-, h2, h3, h4⟩ := makePlus_ok h
    obtain ⟨g1, g2, g3⟩ := h4 0 hc
    rw [hn] at g2 g3
    unfold Like.rightHP
    rw [h2, h3, hn, if_neg (Nat.lt_irrefl 0), (loopOut_first hc).1]
    · rfl
    · rw [g3]
      obtain ⟨a, ea⟩ := tri (fun i => v (0 - 1 - i)) fun j => V.e (j, 0)
      dsimp only
      rw [ea]
      show andThen ((t.circ 0).columnRight ⟨0, a⟩) _ = _
      rw [col a g1 g2]; rfl

example : ∃ (U V : PMat (ZMod 7)) (t : Like 7), Like.makeTP U V = .ok t ∧ 0 < U.cols ∧ V.rows = 0 := by
  refine ⟨⟨2, 1, fun _ => 1⟩, ⟨0, 1, fun _ => 1⟩, ?_⟩
  unfold Like.makeTP Like.makePlus
  refine ⟨_, rfl, by decide, rfl⟩

/-- **C84**, finding. A matrix of one of the two classes `minus` with a generator, and without rows or without columns, cannot be used: its
    factors have no dimension.  With rows or columns, `to_dense` is an error; and `mul_right` is an error if there are columns, and otherwise
    writes before an array. -/
theorem C84_minus_empty {U V : PMat (ZMod p)} (h : U.rows = 0 ∨ V.rows = 0) (hc : 0 < U.cols) (x : PMat (ZMod p)) (cross : Nat) (v : NVec (ZMod p))
    (hv : v.len = V.rows) : ∃ t, Like.makeTM U V = .ok t ∧ Like.makeHM U V = .ok t ∧
      (0 < U.rows + V.rows → t.denseTM x = .error ∧ t.denseHM x = .error) ∧
      (0 < V.rows → t.rightTM cross v = .error ∧ t.rightHM cross v = .error) ∧
      (V.rows = 0 → t.rightTM cross v = .ub ∧ t.rightHM cross v = .ub) := by
  refine ⟨⟨U.rows, V.rows, U.cols, fun _ => Circ.empty, fun _ => Tri.empty⟩, if_pos h, if_pos h, fun h0 => ?_, fun h0 => ?_, fun h0 => ?_⟩
  · have : Like.sumMinus ⟨U.rows, V.rows, U.cols, fun _ => Circ.empty, fun _ => Tri.empty⟩ x = .error := by
      unfold Like.sumMinus
      refine (loopOut_first hc).2 ?_
      show denseAdd (x.setDims U.rows V.rows) _ = _
      unfold denseAdd
      refine if_pos ?_
      show U.rows ≠ 0 ∨ V.rows ≠ 0
      omega
    refine ⟨this, ?_⟩
    unfold Like.denseHM
    rw [this]; rfl
  · have hr : (Circ.empty : Circ p).rowRight v = .error := if_pos (show v.len ≠ 0 by omega)
    unfold Like.rightTM Like.rightHM
    rw [(loopOut_first hc).2, (loopOut_first hc).2]
    · exact ⟨rfl, rfl⟩
    all_goals
      show andThen ((Circ.empty : Circ p).rowRight v) _ = _
      rw [hr]; rfl
  · have hr : (Circ.empty : Circ p).rowRight v = .ub := by
      unfold Circ.rowRight
      rw [if_neg (by show ¬ (v.len ≠ 0); omega)]
      rfl
    unfold Like.rightTM Like.rightHM
    rw [(loopOut_first hc).1, (loopOut_first hc).1]
    · exact ⟨rfl, rfl⟩
    all_goals
      show andThen ((Circ.empty : Circ p).rowRight v) _ = _
      rw [hr]; rfl

/-- **C84**, finding. The products on the left and the products by matrices are declared but do nothing: the output is as before the
    call, so that they are wrong for some output. -/
theorem C84_missing_products [Fact (1 < p)] (t : Like p) (hn : 0 < t.n) (M : Nat → Nat → ZMod p) (v : NVec (ZMod p)) :
    ∃ x, ¬ IsLeft (t.noBody x v) t.m t.n M v.e := by
  refine ⟨⟨t.n, fun j => (∑ i ∈ Finset.range t.m, v.e i * M i j) + 1⟩, ?_⟩
  rintro ⟨w, e, -, h⟩
  cases e
  have := h 0 hn
  exact one_ne_zero (add_eq_left.1 this)

end PML.Ntl.Struct
