import Verif.Ntl.StructLemmas

/-!
# C83: products by Toeplitz, Hankel, triangular Toeplitz and circulant matrices
-/

namespace PML.Ntl.Struct

open Polynomial PML.Ntl.Utils PML.Ntl.Inv PML.Ntl.Solve PML.Ntl.Middle

variable {p : Nat} [NeZero p]

theorem made_of_make {input : NVec (ZMod p)} {n m : Nat} {t : Band p} (h : Band.make input n m = .ok t) :
    t.n = n ∧ t.m = m ∧ Made t input.e := by
  by_cases h0 : n + m = 0
  · unfold Band.make at h; rw [if_pos h0] at h; cases h
  by_cases hl : input.len < n + m - 1
  · unfold Band.make at h; rw [if_neg h0, if_pos hl] at h; cases h
  obtain ⟨u, e, h1, h2, h3⟩ := make_made input n m (by omega) (by omega)
  rw [e] at h
  cases h
  exact ⟨h1, h2, h3⟩

/-- **C83**. The constructors of Toeplitz and Hankel matrices succeed exactly when the matrix is not 0 by 0 and the vector has
    at least `n + m - 1` entries; otherwise an error is raised, or entries are read beyond the vector. -/
theorem C83_constructor (input : NVec (ZMod p)) (n m : Nat) :
    (∃ t, Band.make input n m = .ok t ∧ t.n = n ∧ t.m = m) ↔ 0 < n + m ∧ n + m - 1 ≤ input.len := by
  constructor
  · rintro ⟨t, e, rfl, rfl⟩
    have h := (made_of_make e).2.2
    refine ⟨h.pos, ?_⟩
    by_contra hl
    unfold Band.make at e
    rw [if_neg (by have := h.pos; omega), if_pos (by omega)] at e
    cases e
  · rintro ⟨h0, hl⟩
    obtain ⟨t, e, h1, h2, -⟩ := make_made input n m h0 hl
    exact ⟨t, e, h1, h2⟩

/-- **C83**. The dense form of a Toeplitz matrix. -/
theorem C83_toeplitz_dense {input : NVec (ZMod p)} {n m : Nat} {t : Band p} (h : Band.make input n m = .ok t) (x : PMat (ZMod p)) :
    IsMat (t.toeplitzDense x) n m (toeplitzEntry input.e m) := by
  obtain ⟨rfl, rfl, ht⟩ := made_of_make h
  unfold Band.toeplitzDense
  rw [if_neg (by have := ht.len; omega)]
  refine ⟨_, rfl, rfl, rfl, fun i j hi hj => ?_⟩
  dsimp only
  rw [loop2_at _ _ _ _ _ _ hi hj, ht.data _ (by omega)]
  unfold toeplitzEntry
  congr 1; omega

/-- **C83**. The dense form of a Hankel matrix. -/
theorem C83_hankel_dense {input : NVec (ZMod p)} {n m : Nat} {t : Band p} (h : Band.make input n m = .ok t) (x : PMat (ZMod p)) :
    IsMat (t.hankelDense x) n m (hankelEntry input.e n m) := by
  obtain ⟨rfl, rfl, ht⟩ := made_of_make h
  unfold Band.hankelDense
  rw [if_neg (by have := ht.len; omega)]
  refine ⟨_, rfl, rfl, rfl, fun i j hi hj => ?_⟩
  dsimp only
  rw [loop2_at _ _ _ _ _ _ hi hj, ht.data _ (by omega)]
  unfold hankelEntry
  congr 1; omega

theorem toep_right_core [Fact (1 < p)] {red : Nat → ZMod p} (hred : RedOK red) {t : Band p} {a : Nat → ZMod p} (ht : Made t a)
    (cross : Nat) (v : Nat → ZMod p) (hno : NoOverflow p cross t.n t.m t.m) :
    ∃ r, t.core red cross t.n t.m v (fun i => v (t.m - 1 - i)) = .ok r ∧
      ∀ j, j < t.n → r j = ∑ i ∈ Finset.range t.m, v i * a (t.n + t.m - 2 - (i + j)) :=
  core_spec hred ht cross t.n t.m (by omega) (by omega) v _ (fun _ _ => rfl) hno

theorem toep_right_sum (a v : Nat → ZMod p) (n m i : Nat) (hi : i < n) :
    ∑ k ∈ Finset.range m, v k * a (n + m - 2 - (k + (n - 1 - i))) = ∑ j ∈ Finset.range m, toeplitzEntry a m i j * v j := by
  refine Finset.sum_congr rfl fun k hk => ?_
  have := Finset.mem_range.1 hk
  rw [mul_comm]
  unfold toeplitzEntry
  congr 2; omega

theorem toep_left_core [Fact (1 < p)] {red : Nat → ZMod p} (hred : RedOK red) {t : Band p} {a : Nat → ZMod p} (ht : Made t a)
    (cross : Nat) (v : Nat → ZMod p) (hno : NoOverflow p cross t.n t.m t.n) :
    ∃ r, t.core red cross t.m t.n (fun i => v (t.n - 1 - i)) v = .ok r ∧
      ∀ j, j < t.m → r j = ∑ i ∈ Finset.range t.n, v i * toeplitzEntry a t.m i j := by
  obtain ⟨r, e, hr⟩ := core_spec hred ht cross t.m t.n (by omega) (by omega) (fun i => v (t.n - 1 - i)) v
    (fun i hi => by congr 1; omega) hno
  refine ⟨r, e, fun j hj => ?_⟩
  rw [hr j hj, ← Finset.sum_range_reflect]
  refine Finset.sum_congr rfl fun k hk => ?_
  have := Finset.mem_range.1 hk
  unfold toeplitzEntry
  congr 2 <;> omega

theorem hank_right_core [Fact (1 < p)] {red : Nat → ZMod p} (hred : RedOK red) {t : Band p} {a : Nat → ZMod p} (ht : Made t a)
    (cross : Nat) (v : Nat → ZMod p) (hno : NoOverflow p cross t.n t.m t.m) :
    ∃ r, t.core red cross t.n t.m v (fun i => v (t.m - 1 - i)) = .ok r ∧
      ∀ i, i < t.n → r i = ∑ j ∈ Finset.range t.m, hankelEntry a t.n t.m i j * v j := by
  obtain ⟨r, e, hr⟩ := toep_right_core hred ht cross v hno
  refine ⟨r, e, fun i hi => ?_⟩
  rw [hr i hi]
  refine Finset.sum_congr rfl fun k hk => ?_
  rw [mul_comm, Nat.add_comm k i]; rfl

theorem hank_left_core [Fact (1 < p)] {red : Nat → ZMod p} (hred : RedOK red) {t : Band p} {a : Nat → ZMod p} (ht : Made t a)
    (cross : Nat) (v : Nat → ZMod p) (hno : NoOverflow p cross t.n t.m t.n) :
    ∃ r, t.core red cross t.m t.n v (fun i => v (t.n - 1 - i)) = .ok r ∧
      ∀ j, j < t.m → r j = ∑ i ∈ Finset.range t.n, v i * hankelEntry a t.n t.m i j := by
  obtain ⟨r, e, hr⟩ := core_spec hred ht cross t.m t.n (by omega) (by omega) v (fun i => v (t.n - 1 - i)) (fun _ _ => rfl) hno
  exact ⟨r, e, hr⟩

/-- **C83 (partial)**. Right product of a Toeplitz matrix by a vector.  Missing: modulus and dimensions for which the sums of
    products overflow on the Karatsuba path, where the claim is false (`C83_toeplitz_overflow`). -/
theorem C83_toeplitz_right_partial [Fact (1 < p)] {red : Nat → ZMod p} (hred : RedOK red) {input : NVec (ZMod p)} {n m : Nat} {t : Band p}
    (h : Band.make input n m = .ok t) (cross : Nat) (v : NVec (ZMod p)) (hv : v.len = m) (hno : NoOverflow p cross n m m) :
    IsRight (t.toeplitzRight red cross v) n m (toeplitzEntry input.e m) v.e := by
  obtain ⟨rfl, rfl, ht⟩ := made_of_make h
  obtain ⟨r, e, hr⟩ := toep_right_core hred ht cross v.e hno
  unfold Band.toeplitzRight
  rw [if_neg (not_not.2 hv), e]
  refine ⟨_, rfl, rfl, fun i hi => ?_⟩
  dsimp only
  rw [swapLoop_spec _ _ i hi, hr _ (by omega), toep_right_sum _ _ _ _ _ hi]

/-- **C83 (partial)**. Left product of a vector by a Toeplitz matrix.  Missing: as in `C83_toeplitz_right_partial`. -/
theorem C83_toeplitz_left_partial [Fact (1 < p)] {red : Nat → ZMod p} (hred : RedOK red) {input : NVec (ZMod p)} {n m : Nat} {t : Band p}
    (h : Band.make input n m = .ok t) (cross : Nat) (v : NVec (ZMod p)) (hv : v.len = n) (hno : NoOverflow p cross n m n) :
    IsLeft (t.toeplitzLeft red cross v) n m (toeplitzEntry input.e m) v.e := by
  obtain ⟨rfl, rfl, ht⟩ := made_of_make h
  obtain ⟨r, e, hr⟩ := toep_left_core hred ht cross v.e hno
  unfold Band.toeplitzLeft
  rw [if_neg (not_not.2 hv), e]
  exact ⟨_, rfl, rfl, hr⟩

/-- **C83 (partial)**. Right product of a Hankel matrix by a vector.  Missing: as in `C83_toeplitz_right_partial`. -/
theorem C83_hankel_right_partial [Fact (1 < p)] {red : Nat → ZMod p} (hred : RedOK red) {input : NVec (ZMod p)} {n m : Nat} {t : Band p}
    (h : Band.make input n m = .ok t) (cross : Nat) (v : NVec (ZMod p)) (hv : v.len = m) (hno : NoOverflow p cross n m m) :
    IsRight (t.hankelRight red cross v) n m (hankelEntry input.e n m) v.e := by
  obtain ⟨rfl, rfl, ht⟩ := made_of_make h
  obtain ⟨r, e, hr⟩ := hank_right_core hred ht cross v.e hno
  unfold Band.hankelRight
  rw [if_neg (not_not.2 hv), e]
  exact ⟨_, rfl, rfl, hr⟩

/-- **C83 (partial)**. Left product of a vector by a Hankel matrix.  Missing: as in `C83_toeplitz_right_partial`. -/
theorem C83_hankel_left_partial [Fact (1 < p)] {red : Nat → ZMod p} (hred : RedOK red) {input : NVec (ZMod p)} {n m : Nat} {t : Band p}
    (h : Band.make input n m = .ok t) (cross : Nat) (v : NVec (ZMod p)) (hv : v.len = n) (hno : NoOverflow p cross n m n) :
    IsLeft (t.hankelLeft red cross v) n m (hankelEntry input.e n m) v.e := by
  obtain ⟨rfl, rfl, ht⟩ := made_of_make h
  obtain ⟨r, e, hr⟩ := hank_left_core hred ht cross v.e hno
  unfold Band.hankelLeft
  rw [if_neg (not_not.2 hv), e]
  exact ⟨_, rfl, rfl, hr⟩

/-- **C83**. Vectors and matrices of another size are rejected by the products of Toeplitz and Hankel matrices. -/
theorem C83_sizes (t : Band p) (red : Nat → ZMod p) (cross lim : Nat) (v : NVec (ZMod p)) (x V : PMat (ZMod p)) :
    (v.len ≠ t.m → t.toeplitzRight red cross v = .error ∧ t.hankelRight red cross v = .error) ∧
    (v.len ≠ t.n → t.toeplitzLeft red cross v = .error ∧ t.hankelLeft red cross v = .error) ∧
    (V.rows ≠ t.m → t.toeplitzRightMat red cross lim x V = .error ∧ t.hankelRightMat red cross lim x V = .error) ∧
    (V.cols ≠ t.n → t.toeplitzLeftMat red cross lim x V = .error ∧ t.hankelLeftMat red cross lim x V = .error) := by
  refine ⟨fun h => ⟨if_pos h, if_pos h⟩, fun h => ⟨if_pos h, if_pos h⟩, fun h => ⟨if_pos h, if_pos h⟩, fun h => ⟨if_pos h, if_pos h⟩⟩

/-! ### Products by matrices -/

/-- The product by the dense form, on the right. -/
theorem dense_right {d : Out (PMat (ZMod p))} {n m : Nat} {M : Nat → Nat → ZMod p} (h : IsMat d n m M) (V : PMat (ZMod p)) (hV : V.rows = m) :
    IsMat (andThen d fun d => denseMul d V) n V.cols fun i j => ∑ l ∈ Finset.range m, M i l * V.e (l, j) := by
  obtain ⟨w, rfl, h1, h2, h3⟩ := h
  show IsMat (denseMul w V) _ _ _
  unfold denseMul
  rw [if_neg (by omega)]
  refine ⟨_, rfl, h1, rfl, fun i j hi hj => ?_⟩
  dsimp only
  rw [h2]
  exact Finset.sum_congr rfl fun l hl => by rw [h3 i l hi (Finset.mem_range.1 hl)]

/-- The product by the dense form, on the left. -/
theorem dense_left {d : Out (PMat (ZMod p))} {n m : Nat} {M : Nat → Nat → ZMod p} (h : IsMat d n m M) (V : PMat (ZMod p)) (hV : V.cols = n) :
    IsMat (andThen d fun d => denseMul V d) V.rows m fun i j => ∑ l ∈ Finset.range n, V.e (i, l) * M l j := by
  obtain ⟨w, rfl, h1, h2, h3⟩ := h
  show IsMat (denseMul V w) _ _ _
  unfold denseMul
  rw [if_neg (by omega)]
  refine ⟨_, rfl, rfl, h2, fun i j hi hj => ?_⟩
  dsimp only
  rw [hV]
  exact Finset.sum_congr rfl fun l hl => by rw [h3 l j (Finset.mem_range.1 hl) hj]

/-- A loop on the columns of the result. -/
theorem columns_loop (n q : Nat) (y : Nat × Nat → ZMod p) (c : Nat → Out (Nat → ZMod p)) (g : Nat → Nat)
    (hg : ∀ j, j < n → g (g j) = j ∧ g j < n) (F : Nat → Nat → ZMod p)
    (hc : ∀ i, i < q → ∃ r, c i = .ok r ∧ ∀ a, a < n → r (g a) = F a i) :
    ∃ u, loopOut q (fun i r => andThen (c i) fun v => .ok (forN n (fun j => write (g j, i) (v j)) r)) y = .ok u ∧
      ∀ a b, a < n → b < q → u (a, b) = F a b := by
  refine loopOut_inv (P := fun (k : Nat) (u : Nat × Nat → ZMod p) => ∀ a b, a < n → b < k → u (a, b) = F a b) (by omega) ?_
  intro i u hi hu
  obtain ⟨r, e, hr⟩ := hc i hi
  rw [e]
  refine ⟨_, rfl, fun a b ha hb => ?_⟩
  rw [col_write n i r g hg]
  by_cases h : b = i
  · rw [if_pos ⟨ha, h⟩, hr a ha, h]
  · rw [if_neg (fun h' => h h'.2), hu a b ha (by omega)]

/-- A loop on the rows of the result. -/
theorem rows_loop (m q : Nat) (y : Nat × Nat → ZMod p) (c : Nat → Out (Nat → ZMod p)) (F : Nat → Nat → ZMod p)
    (hc : ∀ i, i < q → ∃ r, c i = .ok r ∧ ∀ b, b < m → r b = F i b) :
    ∃ u, loopOut q (fun i r => andThen (c i) fun v => .ok (forN m (fun j => write (i, j) (v j)) r)) y = .ok u ∧
      ∀ a b, a < q → b < m → u (a, b) = F a b := by
  refine loopOut_inv (P := fun (k : Nat) (u : Nat × Nat → ZMod p) => ∀ a b, a < k → b < m → u (a, b) = F a b) (by omega) ?_
  intro i u hi hu
  obtain ⟨r, e, hr⟩ := hc i hi
  rw [e]
  refine ⟨_, rfl, fun a b ha hb => ?_⟩
  rw [row_write m i r]
  by_cases h : a = i
  · rw [if_pos ⟨h, hb⟩, hr b hb, h]
  · rw [if_neg (fun h' => h h'.1), hu a b (by omega) hb]

/-- **C83 (partial)**. Right product of a Toeplitz matrix by a matrix.  Missing: as in `C83_toeplitz_right_partial`. -/
theorem C83_toeplitz_right_matrix_partial [Fact (1 < p)] {red : Nat → ZMod p} (hred : RedOK red) {input : NVec (ZMod p)} {n m : Nat}
    {t : Band p} (h : Band.make input n m = .ok t) (cross lim : Nat) (x V : PMat (ZMod p)) (hV : V.rows = m)
    (hno : NoOverflow p cross n m m) :
    IsMat (t.toeplitzRightMat red cross lim x V) n V.cols fun i j => ∑ l ∈ Finset.range m, toeplitzEntry input.e m i l * V.e (l, j) := by
  have hd := C83_toeplitz_dense h ⟨0, 0, fun _ => 0⟩
  obtain ⟨rfl, rfl, ht⟩ := made_of_make h
  unfold Band.toeplitzRightMat
  rw [if_neg (not_not.2 hV)]
  by_cases hD : t.useDense lim V.cols
  · rw [if_pos hD]; exact dense_right hd V hV
  · rw [if_neg hD]
    obtain ⟨u, e, hu⟩ := columns_loop t.n V.cols (x.setDims t.n V.cols).e
      (fun i => t.core red cross t.n t.m (fun j => V.e (j, i)) fun j => V.e (t.m - 1 - j, i)) (fun j => t.n - 1 - j)
      (fun j hj => by omega) (fun i j => ∑ l ∈ Finset.range t.m, toeplitzEntry input.e t.m i l * V.e (l, j))
      (fun i hi => by
        obtain ⟨r, e, hr⟩ := toep_right_core hred ht cross (fun j => V.e (j, i)) hno
        refine ⟨r, e, fun a ha => ?_⟩
        rw [hr _ (by omega), toep_right_sum _ _ _ _ _ ha])
    dsimp only at e ⊢
    rw [e]
    exact ⟨_, rfl, rfl, rfl, fun i j hi hj => hu i j hi hj⟩

/-- **C83 (partial)**. Left product of a matrix by a Toeplitz matrix.  Missing: as in `C83_toeplitz_right_partial`. -/
theorem C83_toeplitz_left_matrix_partial [Fact (1 < p)] {red : Nat → ZMod p} (hred : RedOK red) {input : NVec (ZMod p)} {n m : Nat}
    {t : Band p} (h : Band.make input n m = .ok t) (cross lim : Nat) (x V : PMat (ZMod p)) (hV : V.cols = n)
    (hno : NoOverflow p cross n m n) :
    IsMat (t.toeplitzLeftMat red cross lim x V) V.rows m fun i j => ∑ l ∈ Finset.range n, V.e (i, l) * toeplitzEntry input.e m l j := by
  have hd := C83_toeplitz_dense h ⟨0, 0, fun _ => 0⟩
  obtain ⟨rfl, rfl, ht⟩ := made_of_make h
  unfold Band.toeplitzLeftMat
  rw [if_neg (not_not.2 hV)]
  by_cases hD : t.useDense lim V.rows
  · rw [if_pos hD]; exact dense_left hd V hV
  · rw [if_neg hD]
    obtain ⟨u, e, hu⟩ := rows_loop t.m V.rows (x.setDims V.rows t.m).e
      (fun i => t.core red cross t.m t.n (fun j => V.e (i, t.n - 1 - j)) fun j => V.e (i, j))
      (fun i j => ∑ l ∈ Finset.range t.n, V.e (i, l) * toeplitzEntry input.e t.m l j)
      (fun i hi => toep_left_core hred ht cross (fun j => V.e (i, j)) hno)
    dsimp only at e ⊢
    rw [e]
    exact ⟨_, rfl, rfl, rfl, fun i j hi hj => hu i j hi hj⟩

/-- **C83 (partial)**. Right product of a Hankel matrix by a matrix.  Missing: as in `C83_toeplitz_right_partial`. -/
theorem C83_hankel_right_matrix_partial [Fact (1 < p)] {red : Nat → ZMod p} (hred : RedOK red) {input : NVec (ZMod p)} {n m : Nat}
    {t : Band p} (h : Band.make input n m = .ok t) (cross lim : Nat) (x V : PMat (ZMod p)) (hV : V.rows = m)
    (hno : NoOverflow p cross n m m) :
    IsMat (t.hankelRightMat red cross lim x V) n V.cols fun i j => ∑ l ∈ Finset.range m, hankelEntry input.e n m i l * V.e (l, j) := by
  have hd := C83_hankel_dense h ⟨0, 0, fun _ => 0⟩
  obtain ⟨rfl, rfl, ht⟩ := made_of_make h
  unfold Band.hankelRightMat
  rw [if_neg (not_not.2 hV)]
  by_cases hD : t.useDense lim V.cols
  · rw [if_pos hD]; exact dense_right hd V hV
  · rw [if_neg hD]
    obtain ⟨u, e, hu⟩ := columns_loop t.n V.cols (x.setDims t.n V.cols).e
      (fun i => t.core red cross t.n t.m (fun j => V.e (j, i)) fun j => V.e (t.m - 1 - j, i)) (fun j => j)
      (fun j hj => ⟨rfl, hj⟩) (fun i j => ∑ l ∈ Finset.range t.m, hankelEntry input.e t.n t.m i l * V.e (l, j))
      (fun i hi => hank_right_core hred ht cross (fun j => V.e (j, i)) hno)
    dsimp only at e ⊢
    rw [e]
    exact ⟨_, rfl, rfl, rfl, fun i j hi hj => hu i j hi hj⟩

/-- **C83 (partial)**. Left product of a matrix by a Hankel matrix.  Missing: as in `C83_toeplitz_right_partial`. -/
theorem C83_hankel_left_matrix_partial [Fact (1 < p)] {red : Nat → ZMod p} (hred : RedOK red) {input : NVec (ZMod p)} {n m : Nat}
    {t : Band p} (h : Band.make input n m = .ok t) (cross lim : Nat) (x V : PMat (ZMod p)) (hV : V.cols = n)
    (hno : NoOverflow p cross n m n) :
    IsMat (t.hankelLeftMat red cross lim x V) V.rows m fun i j => ∑ l ∈ Finset.range n, V.e (i, l) * hankelEntry input.e n m l j := by
  have hd := C83_hankel_dense h ⟨0, 0, fun _ => 0⟩
  obtain ⟨rfl, rfl, ht⟩ := made_of_make h
  unfold Band.hankelLeftMat
  rw [if_neg (not_not.2 hV)]
  by_cases hD : t.useDense lim V.rows
  · rw [if_pos hD]; exact dense_left hd V hV
  · rw [if_neg hD]
    obtain ⟨u, e, hu⟩ := rows_loop t.m V.rows (x.setDims V.rows t.m).e
      (fun i => t.core red cross t.m t.n (fun j => V.e (i, j)) fun j => V.e (i, t.n - 1 - j))
      (fun i j => ∑ l ∈ Finset.range t.n, V.e (i, l) * hankelEntry input.e t.n t.m l j)
      (fun i hi => hank_left_core hred ht cross (fun j => V.e (i, j)) hno)
    dsimp only at e ⊢
    rw [e]
    exact ⟨_, rfl, rfl, rfl, fun i j hi hj => hu i j hi hj⟩

/-- **C83**. The condition on sums is needed: for a modulus with delayed reductions and a single row, the product by a vector
    overflows a signed word. -/
theorem C83_toeplitz_overflow [Fact (1 < p)] (red : Nat → ZMod p) (cross m : Nat) (hm : 0 < m) (hc : 2 ≤ cross) (hu : useLong p = true)
    (h : LONG_BOUND ≤ m * (p - 1) ^ 2) :
    ∃ t, Band.make (⟨m, fun _ => -1⟩ : NVec (ZMod p)) 1 m = .ok t ∧ t.toeplitzRight red cross ⟨m, fun _ => -1⟩ = .ub := by
  obtain ⟨t, e, h1, h2, ht⟩ := make_made (⟨m, fun _ => -1⟩ : NVec (ZMod p)) 1 m (by omega) (by dsimp only; omega)
  refine ⟨t, e, ?_⟩
  unfold Band.toeplitzRight
  rw [if_neg (not_not.2 h2.symm)]
  have hcore : ∀ f, t.core red cross t.n t.m (fun _ => -1) f = .ub := by
    intro f
    unfold Band.core
    rw [if_pos (by omega), if_neg (by omega)]
    unfold tKar
    rw [if_pos (by unfold KARX; omega), hu]
    unfold tPlainMul2
    rw [if_pos rfl, h1, h2]
    have hacc := accLoop_neg_one (fun _ : Nat => (-1 : ZMod p)) t.rev (1 + m - 1) 0 m (fun _ _ => rfl)
      (fun i hi => by rw [ht.rev _ (by omega)])
    rcases hacc with e | ⟨-, e⟩
    · have hrow : accRows red 0 (fun _ => -1) t.rev m (1 + m - 1) 1 = none := by
        show (match accLoop (fun _ => -1) t.rev (1 + m - 1) 0 m with
          | none => none
          | some s => some (Function.update (0 : Nat → ZMod p) 0 (red s))) = none
        rw [e]
      rw [hrow]; rfl
    · omega
  dsimp only
  rw [hcore]; rfl

/-- **C83**. The matrix made by the constructor without argument is 0 by 0, but its product by the empty vector is an error. -/
theorem C83_empty (red : Nat → ZMod p) (cross : Nat) (x : PMat (ZMod p)) (v : Nat → ZMod p) :
    (Band.empty : Band p).toeplitzRight red cross ⟨0, v⟩ = .error ∧ (Band.empty : Band p).hankelRight red cross ⟨0, v⟩ = .error ∧
      IsMat ((Band.empty : Band p).toeplitzDense x) 0 0 (fun _ _ => 0) := by
  have hcore : ∀ f, (Band.empty : Band p).core red cross 0 0 v f = .error := by
    intro f
    unfold Band.core
    rw [if_pos (by simp [Band.empty]), if_pos (by simp [Band.empty])]
  refine ⟨?_, ?_, _, rfl, rfl, rfl, fun i j hi => by omega⟩
  · unfold Band.toeplitzRight
    rw [if_neg (by simp [Band.empty])]
    show andThen ((Band.empty : Band p).core red cross 0 0 v _) _ = _
    rw [hcore]; rfl
  · unfold Band.hankelRight
    rw [if_neg (by simp [Band.empty])]
    show andThen ((Band.empty : Band p).core red cross 0 0 v _) _ = _
    rw [hcore]; rfl

/-! ### Lower triangular Toeplitz -/

/-- **C83**. Right product of a lower triangular Toeplitz matrix by a vector. -/
theorem C83_triangular_right [Fact (1 < p)] (input v : NVec (ZMod p)) (cross : Nat) (hv : v.len = input.len) :
    IsRight ((Tri.make input).right cross v) input.len input.len (triEntry input.e) v.e := by
  have key : ∀ i, i < input.len → (ofCoeffs input.len input.e * ofCoeffs input.len v.e).coeff i =
      ∑ j ∈ Finset.range input.len, triEntry input.e i j * v.e j := by
    intro i hi
    rw [ofCoeffs_mul_coeff]
    refine Finset.sum_congr rfl fun j _ => ?_
    unfold triEntry
    by_cases h : j ≤ i
    · rw [if_pos (by omega), if_pos h]
    · rw [if_neg (by omega), if_neg h, zero_mul]
  unfold Tri.right
  rw [if_neg (show ¬ v.len ≠ (Tri.make input).n from not_not.2 hv)]
  dsimp only
  by_cases hc : (Tri.make input).n ≤ cross / 2
  · rw [if_pos hc]
    refine ⟨_, rfl, rfl, fun i hi => ?_⟩
    dsimp only [Tri.make] at hc ⊢
    rw [ptrunc_coeff, if_pos hi, key i hi]
  · rw [if_neg hc]
    refine ⟨_, rfl, rfl, fun i hi => ?_⟩
    dsimp only [Tri.make] at hc ⊢
    have := le_nextPow2 (input.len + input.len - 1)
    rw [fft_coeff _ _ _ _ _ _ _ _ (by omega) (by omega) (by omega), Nat.zero_add, mul_comm, key i hi]

/-- **C83**. Left product of a vector by a lower triangular Toeplitz matrix. -/
theorem C83_triangular_left [Fact (1 < p)] (input v : NVec (ZMod p)) (cross : Nat) (hv : v.len = input.len) :
    IsLeft ((Tri.make input).left cross v) input.len input.len (triEntry input.e) v.e := by
  have key : ∀ i, i < input.len →
      (ofCoeffs input.len input.e * ofCoeffs input.len fun i => v.e (input.len - 1 - i)).coeff (input.len - 1 - i) =
      ∑ j ∈ Finset.range input.len, v.e j * triEntry input.e j i := by
    intro i hi
    rw [ofCoeffs_mul_coeff, ← Finset.sum_range_reflect]
    refine Finset.sum_congr rfl fun j hj => ?_
    have := Finset.mem_range.1 hj
    unfold triEntry
    by_cases h : i ≤ j
    · rw [if_pos (by omega), if_pos h, mul_comm]
      congr 2 <;> omega
    · rw [if_neg (by omega), if_neg h, mul_zero]
  unfold Tri.left
  rw [if_neg (show ¬ v.len ≠ (Tri.make input).n from not_not.2 hv)]
  dsimp only
  by_cases hc : (Tri.make input).n ≤ cross / 2
  · rw [if_pos hc]
    refine ⟨_, rfl, rfl, fun i hi => ?_⟩
    dsimp only [Tri.make] at hc ⊢
    rw [ptrunc_coeff, if_pos (by omega), key i hi]
  · rw [if_neg hc]
    refine ⟨_, rfl, rfl, fun i hi => ?_⟩
    dsimp only [Tri.make] at hc ⊢
    have := le_nextPow2 (input.len + input.len - 1)
    rw [fft_coeff _ _ _ _ _ _ _ _ (by omega) (by omega) (by omega), Nat.zero_add, mul_comm, key i hi]

theorem tri_dense_e (t : Tri p) (x : PMat (ZMod p)) (a b : Nat) :
    (t.dense x).e (a, b) = if b ≤ a ∧ a < t.n then t.data (a - b) else (x.setDims t.n t.n).e (a, b) := by
  have hin : ∀ (j k : Nat) (y : Nat × Nat → ZMod p) (a b : Nat), forN k (fun i => write (j + i, j) (t.data (j + i - j))) y (a, b) =
      if b = j ∧ j ≤ a ∧ a < j + k then t.data (a - j) else y (a, b) := by
    intro j k y a b
    refine forN_inv (n := k) (P := fun (k : Nat) (z : Nat × Nat → ZMod p) =>
      z (a, b) = if b = j ∧ j ≤ a ∧ a < j + k then t.data (a - j) else y (a, b)) (by rw [if_neg (by omega)]) ?_
    intro i z hi hz
    unfold write
    by_cases e : (a, b) = (j + i, j)
    · obtain ⟨rfl, rfl⟩ := Prod.mk.inj e
      rw [Function.update_self, if_pos (by omega)]
    · rw [Function.update_of_ne e, hz]
      have e' : ¬(a = j + i ∧ b = j) := fun h => e (by rw [h.1, h.2])
      by_cases h : b = j ∧ j ≤ a ∧ a < j + i
      · rw [if_pos h, if_pos (by omega)]
      · rw [if_neg h, if_neg (by omega)]
  have hout : ∀ a b, (t.dense x).e (a, b) =
      if b < t.n ∧ b ≤ a ∧ a < t.n then t.data (a - b) else (x.setDims t.n t.n).e (a, b) := by
    refine forN_inv (n := t.n) (P := fun (k : Nat) (z : Nat × Nat → ZMod p) => ∀ a b,
      z (a, b) = if b < k ∧ b ≤ a ∧ a < t.n then t.data (a - b) else (x.setDims t.n t.n).e (a, b))
      (fun a b => by rw [if_neg (by omega)]) ?_
    intro j z hj hz a b
    rw [hin, hz]
    by_cases h : b = j ∧ j ≤ a ∧ a < j + (t.n - j)
    · rw [if_pos h, if_pos (by omega), h.1]
    · rw [if_neg h]
      by_cases h2 : b < j ∧ b ≤ a ∧ a < t.n
      · rw [if_pos h2, if_pos (by omega)]
      · rw [if_neg h2, if_neg (by omega)]
  rw [hout]
  by_cases h : b ≤ a ∧ a < t.n
  · rw [if_pos h, if_pos (by omega)]
  · rw [if_neg h, if_neg (by omega)]

/-- **C83 (partial)**. The dense form of a lower triangular Toeplitz matrix is right when it is written into a matrix with another
    number of columns, or which is already zero above the diagonal.  Missing: the other matrices, for which it is wrong. -/
theorem C83_triangular_dense_partial (input : NVec (ZMod p)) (x : PMat (ZMod p))
    (hx : x.cols ≠ input.len ∨ ∀ i j, i < j → x.e (i, j) = 0) :
    IsMat (.ok ((Tri.make input).dense x)) input.len input.len (triEntry input.e) := by
  refine ⟨_, rfl, rfl, rfl, fun i j hi hj => ?_⟩
  rw [tri_dense_e]
  unfold triEntry
  by_cases h : j ≤ i
  · rw [if_pos (show j ≤ i ∧ i < (Tri.make input).n from ⟨h, hi⟩), if_pos h]; rfl
  · rw [if_neg (show ¬(j ≤ i ∧ i < (Tri.make input).n) from fun h' => h h'.1), if_neg h]
    unfold PMat.setDims
    dsimp only
    by_cases hc : x.cols = (Tri.make input).n
    · rw [if_pos hc]
      exact (hx.resolve_left (not_not.2 hc)) i j (by omega)
    · rw [if_neg hc]

/-- **C83**. Entries above the diagonal which are there before the call stay there: the dense form is not the matrix. -/
theorem C83_triangular_dense_stale (input : NVec (ZMod p)) (x : PMat (ZMod p)) (hx : x.cols = input.len) (i j : Nat) (hij : i < j)
    (hj : j < input.len) (hne : x.e (i, j) ≠ 0) :
    ¬ IsMat (.ok ((Tri.make input).dense x)) input.len input.len (triEntry input.e) := by
  rintro ⟨w, e, -, -, h⟩
  cases e
  have h1 := h i j (by omega) hj
  rw [tri_dense_e, if_neg (by omega)] at h1
  unfold triEntry PMat.setDims at h1
  dsimp only at h1
  rw [if_pos (show x.cols = (Tri.make input).n from hx), if_neg (by omega)] at h1
  exact hne h1

/-- **C83**. The products of a lower triangular Toeplitz matrix by matrices compute nothing: the output keeps its value, and a matrix given both
as input and as output is replaced by an empty one. -/
theorem C83_triangular_matrix_missing (input : NVec (ZMod p)) (x V : PMat (ZMod p)) (hV : V.rows = input.len) (hV' : V.cols = input.len) :
    (Tri.make input).rightMat false x V = .ok x ∧ (Tri.make input).leftMat false x V = .ok x ∧
    IsMat ((Tri.make input).rightMat true V V) 0 0 (fun _ _ => 0) ∧ IsMat ((Tri.make input).leftMat true V V) 0 0 (fun _ _ => 0) := by
  unfold Tri.rightMat Tri.leftMat unwritten
  simp [Tri.make, hV, hV', IsMat]

/-- **C83**. So that some product by a matrix is wrong: the identity matrix of dimension 1 times itself is not computed. -/
theorem C83_triangular_matrix_wrong [Fact (1 < p)] : ∃ (input : NVec (ZMod p)) (x V : PMat (ZMod p)), V.rows = input.len ∧
    ¬ IsMat ((Tri.make input).rightMat false x V) input.len V.cols
      fun i j => ∑ l ∈ Finset.range input.len, triEntry input.e i l * V.e (l, j) := by
  refine ⟨⟨1, fun _ => 1⟩, ⟨1, 1, fun _ => 0⟩, ⟨1, 1, fun _ => 1⟩, rfl, ?_⟩
  rw [(C83_triangular_matrix_missing _ _ _ rfl rfl).1]
  rintro ⟨w, e, -, -, h⟩
  cases e
  have := h 0 0 Nat.one_pos Nat.one_pos
  simp [triEntry] at this

/-! ### Circulant matrices -/

/-- **C83**. The constructors of circulant matrices read beyond an empty vector, and only then. -/
theorem C83_circulant_constructor (input : NVec (ZMod p)) (k : Nat) :
    (input.len = 0 → Circ.makeColumn input k = .ub ∧ Circ.makeRow input k = .ub) ∧
    (0 < input.len → (∃ t, Circ.makeColumn input k = .ok t ∧ t.n = input.len ∧ t.m = k) ∧
      ∃ t, Circ.makeRow input k = .ok t ∧ t.n = k ∧ t.m = input.len) := by
  refine ⟨fun h => ⟨if_pos h, if_pos h⟩, fun h => ⟨⟨_, if_neg (by omega), rfl, rfl⟩, _, if_neg (by omega), rfl, rfl⟩⟩

/-- Nested loops on columns. -/
theorem forN_cols (m n : Nat) (g : Nat → Nat → ZMod p) (x : Nat × Nat → ZMod p) (a b : Nat) (ha : a < n) (hb : b < m) :
    forN m (fun i => forN n fun j => write (j, i) (g j i)) x (a, b) = g a b := by
  have : ∀ b, b < m → forN m (fun i => forN n fun j => write (j, i) (g j i)) x (a, b) = g a b := by
    refine forN_inv (n := m) (P := fun (k : Nat) (z : Nat × Nat → ZMod p) => ∀ b, b < k → z (a, b) = g a b) (by omega) ?_
    intro i z hi hz b hb
    rw [col_write n i (fun j => g j i) (fun j => j) (fun j hj => ⟨rfl, hj⟩)]
    by_cases h : b = i
    · rw [if_pos ⟨ha, h⟩, h]
    · rw [if_neg (fun h' => h h'.2), hz b (by omega)]
  exact this b hb

/-- **C83**. The dense form of a circulant matrix given by its first column. -/
theorem C83_circulant_column_dense {input : NVec (ZMod p)} {m : Nat} {t : Circ p} (h : Circ.makeColumn input m = .ok t) (x : PMat (ZMod p)) :
    IsMat (.ok (t.columnDense x)) input.len m (circColumnEntry input.e input.len) := by
  unfold Circ.makeColumn at h
  by_cases h0 : input.len = 0
  · dsimp only at h; rw [if_pos h0] at h; cases h
  dsimp only at h
  rw [if_neg h0] at h
  cases h
  refine ⟨_, rfl, rfl, rfl, fun i j hi hj => ?_⟩
  dsimp only [Circ.columnDense]
  rw [forN_cols m input.len (fun j i => input.e (input.len - 1 - circIdx i j input.len)) _ i j hi hj]
  unfold circIdx circColumnEntry
  rw [pred_neg _ _ _ (by omega)]
  have := (cmod_exists input.len i j (by omega)).1
  show _ = input.e (cmod input.len i j)
  congr 1; omega

/-- **C83**. The dense form of a circulant matrix given by its first row. -/
theorem C83_circulant_row_dense {input : NVec (ZMod p)} {n : Nat} {t : Circ p} (h : Circ.makeRow input n = .ok t) (x : PMat (ZMod p)) :
    IsMat (.ok (t.rowDense x)) n input.len (circRowEntry input.e input.len) := by
  unfold Circ.makeRow at h
  by_cases h0 : input.len = 0
  · dsimp only at h; rw [if_pos h0] at h; cases h
  dsimp only at h
  rw [if_neg h0] at h
  cases h
  refine ⟨_, rfl, rfl, rfl, fun i j hi hj => ?_⟩
  dsimp only [Circ.rowDense]
  rw [loop2_at _ _ _ _ _ _ hi hj]; rfl

/-- **C83**. Right product of a circulant matrix given by its first column, with at least one column. -/
theorem C83_circulant_column_right [Fact (1 < p)] {input : NVec (ZMod p)} {m : Nat} {t : Circ p} (h : Circ.makeColumn input m = .ok t)
    (hm : 0 < m) (v : NVec (ZMod p)) (hv : v.len = m) :
    IsRight (t.columnRight v) input.len m (circColumnEntry input.e input.len) v.e := by
  unfold Circ.makeColumn at h
  by_cases h0 : input.len = 0
  · dsimp only at h; rw [if_pos h0] at h; cases h
  dsimp only at h
  rw [if_neg h0] at h
  cases h
  obtain ⟨r, e, hr⟩ := chunks_spec input.len m (by omega) hm input.e v.e
  unfold Circ.columnRight
  rw [if_neg (not_not.2 hv)]
  dsimp only
  rw [e]
  exact ⟨_, rfl, rfl, hr⟩

/-- **C83**. Left product of a circulant matrix given by its first row, with at least one row. -/
theorem C83_circulant_row_left [Fact (1 < p)] {input : NVec (ZMod p)} {n : Nat} {t : Circ p} (h : Circ.makeRow input n = .ok t)
    (hn : 0 < n) (v : NVec (ZMod p)) (hv : v.len = n) :
    IsLeft (t.rowLeft v) n input.len (circRowEntry input.e input.len) v.e := by
  unfold Circ.makeRow at h
  by_cases h0 : input.len = 0
  · dsimp only at h; rw [if_pos h0] at h; cases h
  dsimp only at h
  rw [if_neg h0] at h
  cases h
  obtain ⟨r, e, hr⟩ := chunks_spec input.len n (by omega) hn (fun i => input.e (input.len - 1 - i)) v.e
  unfold Circ.rowLeft
  rw [if_neg (not_not.2 hv)]
  dsimp only
  rw [e]
  refine ⟨_, rfl, rfl, fun j hj => ?_⟩
  dsimp only
  rw [hr j hj]
  refine Finset.sum_congr rfl fun i _ => ?_
  unfold circRowEntry
  rw [pred_neg _ _ _ (by omega), mul_comm]

/-- **C83**. Right product of a circulant matrix given by its first row. -/
theorem C83_circulant_row_right [Fact (1 < p)] {input : NVec (ZMod p)} {n : Nat} {t : Circ p} (h : Circ.makeRow input n = .ok t)
    (v : NVec (ZMod p)) (hv : v.len = input.len) :
    IsRight (t.rowRight v) n input.len (circRowEntry input.e input.len) v.e := by
  unfold Circ.makeRow at h
  by_cases h0 : input.len = 0
  · dsimp only at h; rw [if_pos h0] at h; cases h
  dsimp only at h
  rw [if_neg h0] at h
  cases h
  obtain ⟨r, e, hr⟩ := period_spec input.len n input.len (by omega) (le_refl _)
    (fun i => if i = 0 then input.e (input.len - 1) else input.e (i - 1)) v.e
  unfold Circ.rowRight
  rw [if_neg (not_not.2 hv)]
  dsimp only
  rw [e]
  refine ⟨_, rfl, rfl, fun i hi => ?_⟩
  dsimp only
  rw [hr i hi]
  refine Finset.sum_congr rfl fun j _ => ?_
  unfold circRowEntry
  rw [pred_mod _ _ _ (by omega)]
  by_cases hz : cmod input.len i j = 0
  · rw [if_pos hz, if_pos hz]
  · rw [if_neg hz, if_neg hz]

/-- **C83 (partial)**. Left product of a circulant matrix given by its first column, when it has at least as many columns as rows.
    Missing: fewer columns, for which the function writes beyond an array (`C83_circulant_column_left_overrun`). -/
theorem C83_circulant_column_left_partial [Fact (1 < p)] {input : NVec (ZMod p)} {m : Nat} {t : Circ p}
    (h : Circ.makeColumn input m = .ok t) (hm : input.len ≤ m) (v : NVec (ZMod p)) (hv : v.len = input.len) :
    IsLeft (t.columnLeft v) input.len m (circColumnEntry input.e input.len) v.e := by
  unfold Circ.makeColumn at h
  by_cases h0 : input.len = 0
  · dsimp only at h; rw [if_pos h0] at h; cases h
  dsimp only at h
  rw [if_neg h0] at h
  cases h
  obtain ⟨r, e, hr⟩ := period_spec input.len m m (by omega) hm
    (fun i => if i = 0 then input.e 0 else input.e (input.len - 1 - (i - 1))) v.e
  unfold Circ.columnLeft
  rw [if_neg (not_not.2 hv)]
  dsimp only
  rw [e]
  refine ⟨_, rfl, rfl, fun j hj => ?_⟩
  dsimp only
  rw [hr j hj]
  refine Finset.sum_congr rfl fun i _ => ?_
  rw [mul_comm]
  show v.e i * _ = v.e i * input.e (cmod input.len i j)
  rw [neg_mod _ i j (by omega)]
  by_cases hz : cmod input.len j i = 0
  · rw [if_pos hz, if_pos hz]
  · rw [if_neg hz, if_neg hz]

/-- **C83**. With fewer columns than rows, the left product of a circulant matrix given by its first column writes beyond an array. -/
theorem C83_circulant_column_left_overrun {input : NVec (ZMod p)} {m : Nat} {t : Circ p} (h : Circ.makeColumn input m = .ok t)
    (hm : m < input.len) (v : NVec (ZMod p)) (hv : v.len = input.len) : t.columnLeft v = .ub := by
  unfold Circ.makeColumn at h
  dsimp only at h
  rw [if_neg (by omega)] at h
  cases h
  unfold Circ.columnLeft
  rw [if_neg (not_not.2 hv)]
  unfold period
  dsimp only
  rw [if_pos hm]; rfl

/-- **C83**. Without any column, the right product of a circulant matrix given by its first column reads before the vector, and so does
    the left product of a circulant matrix given by its first row, without any row. -/
theorem C83_circulant_empty {input : NVec (ZMod p)} {t u : Circ p} (h : Circ.makeColumn input 0 = .ok t) (h' : Circ.makeRow input 0 = .ok u)
    (v : Nat → ZMod p) : t.columnRight ⟨0, v⟩ = .ub ∧ u.rowLeft ⟨0, v⟩ = .ub := by
  have hc : ∀ (f g : (ZMod p)[X]) (d : Nat), chunks f g d 0 v = .ub := by
    intro f g d
    unfold chunks
    by_cases hd : d = 0
    · rw [if_pos hd]
    · rw [if_neg hd]
      dsimp only
      rw [if_pos ⟨Nat.zero_mod _, Nat.zero_div _⟩]
  by_cases h0 : input.len = 0
  · unfold Circ.makeColumn at h; dsimp only at h; rw [if_pos h0] at h; cases h
  unfold Circ.makeColumn at h
  unfold Circ.makeRow at h'
  dsimp only at h h'
  rw [if_neg h0] at h h'
  cases h; cases h'
  constructor
  · unfold Circ.columnRight
    rw [if_neg (by simp)]
    dsimp only
    rw [hc]; rfl
  · unfold Circ.rowLeft
    rw [if_neg (by simp)]
    dsimp only
    rw [hc]; rfl

/-- **C83**. The products of circulant matrices by matrices compute nothing: the output keeps its value, a matrix given both as input and as
output is replaced by an empty one, or an error is raised. -/
theorem C83_circulant_matrix_missing (t : Circ p) (x V W : PMat (ZMod p)) (hV : V.rows = t.m) (hW : W.cols = t.n) :
    t.columnRightMat false x V = .ok x ∧ t.columnLeftMat false x W = .ok x ∧ t.rowLeftMat false x W = .ok x ∧ t.rowRightMat V = .error ∧
    IsMat (t.columnRightMat true V V) 0 0 (fun _ _ => 0) ∧ IsMat (t.columnLeftMat true W W) 0 0 (fun _ _ => 0) ∧
    IsMat (t.rowLeftMat true W W) 0 0 (fun _ _ => 0) := by
  refine ⟨?_, ?_, ?_, rfl, ?_, ?_, ?_⟩
  · unfold Circ.columnRightMat unwritten; simp [hV]
  · unfold Circ.columnLeftMat unwritten; simp [hW]
  · unfold Circ.rowLeftMat unwritten; simp [hW]
  · unfold Circ.columnRightMat unwritten; simp [hV, IsMat]
  · unfold Circ.columnLeftMat unwritten; simp [hW, IsMat]
  · unfold Circ.rowLeftMat unwritten; simp [hW, IsMat]

/-- **C83**. So that some product by a matrix is wrong. -/
theorem C83_circulant_matrix_wrong [Fact (1 < p)] : ∃ (input : NVec (ZMod p)) (t : Circ p) (x V : PMat (ZMod p)),
    Circ.makeColumn input 1 = .ok t ∧ V.rows = 1 ∧ ¬ IsMat (t.columnRightMat false x V) input.len V.cols
      fun i j => ∑ l ∈ Finset.range 1, circColumnEntry input.e input.len i l * V.e (l, j) := by
  obtain ⟨t, e, h1, h2⟩ := ((C83_circulant_constructor (p := p) ⟨1, fun _ => 1⟩ 1).2 Nat.one_pos).1
  refine ⟨⟨1, fun _ => 1⟩, t, ⟨1, 1, fun _ => 0⟩, ⟨1, 1, fun _ => 1⟩, e, rfl, ?_⟩
  have : t.columnRightMat false ⟨1, 1, fun _ => 0⟩ ⟨1, 1, fun _ => 1⟩ = .ok ⟨1, 1, fun _ => 0⟩ := by
    unfold Circ.columnRightMat unwritten; simp [h2]
  rw [this]
  rintro ⟨w, e, -, -, h⟩
  cases e
  have := h 0 0 Nat.one_pos Nat.one_pos
  simp [circColumnEntry] at this

/-! ### The hypotheses are met -/

instance fact97 : Fact (1 < 97) := ⟨by decide⟩

/-- A 3 by 4 matrix from 6 coefficients, with products on both sides, for the prime 97 and the crossover 10. -/
example : ∃ t, Band.make (⟨6, fun i => (i : ZMod 97)⟩ : NVec (ZMod 97)) 3 4 = .ok t ∧ t.n = 3 ∧ t.m = 4 :=
  (C83_constructor _ 3 4).2 (by decide)

example : NoOverflow 97 10 3 4 4 ∧ NoOverflow 97 10 3 4 3 := by
  unfold NoOverflow SP_BOUND; constructor <;> intro _ _ <;> norm_num

/-- Both paths occur: with a large crossover, Karatsuba; with the crossover 0, the FFT. -/
example : NoOverflow 97 0 300 400 400 ∧ NoOverflow 97 1000 300 400 400 := by
  unfold NoOverflow SP_BOUND; constructor <;> intro _ _ <;> norm_num

/-- The overflow occurs for the modulus `2^27` and 513 columns. -/
example : useLong (2 ^ 27) = true ∧ LONG_BOUND ≤ 513 * (2 ^ 27 - 1) ^ 2 := by
  constructor
  · unfold useLong; norm_num
  · norm_num

/-- A 3 by 4 Toeplitz matrix: the drawing of the source. -/
example (a : Nat → ZMod 97) : toeplitzEntry a 4 0 0 = a 3 ∧ toeplitzEntry a 4 0 3 = a 0 ∧ toeplitzEntry a 4 2 0 = a 5 ∧
    hankelEntry a 3 4 0 0 = a 5 ∧ hankelEntry a 3 4 2 3 = a 0 ∧ triEntry a 0 2 = 0 ∧ triEntry a 2 0 = a 2 ∧
    circColumnEntry a 3 0 1 = a 2 ∧ circColumnEntry a 3 0 3 = a 0 ∧ circRowEntry a 4 0 0 = a 3 ∧ circRowEntry a 4 1 0 = a 0 ∧
    circRowEntry a 4 2 3 = a 2 :=
  ⟨rfl, rfl, rfl, rfl, rfl, rfl, rfl, rfl, rfl, rfl, rfl, rfl⟩

/-- A circulant matrix with 3 rows and 7 columns, and one with 5 rows and 3 columns. -/
example : (∃ t, Circ.makeColumn (⟨3, fun i => (i : ZMod 97)⟩ : NVec (ZMod 97)) 7 = .ok t ∧ t.n = 3 ∧ t.m = 7) ∧
    ∃ t, Circ.makeRow (⟨3, fun i => (i : ZMod 97)⟩ : NVec (ZMod 97)) 5 = .ok t ∧ t.n = 5 ∧ t.m = 3 :=
  ⟨((C83_circulant_constructor _ 7).2 (by decide)).1, ((C83_circulant_constructor _ 5).2 (by decide)).2⟩

end PML.Ntl.Struct
