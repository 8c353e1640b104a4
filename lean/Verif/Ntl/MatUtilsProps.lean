import Verif.Ntl.MatUtilsLemmas
import Verif.Common.Prime

/-!
# Properties C65 (utilities for polynomial matrices) and C66 (entrywise arithmetic and products by
constants)

Everything is stated on the dimensions of the result and on its entries (or on the coefficients of its
entries) in terms of those of the input, for every previous content of the output and every aliasing
that the header allows.
-/

namespace PML.Ntl.Utils

open Polynomial

set_option linter.unusedSectionVars false

variable {R : Type} [CommRing R] {α : Type}

/-! ### Zero and identity -/

/-- C65: `clear` sets all entries to zero and keeps the dimensions. -/
theorem C65_clear [Zero α] (x : PMat α) : (clear x).rows = x.rows ∧ (clear x).cols = x.cols ∧
    ∀ i j, i < x.rows → j < x.cols → (clear x).e (i, j) = 0 := by
  refine ⟨rfl, rfl, fun i j hi hj => ?_⟩
  show loop2 x.rows x.cols _ x.e (i, j) = 0
  rw [loop2_const, if_pos ⟨hi, hj⟩]

/-- C65: clearing a window clears exactly the entries of the matrix that are in it. -/
theorem C65_clear_window [Zero α] (x : PMat α) (ro co nr nc : Nat) :
    (clearWindow x ro co nr nc).rows = x.rows ∧ (clearWindow x ro co nr nc).cols = x.cols ∧
    ∀ i j, i < x.rows → j < x.cols → (clearWindow x ro co nr nc).e (i, j) =
      if ro ≤ i ∧ i < ro + nr ∧ co ≤ j ∧ j < co + nc then 0 else x.e (i, j) := by
  refine ⟨rfl, rfl, ?_⟩
  have key := forN_inv (P := fun (m : Nat) (t : Nat × Nat → α) => ∀ u v, t (u, v) =
      if ro ≤ u ∧ u < ro + m ∧ co ≤ v ∧ v < co + (min (co + nc) x.cols - co) then 0 else x.e (u, v))
    (f := fun i => forN (min (co + nc) x.cols - co) fun j => write (ro + i, co + j) 0) (s := x.e)
    (n := min (ro + nr) x.rows - ro) (fun u v => by rw [if_neg (by omega)]) (by
      intro i t _ ht u v
      rw [loop1_spec (g := fun _ _ => 0) (hg := fun _ _ _ _ => rfl)]
      by_cases h : u = ro + i ∧ co ≤ v ∧ v < co + (min (co + nc) x.cols - co)
      · rw [if_pos h, if_pos (by omega)]
      · rw [if_neg h, ht]
        by_cases h2 : ro ≤ u ∧ u < ro + i ∧ co ≤ v ∧ v < co + (min (co + nc) x.cols - co)
        · rw [if_pos h2, if_pos (by omega)]
        · rw [if_neg h2, if_neg (by omega)])
  intro i j hi hj
  refine (key i j).trans ?_
  by_cases h : ro ≤ i ∧ i < ro + nr ∧ co ≤ j ∧ j < co + nc
  · rw [if_pos h, if_pos (by omega)]
  · rw [if_neg h, if_neg (by omega)]

/-- C65: `ident(pmat, dim)` makes `pmat` the identity matrix, whatever it was. -/
theorem C65_ident [Zero α] [One α] (x : PMat α) (dim : Nat) : (ident x dim).rows = dim ∧ (ident x dim).cols = dim ∧
    ∀ i j, i < dim → j < dim → (ident x dim).e (i, j) = if i = j then 1 else 0 := by
  refine ⟨rfl, rfl, ?_⟩
  have key := forN_inv (P := fun (m : Nat) (t : Nat × Nat → α) => ∀ u v, u < m → v < dim → t (u, v) = if u = v then 1 else 0)
    (f := fun i a =>
      let a := forN i (fun j => write (i, j) 0) a
      let a := write (i, i) 1 a
      forN (dim - (i + 1)) (fun j => write (i, i + 1 + j) 0) a) (s := (x.setDims dim dim).e)
    (n := dim) (fun u v h => absurd h (by omega)) (by
      intro i t hi ht u v hu hv
      dsimp only
      rw [loop1_spec (g := fun _ _ => 0) (hg := fun _ _ _ _ => rfl)]
      by_cases h : u = i
      · subst h
        by_cases h1 : u < v
        · rw [if_pos (by omega), if_neg (by omega)]
        · rw [if_neg (by omega)]
          by_cases h2 : u = v
          · rw [← h2, write_self, if_pos rfl]
          · rw [write_ne _ _ _ _ _ _ (by omega), if_neg h2]
            have := loop1_spec (α := α) u u 0 (fun _ _ => 0) (fun _ _ _ _ => rfl) t u v
            simp only [Nat.zero_add, Nat.zero_le, true_and] at this
            rw [this, if_pos (by omega)]
      · rw [if_neg (by omega), write_ne _ _ _ _ _ _ (by omega)]
        have := loop1_spec (α := α) i i 0 (fun _ _ => 0) (fun _ _ _ _ => rfl) t u v
        simp only [Nat.zero_add, Nat.zero_le, true_and] at this
        rw [this, if_neg (by omega)]
        exact ht u v (by omega) hv)
  exact fun i j hi hj => key i j hi hj

/-- C65: `IsZero` is true exactly on zero matrices. -/
theorem C65_is_zero [Zero α] [DecidableEq α] (x : PMat α) :
    isZero x = true ↔ ∀ i j, i < x.rows → j < x.cols → x.e (i, j) = 0 := by
  unfold isZero
  rw [allEntries_iff]
  simp

/-- C65: `IsIdent(pmat)` is true exactly on square matrices equal to the identity. -/
theorem C65_is_ident [Zero α] [One α] [DecidableEq α] (x : PMat α) :
    isIdent x = true ↔ x.rows = x.cols ∧ ∀ i j, i < x.rows → j < x.cols → x.e (i, j) = if i = j then 1 else 0 := by
  unfold isIdent
  by_cases h : x.rows = x.cols
  · rw [if_neg (by simpa using h), allEntries_iff, ← h]
    constructor
    · intro hb
      refine ⟨rfl, fun i j hi hj => ?_⟩
      have := hb i j hi hj
      by_cases hij : i = j
      · simp [hij] at this ⊢; exact this
      · simp [hij] at this ⊢; exact this
    · rintro ⟨_, hb⟩ i j hi hj
      have := hb i j hi hj
      by_cases hij : i = j
      · simp [hij] at this ⊢; exact this
      · simp [hij] at this ⊢; exact this
  · rw [if_pos h]
    simp [h]

/-- C65: `IsIdent(pmat, dim)` is true exactly on the identity of size `dim`. -/
theorem C65_is_ident_dim [Zero α] [One α] [DecidableEq α] (x : PMat α) (dim : Nat) :
    isIdentDim x dim = true ↔ x.rows = dim ∧ x.cols = dim ∧
      ∀ i j, i < dim → j < dim → x.e (i, j) = if i = j then 1 else 0 := by
  unfold isIdentDim
  by_cases h : x.rows = dim ∧ x.cols = dim
  · rw [if_neg (by omega), allEntries_iff]
    constructor
    · intro hb
      refine ⟨h.1, h.2, fun i j hi hj => ?_⟩
      have := hb i j hi hj
      by_cases hij : i = j
      · simp [hij] at this ⊢; exact this
      · simp [hij] at this ⊢; exact this
    · rintro ⟨_, _, hb⟩ i j hi hj
      have := hb i j hi hj
      by_cases hij : i = j
      · simp [hij] at this ⊢; exact this
      · simp [hij] at this ⊢; exact this
  · rw [if_pos (by omega)]
    constructor
    · intro hc; exact absurd hc (by simp)
    · rintro ⟨h1, h2, _⟩; exact absurd ⟨h1, h2⟩ h

/-- C65: `deg(pmat)` is `-1` for the zero matrix, and otherwise the largest index of a nonzero
    coefficient. -/
theorem C65_deg (a : PMat R[X]) :
    (deg a = -1 ↔ ∀ i j, i < a.rows → j < a.cols → a.e (i, j) = 0) ∧
    (∀ d : Nat, deg a = d ↔ (∃ i j, i < a.rows ∧ j < a.cols ∧ (a.e (i, j)).coeff d ≠ 0) ∧
      ∀ i j, i < a.rows → j < a.cols → ∀ k, d < k → (a.e (i, j)).coeff k = 0) := by
  refine ⟨deg_neg_iff a, fun d => ?_⟩
  obtain ⟨h1, h2, h3⟩ := deg_spec a
  constructor
  · intro h
    refine ⟨?_, ?_⟩
    · rcases h3 with h3 | ⟨i, j, hi, hj, h3⟩
      · omega
      · refine ⟨i, j, hi, hj, ?_⟩
        have := coeff_pdeg_ne (a.e (i, j)) (by omega)
        rwa [← h3, h, Int.toNat_natCast] at this
    · have := (deg_lt_iff a (d + 1)).1 (by omega)
      exact fun i j hi hj k hk => this i j hi hj k hk
  · rintro ⟨⟨i, j, hi, hj, hne⟩, hk⟩
    have h4 := (deg_lt_iff a (d + 1)).2 fun i j hi hj k hk' => hk i j hi hj k hk'
    by_contra hc
    have h5 := (deg_lt_iff a d).1 (by omega) i j hi hj d (le_refl _)
    exact hne h5

/-- C65: `IsConstant` is true exactly when no entry has a coefficient of positive index (thus also on
    the zero matrix). -/
theorem C65_is_constant (a : PMat R[X]) :
    isConstant a = true ↔ ∀ i j, i < a.rows → j < a.cols → ∀ k, 0 < k → (a.e (i, j)).coeff k = 0 := by
  unfold isConstant
  rw [allEntries_iff]
  constructor
  · intro h i j hi hj k hk
    have := h i j hi hj
    rw [decide_eq_false_iff_not] at this
    exact coeff_gt_pdeg _ _ (by omega)
  · intro h i j hi hj
    rw [decide_eq_false_iff_not]
    have := (pdeg_lt_iff (a.e (i, j)) 1).2 fun k hk => h i j hi hj k hk
    omega

/-! ### Coefficients and transpose -/

/-- C65: `GetCoeff(x, a, k)` is the matrix of the coefficients of index `k`. -/
theorem C65_get_coeff (x : PMat R) (a : PMat R[X]) (k : Nat) :
    (getCoeff x a k).rows = a.rows ∧ (getCoeff x a k).cols = a.cols ∧
    ∀ i j, i < a.rows → j < a.cols → (getCoeff x a k).e (i, j) = (a.e (i, j)).coeff k := by
  refine ⟨rfl, rfl, fun i j hi hj => ?_⟩
  show loop2 a.rows a.cols _ _ (i, j) = _
  rw [loop2_const, if_pos ⟨hi, hj⟩]

/-- C65: `SetCoeff(x, k, a)` replaces the coefficient of index `k` and no other; it fails exactly when
    the dimensions differ. -/
theorem C65_set_coeff (x : PMat R[X]) (k : Nat) (a : PMat R) :
    (setCoeff x k a = none ↔ ¬(x.rows = a.rows ∧ x.cols = a.cols)) ∧
    ∀ y, setCoeff x k a = some y → y.rows = x.rows ∧ y.cols = x.cols ∧ ∀ i j, i < x.rows → j < x.cols →
      ∀ l, (y.e (i, j)).coeff l = if l = k then a.e (i, j) else (x.e (i, j)).coeff l := by
  unfold setCoeff
  by_cases h : x.rows ≠ a.rows ∨ x.cols ≠ a.cols
  · rw [if_pos h]
    exact ⟨⟨fun _ => by omega, fun _ => rfl⟩, fun y hy => absurd hy (by simp)⟩
  · rw [if_neg h]
    refine ⟨⟨fun hc => absurd hc (by simp), fun hc => absurd hc (by omega)⟩, fun y hy => ?_⟩
    rw [Option.some.injEq] at hy
    subst hy
    refine ⟨rfl, rfl, fun i j hi hj l => ?_⟩
    show (loop2 x.rows x.cols _ x.e (i, j)).coeff l = _
    rw [loop2_spec, if_pos ⟨hi, hj⟩, erase_add_coeff]
    intro i j x y h
    simp only [h]

theorem swapT_apply (i j : Nat) (hij : i ≠ j) (x : Nat × Nat → α) (u v : Nat) :
    swapT i j x (u, v) = if (u = i ∧ v = j) ∨ (u = j ∧ v = i) then x (v, u) else x (u, v) := by
  unfold swapT
  by_cases h : u = j ∧ v = i
  · obtain ⟨rfl, rfl⟩ := h
    rw [write_self, if_pos (by omega)]
  · rw [write_ne _ _ _ _ _ _ (by omega)]
    by_cases h2 : u = i ∧ v = j
    · obtain ⟨rfl, rfl⟩ := h2
      rw [write_self, if_pos (by omega)]
    · rw [write_ne _ _ _ _ _ _ (by omega), if_neg (by omega)]

theorem transpose_inplace (n : Nat) (a : Nat × Nat → α) (u v : Nat) (hu : u < n) (hv : v < n) :
    forN n (fun i => forN (n - (i + 1)) fun j => swapT i (i + 1 + j)) a (u, v) = a (v, u) := by
  have key := forN_inv (P := fun (m : Nat) (t : Nat × Nat → α) => ∀ u v, u < n → v < n →
      t (u, v) = if u < m ∨ v < m then a (v, u) else a (u, v))
    (f := fun i => forN (n - (i + 1)) fun j => swapT i (i + 1 + j)) (s := a) (n := n)
    (fun u v _ _ => by rw [if_neg (by omega)]) (by
      intro i t hi ht
      have inner := forN_inv (P := fun (q : Nat) (s : Nat × Nat → α) => ∀ u v, u < n → v < n →
          s (u, v) = if (u = i ∧ i < v ∧ v < i + 1 + q) ∨ (v = i ∧ i < u ∧ u < i + 1 + q) then t (v, u) else t (u, v))
        (f := fun j => swapT i (i + 1 + j)) (s := t) (n := n - (i + 1))
        (fun u v _ _ => by rw [if_neg (by omega)]) (by
          intro q s hq hs u v hu hv
          rw [swapT_apply _ _ (by omega)]
          by_cases h : (u = i ∧ v = i + 1 + q) ∨ (u = i + 1 + q ∧ v = i)
          · rw [if_pos h, if_pos (by omega), hs v u hv hu, if_neg (by omega)]
          · rw [if_neg h, hs u v hu hv]
            by_cases h2 : (u = i ∧ i < v ∧ v < i + 1 + q) ∨ (v = i ∧ i < u ∧ u < i + 1 + q)
            · rw [if_pos h2, if_pos (by omega)]
            · rw [if_neg h2, if_neg (by omega)])
      intro u v hu hv
      rw [inner u v hu hv]
      by_cases h : (u = i ∧ i < v ∧ v < i + 1 + (n - (i + 1))) ∨ (v = i ∧ i < u ∧ u < i + 1 + (n - (i + 1)))
      · rw [if_pos h, ht v u hv hu, if_neg (by omega), if_pos (by omega)]
      · rw [if_neg h, ht u v hu hv]
        by_cases h2 : u < i ∨ v < i
        · rw [if_pos h2, if_pos (by omega)]
        · rw [if_neg h2]
          by_cases h3 : u < i + 1 ∨ v < i + 1
          · rw [if_pos h3]
            have : u = i ∧ v = i := by omega
            rw [this.1, this.2]
          · rw [if_neg h3])
  have := key u v hu hv
  rw [this, if_pos (Or.inl hu)]

theorem transpose_copy (n m : Nat) (a x : Nat × Nat → α) (u v : Nat) (hu : u < m) (hv : v < n) :
    forN n (fun i => forN m fun j => write (j, i) (a (i, j))) x (u, v) = a (v, u) := by
  have hF : Fills (α := α) {y : Nat × Nat | ∃ i, i < n ∧ y ∈ {y : Nat × Nat | ∃ j, j < m ∧ y ∈ ({(j, i)} : Set (Nat × Nat))}}
      (fun y => a (y.2, y.1)) (forN n fun i => forN m fun j => write (j, i) (a (i, j))) :=
    Fills.forN fun i _ => Fills.forN fun j _ => Fills.write _ _ rfl
  exact (hF x (u, v)).1 ⟨v, hv, u, hu, rfl⟩

/-- C65: `transpose(x, a)`, also in place. -/
theorem C65_transpose [Zero α] (al : Bool) (x a : PMat α) :
    (transpose al x a).rows = a.cols ∧ (transpose al x a).cols = a.rows ∧
    ∀ i j, i < a.cols → j < a.rows → (transpose al x a).e (i, j) = a.e (j, i) := by
  unfold transpose
  cases al
  · refine ⟨rfl, rfl, fun i j hi hj => transpose_copy a.rows a.cols a.e _ i j hi hj⟩
  · dsimp only
    rw [if_pos rfl]
    by_cases h : a.rows = a.cols
    · rw [if_pos h]
      refine ⟨h, h.symm, fun i j hi hj => transpose_inplace a.rows a.e i j (by omega) hj⟩
    · rw [if_neg h]
      exact ⟨rfl, rfl, fun i j hi hj => transpose_copy a.rows a.cols a.e _ i j hi hj⟩

/-! ### Truncation, shifts, reversal -/

/-- C65: `trunc(x, a, n)` keeps the coefficients of index less than `n`. -/
theorem C65_trunc (al : Bool) (x a : PMat R[X]) (n : Nat) :
    (trunc al x a n).rows = a.rows ∧ (trunc al x a n).cols = a.cols ∧ ∀ i j, i < a.rows → j < a.cols → ∀ k,
      ((trunc al x a n).e (i, j)).coeff k = if k < n then (a.e (i, j)).coeff k else 0 := by
  obtain ⟨h1, h2, h3⟩ := entrywise_spec al x a fun _ _ f => ptrunc f n
  exact ⟨h1, h2, fun i j hi hj k => by rw [trunc, h3 i j hi hj, ptrunc_coeff]⟩

/-- C65: shifts multiply by `X^n`, or drop the low coefficients for `n < 0`; `RightShift` is the shift by
    `-n`. -/
theorem C65_shift (al : Bool) (x a : PMat R[X]) (n : Int) :
    ((leftShift al x a n).rows = a.rows ∧ (leftShift al x a n).cols = a.cols ∧ ∀ i j, i < a.rows → j < a.cols → ∀ k,
      ((leftShift al x a n).e (i, j)).coeff k = if n ≤ k then (a.e (i, j)).coeff ((k : Int) - n).toNat else 0) ∧
    ((rightShift al x a n).rows = a.rows ∧ (rightShift al x a n).cols = a.cols ∧ ∀ i j, i < a.rows → j < a.cols → ∀ k,
      ((rightShift al x a n).e (i, j)).coeff k = if -n ≤ k then (a.e (i, j)).coeff ((k : Int) + n).toNat else 0) := by
  obtain ⟨h1, h2, h3⟩ := entrywise_spec al x a fun _ _ f => pshift f n
  obtain ⟨h4, h5, h6⟩ := entrywise_spec al x a fun _ _ f => pshift f (-n)
  refine ⟨⟨h1, h2, fun i j hi hj k => by rw [leftShift, h3 i j hi hj, pshift_coeff]⟩,
    h4, h5, fun i j hi hj k => ?_⟩
  rw [rightShift, h6 i j hi hj, pshift_coeff]
  simp only [sub_neg_eq_add]

/-- C65: reversals, with respect to one bound, a bound per column or a bound per row. -/
theorem C65_reverse (al : Bool) (x a : PMat R[X]) (hi : Int) (his : Nat → Int) :
    ((reverse al x a hi).rows = a.rows ∧ (reverse al x a hi).cols = a.cols ∧ ∀ i j, i < a.rows → j < a.cols → ∀ k,
      ((reverse al x a hi).e (i, j)).coeff k = if (k : Int) ≤ hi then (a.e (i, j)).coeff (hi - k).toNat else 0) ∧
    ((colReverse al x a his).rows = a.rows ∧ (colReverse al x a his).cols = a.cols ∧ ∀ i j, i < a.rows → j < a.cols → ∀ k,
      ((colReverse al x a his).e (i, j)).coeff k = if (k : Int) ≤ his j then (a.e (i, j)).coeff (his j - k).toNat else 0) ∧
    ((rowReverse al x a his).rows = a.rows ∧ (rowReverse al x a his).cols = a.cols ∧ ∀ i j, i < a.rows → j < a.cols → ∀ k,
      ((rowReverse al x a his).e (i, j)).coeff k = if (k : Int) ≤ his i then (a.e (i, j)).coeff (his i - k).toNat else 0) := by
  obtain ⟨h1, h2, h3⟩ := entrywise_spec al x a fun _ _ f => preverse f hi
  obtain ⟨h4, h5, h6⟩ := entrywise_spec al x a fun _ s f => preverse f (his s)
  obtain ⟨h7, h8, h9⟩ := entrywise_spec al x a fun r _ f => preverse f (his r)
  exact ⟨⟨h1, h2, fun i j hi hj k => by rw [reverse, h3 i j hi hj, preverse_coeff]⟩,
    ⟨h4, h5, fun i j hi hj k => by rw [colReverse, h6 i j hi hj, preverse_coeff]⟩,
    h7, h8, fun i j hi hj k => by rw [rowReverse, h9 i j hi hj, preverse_coeff]⟩

theorem truncRow_entry (al : Bool) (x a : PMat R[X]) (r n : Nat) (i j : Nat) (hj : j < a.cols) :
    (truncRow al x a r n).e (i, j) = if i = r then ptrunc (a.e (i, j)) n else
      if al then a.e (i, j) else (x.setDims a.rows a.cols).e (i, j) := by
  cases al
  · show forN a.cols (fun c cur => write (r, c) (ptrunc (a.e (r, c)) n) cur) (x.setDims a.rows a.cols).e (i, j) = _
    have := loop1_spec a.cols r 0 (fun c _ => ptrunc (a.e (r, c)) n) (fun _ _ _ _ => rfl) (x.setDims a.rows a.cols).e i j
    simp only [Nat.zero_add, Nat.zero_le, true_and, Nat.sub_zero] at this
    rw [this]
    by_cases h : i = r
    · rw [if_pos ⟨h, hj⟩, if_pos h, h]
    · rw [if_neg (by omega), if_neg h]
      rfl
  · show forN a.cols (fun c cur => write (r, c) (ptrunc (cur (r, c)) n) cur) a.e (i, j) = _
    have := loop1_spec a.cols r 0 (fun c cur => ptrunc (cur (r, c)) n)
      (fun j x y h => by rw [Nat.zero_add] at h; simp only [h]) a.e i j
    simp only [Nat.zero_add, Nat.zero_le, true_and, Nat.sub_zero] at this
    rw [this]
    by_cases h : i = r
    · rw [if_pos ⟨h, hj⟩, if_pos h, h]
    · rw [if_neg (by omega), if_neg h]
      rfl

/-- C65, partial: `truncRow` in place.  Missing: a separate output, for which the other rows are not
    those of the input (`C65_trunc_row_wrong`). -/
theorem C65_trunc_row_partial (x a : PMat R[X]) (r n : Nat) :
    (truncRow true x a r n).rows = a.rows ∧ (truncRow true x a r n).cols = a.cols ∧ ∀ i j, i < a.rows → j < a.cols →
      ∀ k, ((truncRow true x a r n).e (i, j)).coeff k = if i = r ∧ n ≤ k then 0 else (a.e (i, j)).coeff k := by
  refine ⟨rfl, rfl, fun i j hi hj k => ?_⟩
  rw [truncRow_entry true x a r n i j hj]
  by_cases h : i = r
  · rw [if_pos h, ptrunc_coeff]
    by_cases hk : k < n
    · rw [if_pos hk, if_neg (by omega)]
    · rw [if_neg hk, if_pos (by omega)]
  · rw [if_neg h, if_neg (show ¬(i = r ∧ n ≤ k) by omega), if_pos rfl]

/-- C65, negation: with an output of other dimensions (in particular in the version that returns the
    result), `truncRow` gives zero in all the other rows instead of the rows of the input. -/
theorem C65_trunc_row_wrong (x a : PMat R[X]) (r n : Nat) (hx : x.cols ≠ a.cols) (i j : Nat) (hj : j < a.cols)
    (hir : i ≠ r) : (truncRow false x a r n).e (i, j) = 0 := by
  rw [truncRow_entry false x a r n i j hj, if_neg hir]
  show (x.setDims a.rows a.cols).e (i, j) = 0
  unfold PMat.setDims
  rw [if_neg hx]

theorem col_writes (m c : Nat) (g : Nat → (Nat × Nat → α) → α)
    (hg : ∀ i x y, x (i, c) = y (i, c) → g i x = g i y) (x : Nat × Nat → α) :
    ∀ u v, forN m (fun i cur => write (i, c) (g i cur) cur) x (u, v) = if v = c ∧ u < m then g u x else x (u, v) := by
  refine forN_inv (P := fun (m : Nat) (t : Nat × Nat → α) => ∀ u v, t (u, v) = if v = c ∧ u < m then g u x else x (u, v))
    (fun u v => by rw [if_neg (by omega)]) ?_
  intro i t _ ht u v
  by_cases h : u = i ∧ v = c
  · obtain ⟨rfl, rfl⟩ := h
    rw [write_self, if_pos (by omega)]
    apply hg
    rw [ht, if_neg (by omega)]
  · rw [write_ne _ _ _ _ _ _ (by omega), ht]
    by_cases h2 : v = c ∧ u < i
    · rw [if_pos h2, if_pos (by omega)]
    · rw [if_neg h2, if_neg (by omega)]

theorem truncCol_entry (al : Bool) (x a : PMat R[X]) (c n : Nat) (i j : Nat) (hi : i < a.rows) :
    (truncCol al x a c n).e (i, j) = if j = c then ptrunc (a.e (i, j)) n else
      if al then a.e (i, j) else (x.setDims a.rows a.cols).e (i, j) := by
  cases al
  · show forN a.rows (fun r cur => write (r, c) (ptrunc (a.e (r, c)) n) cur) (x.setDims a.rows a.cols).e (i, j) = _
    rw [col_writes a.rows c (fun r _ => ptrunc (a.e (r, c)) n) (fun _ _ _ _ => rfl)]
    by_cases h : j = c
    · rw [if_pos ⟨h, hi⟩, if_pos h, h]
    · rw [if_neg (by omega), if_neg h]
      rfl
  · show forN a.rows (fun r cur => write (r, c) (ptrunc (cur (r, c)) n) cur) a.e (i, j) = _
    rw [col_writes a.rows c (fun r cur => ptrunc (cur (r, c)) n) (fun i x y h => by simp only [h])]
    by_cases h : j = c
    · rw [if_pos ⟨h, hi⟩, if_pos h, h]
    · rw [if_neg (by omega), if_neg h]
      rfl

/-- C65, partial: `truncCol` in place.  Missing: a separate output (`C65_trunc_col_wrong`). -/
theorem C65_trunc_col_partial (x a : PMat R[X]) (c n : Nat) :
    (truncCol true x a c n).rows = a.rows ∧ (truncCol true x a c n).cols = a.cols ∧ ∀ i j, i < a.rows → j < a.cols →
      ∀ k, ((truncCol true x a c n).e (i, j)).coeff k = if j = c ∧ n ≤ k then 0 else (a.e (i, j)).coeff k := by
  refine ⟨rfl, rfl, fun i j hi hj k => ?_⟩
  rw [truncCol_entry true x a c n i j hi]
  by_cases h : j = c
  · rw [if_pos h, ptrunc_coeff]
    by_cases hk : k < n
    · rw [if_pos hk, if_neg (by omega)]
    · rw [if_neg hk, if_pos (by omega)]
  · rw [if_neg h, if_neg (show ¬(j = c ∧ n ≤ k) by omega), if_pos rfl]

/-- C65, negation: with a fresh output, `truncCol` gives zero in all the other columns. -/
theorem C65_trunc_col_wrong (x a : PMat R[X]) (c n : Nat) (hx : x.cols ≠ a.cols) (i j : Nat) (hi : i < a.rows)
    (hjc : j ≠ c) : (truncCol false x a c n).e (i, j) = 0 := by
  rw [truncCol_entry false x a c n i j hi, if_neg hjc]
  show (x.setDims a.rows a.cols).e (i, j) = 0
  unfold PMat.setDims
  rw [if_neg hx]

theorem copyRows (m n off : Nat) (a x : Nat × Nat → α) : ∀ u v,
    forN m (fun i => forN n fun j => write (off + i, j) (a (off + i, j))) x (u, v) =
      if off ≤ u ∧ u < off + m ∧ v < n then a (u, v) else x (u, v) := by
  refine forN_inv (P := fun (m : Nat) (t : Nat × Nat → α) => ∀ u v,
    t (u, v) = if off ≤ u ∧ u < off + m ∧ v < n then a (u, v) else x (u, v)) (fun u v => by rw [if_neg (by omega)]) ?_
  intro i t _ ht u v
  have := loop1_spec n (off + i) 0 (fun j _ => a (off + i, j)) (fun _ _ _ _ => rfl) t u v
  simp only [Nat.zero_add, Nat.zero_le, true_and, Nat.sub_zero] at this
  rw [this]
  by_cases h : u = off + i ∧ v < n
  · rw [if_pos h, if_pos (by omega), h.1]
  · rw [if_neg h, ht]
    by_cases h2 : off ≤ u ∧ u < off + i ∧ v < n
    · rw [if_pos h2, if_pos (by omega)]
    · rw [if_neg h2, if_neg (by omega)]

/-- C65: `LeftShiftRow` and (with `-n`) `RightShiftRow`: row `r` is shifted, the others are copied. -/
theorem C65_shift_row (al : Bool) (x a : PMat R[X]) (r : Nat) (n : Int) (hr : r < a.rows) :
    ∃ y, shiftRow al x a r n = some y ∧ y.rows = a.rows ∧ y.cols = a.cols ∧ ∀ i j, i < a.rows → j < a.cols → ∀ k,
      (y.e (i, j)).coeff k = if i = r then (if n ≤ k then (a.e (i, j)).coeff ((k : Int) - n).toNat else 0)
        else (a.e (i, j)).coeff k := by
  unfold shiftRow
  cases al
  · rw [if_neg (by simp), if_neg (by omega)]
    refine ⟨_, rfl, rfl, rfl, fun i j hi hj k => ?_⟩
    dsimp only
    rw [copyRows]
    by_cases h : r + 1 ≤ i ∧ i < r + 1 + ((x.setDims a.rows a.cols).rows - (r + 1)) ∧ j < a.cols
    · rw [if_pos h, if_neg (by omega)]
    · rw [if_neg h]
      have h' : i ≤ r := by
        have : (x.setDims a.rows a.cols).rows = a.rows := rfl
        omega
      have key := loop1_spec a.cols r 0 (fun j _ => pshift (a.e (r, j)) n) (fun _ _ _ _ => rfl)
        (forN r (fun i => forN a.cols fun j => write (i, j) (a.e (i, j))) (x.setDims a.rows a.cols).e) i j
      simp only [Nat.zero_add, Nat.zero_le, true_and, Nat.sub_zero] at key
      show (forN a.cols (fun j => write (r, j) (pshift (a.e (r, j)) n)) _ (i, j)).coeff k = _
      rw [key]
      by_cases h2 : i = r
      · rw [if_pos ⟨h2, hj⟩, if_pos h2, pshift_coeff, h2]
      · rw [if_neg (by omega), if_neg h2]
        have := copyRows r a.cols 0 a.e (x.setDims a.rows a.cols).e i j
        simp only [Nat.zero_add, Nat.zero_le, true_and] at this
        rw [this, if_pos (by omega)]
  · rw [if_pos rfl, if_neg (by omega)]
    refine ⟨_, rfl, rfl, rfl, fun i j hi hj k => ?_⟩
    dsimp only
    have key := loop1_spec a.cols r 0 (fun j cur => pshift (cur (r, j)) n)
      (fun j x y h => by rw [Nat.zero_add] at h; simp only [h]) a.e i j
    simp only [Nat.zero_add, Nat.zero_le, true_and, Nat.sub_zero] at key
    rw [key]
    by_cases h2 : i = r
    · rw [if_pos ⟨h2, hj⟩, if_pos h2, pshift_coeff, h2]
    · rw [if_neg (by omega), if_neg h2]

/-- C65: `LeftShiftCol` and (with `-n`) `RightShiftCol`: column `c` is shifted, the others are copied. -/
theorem C65_shift_col (al : Bool) (x a : PMat R[X]) (c : Nat) (n : Int) (hc : c < a.cols) :
    ∃ y, shiftCol al x a c n = some y ∧ y.rows = a.rows ∧ y.cols = a.cols ∧ ∀ i j, i < a.rows → j < a.cols → ∀ k,
      (y.e (i, j)).coeff k = if j = c then (if n ≤ k then (a.e (i, j)).coeff ((k : Int) - n).toNat else 0)
        else (a.e (i, j)).coeff k := by
  unfold shiftCol
  rw [if_neg (by omega)]
  cases al
  · rw [if_neg (by simp)]
    refine ⟨_, rfl, rfl, rfl, ?_⟩
    have key := forN_inv (P := fun (m : Nat) (t : Nat × Nat → R[X]) => ∀ u v, u < m → v < a.cols →
        t (u, v) = if v = c then pshift (a.e (u, v)) n else a.e (u, v))
      (f := fun i cur =>
        let cur := forN c (fun j => write (i, j) (a.e (i, j))) cur
        let cur := write (i, c) (pshift (a.e (i, c)) n) cur
        forN ((x.setDims a.rows a.cols).cols - (c + 1)) (fun j => write (i, c + 1 + j) (a.e (i, c + 1 + j))) cur)
      (s := (x.setDims a.rows a.cols).e) (n := a.rows) (fun u v h => absurd h (by omega)) (by
        intro i t hi ht u v hu hv
        dsimp only
        have hcols : (x.setDims a.rows a.cols).cols = a.cols := rfl
        rw [loop1_spec (g := fun j _ => a.e (i, c + 1 + j)) (hg := fun _ _ _ _ => rfl)]
        have k2 := loop1_spec c i 0 (fun j _ => a.e (i, j)) (fun _ _ _ _ => rfl) t u v
        simp only [Nat.zero_add, Nat.zero_le, true_and, Nat.sub_zero] at k2
        by_cases h : u = i
        · subst h
          by_cases h1 : c < v
          · rw [if_pos (by omega), if_neg (by omega)]
            congr 2; omega
          · rw [if_neg (by omega)]
            by_cases h2 : v = c
            · rw [h2, write_self, if_pos rfl]
            · rw [write_ne _ _ _ _ _ _ (by omega), if_neg h2]
              rw [k2, if_pos (by omega)]
        · rw [if_neg (by omega), write_ne _ _ _ _ _ _ (by omega)]
          rw [k2, if_neg (by omega)]
          exact ht u v (by omega) hv)
    intro i j hi hj k
    have := key i j hi hj
    refine (congrArg (fun f : R[X] => f.coeff k) this).trans ?_
    by_cases h : j = c
    · rw [if_pos h, if_pos h, pshift_coeff]
    · rw [if_neg h, if_neg h]
  · rw [if_pos rfl]
    refine ⟨_, rfl, rfl, rfl, fun i j hi hj k => ?_⟩
    dsimp only
    rw [col_writes a.rows c (fun r cur => pshift (cur (r, c)) n) (fun i x y h => by simp only [h])]
    by_cases h : j = c
    · rw [if_pos ⟨h, hi⟩, if_pos h, pshift_coeff, h]
    · rw [if_neg (by omega), if_neg h]

/-! ### Evaluation and conversions -/

/-- C65: `eval` evaluates every entry. -/
theorem C65_eval (x : PMat R) (a : PMat R[X]) (pt : R) : (eval x a pt).rows = a.rows ∧ (eval x a pt).cols = a.cols ∧
    ∀ i j, i < a.rows → j < a.cols → (eval x a pt).e (i, j) = (a.e (i, j)).eval pt := by
  refine ⟨rfl, rfl, fun i j hi hj => ?_⟩
  show loop2 a.rows a.cols _ _ (i, j) = _
  rw [loop2_const, if_pos ⟨hi, hj⟩]

/-- C65: evaluation of a polynomial with matrix coefficients. -/
theorem C65_eval_coeffs (len m n : Nat) (matp : Nat → PMat R) (pt : R) (hdim : ∀ k, k < len → (matp k).rows = m ∧ (matp k).cols = n)
    (hlen : len ≠ 0) :
    (evalCoeffs len matp pt).rows = m ∧ (evalCoeffs len matp pt).cols = n ∧
    ∀ i j, (evalCoeffs len matp pt).e (i, j) = ∑ k ∈ Finset.range len, (matp k).e (i, j) * pt ^ k := by
  unfold evalCoeffs
  rw [if_neg hlen]
  have key := forN_inv (P := fun (q : Nat) (t : PMat R) => t.rows = m ∧ t.cols = n ∧ ∀ i j, t.e (i, j) =
      ∑ k ∈ Finset.range (q + 1), (matp (len - 1 - q + k)).e (i, j) * pt ^ k)
    (f := fun k ev => hornerStep pt (matp (len - 2 - k)) ev) (s := matp (len - 1)) (n := len - 1)
    ⟨(hdim _ (by omega)).1, (hdim _ (by omega)).2, fun i j => by
      rw [Finset.sum_range_one, Nat.add_zero, Nat.sub_zero, pow_zero, mul_one]⟩ (by
      rintro q t hq ⟨h1, h2, h3⟩
      refine ⟨h1, h2, fun i j => ?_⟩
      show t.e (i, j) * pt + (matp (len - 2 - q)).e (i, j) = _
      rw [h3, Finset.sum_range_succ' (n := q + 1), Finset.sum_mul]
      congr 1
      · apply Finset.sum_congr rfl
        intro k _
        have : len - 1 - (q + 1) + (k + 1) = len - 1 - q + k := by omega
        rw [this, pow_succ, mul_assoc]
      · have : len - 1 - (q + 1) + 0 = len - 2 - q := by omega
        rw [this, pow_zero, mul_one])
  obtain ⟨h1, h2, h3⟩ := key
  refine ⟨h1, h2, fun i j => ?_⟩
  rw [h3]
  have e1 : len - 1 + 1 = len := by omega
  rw [e1, Nat.sub_self]
  simp only [Nat.zero_add]

/-- C65: conversion of a constant matrix. -/
theorem C65_conv_const (x : PMat R[X]) (a : PMat R) : (convConst x a).rows = a.rows ∧ (convConst x a).cols = a.cols ∧
    ∀ i j, i < a.rows → j < a.cols → (convConst x a).e (i, j) = C (a.e (i, j)) := by
  refine ⟨rfl, rfl, fun i j hi hj => ?_⟩
  show loop2 a.rows a.cols _ _ (i, j) = _
  rw [loop2_const, if_pos ⟨hi, hj⟩]

theorem convToCoeffs_entry (a : PMat R[X]) (k i j : Nat) (hk : k < (convToCoeffs a).1) (hi : i < a.rows) (hj : j < a.cols) :
    (convToCoeffs a).2 (k, (i, j)) = rawCoeff (a.e (i, j)) k := by
  have hF : Fills (α := Option R) _ (fun y : Nat × (Nat × Nat) => rawCoeff (a.e y.2) y.1)
      (forStep cacheSize (deg a + 1).toNat (fun k =>
    let kb := min cacheSize ((deg a + 1).toNat - k)
    forN a.rows fun i => forN a.cols fun j => forN kb fun kk => write (k + kk, (i, j)) (rawCoeff (a.e (i, j)) (k + kk)))) :=
    Fills.forStep (by decide) fun k _ => Fills.forN fun i _ => Fills.forN fun j _ => Fills.forN fun kk _ => Fills.write _ _ rfl
  refine (hF _ (k, (i, j))).1 ?_
  obtain ⟨q, kk, h1, h2, h3⟩ := block_cover (b := cacheSize) (by decide) hk
  exact ⟨q, h1, i, hi, j, hj, kk, h2, by rw [h3]; rfl⟩

/-- C65, partial: conversion to a polynomial with matrix coefficients of a matrix whose entries all have
    the same degree.  Missing: other matrices (`C65_conv_out_of_bounds`). -/
theorem C65_conv_to_coeffs_partial (a : PMat R[X])
    (h : ∀ i j, i < a.rows → j < a.cols → pdeg (a.e (i, j)) = deg a) :
    ((convToCoeffs a).1 : Int) = deg a + 1 ∧ ∀ k i j, k < (convToCoeffs a).1 → i < a.rows → j < a.cols →
      (convToCoeffs a).2 (k, (i, j)) = some ((a.e (i, j)).coeff k) := by
  have h0 : ((convToCoeffs a).1 : Int) = deg a + 1 := by
    show (((deg a + 1).toNat : Nat) : Int) = _
    have := (deg_spec a).1
    omega
  refine ⟨h0, fun k i j hk hi hj => ?_⟩
  rw [convToCoeffs_entry a k i j hk hi hj]
  unfold rawCoeff
  rw [if_pos]
  rw [h i j hi hj]
  omega

/-- C65, negation: an entry of smaller degree than the matrix is read out of bounds. -/
theorem C65_conv_out_of_bounds (a : PMat R[X]) (i j : Nat) (hi : i < a.rows) (hj : j < a.cols)
    (h : pdeg (a.e (i, j)) < deg a) : (convToCoeffs a).2 ((deg a).toNat, (i, j)) = none := by
  have := pdeg_ge (a.e (i, j))
  rw [convToCoeffs_entry a _ i j (show (deg a).toNat < (deg a + 1).toNat by omega) hi hj]
  unfold rawCoeff
  rw [if_neg (by omega)]

/-- C65: conversion from a polynomial with matrix coefficients. -/
theorem C65_conv_from_coeffs (x : PMat R[X]) (len m n : Nat) (matp : Nat → Nat × Nat → R) :
    (len = 0 → (convFromCoeffs x len m n matp).rows = x.rows ∧ (convFromCoeffs x len m n matp).cols = x.cols ∧
      ∀ i j, i < x.rows → j < x.cols → (convFromCoeffs x len m n matp).e (i, j) = 0) ∧
    (len ≠ 0 → (convFromCoeffs x len m n matp).rows = m ∧ (convFromCoeffs x len m n matp).cols = n ∧
      ∀ i j, i < m → j < n → ∀ k, ((convFromCoeffs x len m n matp).e (i, j)).coeff k =
        if k < len then matp k (i, j) else 0) := by
  unfold convFromCoeffs
  constructor
  · intro h
    rw [if_pos h]
    exact C65_clear x
  · intro h
    rw [if_neg h]
    by_cases h1 : len = 1
    · rw [if_pos h1]
      obtain ⟨k1, k2, k3⟩ := C65_conv_const x ⟨m, n, matp 0⟩
      refine ⟨k1, k2, fun i j hi hj k => ?_⟩
      rw [k3 i j hi hj, coeff_C, h1]
      by_cases hk : k = 0
      · rw [if_pos hk, if_pos (by omega), hk]
      · rw [if_neg hk, if_neg (by omega)]
    · rw [if_neg h1]
      refine ⟨rfl, rfl, fun i j hi hj k => ?_⟩
      dsimp only
      rw [loop2_const, if_pos ⟨hi, hj⟩, ofCoeffs_coeff]
      by_cases hk : k < len
      · rw [if_pos hk, if_pos hk]
        have hF : Fills (α := R) _ (fun y : (Nat × Nat) × Nat => matp y.2 y.1)
            (forN m (fun i => forStep cacheSize n fun j =>
              let jb := min cacheSize (n - j)
              forStep blockSize len fun k =>
                let kb := min blockSize (len - k)
                forN jb fun jj => forN kb fun kk => write ((i, j + jj), k + kk) (matp (k + kk) (i, j + jj)))) :=
          Fills.forN fun i _ => Fills.forStep (by decide) fun j _ => Fills.forStep (by decide) fun k _ =>
            Fills.forN fun jj _ => Fills.forN fun kk _ => Fills.write _ _ rfl
        refine (hF _ ((i, j), k)).1 ?_
        obtain ⟨q, jj, a1, a2, a3⟩ := block_cover (b := cacheSize) (by decide) hj
        obtain ⟨s, kk, b1, b2, b3⟩ := block_cover (b := blockSize) (by decide) hk
        exact ⟨i, hi, q, a1, s, b1, jj, a2, kk, b2, by rw [a3, b3]; rfl⟩
      · rw [if_neg hk, if_neg hk]

/-- C65: conversions with a truncation order. -/
theorem C65_conv_order (a x : PMat R[X]) (order len m n : Nat) (matp : Nat → Nat × Nat → R) :
    ((convToCoeffsOrder a order).1 = order ∧ ∀ k i j, k < order → i < a.rows → j < a.cols →
      (convToCoeffsOrder a order).2 (k, (i, j)) = (a.e (i, j)).coeff k) ∧
    (min order len ≠ 0 → (convFromCoeffsOrder x len m n matp order).rows = m ∧
      (convFromCoeffsOrder x len m n matp order).cols = n ∧ ∀ i j, i < m → j < n → ∀ k,
        ((convFromCoeffsOrder x len m n matp order).e (i, j)).coeff k = if k < order ∧ k < len then matp k (i, j) else 0) ∧
    (min order len = 0 → (convFromCoeffsOrder x len m n matp order).rows = x.rows ∧
      (convFromCoeffsOrder x len m n matp order).cols = x.cols ∧
      ∀ i j, i < x.rows → j < x.cols → (convFromCoeffsOrder x len m n matp order).e (i, j) = 0) := by
  refine ⟨⟨rfl, fun k i j hk hi hj => ?_⟩, fun h => ?_, fun h => ?_⟩
  · have hF : Fills (α := R) _ (fun y : Nat × (Nat × Nat) => (a.e y.2).coeff y.1)
        (forN order (fun k => forN a.rows fun i => forN a.cols fun j => write (k, (i, j)) ((a.e (i, j)).coeff k))) :=
      Fills.forN fun k _ => Fills.forN fun i _ => Fills.forN fun j _ => Fills.write _ _ rfl
    exact (hF _ (k, (i, j))).1 ⟨k, hk, i, hi, j, hj, rfl⟩
  · unfold convFromCoeffsOrder
    dsimp only
    rw [if_neg h]
    refine ⟨rfl, rfl, fun i j hi hj k => ?_⟩
    dsimp only
    rw [loop2_const, if_pos ⟨hi, hj⟩, ofCoeffs_coeff]
    by_cases hk : k < order ∧ k < len
    · rw [if_pos hk, if_pos (by omega)]
    · rw [if_neg hk, if_neg (by omega)]
  · unfold convFromCoeffsOrder
    dsimp only
    rw [if_pos h]
    exact C65_clear x

/-! ### Arithmetic -/

theorem zipWith_spec [Zero α] (op : α → α → α) (alA alB : Bool) (c a b : PMat α) (hal : ¬(alA = true ∧ alB = true ∧ a ≠ b)) :
    (zipWith op alA alB c a b = none ↔ ¬(a.rows = b.rows ∧ a.cols = b.cols)) ∧
    ∀ y, zipWith op alA alB c a b = some y → y.rows = a.rows ∧ y.cols = a.cols ∧
      ∀ i j, i < a.rows → j < a.cols → y.e (i, j) = op (a.e (i, j)) (b.e (i, j)) := by
  unfold zipWith
  dsimp only
  by_cases h : a.rows ≠ b.rows ∨ a.cols ≠ b.cols
  · rw [if_pos h]
    exact ⟨⟨fun _ => by omega, fun _ => rfl⟩, fun y hy => absurd hy (by simp)⟩
  · rw [if_neg h]
    refine ⟨⟨fun hc => absurd hc (by simp), fun hc => absurd hc (by omega)⟩, fun y hy => ?_⟩
    rw [Option.some.injEq] at hy
    subst hy
    have hl : ∀ (x : Nat × Nat → α) i j, i < a.rows → j < a.cols →
        loop2 a.rows a.cols (fun i j cur => op (rd alA cur a.e i j) (rd alB cur b.e i j)) x (i, j) =
          op (rd alA x a.e i j) (rd alB x b.e i j) := by
      intro x i j hi hj
      rw [loop2_spec, if_pos ⟨hi, hj⟩]
      intro i j x y h
      unfold rd
      rw [h]
    cases alA <;> cases alB
    · exact ⟨rfl, rfl, fun i j hi hj => hl _ i j hi hj⟩
    · refine ⟨?_, ?_, fun i j hi hj => hl _ i j hi hj⟩
      · show b.rows = a.rows; omega
      · show b.cols = a.cols; omega
    · exact ⟨rfl, rfl, fun i j hi hj => hl _ i j hi hj⟩
    · have hab : a = b := by by_contra hc; exact hal ⟨rfl, rfl, hc⟩
      subst hab
      exact ⟨rfl, rfl, fun i j hi hj => hl _ i j hi hj⟩

/-- C66: sum and difference of matrices; the output may be either input (`alA`, `alB`), and if it is
    both, they are the same matrix. -/
theorem C66_add_sub (alA alB : Bool) (c a b : PMat R[X]) (hal : ¬(alA = true ∧ alB = true ∧ a ≠ b)) :
    (zipWith (· + ·) alA alB c a b = none ↔ ¬(a.rows = b.rows ∧ a.cols = b.cols)) ∧
    (zipWith (· - ·) alA alB c a b = none ↔ ¬(a.rows = b.rows ∧ a.cols = b.cols)) ∧
    (∀ y, zipWith (· + ·) alA alB c a b = some y → y.rows = a.rows ∧ y.cols = a.cols ∧
      ∀ i j, i < a.rows → j < a.cols → y.e (i, j) = a.e (i, j) + b.e (i, j)) ∧
    (∀ y, zipWith (· - ·) alA alB c a b = some y → y.rows = a.rows ∧ y.cols = a.cols ∧
      ∀ i j, i < a.rows → j < a.cols → y.e (i, j) = a.e (i, j) - b.e (i, j)) := by
  obtain ⟨h1, h2⟩ := zipWith_spec (· + ·) alA alB c a b hal
  obtain ⟨h3, h4⟩ := zipWith_spec (· - ·) alA alB c a b hal
  exact ⟨h1, h3, h2, h4⟩

theorem zipConstRight_spec (op : R[X] → R[X] → R[X]) (al : Bool) (c a : PMat R[X]) (b : PMat R) (hd : a.rows = b.rows ∧ a.cols = b.cols) :
    ∃ y, zipConstRight op al c a b = some y ∧ y.rows = a.rows ∧ y.cols = a.cols ∧
      ∀ i j, i < a.rows → j < a.cols → y.e (i, j) = op (a.e (i, j)) (C (b.e (i, j))) := by
  unfold zipConstRight
  dsimp only
  rw [if_neg (by omega)]
  have hl : ∀ (x : Nat × Nat → R[X]) i j, i < a.rows → j < a.cols →
      loop2 a.rows a.cols (fun i j cur => op (rd al cur a.e i j) (C (b.e (i, j)))) x (i, j) =
        op (rd al x a.e i j) (C (b.e (i, j))) := by
    intro x i j hi hj
    rw [loop2_spec, if_pos ⟨hi, hj⟩]
    intro i j x y h
    unfold rd
    rw [h]
  cases al
  · exact ⟨_, rfl, rfl, rfl, fun i j hi hj => hl _ i j hi hj⟩
  · exact ⟨_, rfl, rfl, rfl, fun i j hi hj => hl _ i j hi hj⟩

/-- C66: sums and differences with a constant matrix. -/
theorem C66_add_sub_const (al : Bool) (c a : PMat R[X]) (b : PMat R) (hd : a.rows = b.rows ∧ a.cols = b.cols) :
    (∃ y, zipConstRight (· + ·) al c a b = some y ∧ y.rows = a.rows ∧ y.cols = a.cols ∧
      ∀ i j, i < a.rows → j < a.cols → y.e (i, j) = a.e (i, j) + C (b.e (i, j))) ∧
    (∃ y, zipConstRight (· - ·) al c a b = some y ∧ y.rows = a.rows ∧ y.cols = a.cols ∧
      ∀ i j, i < a.rows → j < a.cols → y.e (i, j) = a.e (i, j) - C (b.e (i, j))) ∧
    (∃ y, subConstLeft al c b a = some y ∧ y.rows = a.rows ∧ y.cols = a.cols ∧
      ∀ i j, i < a.rows → j < a.cols → y.e (i, j) = C (b.e (i, j)) - a.e (i, j)) := by
  refine ⟨zipConstRight_spec _ al c a b hd, zipConstRight_spec _ al c a b hd, ?_⟩
  unfold subConstLeft
  dsimp only
  rw [if_neg (by omega)]
  have hl : ∀ (x : Nat × Nat → R[X]) i j, i < b.rows → j < b.cols →
      loop2 b.rows b.cols (fun i j cur => C (b.e (i, j)) - rd al cur a.e i j) x (i, j) =
        C (b.e (i, j)) - rd al x a.e i j := by
    intro x i j hi hj
    rw [loop2_spec, if_pos ⟨hi, hj⟩]
    intro i j x y h
    unfold rd
    rw [h]
  cases al
  · exact ⟨_, rfl, hd.1.symm, hd.2.symm, fun i j hi hj => hl _ i j (by omega) (by omega)⟩
  · exact ⟨_, rfl, rfl, rfl, fun i j hi hj => hl _ i j (by omega) (by omega)⟩

/-- C66: negation and multiplication by a scalar. -/
theorem C66_negate_scale (al : Bool) (x a : PMat R[X]) (b : R) :
    ((negate al x a).rows = a.rows ∧ (negate al x a).cols = a.cols ∧
      ∀ i j, i < a.rows → j < a.cols → (negate al x a).e (i, j) = -a.e (i, j)) ∧
    ((mulScalar al x a b).rows = a.rows ∧ (mulScalar al x a b).cols = a.cols ∧
      ∀ i j, i < a.rows → j < a.cols → (mulScalar al x a b).e (i, j) = a.e (i, j) * C b) :=
  ⟨entrywise_spec al x a fun _ _ f => -f, entrywise_spec al x a fun _ _ f => f * C b⟩

theorem mulConst_loop (m p d : Nat) (g : Nat → Nat × Nat → R) :
    ∀ u v, u < m → v < p → ∀ l, (forN d (fun i c =>
      loop2 m p (fun u v cur => (cur (u, v)).erase i + C (g i (u, v)) * X ^ i) c) (fun _ => (0 : R[X])) (u, v)).coeff l =
        if l < d then g l (u, v) else 0 := by
  refine forN_inv (P := fun (d : Nat) (t : Nat × Nat → R[X]) => ∀ u v, u < m → v < p → ∀ l,
    (t (u, v)).coeff l = if l < d then g l (u, v) else 0) (fun u v _ _ l => by rw [if_neg (by omega), coeff_zero]) ?_
  intro i t _ ht u v hu hv l
  rw [loop2_spec, if_pos ⟨hu, hv⟩, erase_add_coeff]
  · by_cases h : l = i
    · rw [if_pos h, if_pos (by omega), h]
    · rw [if_neg h, ht u v hu hv]
      by_cases h2 : l < i
      · rw [if_pos h2, if_pos (by omega)]
      · rw [if_neg h2, if_neg (by omega)]
  · intro i j x y h
    simp only [h]

/-- C66: product by a constant matrix on the right. -/
theorem C66_mul_const_right (a : PMat R[X]) (b : PMat R) :
    (mulConstRight a b = none ↔ a.cols ≠ b.rows) ∧
    ∀ y, mulConstRight a b = some y → y.rows = a.rows ∧ y.cols = b.cols ∧ ∀ i j, i < a.rows → j < b.cols →
      y.e (i, j) = ∑ k ∈ Finset.range a.cols, a.e (i, k) * C (b.e (k, j)) := by
  unfold mulConstRight
  dsimp only
  by_cases h : a.cols ≠ b.rows
  · rw [if_pos h]
    exact ⟨⟨fun _ => h, fun _ => rfl⟩, fun y hy => absurd hy (by simp)⟩
  · rw [if_neg h]
    refine ⟨⟨fun hc => absurd hc (by simp), fun hc => absurd hc h⟩, fun y hy => ?_⟩
    rw [Option.some.injEq] at hy
    subst hy
    refine ⟨rfl, rfl, fun i j hi hj => ?_⟩
    ext l
    have key := mulConst_loop a.rows b.cols (deg a + 1).toNat (fun i => cmul a.cols
      (loop2 a.rows a.cols (fun u v _ => (a.e (u, v)).coeff i) fun _ => 0) b.e) i j hi hj l
    refine key.trans ?_
    have hterm : ∀ k, k ∈ Finset.range a.cols → (a.e (i, k) * C (b.e (k, j))).coeff l = (a.e (i, k)).coeff l * b.e (k, j) :=
      fun k _ => coeff_mul_C _ _ _
    rw [finsetSum_coeff, Finset.sum_congr rfl hterm]
    by_cases hl : l < (deg a + 1).toNat
    · rw [if_pos hl]
      unfold cmul
      apply Finset.sum_congr rfl
      intro k hk
      rw [loop2_const, if_pos ⟨hi, Finset.mem_range.1 hk⟩]
    · rw [if_neg hl]
      symm
      apply Finset.sum_eq_zero
      intro k hk
      have h1 := (deg_spec a).1
      rw [(deg_lt_iff a l).1 (by omega) i k hi (Finset.mem_range.1 hk) l (le_refl _), zero_mul]

/-- C66: product by a constant matrix on the left. -/
theorem C66_mul_const_left (a : PMat R) (b : PMat R[X]) :
    (mulConstLeft a b = none ↔ a.cols ≠ b.rows) ∧
    ∀ y, mulConstLeft a b = some y → y.rows = a.rows ∧ y.cols = b.cols ∧ ∀ i j, i < a.rows → j < b.cols →
      y.e (i, j) = ∑ k ∈ Finset.range a.cols, C (a.e (i, k)) * b.e (k, j) := by
  unfold mulConstLeft
  dsimp only
  by_cases h : a.cols ≠ b.rows
  · rw [if_pos h]
    exact ⟨⟨fun _ => h, fun _ => rfl⟩, fun y hy => absurd hy (by simp)⟩
  · rw [if_neg h]
    refine ⟨⟨fun hc => absurd hc (by simp), fun hc => absurd hc h⟩, fun y hy => ?_⟩
    rw [Option.some.injEq] at hy
    subst hy
    refine ⟨rfl, rfl, fun i j hi hj => ?_⟩
    ext l
    have key := mulConst_loop a.rows b.cols (deg b + 1).toNat (fun i => cmul a.cols a.e
      (loop2 a.cols b.cols (fun u v _ => (b.e (u, v)).coeff i) fun _ => 0)) i j hi hj l
    refine key.trans ?_
    have hterm : ∀ k, k ∈ Finset.range a.cols → (C (a.e (i, k)) * b.e (k, j)).coeff l = a.e (i, k) * (b.e (k, j)).coeff l :=
      fun k _ => coeff_C_mul _
    rw [finsetSum_coeff, Finset.sum_congr rfl hterm]
    by_cases hl : l < (deg b + 1).toNat
    · rw [if_pos hl]
      unfold cmul
      apply Finset.sum_congr rfl
      intro k hk
      rw [loop2_const, if_pos ⟨Finset.mem_range.1 hk, hj⟩]
    · rw [if_neg hl]
      symm
      apply Finset.sum_eq_zero
      intro k hk
      have h1 := (deg_spec b).1
      have h2 := Finset.mem_range.1 hk
      rw [(deg_lt_iff b l).1 (by omega) k j (by omega) hj l (le_refl _), mul_zero]

/-- C66: product by a polynomial that is not an entry of the output. -/
theorem C66_mul_poly_partial (al : Bool) (c a : PMat R[X]) (b : R[X]) :
    (mulPoly al none c a b).rows = a.rows ∧ (mulPoly al none c a b).cols = a.cols ∧
    ∀ i j, i < a.rows → j < a.cols → (mulPoly al none c a b).e (i, j) = a.e (i, j) * b := by
  have := entrywise_spec al c a fun _ _ f => f * b
  exact this

/-- C66, negation: `mul(a, a, a[0][0])` on a `1 × 2` matrix multiplies the second entry by the square of
    the first one. -/
theorem C66_mul_poly_alias_wrong (f g : R[X]) :
    (mulPoly true (some (0, 0)) ⟨1, 2, fun ij => if ij = (0, 0) then f else g⟩
      ⟨1, 2, fun ij => if ij = (0, 0) then f else g⟩ f).e (0, 1) = g * (f * f) := by
  simp [mulPoly, loop2, forN, write, rd]

/-! ### Concrete cases -/

/-- A `2 × 2` matrix whose entries have different degrees. -/
noncomputable def sample : PMat (ZMod 5)[X] :=
  ⟨2, 2, fun ij => if ij = (0, 0) then X ^ 2 + 1 else if ij = (1, 1) then X else 0⟩

example : (truncRow false ⟨0, 0, fun _ => 0⟩ sample 0 1).e (1, 1) = 0 ∧ sample.e (1, 1) = X :=
  ⟨C65_trunc_row_wrong ⟨0, 0, fun _ => 0⟩ sample 0 1 (by decide) 1 1 (by decide) (by decide), by simp [sample]⟩

example : (convToCoeffs sample).2 ((deg sample).toNat, (0, 1)) = none := by
  apply C65_conv_out_of_bounds sample 0 1 (by decide) (by decide)
  have h1 : sample.e (0, 1) = 0 := by simp [sample]
  rw [h1, pdeg_zero]
  have h2 := (deg_spec sample).2.1 1 1 (by decide) (by decide)
  have h3 : sample.e (1, 1) = X := by simp [sample]
  rw [h3, pdeg_ne _ X_ne_zero] at h2
  omega

example : ∃ y, shiftRow false ⟨0, 0, fun _ => 0⟩ sample 1 3 = some y ∧ (y.e (1, 1)).coeff 4 = 1 := by
  obtain ⟨y, h1, -, -, h2⟩ := C65_shift_row false ⟨0, 0, fun _ => 0⟩ sample 1 3 (by decide)
  refine ⟨y, h1, ?_⟩
  rw [h2 1 1 (by decide) (by decide) 4]
  have h3 : sample.e (1, 1) = X := by simp [sample]
  rw [if_pos rfl, h3]
  simp

end PML.Ntl.Utils
