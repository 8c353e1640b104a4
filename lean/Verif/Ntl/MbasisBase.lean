import Verif.Ntl.MbasisSort
import Verif.Ntl.MbasisSpec
import Verif.Ntl.MatUtilsLemmas
import Mathlib.LinearAlgebra.LinearIndependent.Defs
import Mathlib.LinearAlgebra.Dimension.Constructions
import Mathlib.LinearAlgebra.Dimension.Finrank
import Mathlib.LinearAlgebra.FiniteDimensional.Basic

/-!
# The base case of mbasis
-/

namespace PML.Ntl.Mbasis

open Polynomial PML.Ntl.Utils PML.Ntl.Inv PML.Ntl.Solve

set_option linter.unusedSectionVars false

variable {F : Type} [Field F] [DecidableEq F]

/-- `p` is the index of the last nonzero entry among the first `m`. -/
structure Last (m : Nat) (row : Nat → F) (p : Nat) : Prop where
  lt : p < m
  ne : row p ≠ 0
  after : ∀ j, p < j → j < m → row j = 0

theorem scan_some (row : Nat → F) : ∀ (m : Nat), (∃ j, j < m ∧ row j ≠ 0) → ∃ p, scan row m = some p ∧ Last m row p
  | 0, ⟨j, hj, _⟩ => by omega
  | m + 1, ⟨j, hj, hne⟩ => by
    rw [scan]
    by_cases h : row m = 0
    · rw [if_pos h]
      have : j ≠ m := by rintro rfl; exact hne h
      obtain ⟨p, hp, hl⟩ := scan_some row m ⟨j, by omega, hne⟩
      refine ⟨p, hp, by have := hl.lt; omega, hl.ne, fun j' h1 h2 => ?_⟩
      by_cases e : j' = m
      · rw [e, h]
      · exact hl.after j' h1 (by omega)
    · rw [if_neg h]
      exact ⟨m, rfl, by omega, h, fun j' h1 h2 => by omega⟩

theorem scanAll_some (pk : PMat F) (m : Nat) : ∀ (k : Nat), (∀ r, r < k → ∃ j, j < m ∧ pk.e (r, j) ≠ 0) →
    ∃ piv, scanAll pk m k = some piv ∧ piv.length = k ∧ ∀ r, r < k → Last m (fun j => pk.e (r, j)) (piv.getD r 0)
  | 0, _ => ⟨[], rfl, rfl, fun r hr => by omega⟩
  | k + 1, h => by
    obtain ⟨l, e1, e2, e3⟩ := scanAll_some pk m k fun r hr => h r (by omega)
    obtain ⟨p, e4, e5⟩ := scan_some (fun j => pk.e (k, j)) m (h k (by omega))
    refine ⟨l ++ [p], by rw [scanAll, e1, e4], by rw [List.length_append, e2]; rfl, fun r hr => ?_⟩
    rw [List.getD_eq_getElem?_getD]
    by_cases hrk : r = k
    · subst hrk
      rw [List.getElem?_append_right (by omega), e2, Nat.sub_self]
      exact e5
    · rw [List.getElem?_append_left (by omega), ← List.getD_eq_getElem?_getD]
      exact e3 r (by omega)

/-- The rows of `X` generate the left kernel of `A`. -/
def Spans (m n : Nat) (A : Nat → Nat → F) (k : Nat) (X : Nat → Nat → F) : Prop :=
  ∀ v : Nat → F, (∀ j, j < n → ∑ l ∈ Finset.range m, v l * A l j = 0) ↔
    ∃ c : Nat → F, ∀ l, l < m → v l = ∑ r ∈ Finset.range k, c r * X r l

/-- A kernel with pairwise distinct pivots. -/
structure Distinct (m n : Nat) (A : Nat → Nat → F) (k : Nat) (pk : PMat F) (piv : List Nat) : Prop where
  length : piv.length = k
  last : ∀ r, r < k → Last m (fun j => pk.e (r, j)) (piv.getD r 0)
  inj : ∀ r r', r < k → r' < k → piv.getD r 0 = piv.getD r' 0 → r = r'
  spans : Spans m n A k fun r l => pk.e (r, l)

theorem nodup_inj (l : List Nat) (h : l.Nodup) (r r' : Nat) (hr : r < l.length) (hr' : r' < l.length)
    (e : l.getD r 0 = l.getD r' 0) : r = r' := by
  rw [List.getD_eq_getElem?_getD, List.getElem?_eq_getElem hr, Option.getD_some, List.getD_eq_getElem?_getD,
    List.getElem?_eq_getElem hr', Option.getD_some] at e
  have h1 := h.idxOf_getElem r hr
  have h2 := h.idxOf_getElem r' hr'
  rw [e, h2] at h1
  exact h1.symm

/-! ### The number of rows of the echelon form -/

/-- The rows as vectors. -/
def rowsOf (k m : Nat) (X : Nat → Nat → F) : Fin k → (Fin m → F) := fun r l => X r l

theorem sum_ext (k : Nat) (c : Fin k → F) (f : Nat → F) :
    ∑ r ∈ Finset.range k, (if h : r < k then c ⟨r, h⟩ else 0) * f r = ∑ r, c r * f r := by
  rw [Finset.sum_range]
  exact Finset.sum_congr rfl fun r _ => by rw [dif_pos r.2]

theorem mem_span_rows (k m : Nat) (X : Nat → Nat → F) (v : Fin m → F) :
    v ∈ Submodule.span F (Set.range (rowsOf k m X)) ↔ ∃ c : Nat → F, ∀ l : Fin m, v l = ∑ r ∈ Finset.range k, c r * X r l := by
  rw [Submodule.mem_span_range_iff_exists_fun]
  constructor
  · rintro ⟨c, rfl⟩
    refine ⟨fun r => if h : r < k then c ⟨r, h⟩ else 0, fun l => ?_⟩
    rw [sum_ext, Finset.sum_apply]
    rfl
  · rintro ⟨c, hc⟩
    refine ⟨fun r => c r, ?_⟩
    funext l
    rw [hc, Finset.sum_range, Finset.sum_apply]
    rfl

/-- Two families of independent rows which generate the same space have the same number of rows. -/
theorem card_eq {k k' m : Nat} {X Y : Nat → Nat → F}
    (hX : ∀ c : Nat → F, (∀ l, l < m → ∑ r ∈ Finset.range k, c r * X r l = 0) → ∀ r, r < k → c r = 0)
    (hY : ∀ c : Nat → F, (∀ l, l < m → ∑ r ∈ Finset.range k', c r * Y r l = 0) → ∀ r, r < k' → c r = 0)
    (h : ∀ v : Nat → F, (∃ c : Nat → F, ∀ l, l < m → v l = ∑ r ∈ Finset.range k, c r * X r l) ↔
      ∃ c : Nat → F, ∀ l, l < m → v l = ∑ r ∈ Finset.range k', c r * Y r l) : k = k' := by
  have ind : ∀ {k : Nat} {X : Nat → Nat → F},
      (∀ c : Nat → F, (∀ l, l < m → ∑ r ∈ Finset.range k, c r * X r l = 0) → ∀ r, r < k → c r = 0) →
      LinearIndependent F (rowsOf k m X) := by
    intro k X hX
    rw [Fintype.linearIndependent_iff]
    intro g hg r
    have := hX (fun r => if h : r < k then g ⟨r, h⟩ else 0) (fun l hl => by
      rw [sum_ext]
      have := congrFun hg ⟨l, hl⟩
      rw [Finset.sum_apply] at this
      exact this) r r.2
    rwa [dif_pos r.2] at this
  have hs : Submodule.span F (Set.range (rowsOf k m X)) = Submodule.span F (Set.range (rowsOf k' m Y)) := by
    ext v
    rw [mem_span_rows, mem_span_rows]
    have := h fun l => if hl : l < m then v ⟨l, hl⟩ else 0
    constructor
    · rintro ⟨c, hc⟩
      obtain ⟨c', hc'⟩ := this.1 ⟨c, fun l hl => by rw [dif_pos hl]; exact hc ⟨l, hl⟩⟩
      exact ⟨c', fun l => by have := hc' l l.2; rwa [dif_pos l.2] at this⟩
    · rintro ⟨c, hc⟩
      obtain ⟨c', hc'⟩ := this.2 ⟨c, fun l hl => by rw [dif_pos hl]; exact hc ⟨l, hl⟩⟩
      exact ⟨c', fun l => by have := hc' l l.2; rwa [dif_pos l.2] at this⟩
  have h1 := finrank_span_eq_card (ind hX)
  have h2 := finrank_span_eq_card (ind hY)
  rw [hs, h2] at h1
  simpa using h1.symm

/-- Rows with increasing first entries are independent. -/
theorem echelon_indep {k m : Nat} {X : Nat → Nat → F} {q : Nat → Nat}
    (h : ∀ r, r < k → q r < m ∧ X r (q r) ≠ 0 ∧ ∀ j, j < q r → X r j = 0) (hq : ∀ r r', r < r' → r' < k → q r < q r') :
    ∀ c : Nat → F, (∀ l, l < m → ∑ r ∈ Finset.range k, c r * X r l = 0) → ∀ r, r < k → c r = 0 := by
  intro c hc r
  induction r using Nat.strong_induction_on with
  | _ r ih =>
    intro hr
    have := hc (q r) (h r hr).1
    rw [Finset.sum_eq_single r] at this
    · exact (mul_eq_zero.1 this).resolve_right (h r hr).2.1
    · intro r' hr' hne
      have hr' := Finset.mem_range.1 hr'
      rcases lt_or_gt_of_ne hne with h1 | h1
      · rw [ih r' h1 hr', zero_mul]
      · rw [(h r' hr').2.2 _ (hq r r' h1 hr'), mul_zero]
    · intro h1
      exact absurd (Finset.mem_range.2 hr) h1

theorem echelonize_spec {N : Nt F} (hN : N.Ok) {m n k : Nat} {A : Nat → Nat → F} (tmp pk : PMat F)
    (hind : ∀ c : Nat → F, (∀ l, l < m → ∑ r ∈ Finset.range k, c r * pk.e (r, l) = 0) → ∀ r, r < k → c r = 0)
    (hs : Spans m n A k fun r l => pk.e (r, l)) :
    ∃ pk', echelonize N m k tmp pk = .ok pk' ∧ Spans m n A k (fun r l => pk'.e (r, l)) ∧
      ∃ q : Nat → Nat, (∀ r, r < k → Last m (fun j => pk'.e (r, j)) (q r)) ∧ ∀ r r', r < r' → r' < k → q r < q r' := by
  unfold echelonize
  dsimp only
  have hB : ∃ B : PMat F, B = { tmp.setDims k m with e := loop2 k m (fun i j _ => pk.e (i, m - 1 - j)) (tmp.setDims k m).e } ∧
      B.rows = k ∧ B.cols = m ∧ ∀ i j, i < k → j < m → B.e (i, j) = pk.e (i, m - 1 - j) := by
    refine ⟨_, rfl, rfl, rfl, fun i j hi hj => ?_⟩
    show loop2 k m _ _ (i, j) = _
    rw [loop2_const, if_pos ⟨hi, hj⟩]
  obtain ⟨B, hBe, hBr, hBc, hBv⟩ := hB
  rw [← hBe]
  have hI := hN.img B
  obtain ⟨q, hq1, hq2⟩ := hI.echelon
  -- the rows of `B` are independent
  have hrev : ∀ (c : Nat → F) (l : Nat), l < m →
      ∑ r ∈ Finset.range k, c r * B.e (r, l) = ∑ r ∈ Finset.range k, c r * pk.e (r, m - 1 - l) := fun c l hl =>
    Finset.sum_congr rfl fun r hr => by rw [hBv r l (Finset.mem_range.1 hr) hl]
  have hBi : ∀ c : Nat → F, (∀ l, l < m → ∑ r ∈ Finset.range k, c r * B.e (r, l) = 0) → ∀ r, r < k → c r = 0 := by
    intro c hc
    refine hind c fun l hl => ?_
    have := hc (m - 1 - l) (by omega)
    rwa [hrev c _ (by omega), show m - 1 - (m - 1 - l) = l by omega] at this
  rw [hBc] at hq1
  have hcard : k = (N.img B).rows := card_eq (m := m) (X := fun r l => B.e (r, l)) (Y := fun r l => (N.img B).e (r, l)) hBi
    (echelon_indep (X := fun r l => (N.img B).e (r, l)) hq1 hq2) (by have := hI.span; rwa [hBr, hBc] at this)
  rw [if_neg (by rw [← hcard, hI.cols, hBc]; omega)]
  generalize hT : N.img B = T at *
  refine ⟨_, rfl, ?_, fun r => m - 1 - q (k - r - 1), fun r hr => ?_, fun r r' h1 h2 => ?_⟩
  · have hv : ∀ i j, i < k → j < m → loop2 k m (fun i j _ => T.e (k - i - 1, m - 1 - j)) pk.e (i, j) = T.e (k - i - 1, m - 1 - j) := by
      intro i j hi hj
      rw [loop2_const, if_pos ⟨hi, hj⟩]
    intro v
    rw [hs v]
    have key := hI.span fun l => v (m - 1 - l)
    rw [hBr, hBc, ← hcard] at key
    have e1 : (∃ c : Nat → F, ∀ l, l < m → v l = ∑ r ∈ Finset.range k, c r * pk.e (r, l)) ↔
        ∃ c : Nat → F, ∀ l, l < m → v (m - 1 - l) = ∑ r ∈ Finset.range k, c r * B.e (r, l) := by
      constructor
      · rintro ⟨c, hc⟩
        exact ⟨c, fun l hl => by rw [hrev c l hl]; exact hc _ (by omega)⟩
      · rintro ⟨c, hc⟩
        refine ⟨c, fun l hl => ?_⟩
        have := hc (m - 1 - l) (by omega)
        rwa [hrev c _ (by omega), show m - 1 - (m - 1 - l) = l by omega] at this
    have e2 : (∃ c : Nat → F, ∀ l, l < m → v l = ∑ r ∈ Finset.range k, c r *
          loop2 k m (fun i j _ => T.e (k - i - 1, m - 1 - j)) pk.e (r, l)) ↔
        ∃ c : Nat → F, ∀ l, l < m → v (m - 1 - l) = ∑ r ∈ Finset.range k, c r * T.e (r, l) := by
      have hsum : ∀ (c : Nat → F) l, l < m → ∑ r ∈ Finset.range k, c r *
          loop2 k m (fun i j _ => T.e (k - i - 1, m - 1 - j)) pk.e (r, l) = ∑ r ∈ Finset.range k, c (k - 1 - r) * T.e (r, m - 1 - l) := by
        intro c l hl
        rw [← Finset.sum_range_reflect]
        refine Finset.sum_congr rfl fun r hr => ?_
        have hr := Finset.mem_range.1 hr
        rw [hv _ _ (by omega) hl, show k - (k - 1 - r) - 1 = r by omega]
      constructor
      · rintro ⟨c, hc⟩
        refine ⟨fun r => c (k - 1 - r), fun l hl => ?_⟩
        have := hc (m - 1 - l) (by omega)
        rwa [hsum c _ (by omega), show m - 1 - (m - 1 - l) = l by omega] at this
      · rintro ⟨c, hc⟩
        refine ⟨fun r => c (k - 1 - r), fun l hl => ?_⟩
        rw [hsum _ l hl]
        have := hc (m - 1 - l) (by omega)
        rw [show m - 1 - (m - 1 - l) = l by omega] at this
        rw [this]
        refine Finset.sum_congr rfl fun r hr => ?_
        have hr := Finset.mem_range.1 hr
        rw [show k - 1 - (k - 1 - r) = r by omega]
    rw [e1, key]
    exact e2.symm
  · obtain ⟨h1, h2, h3⟩ := hq1 (k - r - 1) (by omega)
    refine ⟨by dsimp only; omega, ?_, fun j hj1 hj2 => ?_⟩
    · show loop2 k m _ _ (r, m - 1 - q (k - r - 1)) ≠ 0
      rw [loop2_const, if_pos ⟨hr, by omega⟩, show m - 1 - (m - 1 - q (k - r - 1)) = q (k - r - 1) by omega]
      exact h2
    · dsimp only at hj1
      show loop2 k m _ _ (r, _) = 0
      rw [loop2_const, if_pos ⟨hr, hj2⟩]
      exact h3 _ (by omega)
  · have := hq2 (k - r' - 1) (k - r - 1) (by omega) (by omega)
    have h3 := (hq1 (k - r - 1) (by omega)).1
    dsimp only
    omega

theorem distinct_spec {N : Nt F} (hN : N.Ok) {m n k : Nat} {A : Nat → Nat → F} (tmp pk : PMat F) (tail : List Nat)
    (hind : ∀ c : Nat → F, (∀ l, l < m → ∑ r ∈ Finset.range k, c r * pk.e (r, l) = 0) → ∀ r, r < k → c r = 0)
    (hs : Spans m n A k fun r l => pk.e (r, l)) :
    ∃ pk' piv, distinct N m k tmp pk tail = .ok (pk', piv) ∧ Distinct m n A k pk' piv := by
  have hrow : ∀ r, r < k → ∃ j, j < m ∧ pk.e (r, j) ≠ 0 := by
    intro r hr
    by_contra hc
    push Not at hc
    have := hind (fun r' => if r' = r then 1 else 0) (fun l hl => by
      refine Finset.sum_eq_zero fun r' _ => ?_
      by_cases h : r' = r
      · rw [h, hc l hl, mul_zero]
      · rw [if_neg h, zero_mul]) r hr
    rw [if_pos rfl] at this
    exact one_ne_zero this
  obtain ⟨piv, e1, e2, e3⟩ := scanAll_some pk m k hrow
  unfold distinct
  rw [e1]
  dsimp only
  split_ifs with h1 h2
  · refine ⟨pk, piv, rfl, e2, e3, fun r r' hr hr' he => ?_, hs⟩
    unfold expected at h1
    rw [List.all_eq_true] at h1
    have a1 := beq_iff_eq.1 (h1 r (List.mem_range.2 hr))
    have a2 := beq_iff_eq.1 (h1 r' (List.mem_range.2 hr'))
    omega
  · obtain ⟨pk', e4, e5, q, e6, e7⟩ := echelonize_spec hN tmp pk hind hs
    rw [e4]
    simp only [andThen]
    obtain ⟨piv', e8, e9, e10⟩ := scanAll_some pk' m k fun r hr => ⟨q r, (e6 r hr).lt, (e6 r hr).ne⟩
    rw [e8]
    have hpq : ∀ r, r < k → piv'.getD r 0 = q r := by
      intro r hr
      have a := e10 r hr
      have b := e6 r hr
      rcases lt_trichotomy (piv'.getD r 0) (q r) with h | h | h
      · exact absurd (a.after _ h b.lt) b.ne
      · exact h
      · exact absurd (b.after _ h a.lt) a.ne
    refine ⟨pk', piv', rfl, e9, e10, fun r r' hr hr' he => ?_, e5⟩
    rw [hpq r hr, hpq r' hr'] at he
    rcases lt_trichotomy r r' with h | h | h
    · have := e7 r r' h hr'; omega
    · exact h
    · have := e7 r' r h hr; omega
  · have hnd := nodup_of_collide _ (Bool.not_eq_true _ ▸ h2)
    refine ⟨pk, piv, rfl, e2, e3, fun r r' hr hr' he => ?_, hs⟩
    exact nodup_inj piv (List.Nodup.sublist (List.sublist_append_left _ _) hnd) r r' (by omega) (by omega) he

/-- What the base case gives: `L i` is the pivot index of row `i` of `kerbas`; these are increasing. -/
structure BaseOk (m n : Nat) (A : Nat → Nat → F) (s : Nat → Int) (k : Nat) (b : Base F) : Prop where
  dim : b.kerbas.rows = k ∧ b.kerbas.cols = m
  pPiv : b.pPiv.length = k
  rows : ∀ i, i < k → b.rows.getD i 0 < k
  rows_surj : ∀ a, a < k → ∃ i, i < k ∧ b.rows.getD i 0 = a
  lt : ∀ a, a < k → b.piv.getD a 0 < m
  mono : ∀ i j, i < j → j < k → b.piv.getD (b.rows.getD i 0) 0 < b.piv.getD (b.rows.getD j 0) 0
  ne : ∀ i, i < k → b.kerbas.e (i, b.piv.getD (b.rows.getD i 0) 0) ≠ 0
  lex : ∀ i l, i < k → l < m → l ≠ b.piv.getD (b.rows.getD i 0) 0 → b.kerbas.e (i, l) ≠ 0 → Lex s l (b.piv.getD (b.rows.getD i 0) 0)
  spans : Spans m n A k fun r l => b.kerbas.e (r, l)

theorem unpermute_spec {m k : Nat} {key : Nat → Int} {perm : List Nat} (hp : SortSpec key m fun i => perm.getD i 0) (rows : List Nat)
    (tmp pk : PMat F) (i j : Nat) (hi : i < k) (hj : j < m) :
    (unpermute m k perm rows tmp pk).e (i, perm.getD j 0) = pk.e (rows.getD i 0, j) := by
  unfold unpermute
  dsimp only
  -- the value is the one of the index of the column
  have hex : ∀ c, ∃ j, c < m → j < m ∧ perm.getD j 0 = c := fun c => by
    by_cases h : c < m
    · obtain ⟨j, hj, e⟩ := hp.surj c h
      exact ⟨j, fun _ => ⟨hj, e⟩⟩
    · exact ⟨0, fun h' => absurd h' h⟩
  choose inv hinv using hex
  have hF : Fills _ (fun x : Nat × Nat => pk.e (rows.getD x.1 0, inv x.2))
      (forN k fun i => forN m fun j => write (i, perm.getD j 0) (pk.e (rows.getD i 0, j))) :=
    Fills.forN fun i _ => Fills.forN fun j hj => Fills.write _ _ (by
      dsimp only
      obtain ⟨h1, h2⟩ := hinv (perm.getD j 0) (hp.lt j hj)
      rw [hp.inj _ _ h1 hj h2])
  have := (hF (tmp.setDims k m).e (i, perm.getD j 0)).1 ⟨i, hi, j, hj, rfl⟩
  rw [this]
  dsimp only
  obtain ⟨h1, h2⟩ := hinv (perm.getD j 0) (hp.lt j hj)
  rw [hp.inj _ _ h1 hj h2]

theorem map_getD (l : List Nat) (f : Nat → Nat) (r : Nat) (h : r < l.length) : (l.map f).getD r 0 = f (l.getD r 0) := by
  rw [List.getD_eq_getElem?_getD, List.getElem?_map, List.getElem?_eq_getElem h, List.getD_eq_getElem?_getD,
    List.getElem?_eq_getElem h]
  rfl

/-- From a kernel with distinct pivots to the base case. -/
theorem baseOk_of_distinct {m n k : Nat} {A : Nat → Nat → F} {s : Nat → Int} {perm : List Nat}
    (hp : SortSpec s m fun i => perm.getD i 0) (tmp pk' : PMat F) (piv : List Nat)
    (hd : Distinct m n (fun i j => A (perm.getD i 0) j) k pk' piv) :
    BaseOk m n A s k ⟨unpermute m k perm (sortBy (fun a => ((piv.map fun p => perm.getD p 0).getD a 0 : Nat)) k) tmp pk', piv,
      piv.map fun p => perm.getD p 0, sortBy (fun a => ((piv.map fun p => perm.getD p 0).getD a 0 : Nat)) k⟩ := by
  have hpv : ∀ r, r < k → (piv.map fun p => perm.getD p 0).getD r 0 = perm.getD (piv.getD r 0) 0 := fun r hr =>
    map_getD piv _ r (by rw [hd.length]; exact hr)
  generalize hP : (piv.map fun p => perm.getD p 0) = P at hpv ⊢
  have hr := sortBy_spec (fun a => (P.getD a 0 : Nat)) k
  generalize hR : sortBy (fun a => (P.getD a 0 : Nat)) k = R at hr ⊢
  have hlt : ∀ r, r < k → piv.getD r 0 < m := fun r hr => (hd.last r hr).lt
  have hPinj : ∀ r r', r < k → r' < k → P.getD r 0 = P.getD r' 0 → r = r' := by
    intro r r' h1 h2 h3
    rw [hpv r h1, hpv r' h2] at h3
    exact hd.inj r r' h1 h2 (hp.inj _ _ (hlt r h1) (hlt r' h2) h3)
  have hun := fun i j (hi : i < k) (hj : j < m) => unpermute_spec hp R tmp pk' i j hi hj
  refine ⟨⟨rfl, rfl⟩, hd.length, hr.lt, hr.surj, fun a ha => ?_, fun i j hij hj => ?_, fun i hi => ?_, fun i l hi hl hne hnz => ?_, ?_⟩
  · dsimp only; rw [hpv a ha]; exact hp.lt _ (hlt a ha)
  · dsimp only
    rcases hr.sorted i j hij hj with h | ⟨h, -⟩ <;> dsimp only at h
    · exact_mod_cast h
    · have := hPinj _ _ (hr.lt i (by omega)) (hr.lt j hj) (by exact_mod_cast h)
      have := hr.inj i j (by omega) hj this
      omega
  · dsimp only
    rw [hpv _ (hr.lt i hi), hun i _ hi (hlt _ (hr.lt i hi))]
    exact (hd.last _ (hr.lt i hi)).ne
  · dsimp only at hne hnz ⊢
    obtain ⟨j, hj, rfl⟩ := hp.surj l hl
    rw [hpv _ (hr.lt i hi)] at hne ⊢
    rw [hun i j hi hj] at hnz
    have hlast := hd.last _ (hr.lt i hi)
    rcases lt_trichotomy j (piv.getD (R.getD i 0) 0) with h | h | h
    · exact hp.sorted j _ h hlast.lt
    · rw [h] at hne; exact absurd rfl hne
    · exact absurd (hlast.after j h hj) hnz
  · dsimp only
    intro v
    have h1 := hd.spans fun l => v (perm.getD l 0)
    have e2 : (∀ j, j < n → ∑ l ∈ Finset.range m, v l * A l j = 0) ↔
        ∀ j, j < n → ∑ l ∈ Finset.range m, v (perm.getD l 0) * A (perm.getD l 0) j = 0 := by
      refine forall_congr' fun j => forall_congr' fun _ => ?_
      rw [hp.sum fun l => v l * A l j]
    rw [e2, h1]
    have hsum : ∀ (c : Nat → F) (l : Nat), l < m → ∑ r ∈ Finset.range k, c r * (unpermute m k perm R tmp pk').e (r, perm.getD l 0) =
        ∑ r ∈ Finset.range k, c r * pk'.e (R.getD r 0, l) := fun c l hl =>
      Finset.sum_congr rfl fun r hr => by rw [hun r l (Finset.mem_range.1 hr) hl]
    constructor
    · rintro ⟨c, hc⟩
      refine ⟨fun r => c (R.getD r 0), fun l hl => ?_⟩
      obtain ⟨j, hj, rfl⟩ := hp.surj l hl
      rw [hsum _ j hj, hc j hj]
      exact (hr.sum fun r => c r * pk'.e (r, j)).symm
    · rintro ⟨c, hc⟩
      have hex : ∀ a, ∃ i, a < k → i < k ∧ R.getD i 0 = a := fun a => by
        by_cases h : a < k
        · obtain ⟨i, hi, e⟩ := hr.surj a h
          exact ⟨i, fun _ => ⟨hi, e⟩⟩
        · exact ⟨0, fun h' => absurd h' h⟩
      choose inv hinv using hex
      refine ⟨fun a => c (inv a), fun l hl => ?_⟩
      rw [hc _ (hp.lt l hl), hsum c l hl, ← hr.sum fun r => c (inv r) * pk'.e (r, l)]
      refine Finset.sum_congr rfl fun r hr' => ?_
      have hr' := Finset.mem_range.1 hr'
      obtain ⟨h3, h4⟩ := hinv (R.getD r 0) (hr.lt r hr')
      rw [hr.inj _ _ h3 hr' h4]

/-- The base case, for the residual `A` and the shift `s`. -/
theorem base_spec {N : Nt F} (hN : N.Ok) {m n k : Nat} {A : Nat → Nat → F} {s : Nat → Int} {perm : List Nat}
    (hp : SortSpec s m fun i => perm.getD i 0) (tmp pk : PMat F) (tail : List Nat)
    (hind : ∀ c : Nat → F, (∀ l, l < m → ∑ r ∈ Finset.range k, c r * pk.e (r, l) = 0) → ∀ r, r < k → c r = 0)
    (hs : Spans m n (fun i j => A (perm.getD i 0) j) k fun r l => pk.e (r, l)) :
    ∃ b, base N m k perm tmp pk tail = .ok b ∧ BaseOk m n A s k b := by
  obtain ⟨pk', piv, e1, hd⟩ := distinct_spec hN tmp pk tail hind hs
  unfold base
  rw [e1]
  simp only [andThen]
  exact ⟨_, rfl, baseOk_of_distinct hp tmp pk' piv hd⟩

end PML.Ntl.Mbasis
