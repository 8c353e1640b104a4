import Verif.Ntl.MbasisBase
import Verif.Approx.KStep

/-!
# One iteration of mbasis, on the matrix of polynomials
-/

namespace PML.Ntl.Mbasis

open Polynomial PML.Ntl.Utils PML.Ntl.Inv PML.Ntl.Solve PML.Approx PML.Forms.Spec

set_option linter.unusedSectionVars false

variable {F : Type} [Field F] [DecidableEq F]

/-- The matrix of an array. -/
def tm {α : Type} (m n : Nat) (A : Nat → Nat → α) : Matrix (Fin m) (Fin n) α := fun i j => A i j

/-- The coefficient of degree `d` of the entry `(i, j)` of `V A`. -/
noncomputable def resid (m : Nat) (V A : Nat → Nat → F[X]) (d i j : Nat) : F := (∑ l ∈ Finset.range m, V i l * A l j).coeff d

/-- `V` is a basis at order `d` for the shift `s0`, with degrees `s`. -/
structure Good (m n : Nat) (A : Nat → Nat → F[X]) (s0 : Nat → Int) (d : Nat) (s : Nat → Int) (V : Nat → Nat → F[X]) : Prop where
  gen : Generates (tm m n A) d (tm m m V)
  piv : Pivots (fun i : Fin m => s0 i) (tm m m V) (fun i : Fin m => s i) id
  deg : ∀ i l, i < m → l < m → ∀ k, d < k → (V i l).coeff k = 0

theorem tm_mul (m n : Nat) (V A : Nat → Nat → F[X]) (i : Fin m) (j : Fin n) :
    (tm m m V * tm m n A) i j = ∑ l ∈ Finset.range m, V i l * A l j := by
  rw [Matrix.mul_apply, Finset.sum_range]; rfl

theorem tm_congr {α : Type} {m n : Nat} {V W : Nat → Nat → α} (h : ∀ i l, i < m → l < n → V i l = W i l) : tm m n V = tm m n W := by
  funext i l; exact h i l i.2 l.2

theorem Good.congr {m n : Nat} {A : Nat → Nat → F[X]} {s0 : Nat → Int} {d : Nat} {s s' : Nat → Int} {V V' : Nat → Nat → F[X]}
    (h : Good m n A s0 d s V) (hs : ∀ i, i < m → s' i = s i) (hV : ∀ i l, i < m → l < m → V' i l = V i l) : Good m n A s0 d s' V' := by
  have e1 : tm m m V' = tm m m V := tm_congr hV
  have e2 : (fun i : Fin m => s' i) = fun i : Fin m => s i := by funext i; exact hs i i.2
  refine ⟨by rw [e1]; exact h.gen, by rw [e1, e2]; exact h.piv, fun i l hi hl k hk => ?_⟩
  rw [hV i l hi hl]; exact h.deg i l hi hl k hk

theorem Good.one (m n : Nat) (A : Nat → Nat → F[X]) (s0 : Nat → Int) {V : Nat → Nat → F[X]}
    (hV : ∀ i l, i < m → l < m → V i l = if i = l then 1 else 0) : Good m n A s0 0 s0 V := by
  have e1 : tm m m V = 1 := by
    funext i l
    rw [Matrix.one_apply]
    show V i l = _
    rw [hV i l i.2 l.2]
    simp only [Fin.ext_iff]
  refine ⟨by rw [e1]; exact Generates.zero_order _, by rw [e1]; exact Pivots.one _, fun i l hi hl k hk => ?_⟩
  rw [hV i l hi hl]
  split_ifs
  · rw [coeff_one, if_neg (by omega)]
  · rw [coeff_zero]

/-- The usual case. -/
theorem Good.step {m n d k : Nat} {A V V' : Nat → Nat → F[X]} {s0 s s' : Nat → Int} {R : Nat → Nat → F} {b : Base F}
    (h : Good m n A s0 d s V) (hR : ∀ i j, i < m → j < n → R i j = resid m V A d i j) (hb : BaseOk m n R s k b)
    (hp : ∀ i, i < k → s' (b.piv.getD (b.rows.getD i 0) 0) = s (b.piv.getD (b.rows.getD i 0) 0) ∧
      ∀ l, l < m → V' (b.piv.getD (b.rows.getD i 0) 0) l = ∑ t ∈ Finset.range m, C (b.kerbas.e (i, t)) * V t l)
    (hn : ∀ t, t < m → (∀ i, i < k → b.piv.getD (b.rows.getD i 0) 0 ≠ t) → s' t = s t + 1 ∧ ∀ l, l < m → V' t l = X * V t l) :
    Good m n A s0 (d + 1) s' V' := by
  classical
  generalize hpv : (fun i => b.piv.getD (b.rows.getD i 0) 0) = pv at *
  have hpve : ∀ i, b.piv.getD (b.rows.getD i 0) 0 = pv i := fun i => by rw [← hpv]
  have hlt : ∀ i, i < k → pv i < m := fun i hi => by rw [← hpve]; exact hb.lt _ (hb.rows i hi)
  have hmono : ∀ i j, i < j → j < k → pv i < pv j := fun i j hij hj => by rw [← hpve, ← hpve]; exact hb.mono i j hij hj
  have hinj : ∀ i j, i < k → j < k → pv i = pv j → i = j := by
    intro i j hi hj e
    rcases lt_trichotomy i j with h1 | h1 | h1
    · have := hmono i j h1 hj; omega
    · exact h1
    · have := hmono j i h1 hi; omega
  simp only [hpve] at hp hn
  have hne : ∀ i, i < k → b.kerbas.e (i, pv i) ≠ 0 := fun i hi => by rw [← hpve]; exact hb.ne i hi
  have hlex : ∀ i l, i < k → l < m → l ≠ pv i → b.kerbas.e (i, l) ≠ 0 → Lex s l (pv i) := fun i l hi hl => by
    rw [← hpve]; exact hb.lex i l hi hl
  set T : Finset (Fin m) := Finset.univ.filter fun t => ∀ i, i < k → pv i ≠ t with hT
  have hex : ∀ t : Fin m, ∃ i, t ∉ T → i < k ∧ pv i = t := by
    intro t
    by_cases ht : t ∈ T
    · exact ⟨0, fun h => absurd ht h⟩
    · rw [hT, Finset.mem_filter] at ht
      push Not at ht
      obtain ⟨i, h1, h2⟩ := ht (Finset.mem_univ t)
      exact ⟨i, fun _ => ⟨h1, h2⟩⟩
  choose idx hidx using hex
  have hmem : ∀ i (hi : i < k), (⟨pv i, hlt i hi⟩ : Fin m) ∉ T := by
    intro i hi hm
    rw [hT, Finset.mem_filter] at hm
    exact hm.2 i hi rfl
  have hst : KStep (tm m n fun i j => resid m V A d i j) (fun i : Fin m => s i) (fun i : Fin m => s' i) (tm m m V) (tm m m V') T
      fun t l => b.kerbas.e (idx t, l) := by
    constructor
    · intro t ht j
      obtain ⟨h1, h2⟩ := hidx t ht
      have := (hb.spans fun l => b.kerbas.e (idx t, l)).2 ⟨fun r => if r = idx t then 1 else 0, fun l _ => by
        dsimp only
        rw [Finset.sum_eq_single (idx t) (fun r _ hr => by rw [if_neg hr, zero_mul])
          fun hr => absurd (Finset.mem_range.2 h1) hr, if_pos rfl, one_mul]⟩ j j.2
      rw [Finset.sum_range] at this
      rw [← this]
      exact Finset.sum_congr rfl fun l _ => by rw [hR l j l.2 j.2]; rfl
    · intro ν hν
      obtain ⟨c, hc⟩ := (hb.spans fun l => if hl : l < m then ν ⟨l, hl⟩ else 0).1 (fun j hj => by
        rw [Finset.sum_range, ← hν ⟨j, hj⟩]
        exact Finset.sum_congr rfl fun l _ => by rw [dif_pos l.2, hR l j l.2 hj]; rfl)
      refine ⟨fun t => c (idx t), fun l => ?_⟩
      have := hc l l.2
      rw [dif_pos l.2] at this
      rw [this]
      refine Finset.sum_bij (fun r hr => (⟨pv r, hlt r (Finset.mem_range.1 hr)⟩ : Fin m)) (fun r hr => ?_) (fun r hr r' hr' e => ?_)
        (fun t ht => ?_) fun r hr => ?_
      · exact Finset.mem_compl.2 (hmem r (Finset.mem_range.1 hr))
      · exact hinj r r' (Finset.mem_range.1 hr) (Finset.mem_range.1 hr') (Fin.mk.inj e)
      · obtain ⟨h1, h2⟩ := hidx t (Finset.mem_compl.1 ht)
        exact ⟨idx t, Finset.mem_range.2 h1, Fin.ext h2⟩
      · have hr' := Finset.mem_range.1 hr
        obtain ⟨h1, h2⟩ := hidx _ (hmem r hr')
        have e := hinj _ _ h1 hr' h2
        dsimp only
        rw [e]
    · intro t ht
      obtain ⟨h1, h2⟩ := hidx t ht
      have := hne _ h1
      rwa [h2] at this
    · intro t ht l hl hz
      obtain ⟨h1, h2⟩ := hidx t ht
      have := hlex _ l h1 l.2 (by rw [h2]; exact fun e => hl (Fin.ext e)) hz
      rw [h2] at this
      exact this
    · intro t ht l
      rw [hT, Finset.mem_filter] at ht
      exact (hn t t.2 ht.2).2 l l.2
    · intro t ht l
      obtain ⟨h1, h2⟩ := hidx t ht
      have := (hp _ h1).2 l l.2
      rw [h2, Finset.sum_range] at this
      exact this
    · intro t ht
      rw [hT, Finset.mem_filter] at ht
      exact (hn t t.2 ht.2).1
    · intro t ht
      obtain ⟨h1, h2⟩ := hidx t ht
      have := (hp _ h1).1
      rwa [h2] at this
  refine ⟨hst.generates (fun i j => by rw [tm_mul]; rfl) h.gen, hst.pivots h.piv, fun i l hi hl k hk => ?_⟩
  exact hst.deg (d := d) (fun i l k hk => h.deg i l i.2 l.2 k hk) ⟨i, hi⟩ ⟨l, hl⟩ k hk

/-- The kernel is zero. -/
theorem Good.zero {m n d : Nat} {A V V' : Nat → Nat → F[X]} {s0 s s' : Nat → Int} {R X' : Nat → Nat → F}
    (h : Good m n A s0 d s V) (hR : ∀ i j, i < m → j < n → R i j = resid m V A d i j) (hs : Spans m n R 0 X') (e : Nat)
    (hs' : ∀ i, i < m → s' i = s i + e) (hV : ∀ i l, i < m → l < m → V' i l = X ^ e * V i l) : Good m n A s0 (d + e) s' V' := by
  have hz : ∀ ν : Fin m → F, (∀ j : Fin n, ∑ l, ν l * (tm m n fun i j => resid m V A d i j) l j = 0) → ν = 0 := by
    intro ν hν
    obtain ⟨c, hc⟩ := (hs fun l => if hl : l < m then ν ⟨l, hl⟩ else 0).1 (fun j hj => by
      rw [Finset.sum_range, ← hν ⟨j, hj⟩]
      exact Finset.sum_congr rfl fun l _ => by rw [dif_pos l.2, hR l j l.2 hj]; rfl)
    funext l
    have := hc l l.2
    rw [dif_pos l.2, Finset.range_zero, Finset.sum_empty] at this
    exact this
  obtain ⟨h1, h2, h3⟩ := shift_all (F := tm m n A) (d := d) (s0 := fun i : Fin m => s0 i) (s := fun i : Fin m => s i) (P := tm m m V)
    (fun i j => by rw [tm_mul]; rfl) hz h.gen h.piv (fun i l k hk => h.deg i l i.2 l.2 k hk) e
  have e1 : tm m m V' = scale e (tm m m V) := by funext i l; exact hV i l i.2 l.2
  have e2 : (fun i : Fin m => s' i) = fun i : Fin m => s i + (e : Int) := by funext i; exact hs' i i.2
  refine ⟨by rw [e1]; exact h1, by rw [e1, e2]; exact h2, fun i l hi hl k hk => ?_⟩
  rw [show V' i l = tm m m V' ⟨i, hi⟩ ⟨l, hl⟩ from rfl, e1]
  exact h3 _ _ k hk

/-- The residual is zero. -/
theorem Good.full {m n d : Nat} {A V : Nat → Nat → F[X]} {s0 s : Nat → Int}
    (h : Good m n A s0 d s V) (hR : ∀ i j, i < m → j < n → resid m V A d i j = 0) : Good m n A s0 (d + 1) s V := by
  have hst := KStep.none (R := tm m n fun i j => resid m V A d i j) (s := fun i : Fin m => s i) (P := tm m m V)
    fun i j => hR i j i.2 j.2
  exact ⟨hst.generates (fun i j => by rw [tm_mul]; rfl) h.gen, hst.pivots h.piv, fun i l hi hl k hk => h.deg i l hi hl k (by omega)⟩

/-- A left kernel with as many rows as the matrix: the matrix is zero. -/
theorem zero_of_full {m n : Nat} {R X' : Nat → Nat → F}
    (hind : ∀ c : Nat → F, (∀ l, l < m → ∑ r ∈ Finset.range m, c r * X' r l = 0) → ∀ r, r < m → c r = 0)
    (hs : Spans m n R m X') : ∀ i j, i < m → j < n → R i j = 0 := by
  intro i j hi hj
  have hli : LinearIndependent F (rowsOf m m X') := by
    rw [Fintype.linearIndependent_iff]
    intro g hg r
    have := hind (fun r => if h : r < m then g ⟨r, h⟩ else 0) (fun l hl => by
      rw [sum_ext]
      have := congrFun hg ⟨l, hl⟩
      rw [Finset.sum_apply] at this
      exact this) r r.2
    rwa [dif_pos r.2] at this
  have : Nonempty (Fin m) := ⟨⟨i, hi⟩⟩
  have htop := hli.span_eq_top_of_card_eq_finrank (by simp)
  have hmem : (fun l : Fin m => if (l : Nat) = i then (1 : F) else 0) ∈ Submodule.span F (Set.range (rowsOf m m X')) := by
    rw [htop]; exact Submodule.mem_top
  rw [mem_span_rows] at hmem
  obtain ⟨c, hc⟩ := hmem
  have := (hs fun l => if l = i then 1 else 0).2 ⟨c, fun l hl => hc ⟨l, hl⟩⟩ j hj
  rwa [Finset.sum_eq_single i (fun l _ hl => by rw [if_neg hl, zero_mul]) fun hl => absurd (Finset.mem_range.2 hi) hl, if_pos rfl,
    one_mul] at this

/-- From the permuted residual to the residual. -/
theorem Spans.unperm {m n k : Nat} {s : Nat → Int} {perm : List Nat} (hp : SortSpec s m fun i => perm.getD i 0) {A : Nat → Nat → F}
    {X' : Nat → Nat → F} (h : Spans m n (fun i j => A (perm.getD i 0) j) k X') :
    k = 0 → Spans m n A 0 X' := by
  rintro rfl v
  have e2 : (∀ j, j < n → ∑ l ∈ Finset.range m, v l * A l j = 0) ↔
      ∀ j, j < n → ∑ l ∈ Finset.range m, v (perm.getD l 0) * A (perm.getD l 0) j = 0 := by
    refine forall_congr' fun j => forall_congr' fun _ => ?_
    rw [hp.sum fun l => v l * A l j]
  rw [e2, h fun l => v (perm.getD l 0)]
  refine exists_congr fun c => ?_
  constructor
  · intro hc l hl
    obtain ⟨j, hj, rfl⟩ := hp.surj l hl
    have := hc j hj
    rw [Finset.range_zero, Finset.sum_empty] at this ⊢
    exact this
  · intro hc l hl
    have := hc _ (hp.lt l hl)
    rw [Finset.range_zero, Finset.sum_empty] at this ⊢
    exact this

/-- Pivots on the diagonal, in the terms of the specification. -/
theorem Good.minBasis {pmat : PMat F[X]} {s0 s : Nat → Int} {d : Nat} {P : PMat F[X]}
    (hr : P.rows = pmat.rows) (hc : P.cols = pmat.rows)
    (h : Good pmat.rows pmat.cols (fun i j => pmat.e (i, j)) s0 d s fun i j => P.e (i, j)) : IsMinBasis pmat d s0 P s := by
  have key : ∀ i, i < pmat.rows → PivotLower pmat.rows s0 (fun j => P.e (i, j)) i (s i - s0 i).toNat ∧
      ShiftedDegree pmat.rows s0 (fun j => P.e (i, j)) (s i) ∧ s0 i ≤ s i := by
    intro i hi
    have hrow := h.piv.row ⟨i, hi⟩
    have hge : s0 i ≤ s i := hrow.ge
    have hlead : (P.e (i, i)).coeff (s i - s0 i).toNat ≠ 0 := hrow.lead
    have hne : P.e (i, i) ≠ 0 := by intro e; rw [e] at hlead; exact hlead (by simp)
    have hle : ∀ j, j < pmat.rows → P.e (i, j) ≠ 0 → ((P.e (i, j)).natDegree : Int) + s0 j ≤ s i := fun j hj hn =>
      degLE_iff.1 (hrow.le ⟨j, hj⟩) hn
    have hdeg : (P.e (i, i)).natDegree = (s i - s0 i).toNat := by
      have h1 := hle i hi hne
      have h2 := le_natDegree_of_ne_zero hlead
      omega
    refine ⟨⟨hi, hne, hdeg, fun j hj hn => ?_, fun j hj hij hn => ?_⟩, ⟨hle, i, hi, hne, ?_⟩, hge⟩
    · have := hle j hj hn; omega
    · have : ((P.e (i, j)).natDegree : Int) + s0 j ≤ s i - 1 := degLE_iff.1 (hrow.after ⟨j, hj⟩ hij) hn
      omega
    · omega
  refine ⟨hr, hc, h.gen.isBasis, ⟨fun i => i, _, fun i hi => (key i hi).1, fun i j hij _ => hij⟩, fun i hi => (key i hi).1,
    fun i hi => (key i hi).2.1, fun i hi => (key i hi).2.2, ?_⟩
  have := (deg_lt_iff P (d + 1)).2 fun i j hi hj k hk => h.deg i j (hr ▸ hi) (hc ▸ hj) k (by omega)
  push_cast at this
  omega

end PML.Ntl.Mbasis
