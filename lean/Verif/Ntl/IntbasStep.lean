import Verif.Ntl.IntbasSpec
import Verif.Ntl.MbasisStep
import Verif.Ntl.MbasisState
import Verif.Approx.Interp

/-!
# One iteration of mbasis for interpolants
-/

namespace PML.Ntl.Intbas

open Polynomial PML.Ntl.Utils PML.Ntl.Inv PML.Ntl.Solve PML.Ntl.Mbasis PML.Approx PML.Approx.Spec PML.Forms.Spec

set_option linter.unusedSectionVars false

variable {F : Type} [Field F] [DecidableEq F]

/-- The matrices of an array. -/
def mats (m n : Nat) (A : Nat → Nat → Nat → F) : Nat → Matrix (Fin m) (Fin n) F := fun k => tm m n (A k)

/-- The entry `(i, j)` of `V(x k) * A k`. -/
noncomputable def residI (m : Nat) (V : Nat → Nat → F[X]) (A : Nat → Nat → Nat → F) (x : Nat → F) (k i j : Nat) : F :=
  ∑ l ∈ Finset.range m, (V i l).eval (x k) * A k l j

theorem residI_eq (m n : Nat) (V : Nat → Nat → F[X]) (A : Nat → Nat → Nat → F) (x : Nat → F) (k : Nat) :
    interpRes (mats m n A) x k (tm m m V) = tm m n fun i j => residI m V A x k i j := by
  funext i j
  show ∑ l, (tm m m V i l).eval (x k) * mats m n A k l j = ∑ l ∈ Finset.range m, _
  rw [Finset.sum_range]
  rfl

/-- `V` is a basis for `d` points, for the shift `s0`, with degrees `s`. -/
structure GoodI (m n : Nat) (A : Nat → Nat → Nat → F) (x : Nat → F) (s0 : Nat → Int) (d : Nat) (s : Nat → Int)
    (V : Nat → Nat → F[X]) : Prop where
  gen : GenBy (IsInterpolant (mats m n A) x d) (tm m m V)
  piv : Pivots (fun i : Fin m => s0 i) (tm m m V) (fun i : Fin m => s i) id
  deg : ∀ i l, i < m → l < m → ∀ k, d < k → (V i l).coeff k = 0

variable {m n d k : Nat} {A : Nat → Nat → Nat → F} {x : Nat → F} {s0 s s' : Nat → Int} {V V' : Nat → Nat → F[X]}

theorem GoodI.congr (h : GoodI m n A x s0 d s V) (hs : ∀ i, i < m → s' i = s i) (hV : ∀ i l, i < m → l < m → V' i l = V i l) :
    GoodI m n A x s0 d s' V' := by
  have e1 : tm m m V' = tm m m V := tm_congr hV
  have e2 : (fun i : Fin m => s' i) = fun i : Fin m => s i := by funext i; exact hs i i.2
  refine ⟨by rw [e1]; exact h.gen, by rw [e1, e2]; exact h.piv, fun i l hi hl k hk => ?_⟩
  rw [hV i l hi hl]; exact h.deg i l hi hl k hk

theorem GoodI.one (m n : Nat) (A : Nat → Nat → Nat → F) (x : Nat → F) (s0 : Nat → Int) {V : Nat → Nat → F[X]}
    (hV : ∀ i l, i < m → l < m → V i l = if i = l then 1 else 0) : GoodI m n A x s0 0 s0 V := by
  have e1 : tm m m V = 1 := by
    funext i l
    rw [Matrix.one_apply]
    show V i l = _
    rw [hV i l i.2 l.2]
    simp only [Fin.ext_iff]
  refine ⟨by rw [e1]; exact interp_zero _ _, by rw [e1]; exact Pivots.one _, fun i l hi hl k hk => ?_⟩
  rw [hV i l hi hl]
  split_ifs
  · rw [coeff_one, if_neg (by omega)]
  · rw [coeff_zero]

theorem GoodI.stepAt (h : GoodI m n A x s0 d s V) {T : Finset (Fin m)} {κ : Fin m → Fin m → F}
    (hst : KStepAt (x d) (tm m n fun i j => residI m V A x d i j) (fun i : Fin m => s i) (fun i : Fin m => s' i) (tm m m V) (tm m m V') T κ) :
    GoodI m n A x s0 (d + 1) s' V' := by
  rw [← residI_eq] at hst
  refine ⟨interp_step hst h.gen, hst.pivots h.piv, fun i l hi hl k hk => ?_⟩
  exact hst.deg (d := d) (fun i l k hk => h.deg i l i.2 l.2 k hk) ⟨i, hi⟩ ⟨l, hl⟩ k hk

/-- The usual case. -/
theorem GoodI.step {R : Nat → Nat → F} {b : Base F}
    (h : GoodI m n A x s0 d s V) (hR : ∀ i j, i < m → j < n → R i j = residI m V A x d i j) (hb : BaseOk m n R s k b)
    (hp : ∀ i, i < k → s' (b.piv.getD (b.rows.getD i 0) 0) = s (b.piv.getD (b.rows.getD i 0) 0) ∧
      ∀ l, l < m → V' (b.piv.getD (b.rows.getD i 0) 0) l = ∑ t ∈ Finset.range m, C (b.kerbas.e (i, t)) * V t l)
    (hn : ∀ t, t < m → (∀ i, i < k → b.piv.getD (b.rows.getD i 0) 0 ≠ t) → s' t = s t + 1 ∧
      ∀ l, l < m → V' t l = (X - C (x d)) * V t l) :
    GoodI m n A x s0 (d + 1) s' V' := by
  classical
  generalize hpv : (fun i => b.piv.getD (b.rows.getD i 0) 0) = pv at *
  have hpve : ∀ i, b.piv.getD (b.rows.getD i 0) 0 = pv i := fun i => by rw [← hpv]
  have hlt : ∀ i, i < k → pv i < m := fun i hi => by rw [← hpve]; exact hb.lt _ (hb.rows i hi)
  have hmono : ∀ i j, i < j → j < k → pv i < pv j := fun i j hij hj => by rw [← hpve, ← hpve]; exact hb.mono i j hij hj
  have hinj : ∀ i j, i < k → j < k → pv i = pv j → i = j := by
    intro i j hi hj e
    rcases lt_trichotomy i j with h1 | h1 | h1
    · have := hmono i j h1 hj; omega
    · exact h1
    · have := hmono j i h1 hi; omega
  simp only [hpve] at hp hn
  have hne : ∀ i, i < k → b.kerbas.e (i, pv i) ≠ 0 := fun i hi => by rw [← hpve]; exact hb.ne i hi
  have hlex : ∀ i l, i < k → l < m → l ≠ pv i → b.kerbas.e (i, l) ≠ 0 → Lex s l (pv i) := fun i l hi hl => by
    rw [← hpve]; exact hb.lex i l hi hl
  set T : Finset (Fin m) := Finset.univ.filter fun t => ∀ i, i < k → pv i ≠ t with hT
  have hex : ∀ t : Fin m, ∃ i, t ∉ T → i < k ∧ pv i = t := by
    intro t
    by_cases ht : t ∈ T
    · exact ⟨0, fun h => absurd ht h⟩
    · rw [hT, Finset.mem_filter] at ht
      push Not at ht
      obtain ⟨i, h1, h2⟩ := ht (Finset.mem_univ t)
      exact ⟨i, fun _ => ⟨h1, h2⟩⟩
  choose idx hidx using hex
  have hmem : ∀ i (hi : i < k), (⟨pv i, hlt i hi⟩ : Fin m) ∉ T := by
    intro i hi hm
    rw [hT, Finset.mem_filter] at hm
    exact hm.2 i hi rfl
  refine h.stepAt (T := T) (κ := fun t l => b.kerbas.e (idx t, l)) ?_
  constructor
  · intro t ht j
    obtain ⟨h1, h2⟩ := hidx t ht
    have := (hb.spans fun l => b.kerbas.e (idx t, l)).2 ⟨fun r => if r = idx t then 1 else 0, fun l _ => by
      dsimp only
      rw [Finset.sum_eq_single (idx t) (fun r _ hr => by rw [if_neg hr, zero_mul])
        fun hr => absurd (Finset.mem_range.2 h1) hr, if_pos rfl, one_mul]⟩ j j.2
    rw [Finset.sum_range] at this
    rw [← this]
    exact Finset.sum_congr rfl fun l _ => by rw [hR l j l.2 j.2]; rfl
  · intro ν hν
    obtain ⟨c, hc⟩ := (hb.spans fun l => if hl : l < m then ν ⟨l, hl⟩ else 0).1 (fun j hj => by
      rw [Finset.sum_range, ← hν ⟨j, hj⟩]
      exact Finset.sum_congr rfl fun l _ => by rw [dif_pos l.2, hR l j l.2 hj]; rfl)
    refine ⟨fun t => c (idx t), fun l => ?_⟩
    have := hc l l.2
    rw [dif_pos l.2] at this
    rw [this]
    refine Finset.sum_bij (fun r hr => (⟨pv r, hlt r (Finset.mem_range.1 hr)⟩ : Fin m)) (fun r hr => ?_) (fun r hr r' hr' e => ?_)
      (fun t ht => ?_) fun r hr => ?_
    · exact Finset.mem_compl.2 (hmem r (Finset.mem_range.1 hr))
    · exact hinj r r' (Finset.mem_range.1 hr) (Finset.mem_range.1 hr') (Fin.mk.inj e)
    · obtain ⟨h1, h2⟩ := hidx t (Finset.mem_compl.1 ht)
      exact ⟨idx t, Finset.mem_range.2 h1, Fin.ext h2⟩
    · have hr' := Finset.mem_range.1 hr
      obtain ⟨h1, h2⟩ := hidx _ (hmem r hr')
      have e := hinj _ _ h1 hr' h2
      dsimp only
      rw [e]
  · intro t ht
    obtain ⟨h1, h2⟩ := hidx t ht
    have := hne _ h1
    rwa [h2] at this
  · intro t ht l hl hz
    obtain ⟨h1, h2⟩ := hidx t ht
    have := hlex _ l h1 l.2 (by rw [h2]; exact fun e => hl (Fin.ext e)) hz
    rw [h2] at this
    exact this
  · intro t ht l
    rw [hT, Finset.mem_filter] at ht
    exact (hn t t.2 ht.2).2 l l.2
  · intro t ht l
    obtain ⟨h1, h2⟩ := hidx t ht
    have := (hp _ h1).2 l l.2
    rw [h2, Finset.sum_range] at this
    exact this
  · intro t ht
    rw [hT, Finset.mem_filter] at ht
    exact (hn t t.2 ht.2).1
  · intro t ht
    obtain ⟨h1, h2⟩ := hidx t ht
    have := (hp _ h1).1
    rwa [h2] at this

/-- The kernel is zero. -/
theorem GoodI.zero {R X' : Nat → Nat → F} (h : GoodI m n A x s0 d s V) (hR : ∀ i j, i < m → j < n → R i j = residI m V A x d i j)
    (hs : Spans m n R 0 X') (hs' : ∀ i, i < m → s' i = s i + 1) (hV : ∀ i l, i < m → l < m → V' i l = (X - C (x d)) * V i l) :
    GoodI m n A x s0 (d + 1) s' V' := by
  have hz : ∀ ν : Fin m → F, (∀ j : Fin n, ∑ l, ν l * (tm m n fun i j => residI m V A x d i j) l j = 0) → ν = 0 := by
    intro ν hν
    obtain ⟨c, hc⟩ := (hs fun l => if hl : l < m then ν ⟨l, hl⟩ else 0).1 (fun j hj => by
      rw [Finset.sum_range, ← hν ⟨j, hj⟩]
      exact Finset.sum_congr rfl fun l _ => by rw [dif_pos l.2, hR l j l.2 hj]; rfl)
    funext l
    have := hc l l.2
    rw [dif_pos l.2, Finset.range_zero, Finset.sum_empty] at this
    exact this
  have hst := KStepAt.all (a := x d) (s := fun i : Fin m => s i) (P := tm m m V) hz
  have e1 : tm m m V' = fun i l => (X - C (x d)) * tm m m V i l := by funext i l; exact hV i l i.2 l.2
  have e2 : (fun i : Fin m => s' i) = fun i : Fin m => s i + 1 := by funext i; exact hs' i i.2
  rw [← e1, ← e2] at hst
  exact h.stepAt hst

/-- The residual is zero. -/
theorem GoodI.full (h : GoodI m n A x s0 d s V) (hR : ∀ i j, i < m → j < n → residI m V A x d i j = 0) : GoodI m n A x s0 (d + 1) s V :=
  ⟨interp_full h.gen fun i j => by rw [residI_eq]; exact hR i j i.2 j.2, h.piv, fun i l hi hl k hk => h.deg i l hi hl k (by omega)⟩

/-- The scaling of a matrix does not change its left kernel. -/
theorem Spans.scale {m n k : Nat} {R R' X' : Nat → Nat → F} {c : F} (hc : c ≠ 0) (hR : ∀ i j, i < m → j < n → R i j = c * R' i j)
    (h : Spans m n R k X') : Spans m n R' k X' := by
  intro v
  rw [← h v]
  refine forall_congr' fun j => forall_congr' fun hj => ?_
  have : ∑ l ∈ Finset.range m, v l * R l j = c * ∑ l ∈ Finset.range m, v l * R' l j := by
    rw [Finset.mul_sum]
    exact Finset.sum_congr rfl fun l hl => by rw [hR l j (Finset.mem_range.1 hl) hj]; ring
  rw [this, mul_eq_zero, or_iff_right hc]

theorem BaseOk.scale {m n k : Nat} {R R' : Nat → Nat → F} {s : Nat → Int} {b : Base F} {c : F} (hc : c ≠ 0)
    (hR : ∀ i j, i < m → j < n → R i j = c * R' i j) (h : BaseOk m n R s k b) : BaseOk m n R' s k b :=
  { h with spans := Spans.scale hc hR h.spans }

/-- Pivots on the diagonal, in the terms of the specification. -/
theorem GoodI.minInt {P : PMat F[X]} (hr : P.rows = m) (hc : P.cols = m) (h : GoodI m n A x s0 d s fun i j => P.e (i, j)) :
    IsMinInt (mats m n A) x d s0 P s := by
  have key : ∀ i, i < m → PivotLower m s0 (fun j => P.e (i, j)) i (s i - s0 i).toNat ∧
      ShiftedDegree m s0 (fun j => P.e (i, j)) (s i) ∧ s0 i ≤ s i := by
    intro i hi
    have hrow := h.piv.row ⟨i, hi⟩
    have hge : s0 i ≤ s i := hrow.ge
    have hlead : (P.e (i, i)).coeff (s i - s0 i).toNat ≠ 0 := hrow.lead
    have hne : P.e (i, i) ≠ 0 := by intro e; rw [e] at hlead; exact hlead (by simp)
    have hle : ∀ j, j < m → P.e (i, j) ≠ 0 → ((P.e (i, j)).natDegree : Int) + s0 j ≤ s i := fun j hj hn =>
      degLE_iff.1 (hrow.le ⟨j, hj⟩) hn
    have hdeg : (P.e (i, i)).natDegree = (s i - s0 i).toNat := by
      have h1 := hle i hi hne
      have h2 := le_natDegree_of_ne_zero hlead
      omega
    refine ⟨⟨hi, hne, hdeg, fun j hj hn => ?_, fun j hj hij hn => ?_⟩, ⟨hle, i, hi, hne, ?_⟩, hge⟩
    · have := hle j hj hn; omega
    · have : ((P.e (i, j)).natDegree : Int) + s0 j ≤ s i - 1 := degLE_iff.1 (hrow.after ⟨j, hj⟩ hij) hn
      omega
    · omega
  refine ⟨hr, hc, h.gen.isInterpolantBasis, ⟨fun i => i, _, fun i hi => (key i hi).1, fun i j hij _ => hij⟩, fun i hi => (key i hi).1,
    fun i hi => (key i hi).2.1, fun i hi => (key i hi).2.2, ?_⟩
  have := (deg_lt_iff P (d + 1)).2 fun i j hi hj k hk => h.deg i j (hr ▸ hi) (hc ▸ hj) k (by omega)
  push_cast at this
  omega

end PML.Ntl.Intbas
