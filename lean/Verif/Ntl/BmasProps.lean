import Verif.Ntl.BmasModel
import Verif.Ntl.BmasSpec
import Verif.Ntl.StructLemmas
import Verif.Ntl.MbasisProps
import Verif.Ntl.SeqProps
import Verif.Ntl.KerbasProps
import Verif.Ntl.SeqCheckProps

/-!
# C111: cancelling polynomials of sequences by approximant bases
-/

namespace PML.Ntl.Bmas

open Polynomial PML.Ntl.Utils PML.Ntl.Inv PML.Ntl.Solve PML.Ntl.Mbasis PML.Ntl.Seq PML.Approx.Spec
open PML.Ntl.Struct (loopOut loopOut_inv)

variable {F : Type} [Field F] [DecidableEq F]

/-! ### The loops -/

theorem rowPoly_coeff (e : Nat) (P : PMat F[X]) (r c : Nat) : (rowPoly e P r).coeff c = if c ≤ e then P.e (r, c) else 0 := by
  have key : ∀ n, (forN n (fun c (res : Polynomial F[X]) => res + C (P.e (r, c)) * X ^ c) 0).coeff c = if c < n then P.e (r, c) else 0 := by
    intro n
    induction n with
    | zero => simp [forN]
    | succ n ih =>
      show (forN n _ 0 + C (P.e (r, n)) * X ^ n).coeff c = _
      rw [coeff_add, ih, coeff_C_mul_X_pow]
      by_cases h1 : c = n
      · subst h1
        simp
      · by_cases h2 : c < n
        · rw [if_pos h2, if_neg h1, if_pos (by omega), add_zero]
        · rw [if_neg h2, if_neg h1, if_neg (by omega), add_zero]
  unfold rowPoly
  rw [key]
  simp only [Nat.lt_succ_iff]

theorem rowPoly_deg (e : Nat) (P : PMat F[X]) (r : Nat) : (rowPoly e P r).natDegree ≤ e := by
  rw [natDegree_le_iff_coeff_eq_zero]
  intro c hc
  rw [rowPoly_coeff, if_neg (by omega)]

theorem appendRows_eq (e : Nat) (P : PMat F[X]) (gens : List (Polynomial F[X])) : appendRows e P gens = gens ++ (List.range (e + 1)).map (rowPoly e P) := by
  have key : ∀ n, forN n (fun r gens => gens ++ [rowPoly e P r]) gens = gens ++ (List.range n).map (rowPoly e P) := by
    intro n
    induction n with
    | zero => simp [forN]
    | succ n ih =>
      show forN n _ gens ++ [rowPoly e P n] = _
      rw [ih, List.range_succ, List.map_append, List.append_assoc]
      rfl
  exact key _

theorem getD_rows (e : Nat) (P : PMat F[X]) {t : Nat} (ht : t < e + 1) : ((List.range (e + 1)).map (rowPoly e P)).getD t 0 = rowPoly e P t := by
  simp [List.getD, ht]

theorem rd_get {α : Type} {v : List α} {i : Nat} (h : i < v.length) (d : α) : Seq.rd v (i : Int) = .ok (v.getD i d) := by
  unfold Seq.rd
  rw [if_neg (by omega)]
  simp [List.getD, h]

theorem hankel_ok (S : List F[X]) (n : Nat) (h : 2 * n ≤ S.length) : ∃ T, hankel S n = .ok T ∧ ∀ r c, r < n + 1 → c < n → T (r, c) = S.getD (c + r) 0 := by
  refine loopOut_inv (fun k (T : Nat × Nat → F[X]) => ∀ r c, r < n + 1 → c < k → T (r, c) = S.getD (c + r) 0) (fun r c _ hc => absurd hc (Nat.not_lt_zero _)) ?_
  intro k T hk hT
  obtain ⟨T', e, h1, h2⟩ := loopOut_inv (s := T) (f := fun r T => andThen (rd S (k + r : Nat)) fun x => .ok (write (r, k) x T))
    (fun m (T' : Nat × Nat → F[X]) => (∀ r, r < m → T' (r, k) = S.getD (k + r) 0) ∧ ∀ r c, c ≠ k → T' (r, c) = T (r, c)) (k := n + 1)
    ⟨fun r hr => absurd hr (Nat.not_lt_zero _), fun _ _ _ => rfl⟩ (fun m T' hm ⟨g1, g2⟩ => by
      refine ⟨write (m, k) (S.getD (k + m) 0) T', ?_, fun r hr => ?_, fun r c hc => ?_⟩
      · rw [rd_get (by omega) 0]
        rfl
      · unfold write
        by_cases hrm : r = m
        · rw [hrm, Function.update_self]
        · rw [Function.update_of_ne (by simp [hrm]), g1 r (by omega)]
      · unfold write
        rw [Function.update_of_ne (by simp [hc]), g2 r c hc])
  refine ⟨T', e, fun r c hr hc => ?_⟩
  by_cases hck : c = k
  · rw [hck, h1 r hr]
  · rw [h2 r c hck, hT r c hr (by omega)]

theorem mosaic_ok (S : List (List F[X])) (e n : Nat) (h : 2 * e ≤ S.length) (hv : ∀ i, i < 2 * e → n ≤ (S.getD i []).length) :
    ∃ H, mosaic S e n = .ok H ∧ ∀ r c s, r < e + 1 → c < e → s < n → H (r, c + s * e) = (S.getD (c + r) []).getD s 0 := by
  have sep : ∀ {c c' s s' : Nat}, c < e → c' < e → c + s * e = c' + s' * e → c = c' ∧ s = s' := by
    intro c c' s s' hc hc' heq
    have h1 : (c + s * e) / e = s := by rw [Nat.add_mul_div_right _ _ (by omega), Nat.div_eq_of_lt hc, Nat.zero_add]
    have h2 : (c' + s' * e) / e = s' := by rw [Nat.add_mul_div_right _ _ (by omega), Nat.div_eq_of_lt hc', Nat.zero_add]
    have hs : s = s' := by rw [← h1, heq, h2]
    subst hs
    exact ⟨by omega, rfl⟩
  refine loopOut_inv (fun k (H : Nat × Nat → F[X]) => ∀ r c s, r < e + 1 → c < e → s < k → H (r, c + s * e) = (S.getD (c + r) []).getD s 0)
    (fun r c s _ _ hs => absurd hs (Nat.not_lt_zero _)) ?_
  intro k H hk hH
  obtain ⟨H', E', h1, h2⟩ := loopOut_inv (s := H) (f := fun c H => loopOut (e + 1) (fun r H =>
      andThen (rd S (c + r : Nat)) fun v => andThen (rd v (k : Nat)) fun x => .ok (write (r, c + k * e) x H)) H)
    (fun m (H' : Nat × Nat → F[X]) => (∀ r c, r < e + 1 → c < m → H' (r, c + k * e) = (S.getD (c + r) []).getD k 0) ∧
      ∀ r c s, c < e → s ≠ k → H' (r, c + s * e) = H (r, c + s * e)) (k := e)
    ⟨fun r c _ hc => absurd hc (Nat.not_lt_zero _), fun _ _ _ _ _ => rfl⟩ (fun m H1 hm ⟨g1, g2⟩ => by
      obtain ⟨H2, E2, f1, f2⟩ := loopOut_inv (s := H1) (f := fun r H => andThen (rd S (m + r : Nat)) fun v => andThen (rd v (k : Nat)) fun x => .ok (write (r, m + k * e) x H))
        (fun l (H2 : Nat × Nat → F[X]) => (∀ r, r < l → H2 (r, m + k * e) = (S.getD (m + r) []).getD k 0) ∧
          ∀ r j, j ≠ m + k * e → H2 (r, j) = H1 (r, j)) (k := e + 1) ⟨fun r hr => absurd hr (Nat.not_lt_zero _), fun _ _ _ => rfl⟩ (fun l H2 hl ⟨g3, g4⟩ => by
            refine ⟨write (l, m + k * e) ((S.getD (m + l) []).getD k 0) H2, ?_, fun r hr => ?_, fun r j hj => ?_⟩
            · rw [rd_get (by omega) []]
              show andThen (rd (S.getD (m + l) []) (k : Nat)) _ = _
              rw [rd_get (by have := hv (m + l) (by omega); omega) 0]
              rfl
            · unfold write
              by_cases hrl : r = l
              · rw [hrl, Function.update_self]
              · rw [Function.update_of_ne (by simp [hrl]), g3 r (by omega)]
            · unfold write
              rw [Function.update_of_ne (by simp [hj]), g4 r j hj])
      refine ⟨H2, E2, fun r c hr hc => ?_, fun r c s hc hs => ?_⟩
      · by_cases hcm : c = m
        · rw [hcm, f1 r hr]
        · rw [f2 r _ (by omega), g1 r c hr (by omega)]
      · rw [f2 r _ (fun he => hs (sep hc hm he).2), g2 r c s hc hs])
  refine ⟨H', E', fun r c s hr hc hs => ?_⟩
  by_cases hsk : s = k
  · rw [hsk, h1 r c hr hc]
  · rw [h2 r c s hc hsk, hH r c s hr hc (by omega)]

/-! ### The basis -/

/-- The polynomials of the rows are a basis of those whose coefficients are approximants. -/
theorem rows_span {e k d : Nat} {f : Nat × Nat → F[X]} {sh : Nat → Int} {P : PMat F[X]} {t : Nat → Int} (hP : IsMinBasis ⟨e + 1, k, f⟩ d sh P t)
    (h : Polynomial F[X]) (hh : h.natDegree ≤ e) :
    (∀ j, j < k → X ^ d ∣ ∑ i ∈ Finset.range (e + 1), h.coeff i * f (i, j)) ↔ ∃ q : Nat → F[X], h = ∑ t ∈ Finset.range (e + 1), C (q t) * rowPoly e P t := by
  have hb := hP.basis.generates fun i => h.coeff i
  have h1 : IsApproximant (mat (e + 1) k ⟨e + 1, k, f⟩) d (fun i : Fin (e + 1) => h.coeff i) ↔ ∀ j, j < k → X ^ d ∣ ∑ i ∈ Finset.range (e + 1), h.coeff i * f (i, j) := by
    have hs : ∀ j : Fin k, Matrix.vecMul (fun i : Fin (e + 1) => h.coeff i) (mat (e + 1) k ⟨e + 1, k, f⟩) j = ∑ i ∈ Finset.range (e + 1), h.coeff i * f (i, j) := by
      intro j
      rw [Finset.sum_range]
      rfl
    constructor
    · intro H j hj
      rw [← hs ⟨j, hj⟩]
      exact H ⟨j, hj⟩
    · intro H j
      rw [hs j]
      exact H j j.2
  rw [← h1]
  refine hb.trans ⟨?_, ?_⟩
  · rintro ⟨u, hu⟩
    refine ⟨fun t => if ht : t < e + 1 then u ⟨t, ht⟩ else 0, ?_⟩
    ext1 c
    simp only [finsetSum_coeff, coeff_C_mul, rowPoly_coeff]
    by_cases hc : c ≤ e
    · have := congrFun hu ⟨c, by show c < e + 1; omega⟩
      rw [Finset.sum_range]
      refine Eq.trans (show h.coeff c = _ from this) ?_
      show ∑ i : Fin (e + 1), u i * P.e (i, c) = _
      refine Finset.sum_congr rfl fun i _ => ?_
      rw [dif_pos i.2, if_pos hc]
    · rw [coeff_eq_zero_of_natDegree_lt (by omega)]
      simp [hc]
  · rintro ⟨q, hq⟩
    refine ⟨fun t => q t, ?_⟩
    funext c
    show h.coeff c = _
    rw [hq]
    simp only [finsetSum_coeff, coeff_C_mul, rowPoly_coeff]
    rw [Finset.sum_range]
    refine Finset.sum_congr rfl fun i _ => ?_
    rw [if_pos (by have : (c : Nat) < e + 1 := c.2; omega)]
    rfl

theorem rows_free {e k d : Nat} {f : Nat × Nat → F[X]} {sh : Nat → Int} {P : PMat F[X]} {t : Nat → Int} (hP : IsMinBasis ⟨e + 1, k, f⟩ d sh P t)
    (q : Nat → F[X]) (hq : ∑ t ∈ Finset.range (e + 1), C (q t) * rowPoly e P t = 0) : ∀ t, t < e + 1 → q t = 0 := by
  have hv : Matrix.vecMul (fun i : Fin (e + 1) => q i) (mat (e + 1) (e + 1) P) = 0 := by
    funext c
    have h1 := congrArg (fun g => g.coeff (c : Nat)) hq
    simp only [finsetSum_coeff, coeff_C_mul, rowPoly_coeff, coeff_zero] at h1
    rw [Finset.sum_range] at h1
    show ∑ i : Fin (e + 1), q i * P.e (i, c) = 0
    rw [← h1]
    refine Finset.sum_congr rfl fun i _ => ?_
    rw [if_pos (by have := c.2; omega)]
  have := Matrix.eq_zero_of_vecMul_eq_zero hP.basis.nonsingular hv
  intro t ht
  exact congrFun this ⟨t, ht⟩

omit [DecidableEq F] in
theorem entry_upto {e : Nat} {h : Polynomial F[X]} (hh : h.natDegree ≤ e) (σ : Nat → F[X]) (c : Nat) :
    entry h σ c = ∑ i ∈ Finset.range (e + 1), h.coeff i * σ (c + i) := by
  unfold entry
  refine Finset.sum_subset (fun i hi => Finset.mem_range.2 (by have := Finset.mem_range.1 hi; omega)) fun i _ hi => ?_
  rw [coeff_eq_zero_of_natDegree_lt (by rw [Finset.mem_range] at hi; omega), zero_mul]

theorem deg_entry {P : PMat F[X]} {d : Nat} (h : Utils.deg P ≤ d) {i j : Nat} (hi : i < P.rows) (hj : j < P.cols) : (P.e (i, j)).natDegree ≤ d := by
  by_cases h0 : P.e (i, j) = 0
  · rw [h0]
    simp
  · have := Kerbas.natDegree_le_deg P ⟨i, hi⟩ ⟨j, hj⟩ h0
    have h2 : ((P.e (i, j)).natDegree : Int) ≤ Utils.deg P := this
    omega

omit [DecidableEq F] in
theorem combination {e : Nat} {L : List (Polynomial F[X])} {t : Nat} (ht : t < e + 1) :
    L.getD t 0 = ∑ u ∈ Finset.range (e + 1), C (if u = t then (1 : F[X]) else 0) * L.getD u 0 := by
  rw [Finset.sum_eq_single t]
  · simp
  · intro u _ hu
    simp [hu]
  · intro h
    exact absurd (Finset.mem_range.2 ht) h

/-- The list of the polynomials of the rows is a basis. -/
theorem rows_basis {e k d : Nat} {f : Nat × Nat → F[X]} {sh : Nat → Int} {P : PMat F[X]} {t : Nat → Int} (hP : IsMinBasis ⟨e + 1, k, f⟩ d sh P t)
    {K : Polynomial F[X] → Prop} (hK : ∀ h : Polynomial F[X], h.natDegree ≤ e → (K h ↔ ∀ j, j < k → X ^ d ∣ ∑ i ∈ Finset.range (e + 1), h.coeff i * f (i, j))) :
    IsBasisUpTo e K ((List.range (e + 1)).map (rowPoly e P)) := by
  have hs : ∀ q : Nat → F[X], ∑ t ∈ Finset.range (e + 1), C (q t) * ((List.range (e + 1)).map (rowPoly e P)).getD t 0 = ∑ t ∈ Finset.range (e + 1), C (q t) * rowPoly e P t :=
    fun q => Finset.sum_congr rfl fun t ht => by rw [getD_rows e P (Finset.mem_range.1 ht)]
  refine ⟨by simp, fun g hg => ?_, fun h hh => ?_, fun q hq => ?_⟩
  · obtain ⟨r, _, rfl⟩ := List.mem_map.1 hg
    exact rowPoly_deg e P r
  · rw [hK h hh, rows_span hP h hh]
    simp only [hs]
  · rw [hs] at hq
    exact rows_free hP q hq

/-- With the shift `(0, d, 2d, ...)` the basis is triangular. -/
theorem rows_triangular {e k d : Nat} {f : Nat × Nat → F[X]} {P : PMat F[X]} {t : Nat → Int} (hd : 0 < d)
    (hP : IsMinBasis ⟨e + 1, k, f⟩ d (fun i => (i : Int) * d) P t) {r : Nat} (hr : r < e + 1) : (rowPoly e P r).natDegree = r := by
  have hpv := hP.pivot r hr
  have hδ : (P.e (r, r)).natDegree ≤ d := deg_entry hP.deg (by rw [hP.rows]; exact hr) (by rw [hP.cols]; exact hr)
  refine le_antisymm ?_ (le_natDegree_of_ne_zero ?_)
  · rw [natDegree_le_iff_coeff_eq_zero]
    intro c hc
    rw [rowPoly_coeff]
    split_ifs with hce
    · by_contra hne
      have h1 := hpv.after c (by show c < e + 1; omega) hc hne
      have h2 := hpv.degree
      have h3 : ((P.e (r, c)).natDegree : Int) + (c : Int) * d < ((P.e (r, r)).natDegree : Nat) + (r : Int) * d := by
        rw [h2]
        exact h1
      have h4 : ((r : Int) + 1) * d ≤ (c : Int) * d := mul_le_mul_of_nonneg_right (by omega) (by omega)
      have h5 : ((r : Int) + 1) * d = r * d + d := by ring
      omega
    · rfl
  · rw [rowPoly_coeff, if_pos (by omega)]
    exact hpv.nonzero

/-! ### C111 -/

section
variable {N : Nt F} {mid : PMat F[X] → PMat F[X] → Nat → Nat → Option (PMat F[X])} {mul : PMat F[X] → PMat F[X] → Option (PMat F[X])} {thr : Nat}

/-- C111: for a sequence `σ` of polynomials of which `len` terms are given, and an order `d > 0`, `berlekamp_massey_pmbasis` appends a basis of
    the polynomials of degree at most `len/2` in `Y` that cancel, modulo `X^d`, the first `len/2` entries.
    Missing: the order 0 (`C111_order_zero_undefined`). -/
theorem C111_single_partial (hN : N.Ok) (hmid : MiddleOk mid) (hmul : MulOk mul) (hthr : 0 < thr) (d len : Nat) (hd : 0 < d) (σ : Nat → F[X])
    (gens : List (Polynomial F[X])) :
    ∃ L, single N mid mul thr d (firstTerms len σ) gens = .ok (gens ++ L) ∧ IsBasisUpTo (len / 2) (CancelsAll d (len / 2) 1 fun _ => σ) L := by
  have hl : (firstTerms len σ).length = len := by simp [firstTerms]
  obtain ⟨T, hT, hv⟩ := hankel_ok (firstTerms len σ) (len / 2) (by rw [hl]; omega)
  obtain ⟨P, t, e, hP⟩ := C76_pmbasis_partial hN hmid hmul hthr ⟨0, 0, fun _ => 0⟩ ⟨len / 2 + 1, len / 2, T⟩ d (fun _ => 0) (Nat.succ_pos _) (.inl hd)
  refine ⟨_, ?_, rows_basis hP fun h hh => ?_⟩
  · unfold single
    rw [hl]
    dsimp only
    rw [hT]
    show andThen (pmbasis N mid mul thr d ⟨0, 0, fun _ => 0⟩ ⟨len / 2 + 1, len / 2, T⟩ d fun _ => 0) _ = _
    rw [e]
    show Out.ok (appendRows _ P gens) = _
    rw [appendRows_eq]
  · have hs : ∀ j, j < len / 2 → ∑ i ∈ Finset.range (len / 2 + 1), h.coeff i * T (i, j) = entry h σ j := by
      intro j hj
      rw [entry_upto hh]
      refine Finset.sum_congr rfl fun i hi => ?_
      have hi' := Finset.mem_range.1 hi
      rw [hv i j hi' hj]
      simp [firstTerms, List.getD, show j + i < len by omega]
    constructor
    · intro H j hj
      rw [hs j hj]
      exact H 0 Nat.one_pos j hj
    · intro H s _ c hc
      rw [← hs c hc]
      exact H c hc

theorem vectors_run (hN : N.Ok) (hmid : MiddleOk mid) (hmul : MulOk mul) (hthr : 0 < thr) (shift : Nat → Int) (d len n : Nat) (hd : 0 < d) (hlen : 0 < len)
    (σ : Nat → Nat → F[X]) (gens : List (Polynomial F[X])) :
    ∃ (H : Nat × Nat → F[X]) (P : PMat F[X]) (t : Nat → Int), IsMinBasis ⟨len / 2 + 1, len / 2 * n, H⟩ d shift P t ∧
      vectors N mid mul thr shift d (vectorSeq len n σ) gens = .ok (gens ++ (List.range (len / 2 + 1)).map (rowPoly (len / 2) P)) ∧
      IsBasisUpTo (len / 2) (CancelsAll d (len / 2) n σ) ((List.range (len / 2 + 1)).map (rowPoly (len / 2) P)) := by
  have hl : (vectorSeq len n σ).length = len := by simp [vectorSeq]
  have hg : ∀ i, i < len → (vectorSeq len n σ).getD i [] = tab n fun c => σ c i := by
    intro i hi
    simp [vectorSeq, List.getD, hi]
  obtain ⟨H, hH, hv⟩ := mosaic_ok (vectorSeq len n σ) (len / 2) n (by rw [hl]; omega) (fun i hi => by rw [hg i (by omega)]; simp [tab])
  obtain ⟨P, t, e, hP⟩ := C76_pmbasis_partial hN hmid hmul hthr ⟨0, 0, fun _ => 0⟩ ⟨len / 2 + 1, len / 2 * n, H⟩ d shift (Nat.succ_pos _) (.inl hd)
  refine ⟨H, P, t, hP, ?_, rows_basis hP fun h hh => ?_⟩
  · unfold vectors
    rw [hl]
    dsimp only
    rw [show Seq.rd (vectorSeq len n σ) 0 = .ok (tab n fun c => σ c 0) from rd_vectorSeq σ hlen]
    show andThen (mosaic (vectorSeq len n σ) (len / 2) (tab n fun c => σ c 0).length) _ = _
    rw [show (tab n fun c => σ c 0).length = n by simp [tab], hH]
    show andThen (pmbasis N mid mul thr d ⟨0, 0, fun _ => 0⟩ ⟨len / 2 + 1, len / 2 * n, H⟩ d shift) _ = _
    rw [e]
    show Out.ok (appendRows _ P gens) = _
    rw [appendRows_eq]
  · have hs : ∀ s c, s < n → c < len / 2 → ∑ i ∈ Finset.range (len / 2 + 1), h.coeff i * H (i, c + s * (len / 2)) = entry h (σ s) c := by
      intro s c hs hc
      rw [entry_upto hh]
      refine Finset.sum_congr rfl fun i hi => ?_
      have hi' := Finset.mem_range.1 hi
      rw [hv i c s hi' hc hs, hg _ (by omega)]
      simp [tab, List.getD, hs]
    constructor
    · intro K j hj
      have hpos : 0 < len / 2 := by
        rcases Nat.eq_zero_or_pos (len / 2) with h0 | h0
        · rw [h0, Nat.zero_mul] at hj
          omega
        · exact h0
      have hdiv : j / (len / 2) < n := (Nat.div_lt_iff_lt_mul hpos).2 (by rwa [Nat.mul_comm])
      have h1 := hs (j / (len / 2)) (j % (len / 2)) hdiv (Nat.mod_lt _ hpos)
      rw [Nat.mod_add_div' j (len / 2)] at h1
      rw [h1]
      exact K _ hdiv _ (Nat.mod_lt _ hpos)
    · intro K s hsn c hc
      rw [← hs s c hsn hc]
      refine K _ ?_
      calc c + s * (len / 2) < len / 2 + s * (len / 2) := by omega
        _ = (s + 1) * (len / 2) := by ring
        _ ≤ n * (len / 2) := Nat.mul_le_mul_right _ hsn
        _ = len / 2 * n := Nat.mul_comm _ _

/-- C111: the same for a sequence of `len ≥ 1` vectors of `n` polynomials: a basis of the polynomials that cancel the first entries of all components.
    Missing: the order 0, no vector (`C111_empty_undefined`), vectors of different lengths. -/
theorem C111_vectors_partial (hN : N.Ok) (hmid : MiddleOk mid) (hmul : MulOk mul) (hthr : 0 < thr) (d len n : Nat) (hd : 0 < d) (hlen : 0 < len)
    (σ : Nat → Nat → F[X]) (gens : List (Polynomial F[X])) :
    ∃ L, vectors N mid mul thr (fun _ => 0) d (vectorSeq len n σ) gens = .ok (gens ++ L) ∧ IsBasisUpTo (len / 2) (CancelsAll d (len / 2) n σ) L := by
  obtain ⟨H, P, t, _, h2, h3⟩ := vectors_run hN hmid hmul hthr (fun _ => 0) d len n hd hlen σ gens
  exact ⟨_, h2, h3⟩

/-- C111: `berlekamp_massey_pmbasis_hnf` appends such a basis that is triangular: the element `t` has degree `t` in `Y`.
    Missing: as for `C111_vectors_partial`; the result is triangular but nothing is said of the degrees in `X` below the diagonal. -/
theorem C111_hnf_partial (hN : N.Ok) (hmid : MiddleOk mid) (hmul : MulOk mul) (hthr : 0 < thr) (d len n : Nat) (hd : 0 < d) (hlen : 0 < len)
    (σ : Nat → Nat → F[X]) (gens : List (Polynomial F[X])) :
    ∃ L, vectors N mid mul thr (fun i => (i : Int) * d) d (vectorSeq len n σ) gens = .ok (gens ++ L) ∧ IsBasisUpTo (len / 2) (CancelsAll d (len / 2) n σ) L ∧
      ∀ t, t < len / 2 + 1 → (L.getD t 0).natDegree = t := by
  obtain ⟨H, P, t, h1, h2, h3⟩ := vectors_run hN hmid hmul hthr (fun i => (i : Int) * d) d len n hd hlen σ gens
  refine ⟨_, h2, h3, fun u hu => ?_⟩
  rw [getD_rows _ _ hu]
  exact rows_triangular hd h1 hu

/-- C111, negation: with no vector at all, the first one is read. -/
theorem C111_empty_undefined (shift : Nat → Int) (d : Nat) (gens : List (Polynomial F[X])) : vectors N mid mul thr shift d [] gens = .ub := rfl

/-- C111, negation: with the order 0, a sequence of at most three polynomials makes `pmbasis` read the first entry of an empty vector. -/
theorem C111_order_zero_undefined (len : Nat) (hlen : len < 4) (σ : Nat → F[X]) (gens : List (Polynomial F[X])) :
    single N mid mul thr 0 (firstTerms len σ) gens = .ub := by
  have hl : (firstTerms len σ).length = len := by simp [firstTerms]
  obtain ⟨T, hT, hv⟩ := hankel_ok (firstTerms len σ) (len / 2) (by rw [hl]; omega)
  unfold single
  rw [hl]
  dsimp only
  rw [hT]
  show andThen (pmbasis N mid mul thr 0 ⟨0, 0, fun _ => 0⟩ ⟨len / 2 + 1, len / 2, T⟩ 0 fun _ => 0) _ = _
  rw [(C76_order_zero_fails N mid mul thr 0 _ ⟨len / 2 + 1, len / 2, T⟩ _ (by show len / 2 ≤ (len / 2 + 1) / 2 + 1; omega)).2]
  rfl

end

omit [DecidableEq F] in
theorem cancels_mul {d : Nat} {σ : Nat → F[X]} {g : Polynomial F[X]} (hg : ∀ i, X ^ d ∣ act σ i g) (c : Polynomial F[X]) : ∀ i, X ^ d ∣ act σ i (c * g) := by
  induction c using Polynomial.induction_on' with
  | add p q hp hq =>
    intro i
    rw [add_mul, map_add]
    exact dvd_add (hp i) (hq i)
  | monomial j a =>
    intro i
    rw [← C_mul_X_pow_eq_monomial, mul_assoc, mul_comm (X ^ j) g, act_C_mul, act_mul_X_pow]
    exact (hg _).mul_left _

omit [DecidableEq F] in
/-- When the sequences have a monic recurrence of degree at most `e` in common, a basis as above generates all polynomials that cancel them. -/
theorem annihilator {d e n : Nat} {σ : Nat → Nat → F[X]} {L : List (Polynomial F[X])} (hL : IsBasisUpTo e (CancelsAll d e n σ) L)
    (P : Polynomial F[X]) (hP : P.Monic) (hm : P.natDegree ≤ e) (hc : ∀ s, s < n → Cancels d (σ s) P) (h : Polynomial F[X]) :
    (∀ s, s < n → Cancels d (σ s) h) ↔ ∃ c : Nat → Polynomial F[X], h = ∑ t ∈ Finset.range (e + 1), c t * L.getD t 0 := by
  have hmem : ∀ t, t < e + 1 → L.getD t 0 ∈ L := by
    intro t ht
    have : t < L.length := by rw [hL.length]; exact ht
    simp [List.getD, this]
  constructor
  · intro hh
    have small : ∀ g : Polynomial F[X], g.natDegree ≤ e → (∀ s, s < n → ∀ i, X ^ d ∣ act (σ s) i g) → ∃ q : Nat → F[X], g = ∑ t ∈ Finset.range (e + 1), C (q t) * L.getD t 0 :=
      fun g hg hz => (hL.span g hg).1 fun s hs c _ => by rw [← act_entry]; exact hz s hs c
    have hPa : ∀ s, s < n → ∀ i, X ^ d ∣ act (σ s) i P := fun s hs i => by rw [act_entry]; exact hc s hs i
    obtain ⟨q1, h1⟩ := small P hm hPa
    have hrd : (h %ₘ P).natDegree ≤ e := by
      by_cases h1 : P = 1
      · rw [h1, modByMonic_one]
        simp
      · exact (natDegree_modByMonic_lt h hP h1).le.trans hm
    obtain ⟨q2, h2⟩ := small (h %ₘ P) hrd fun s hs i => by
      have e1 : h %ₘ P = h - (h /ₘ P) * P := by
        have := modByMonic_add_div h P
        rw [mul_comm] at this
        exact eq_sub_of_add_eq this
      rw [e1, map_sub]
      refine dvd_sub ?_ (cancels_mul (hPa s hs) _ i)
      rw [act_entry]
      exact hh s hs i
    refine ⟨fun t => C (q2 t) + (h /ₘ P) * C (q1 t), ?_⟩
    have e2 : h = h %ₘ P + (h /ₘ P) * P := by
      have := modByMonic_add_div h P
      rw [mul_comm P] at this
      exact this.symm
    calc h = h %ₘ P + (h /ₘ P) * P := e2
      _ = ∑ t ∈ Finset.range (e + 1), C (q2 t) * L.getD t 0 + (h /ₘ P) * ∑ t ∈ Finset.range (e + 1), C (q1 t) * L.getD t 0 := by rw [← h1, ← h2]
      _ = _ := ?_
    rw [Finset.mul_sum, ← Finset.sum_add_distrib]
    refine Finset.sum_congr rfl fun t _ => ?_
    ring
  · rintro ⟨c, rfl⟩ s hs i
    rw [← act_entry, map_sum]
    refine Finset.dvd_sum fun t ht => ?_
    have ht' := Finset.mem_range.1 ht
    refine cancels_mul (extend hP rfl (hc s hs) fun j hj => ?_) _ i
    rw [act_entry]
    exact (hL.span _ (hL.degree _ (hmem t ht'))).2 ⟨_, combination ht'⟩ s hs j (by omega)

section
variable {N : Nt F} {mid : PMat F[X] → PMat F[X] → Nat → Nat → Option (PMat F[X])} {mul : PMat F[X] → PMat F[X] → Option (PMat F[X])} {thr : Nat}

/-- C111: when `σ` has a monic recurrence modulo `X^d`, of degree at most half the number of terms given, the polynomials appended by
    `berlekamp_massey_pmbasis` generate all polynomials that cancel the whole sequence modulo `X^d`.  Missing: as for `C111_single_partial`. -/
theorem C111_single_annihilator_partial (hN : N.Ok) (hmid : MiddleOk mid) (hmul : MulOk mul) (hthr : 0 < thr) (d len : Nat) (hd : 0 < d) (σ : Nat → F[X])
    (gens : List (Polynomial F[X])) (P : Polynomial F[X]) (hP : P.Monic) (hm : P.natDegree ≤ len / 2) (hc : Cancels d σ P) :
    ∃ L, single N mid mul thr d (firstTerms len σ) gens = .ok (gens ++ L) ∧ L.length = len / 2 + 1 ∧
      ∀ h, Cancels d σ h ↔ ∃ c : Nat → Polynomial F[X], h = ∑ t ∈ Finset.range L.length, c t * L.getD t 0 := by
  obtain ⟨L, h1, h2⟩ := C111_single_partial hN hmid hmul hthr d len hd σ gens
  refine ⟨L, h1, h2.length, fun h => ?_⟩
  rw [h2.length, ← annihilator h2 P hP hm (fun _ _ => hc) h]
  exact ⟨fun H _ _ => H, fun H => H 0 Nat.one_pos⟩

/-- C111: the same for vectors, with a monic recurrence that all components have, and for both functions.  Missing: as for `C111_vectors_partial`. -/
theorem C111_vectors_annihilator_partial (hN : N.Ok) (hmid : MiddleOk mid) (hmul : MulOk mul) (hthr : 0 < thr) (shift : Nat → Int) (d len n : Nat) (hd : 0 < d)
    (hlen : 0 < len) (σ : Nat → Nat → F[X]) (gens : List (Polynomial F[X])) (P : Polynomial F[X]) (hP : P.Monic) (hm : P.natDegree ≤ len / 2)
    (hc : ∀ s, s < n → Cancels d (σ s) P) :
    ∃ L, vectors N mid mul thr shift d (vectorSeq len n σ) gens = .ok (gens ++ L) ∧ L.length = len / 2 + 1 ∧
      ∀ h, (∀ s, s < n → Cancels d (σ s) h) ↔ ∃ c : Nat → Polynomial F[X], h = ∑ t ∈ Finset.range L.length, c t * L.getD t 0 := by
  obtain ⟨H, Q, t, _, h1, h2⟩ := vectors_run hN hmid hmul hthr shift d len n hd hlen σ gens
  refine ⟨_, h1, h2.length, fun h => ?_⟩
  rw [h2.length]
  exact annihilator h2 P hP hm hc h

end

/-- The hypotheses of C111 are met: the contracts hold for some functions, and the powers of 2 have a monic recurrence. -/
example : (∃ N : Nt ℚ, N.Ok) ∧ (∃ mid : PMat ℚ[X] → PMat ℚ[X] → Nat → Nat → Option (PMat ℚ[X]), MiddleOk mid) ∧ (∃ mul, MulOk (F := ℚ) mul) ∧
    Cancels 3 (fun i => (2 : ℚ[X]) ^ i) (X - C 2 : Polynomial ℚ[X]) := by
  refine ⟨nt_exists, middleOk_exists, mulOk_exists, fun i => ?_⟩
  rw [entry_upto (e := 1) (by compute_degree)]
  simp [Finset.sum_range_succ, pow_succ]
  ring_nf
  simp

end PML.Ntl.Bmas
