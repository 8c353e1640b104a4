import Verif.Ntl.KerbasProps

/-!
# C81: what the functions on kernel bases do not do, and examples
-/

namespace PML.Ntl.Kerbas

open Polynomial PML.Ntl.Utils PML.Ntl.Inv PML.Ntl.Solve PML.Ntl.Forms PML.Ntl.Mbasis PML.Ntl.MatMul PML.Approx PML.Approx.Spec
  PML.Kernel PML.Kernel.Spec PML.Forms.Spec

set_option linter.unusedSectionVars false

variable {F : Type} [Field F] [DecidableEq F]

theorem degrees_eq {pmat : PMat F[X]} {l : List Int} (hl : l.length = pmat.rows)
    (h : ∀ i, i < pmat.rows → (∃ c, c < pmat.cols ∧ pmat.e (i, c) ≠ 0 ∧ ((pmat.e (i, c)).natDegree : Int) = l.getD i 0) ∧
      ∀ c, c < pmat.cols → ((pmat.e (i, c)).natDegree : Int) ≤ l.getD i 0) : degrees true pmat none = .ok l := by
  obtain ⟨d, z, h1, h2, -, -, h4⟩ := C78_degree true pmat none (fun l hl => by cases hl)
  change d.length = pmat.rows at h2
  rw [h1]
  congr 1
  refine List.ext_getElem (h2.trans hl.symm) fun i hi hi' => ?_
  have hir : i < pmat.rows := by omega
  obtain ⟨⟨c, hc, hne, heq⟩, hle⟩ := h i hir
  have h5 : ShiftedDegree pmat.cols (shiftOf none) (fun j => pmat.e (i, j)) (d.getD i 0) := (h4 i hir).2 fun hz => hne (hz c hc)
  have h6 := h5.le c hc hne
  obtain ⟨c', hc', -, h7⟩ := h5.attained
  have h8 := hle c' hc'
  simp only [shiftOf, add_zero] at h6 h7
  rw [← getD_eq 0 hi, ← getD_eq 0 hi']
  omega

/-- The part of the algorithm up to the basis. -/
theorem zls_main {mul : PMat F[X] → PMat F[X] → Option (PMat F[X])} {be : PMat F[X] → List Int → Nat → Out (Base F)} {fuel : Nat}
    {pmat : PMat F[X]} {shift rdeg : List Int} {mx diff order : Int} (h1 : ¬ pmat.rows = 1) (h2 : pmat.cols < pmat.rows)
    (h3 : degrees true pmat none = .ok rdeg) (h4 : maxElement rdeg = some mx) (h5 : mx ≠ -1) (h6 : 2 * pmat.cols ≤ pmat.rows)
    (h7 : minElement ((List.range pmat.rows).map fun i => shift.getD i 0 - rdeg.getD i 0) = some diff)
    (h8 : zlsOrder pmat.rows pmat.cols (shift.map fun x => x - diff) = order) :
    (be pmat (shift.map fun x => x - diff) order.toNat = .error → zls mul be (fuel + 1) pmat shift = .error) ∧
    ∀ P t res, be pmat (shift.map fun x => x - diff) order.toNat = .ok (.basis P t res) →
      ((((List.range pmat.rows).filter fun i => decide (t i < order)).map fun i => pdeg (P.e (i, i))).sum =
        (((List.range pmat.rows).filter fun i => !decide (t i < order)).map fun i => rdeg.getD i 0).sum ∨ pmat.cols = 1) →
      zls mul be (fuel + 1) pmat shift = .ok (rowsAt P ((List.range pmat.rows).filter fun i => decide (t i < order)),
        ((List.range pmat.rows).filter fun i => decide (t i < order)).map t) := by
  constructor
  · intro hb
    rw [zls]
    dsimp only
    rw [if_neg h1, if_neg (fun h => by omega), h3]
    show (match maxElement rdeg with | none => _ | some mx => _) = _
    rw [h4]
    dsimp only
    rw [if_neg h5, if_neg (by omega), h7]
    dsimp only
    rw [h8, hb]
    rfl
  · intro P t res hb hex
    rw [zls]
    dsimp only
    rw [if_neg h1, if_neg (fun h => by omega), h3]
    show (match maxElement rdeg with | none => _ | some mx => _) = _
    rw [h4]
    dsimp only
    rw [if_neg h5, if_neg (by omega), h7]
    dsimp only
    rw [h8, hb]
    show (if _ then _ else _) = _
    rw [if_pos]
    rcases hex with hex | hex
    · exact Or.inl hex
    · exact Or.inr (Or.inl hex)

/-- Two identity matrices of size 3, one above the other. -/
noncomputable def two3 : PMat F[X] := ⟨6, 3, fun ij => if ij.1 % 3 = ij.2 then 1 else 0⟩

theorem order_two3 : zlsOrder 6 3 [0, 0, 0, 0, 0, 30] = 21 := by
  unfold zlsOrder
  rw [List.mergeSort_of_pairwise (by decide)]
  decide

theorem degrees_two3 : degrees true (two3 : PMat F[X]) none = .ok [0, 0, 0, 0, 0, 0] := by
  have hle : ∀ i c, ((two3 : PMat F[X]).e (i, c)).natDegree = 0 := fun i c => by
    simp only [two3]
    split <;> simp
  refine degrees_eq rfl fun i hi => ⟨⟨i % 3, Nat.mod_lt _ (by decide), ?_, ?_⟩, fun c hc => ?_⟩
  · simp [two3]
  · rw [hle]
    have hi' : i < 6 := hi
    interval_cases i <;> rfl
  · rw [hle]
    have hi' : i < 6 := hi
    interval_cases i <;> decide

/-- The kernel of `two3`. -/
theorem ker_two3 (v : Fin 6 → F[X]) : Matrix.vecMul v (mat 6 3 (two3 : PMat F[X])) = 0 ↔ v 0 + v 3 = 0 ∧ v 1 + v 4 = 0 ∧ v 2 + v 5 = 0 := by
  have h : ∀ j : Fin 3, Matrix.vecMul v (mat 6 3 (two3 : PMat F[X])) j = ∑ i : Fin 6, v i * (if (i : Nat) % 3 = j then 1 else 0) := fun j => rfl
  constructor
  · intro h0
    refine ⟨?_, ?_, ?_⟩
    · have := (h 0).symm.trans (congrFun h0 0)
      simpa [Fin.sum_univ_succ] using this
    · have := (h 1).symm.trans (congrFun h0 1)
      simpa [Fin.sum_univ_succ] using this
    · have := (h 2).symm.trans (congrFun h0 2)
      simpa [Fin.sum_univ_succ] using this
  · rintro ⟨h0, h1, h2⟩
    funext j
    rw [h j]
    fin_cases j
    · simpa [Fin.sum_univ_succ] using h0
    · simpa [Fin.sum_univ_succ] using h1
    · simpa [Fin.sum_univ_succ] using h2

theorem two3_natDegree (i c : Nat) : ((two3 : PMat F[X]).e (i, c)).natDegree = 0 := by
  simp only [two3]
  split <;> simp

/-- The degrees of an approximant basis of `two3` at order 21. -/
theorem two3_degrees {f : F[X]} (hf : f.natDegree = 21) {P : PMat F[X]} {t : Nat → Int}
    (h : Pre (mat 6 3 (two3 : PMat F[X])) f (mat 6 6 P) (fun i => vec [0, 0, 0, 0, 0, 30] i) (fun i => t i)) (i : Fin 6) :
    (t i < 21 → t i = vec [0, 0, 0, 0, 0, 30] i) ∧ (i = 5 → 30 ≤ t i) := by
  have hge := h.ge
  have hs : ∀ j : Fin 6, 0 ≤ vec [0, 0, 0, 0, 0, 30] j := by decide
  have hlow : ∀ i : Fin 6, i = 3 ∨ i = 4 → t i ≤ 0 := by
    intro i hi
    have hpl : PivotLower 6 (vec [0, 0, 0, 0, 0, 30]) (fun j => if j = (i : Nat) then (1 : F[X]) else if j + 3 = i then -1 else 0) i 0 := by
      refine ⟨i.2, by simp, by simp, fun j hj _ => ?_, fun j hj hij hne => ?_⟩
      · have h1 : vec [0, 0, 0, 0, 0, 30] i = 0 := by rcases hi with rfl | rfl <;> rfl
        rw [h1]
        by_cases h5 : j = 5
        · subst h5
          rcases hi with rfl | rfl <;> simp at *
        · have h2 : vec [0, 0, 0, 0, 0, 30] j = 0 := by
            have : j < 5 := by omega
            interval_cases j <;> rfl
          rw [h2]
          split
          · simp
          · split <;> simp
      · rw [if_neg (by omega), if_neg (by omega)] at hne
        exact absurd rfl hne
    obtain ⟨-, -, -, h2⟩ := h.min (v := fun j : Fin 6 => if (j : Nat) = (i : Nat) then (1 : F[X]) else if (j : Nat) + 3 = i then -1 else 0)
      ((ker_two3 _).2 (by rcases hi with rfl | rfl <;> simp)) (hasPivot_of_lower hpl)
    have h1 : vec [0, 0, 0, 0, 0, 30] i = 0 := by rcases hi with rfl | rfl <;> rfl
    rw [h1] at h2
    simpa using h2
  have hhigh : ∀ i j : Fin 6, (j : Nat) = i + 3 → ¬ t i < 21 := by
    intro i j hij hlt
    have hker := h.row_kernel (fun j c _ => by
      rw [show (mat 6 3 (two3 : PMat F[X]) j c).natDegree = 0 from two3_natDegree _ _]
      exact hs j) (i := i) (by rw [hf]; exact hlt)
    have hv := (ker_two3 _).1 hker
    have hij' : mat 6 6 P i i + mat 6 6 P i j = 0 := by
      have hi3 : (i : Nat) < 3 := by omega
      obtain ⟨i, hi⟩ := i
      obtain ⟨j, hj⟩ := j
      dsimp only at hij hi3
      subst hij
      interval_cases i
      · exact hv.1
      · exact hv.2.1
      · exact hv.2.2
    have hp := (lower_of_hasPivot (p := fun j => P.e (i, j)) (h.piv.row i)).1
    have hne : mat 6 6 P i j ≠ 0 := fun h0 => by
      rw [h0, add_zero] at hij'
      exact hp.nonzero hij'
    have h1 := hp.after j j.2 (by show (i : Nat) < j; omega) hne
    have h2 := hp.degree
    have h3 : (mat 6 6 P i j).natDegree = (mat 6 6 P i i).natDegree := by
      rw [eq_neg_of_add_eq_zero_right hij', natDegree_neg]
    have h4 : vec [0, 0, 0, 0, 0, 30] i = 0 := by
      have hi3 : (i : Nat) < 3 := by omega
      obtain ⟨i, hi⟩ := i
      dsimp only at hi3
      interval_cases i <;> rfl
    have h5 := hs j
    change (P.e ((i : Nat), (j : Nat))).natDegree = (P.e ((i : Nat), (i : Nat))).natDegree at h3
    simp only [id] at h1 h2
    rw [h3, h2] at h1
    omega
  refine ⟨fun hlt => ?_, fun hi => ?_⟩
  · have h0 := hge i
    rcases Nat.lt_or_ge i 3 with h3 | h3
    · exact absurd hlt (hhigh i ⟨i + 3, by omega⟩ rfl)
    · rcases Nat.lt_or_ge i 5 with h5 | h5
      · have h6 : i = 3 ∨ i = 4 := by
          rcases (show (i : Nat) = 3 ∨ (i : Nat) = 4 by omega) with h | h
          · exact Or.inl (Fin.ext h)
          · exact Or.inr (Fin.ext h)
        have h7 := hlow i h6
        have h8 : vec [0, 0, 0, 0, 0, 30] i = 0 := by rcases h6 with rfl | rfl <;> rfl
        rw [h8] at h0 ⊢
        omega
      · have h6 : i = 5 := Fin.ext (show (i : Nat) = 5 by omega)
        subst h6
        have h0' : (30 : Int) ≤ t (5 : Fin 6) := h0
        omega
  · subst hi
    exact hge 5

/-- **C81, finding.** `kernel_basis` and `kernel_basis_zls_via_approximation` do not compute a kernel basis of `two3` for the shift
    `(0, 0, 0, 0, 0, 30)`: the rows do not generate the kernel, whatever the field. -/
theorem C81_zls_incomplete {e : Env F} (he : EnvOk e) :
    (∃ r, zlsApprox e two3 [0, 0, 0, 0, 0, 30] = .ok r ∧ ¬ IsKernelBasis (mat 6 3 (two3 : PMat F[X])) (mat r.1.rows 6 r.1)) ∧
    ∃ K, kernelBasis e two3 [0, 0, 0, 0, 0, 30] = .ok K ∧ ¬ IsKernelBasis (mat 6 3 (two3 : PMat F[X])) (mat K.rows 6 K) := by
  have key : ∃ r, zlsApprox e two3 [0, 0, 0, 0, 0, 30] = .ok r ∧ ¬ IsKernelBasis (mat 6 3 (two3 : PMat F[X])) (mat r.1.rows 6 r.1) := by
    obtain ⟨P, t, h1, h2, h3, -, h4⟩ := approx_pre he (pmat := two3) [0, 0, 0, 0, 0, 30] (order := 21) (show 0 < 6 by decide) (by decide)
    have hdeg := two3_degrees (natDegree_X_pow 21) h4
    have hbe : approxBackend e two3 [0, 0, 0, 0, 0, 30] 21 = .ok (.basis P t fun approx =>
        let dB := deg (two3 : PMat F[X]) + deg approx - (21 : Nat)
        if dB < 0 then .ub else ofMid (e.mid approx two3 21 dB.toNat)) := by
      unfold approxBackend
      rw [h1]
      rfl
    have hz := (zls_main (mul := e.mul) (be := approxBackend e) (fuel := 3) (pmat := two3) (shift := [0, 0, 0, 0, 0, 30]) (rdeg := [0, 0, 0, 0, 0, 0])
      (mx := 0) (diff := 0) (order := 21) (show ¬ 6 = 1 by decide) (show 3 < 6 by decide) degrees_two3 rfl (by decide)
      (show 2 * 3 ≤ 6 by decide) rfl order_two3).2 P t _ hbe ?_
    · refine ⟨_, hz, fun hb => ?_⟩
      obtain ⟨u, hu⟩ := (hb.generates fun j : Fin 6 => if j = 5 then 1 else if j = 2 then -1 else 0).1
        ((ker_two3 _).2 (by simp))
      have h5 := congrFun hu 5
      simp only [if_true] at h5
      have h5' : (1 : F[X]) = ∑ i, u i * mat _ 6 (rowsAt P ((List.range 6).filter fun i => decide (t i < 21))) i 5 := h5
      refine one_ne_zero (h5'.trans (Finset.sum_eq_zero fun i _ => ?_))
      have hx : ∀ x ∈ (List.range 6).filter fun i => decide (t i < 21), x < 6 := (filter_sorted _ _).2
      have hlt : t (sel _ hx i) < 21 := by
        have := (List.mem_filter.1 (List.getElem_mem (l := (List.range 6).filter fun i => decide (t i < 21)) i.2)).2
        exact of_decide_eq_true this
      have h6 : mat 6 6 P (sel _ hx i) 5 = 0 := by
        by_contra hne
        have h7 := degLE_iff.1 ((h4.piv.row (sel _ hx i)).le (5 : Fin 6)) hne
        have h8 : vec [0, 0, 0, 0, 0, 30] (5 : Fin 6) = 30 := rfl
        change ((mat 6 6 P (sel _ hx i) 5).natDegree : Int) + vec [0, 0, 0, 0, 0, 30] (5 : Fin 6) ≤ _ at h7
        rw [h8] at h7
        have h7' : ((mat 6 6 P (sel _ hx i) 5).natDegree : Int) + 30 ≤ t (sel _ hx i) := h7
        omega
      have h9 := congrFun (congrFun (mat_rowsAt (P := P) _ hx) i) (5 : Fin 6)
      rw [show mat _ 6 _ i (5 : Fin 6) = _ from h9]
      show _ * mat 6 6 P (sel _ hx i) 5 = 0
      rw [h6, mul_zero]
    · left
      have h5 : (((List.range 6).filter fun i => decide (t i < 21)).map fun i => pdeg (P.e (i, i))).sum = 0 := by
        refine List.sum_eq_zero fun x hx => ?_
        obtain ⟨i, hi, rfl⟩ := List.mem_map.1 hx
        obtain ⟨h6, h7⟩ := List.mem_filter.1 hi
        have h8 := List.mem_range.1 h6
        have h9 := (hdeg ⟨i, h8⟩).1 (of_decide_eq_true h7)
        have h10 := (h4.piv.row ⟨i, h8⟩).natDegree
        have h11 := (h4.piv.row ⟨i, h8⟩).entry_ne
        simp only [id] at h10 h11
        refine (pdeg_ne _ h11).trans ?_
        rw [h10]
        dsimp only at h9 ⊢
        rw [h9]
        simp
      refine h5.trans (List.sum_eq_zero fun x hx => ?_).symm
      obtain ⟨i, hi, rfl⟩ := List.mem_map.1 hx
      have h8 := List.mem_range.1 (List.mem_filter.1 hi).1
      change i < 6 at h8
      interval_cases i <;> rfl
  obtain ⟨r, h1, h2⟩ := key
  exact ⟨⟨r, h1, h2⟩, r.1, by unfold kernelBasis; rw [h1]; rfl, h2⟩

/-- Two ones in a column. -/
noncomputable def ones : PMat F[X] := ⟨2, 1, fun _ => 1⟩

theorem ker_ones (v : Fin 2 → F[X]) : Matrix.vecMul v (mat 2 1 (ones : PMat F[X])) = 0 ↔ v 0 + v 1 = 0 := by
  have h : ∀ j : Fin 1, Matrix.vecMul v (mat 2 1 (ones : PMat F[X])) j = ∑ i : Fin 2, v i * 1 := fun j => rfl
  constructor
  · intro h0
    have := (h 0).symm.trans (congrFun h0 0)
    simpa [Fin.sum_univ_succ] using this
  · intro h0
    funext j
    rw [h j]
    simpa [Fin.sum_univ_succ] using h0

theorem degrees_ones : degrees true (ones : PMat F[X]) none = .ok [0, 0] := by
  refine degrees_eq rfl fun i hi => ?_
  have hi' : i < 2 := hi
  refine ⟨⟨0, one_pos, one_ne_zero, ?_⟩, fun c hc => ?_⟩ <;>
  · simp only [ones, natDegree_one]
    interval_cases i <;> simp

/-- **C81, finding.** `kernel_basis_zls_via_approximation` on a column of two ones for the shift `(5, 5)`: the row found has shifted
    degree 5, the shift returned is 0. -/
theorem C81_zls_degrees {e : Env F} (he : EnvOk e) :
    ∃ r, zlsApprox e ones [5, 5] = .ok r ∧ r.1.rows = 1 ∧ r.2 = [0] ∧
      ShiftedDegree 2 (fun j => [5, 5].getD j 0) (fun j => r.1.e (0, j)) 5 := by
  obtain ⟨P, t, h1, h2, h3, -, h4⟩ := approx_pre he (pmat := ones) [0, 0] (order := 1) (show 0 < 2 by decide) (by decide)
  change Pre (mat 2 1 (ones : PMat F[X])) (X ^ 1) (mat 2 2 P) (fun i : Fin 2 => vec [0, 0] i) (fun i => t i) at h4
  have hv0 : ∀ i : Fin 2, vec [0, 0] i = 0 := by decide
  have ht1 : t 1 = 0 := by
    have hpl : PivotLower 2 (vec [0, 0]) (fun j => if j = 1 then (1 : F[X]) else -1) 1 0 := by
      refine ⟨by decide, by simp, by simp, fun j hj _ => ?_, fun j hj hij _ => by omega⟩
      rw [hv0 ⟨j, hj⟩, show vec [0, 0] 1 = 0 from rfl]
      split <;> simp
    obtain ⟨-, -, -, h5⟩ := h4.min (v := fun j : Fin 2 => if (j : Nat) = 1 then (1 : F[X]) else -1) ((ker_ones _).2 (by simp)) (hasPivot_of_lower hpl)
    have h6 := h4.ge 1
    change (0 : Int) ≤ t 1 at h6
    change t 1 ≤ 0 + 0 at h5
    omega
  have ht0 : ¬ t 0 < 1 := by
    intro hlt
    have hker := h4.row_kernel (fun j c _ => by
      rw [show (mat 2 1 (ones : PMat F[X]) j c).natDegree = 0 from natDegree_one, hv0 j]
      simp) (i := 0) (by rw [natDegree_X_pow]; exact hlt)
    have hv := (ker_ones _).1 hker
    have hp := (lower_of_hasPivot (p := fun j => P.e (0, j)) (h4.piv.row 0)).1
    have hne : P.e (0, 1) ≠ 0 := fun h0 => by
      have : mat 2 2 P 0 1 = 0 := h0
      rw [this, add_zero] at hv
      exact hp.nonzero hv
    have h5 := hp.after 1 (by decide) (by decide) hne
    have h6 := hp.degree
    have h7 : (P.e (0, 1)).natDegree = (P.e (0, 0)).natDegree := by
      have : P.e (0, 1) = - P.e (0, 0) := eq_neg_of_add_eq_zero_right hv
      rw [this, natDegree_neg]
    rw [h7] at h5
    change ((P.e (0, 0)).natDegree : Int) + 0 < _ + 0 at h5
    change (P.e (0, 0)).natDegree = _ at h6
    rw [h6] at h5
    exact lt_irrefl _ h5
  have hbe : approxBackend e ones [0, 0] 1 = .ok (.basis P t fun approx =>
      let dB := deg (ones : PMat F[X]) + deg approx - (1 : Nat)
      if dB < 0 then .ub else ofMid (e.mid approx ones 1 dB.toNat)) := by
    unfold approxBackend
    rw [h1]
    rfl
  have hord : zlsOrder 2 1 [0, 0] = 1 := by
    unfold zlsOrder
    rw [List.mergeSort_of_pairwise (by decide)]
    decide
  have hz := (zls_main (mul := e.mul) (be := approxBackend e) (fuel := 1) (pmat := ones) (shift := [5, 5]) (rdeg := [0, 0])
    (mx := 0) (diff := 5) (order := 1) (show ¬ 2 = 1 by decide) (show 1 < 2 by decide) degrees_ones rfl (by decide)
    (show 2 * 1 ≤ 2 by decide) rfl hord).2 P t _ hbe (Or.inr rfl)
  have hI : ((List.range (ones : PMat F[X]).rows).filter fun i => decide (t i < 1)) = [1] := by
    show ([0, 1].filter fun i => decide (t i < 1)) = [1]
    rw [List.filter_cons_of_neg (by simpa using ht0), List.filter_cons_of_pos (by simp [ht1])]
    rfl
  rw [hI] at hz
  refine ⟨_, hz, rfl, by rw [List.map_singleton, ht1], ?_⟩
  have h5 := HasPivot.add (h4.piv.row 1) 5
  rw [show (fun i : Fin 2 => vec [0, 0] i + 5) = fun i : Fin 2 => vec [5, 5] i by funext i; fin_cases i <;> rfl] at h5
  have h6 := (lower_of_hasPivot (p := fun j => P.e (1, j)) h5).2
  change ShiftedDegree 2 (vec [5, 5]) (fun j => P.e (1, j)) (t 1 + 5) at h6
  rw [ht1] at h6
  exact h6

/-- A matrix with one entry of large degree. -/
noncomputable def big3 : PMat F[X] := ⟨6, 3, fun ij => if ij.1 = 5 ∧ ij.2 = 0 then X ^ 30 else if ij.1 % 3 = ij.2 then 1 else 0⟩

theorem degrees_big3 : degrees true (big3 : PMat F[X]) none = .ok [0, 0, 0, 0, 0, 30] := by
  refine degrees_eq rfl fun i hi => ?_
  have hi' : i < 6 := hi
  rcases Nat.lt_or_ge i 5 with h | h
  · have hle : ∀ c, ((big3 : PMat F[X]).e (i, c)).natDegree = 0 := fun c => by
      simp only [big3]
      rw [if_neg (by omega)]
      split <;> simp
    refine ⟨⟨i % 3, Nat.mod_lt _ (by decide), ?_, ?_⟩, fun c hc => ?_⟩
    · simp only [big3]
      rw [if_neg (by omega)]
      simp
    · rw [hle]
      interval_cases i <;> rfl
    · rw [hle]
      interval_cases i <;> decide
  · obtain rfl : i = 5 := by omega
    refine ⟨⟨0, show 0 < 3 by decide, ?_, ?_⟩, fun c hc => ?_⟩
    · simp [big3]
    · simp [big3]
    · simp only [big3]
      split
      · simp
      · split <;> simp

/-- **C81, finding.** `kernel_basis_zls_via_interpolation` ends in an error on `big3`, with its row degrees as shift, in all the
    fields with a large enough prime where an element of order at least 42 is found. -/
theorem C81_zls_interpolation_error {e : Env F} (he : EnvOk e) (hp : 42 < e.p) (hr : e.elt 42 ≠ 0) :
    zlsInterp e big3 [0, 0, 0, 0, 0, 30] = .error := by
  have hbe : interpBackend e big3 [0, 0, 0, 0, 0, 30] 21 = .error := by
    unfold interpBackend
    rw [if_neg (by omega), if_neg hr]
    rw [interp_reject he [0, 0, 0, 0, 0, 30] (by decide) hr]
    · rfl
    · refine le_trans ?_ ((deg_spec big3).2.1 5 0 (show 5 < 6 by decide) (show 0 < 3 by decide))
      have h1 : (big3 : PMat F[X]).e (5, 0) = X ^ 30 := by simp [big3]
      rw [h1, pdeg_ne _ (pow_ne_zero _ X_ne_zero), natDegree_X_pow]
      decide
  exact (zls_main (mul := e.mul) (be := interpBackend e) (fuel := 3) (pmat := big3) (shift := [0, 0, 0, 0, 0, 30]) (rdeg := [0, 0, 0, 0, 0, 30])
    (mx := 30) (diff := 0) (order := 21) (show ¬ 6 = 1 by decide) (show 3 < 6 by decide) degrees_big3 rfl (by decide)
    (show 2 * 3 ≤ 6 by decide) rfl order_two3).1 hbe

/-- **C81, finding.** `is_kernel_basis` accepts a matrix without rows, for every matrix. -/
theorem C81_verify_generation {mul : PMat F[X] → PMat F[X] → Option (PMat F[X])} (hmul : MulOk mul) (pmat : PMat F[X]) (shift : List Int)
    (left right : Nat → F) (hm : 0 < pmat.rows) (hl : shift.length = pmat.rows) :
    isKernelBasis mul (noRows pmat.rows) pmat shift .ordWeakPopov false left right = .ok true := by
  obtain ⟨b, h1, h2⟩ := C81_verify hmul (noRows pmat.rows) pmat shift .ordWeakPopov left right hm hl (by simp)
  rw [h1, h2.2 ⟨rfl, ⟨fun _ => 0, fun _ => 0, fun i hi => absurd hi (Nat.not_lt_zero _), fun i j _ hj => absurd hj (Nat.not_lt_zero _)⟩,
    fun i => i.elim0⟩]

/-- `kernel_basis_via_approximation` computes what `is_kernel_basis` accepts. -/
theorem C81_compute_verify {e : Env F} (he : EnvOk e) (pmat : PMat F[X]) (shift : List Int) (left right : Nat → F) (hm : 0 < pmat.rows)
    (hl : shift.length = pmat.rows) (rand : Bool) :
    ∃ r, viaApproximation e pmat shift = .ok r ∧ isKernelBasis e.mul r.ker pmat shift .ordWeakPopov rand left right = .ok true := by
  obtain ⟨r, h1, h2⟩ := C81_via_approximation he pmat shift hl
  have hform : HasForm r.ker.rows r.ker.cols (fun j => shift.getD j 0) (fun i j => r.ker.e (i, j)) .ordWeakPopov := by
    rw [h2.cols]; exact h2.popov
  refine ⟨r, h1, ?_⟩
  cases rand with
  | false =>
    obtain ⟨b, h3, h4⟩ := C81_verify he.mul r.ker pmat shift .ordWeakPopov left right hm hl (by simp)
    rw [h3, h4.2 ⟨h2.cols, hform, row_mem h2.basis⟩]
  | true => exact (C81_verify_random_accepts e.mul r.ker pmat shift .ordWeakPopov hm hl (by simp) h2.cols hform).1 (row_mem h2.basis) left right

/-! ### The hypotheses are met -/

instance : Fact (Nat.Prime 43) := ⟨by norm_num⟩

/-- Functions that do what they are for, modulo 43, with a threshold of 1 and an element of order 42. -/
theorem env_exists : ∃ e : Env (ZMod 43), EnvOk e ∧ 42 < e.p ∧ e.elt 42 ≠ 0 := by
  obtain ⟨N, hN⟩ := nt_exists (F := ZMod 43)
  obtain ⟨mul, hmul⟩ := mulOk_exists (F := ZMod 43)
  obtain ⟨mid, hmid⟩ := middleOk_exists (F := ZMod 43)
  obtain ⟨mp, hmp⟩ := Intbas.midOK_all (K := ZMod 43)
  refine ⟨⟨N, mid, mul, 1, mp, fun _ => true, fun _ => false, fun n => if n ≤ 42 then 3 else 0, 43⟩, ⟨hN, hmid, hmul, one_pos, hmp, fun n => ?_⟩,
    show 42 < 43 by decide, show (if 42 ≤ 42 then (3 : ZMod 43) else 0) ≠ 0 by decide⟩
  dsimp only
  by_cases h : n ≤ 42
  · right
    intro i h1 h2
    rw [if_pos h]
    have : ∀ i, i < 42 → 1 ≤ i → (3 : ZMod 43) ^ i ≠ 1 := by decide
    exact this i (by omega) h1
  · left
    rw [if_neg h]

/-- A column modulo 43 with two nonconstant entries: the two functions, and the algorithm. -/
example : ∃ e : Env (ZMod 43), (∃ r, viaApproximation e ⟨2, 1, fun ij => if ij.1 = 0 then X else X ^ 2 + 1⟩ [0, 3] = .ok r ∧
      IsMinKernel ⟨2, 1, fun ij => if ij.1 = 0 then X else X ^ 2 + 1⟩ [0, 3] r.ker r.piv r.shift) ∧
    (∃ r, viaInterpolation e ⟨2, 1, fun ij => if ij.1 = 0 then X else X ^ 2 + 1⟩ [0, 3] = .ok r) ∧
    (∃ K, kernelBasis e ⟨2, 1, fun ij => if ij.1 = 0 then X else X ^ 2 + 1⟩ [0, 3] = .ok K) ∧
    zlsInterp e big3 [0, 0, 0, 0, 0, 30] = .error := by
  obtain ⟨e, he, h1, h2⟩ := env_exists
  obtain ⟨r, g1, -⟩ := C81_via_interpolation he ⟨2, 1, fun ij => if ij.1 = 0 then X else X ^ 2 + 1⟩ [0, 3] rfl
  obtain ⟨K, g2, -⟩ := C81_kernel_basis_partial he ⟨2, 1, fun ij => if ij.1 = 0 then X else X ^ 2 + 1⟩ [0, 3] rfl
  exact ⟨e, C81_via_approximation he _ [0, 3] rfl, ⟨r, g1⟩, ⟨K, g2⟩, C81_zls_interpolation_error he h1 h2⟩

end PML.Ntl.Kerbas
