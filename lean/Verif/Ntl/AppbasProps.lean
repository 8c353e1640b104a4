import Verif.Ntl.AppbasVerify
import Verif.Common.Prime

/-!
# C79: approximant bases with one order per column, and their verification
-/

namespace PML.Ntl.Appbas

open Polynomial PML.Ntl.Utils PML.Ntl.Inv PML.Ntl.Solve PML.Ntl.Forms PML.Ntl.Det PML.Ntl.Mbasis PML.Approx PML.Approx.Spec
  PML.Forms.Spec PML.Ntl.MatMul

variable {F : Type} [Field F] [DecidableEq F]

/-- **C79.** `appbas_iterative` terminates without an access out of bounds and returns a minimal approximant basis, with
    its shifted row degrees in `shift`. -/
theorem C79_iterative (app0 pmat : PMat F[X]) (order : List Nat) (shift : List Int) (orderWise : Bool)
    (hlen : order.length = pmat.cols) (hpos : ∀ x ∈ order, 0 < x) (hs : shift.length = pmat.rows) :
    ∃ P t, iterative app0 pmat order shift orderWise = .ok (P, t) ∧ t.length = pmat.rows ∧
      IsMinBasisO pmat order (entryOf shift) P (entryOf t) := by
  obtain ⟨P, t, h1, h2⟩ := iterative_good app0 pmat order shift orderWise hlen hpos hs
  exact ⟨P, t, h1, h2.tlen, h2.minBasis⟩

/-- **C79.** `popov_appbas_iterative` returns the basis in Popov form. -/
theorem C79_popov (app0 pmat : PMat F[X]) (order : List Nat) (shift : List Int) (orderWise : Bool)
    (hlen : order.length = pmat.cols) (hpos : ∀ x ∈ order, 0 < x) (hs : shift.length = pmat.rows) (hm : 0 < pmat.rows) :
    ∃ P t, popovIterative app0 pmat order shift orderWise = .ok (P, t) ∧ t.length = pmat.rows ∧
      IsMinBasisO pmat order (entryOf shift) P (entryOf t) ∧
      PopovLower pmat.rows pmat.rows (entryOf shift) fun i j => P.e (i, j) :=
  popov_good app0 pmat order shift orderWise hlen hpos hs hm

theorem hasForm_of_ordered {r : Nat} {s : Nat → Int} {M : Nat → Nat → F[X]} (h : OrderedWeakPopovLower r r s M) (f : Form)
    (hf : f.num < Form.popov.num) : HasForm r r s M f := by
  have hw : WeakPopovLower r r s M := by
    obtain ⟨piv, δ, h1, h2⟩ := h
    refine ⟨piv, δ, h1, fun i j hi hj e => ?_⟩
    rcases Nat.lt_trichotomy i j with hlt | heq | hgt
    · exact absurd e (Nat.ne_of_lt (h2 i j hlt hj))
    · exact heq
    · exact absurd e.symm (Nat.ne_of_lt (h2 j i hgt hi))
  cases f with
  | none => trivial
  | reduced => exact PML.Forms.weakPopov_reduced true r r s M hw
  | weakPopov => exact hw
  | ordWeakPopov => exact h
  | popov => exact absurd hf (by decide)
  | other => exact absurd hf (by decide)

/-- **C79.** `approximant_basis`, with its default arguments but a shift: a minimal basis, in the form asked for. -/
theorem C79_approximant_basis (app0 pmat : PMat F[X]) (order : List Nat) (shift : List Int) (form : Form)
    (hlen : order.length = pmat.cols) (hpos : ∀ x ∈ order, 0 < x) (hs : shift.length = pmat.rows) (hm : 0 < pmat.rows)
    (hf : form ≠ .other) :
    ∃ P t, approximantBasis app0 pmat order shift form true false = .ok (P, t) ∧ t.length = pmat.rows ∧
      IsMinBasisO pmat order (entryOf shift) P (entryOf t) ∧ HasForm P.rows P.cols (entryOf shift) (rowsOf P) form := by
  by_cases h : form.num < Form.popov.num
  · obtain ⟨P, t, h1, h2, h3⟩ := C79_iterative app0 pmat order shift true hlen hpos hs
    refine ⟨P, t, ?_, h2, h3, ?_⟩
    · unfold approximantBasis
      rw [if_pos (by simp), if_pos h, h1]
    · rw [h3.rows, h3.cols]
      exact hasForm_of_ordered h3.popov form h
  · have hp : form = .popov := by
      cases form <;> first | rfl | exact absurd rfl hf | exact absurd (by decide) h
    subst hp
    obtain ⟨P, t, h1, h2, h3, h4⟩ := C79_popov app0 pmat order shift true hlen hpos hs hm
    refine ⟨P, t, ?_, h2, h3, ?_⟩
    · unfold approximantBasis
      rw [if_pos (by simp), if_neg h, if_pos rfl, h1]
    · rw [h3.rows, h3.cols]
      exact h4

/-- The matrix of two rows and one column given to `appbas_iterative_2x1`. -/
noncomputable def column2 (f0 f1 : F[X]) : PMat F[X] := ⟨2, 1, fun ij => if ij.1 = 0 then f0 else f1⟩

/-- The matrix of its four output polynomials. -/
noncomputable def basis2 (p00 p01 p10 p11 : F[X]) : PMat F[X] :=
  ⟨2, 2, fun ij => if ij.1 = 0 then (if ij.2 = 0 then p00 else p01) else (if ij.2 = 0 then p10 else p11)⟩

/-- **C79.** `appbas_iterative_2x1` returns a minimal approximant basis of a column of two polynomials, and its shifted row
    degrees. -/
theorem C79_iterative_2x1 (f0 f1 : F[X]) (order : Nat) (s0 s1 : Int) :
    ∃ p00 p01 p10 p11 r0 r1 t0 t1, iterative2x1 f0 f1 order s0 s1 = ⟨(p00, p01), (p10, p11), (r0, r1), (t0, t1)⟩ ∧
      IsMinBasisO (column2 f0 f1) [order] (entryOf [s0, s1]) (basis2 p00 p01 p10 p11) (entryOf [t0, t1]) ∧
      r0 = p00 * f0 + p01 * f1 ∧ r1 = p10 * f0 + p11 * f1 := by
  have h := iterative2x1_ok f0 f1 order s0 s1
  obtain ⟨st, hst⟩ : ∃ st, st = iterative2x1 f0 f1 order s0 s1 := ⟨_, rfl⟩
  rw [← hst] at h ⊢
  obtain ⟨⟨p00, p01⟩, ⟨p10, p11⟩, ⟨r0, r1⟩, ⟨t0, t1⟩⟩ := st
  refine ⟨p00, p01, p10, p11, r0, r1, t0, t1, rfl, ?_, h.r0, h.r1⟩
  have hg : GoodO (column2 f0 f1) [order] [s0, s1] (basis2 p00 p01 p10 p11) [t0, t1] := by
    have e1 : mat 2 2 (basis2 p00 p01 p10 p11) = mat2 (⟨(p00, p01), (p10, p11), (r0, r1), (t0, t1)⟩ : St2 F) := by
      refine Matrix.ext fun i j => ?_
      fin_cases i <;> fin_cases j <;> rfl
    have e2 : mat 2 1 (column2 f0 f1) = col2 f0 f1 := by
      refine Matrix.ext fun i j => ?_
      fin_cases i <;> fin_cases j <;> rfl
    have e3 : orderOf 1 [order] = fun _ => order := by
      funext j
      fin_cases j
      rfl
    have e4 : ∀ a b : Int, (fun i : Fin 2 => entryOf [a, b] i) = ![a, b] := by
      intro a b
      funext i
      fin_cases i <;> rfl
    refine ⟨rfl, rfl, rfl, ?_, ?_⟩
    · show GenBy (IsApproximantO (mat 2 1 (column2 f0 f1)) (orderOf 1 [order])) (mat 2 2 (basis2 p00 p01 p10 p11))
      rw [e1, e2, e3]
      exact h.gen
    · show ∃ d, DiagPivots d (fun i : Fin 2 => entryOf [s0, s1] i) (mat 2 2 (basis2 p00 p01 p10 p11)) (fun i : Fin 2 => entryOf [t0, t1] i)
      rw [e1, e4, e4]
      exact h.piv
  exact hg.minBasis

/-! ## Verification -/

theorem reduced_of_form {r : Nat} {s : Nat → Int} {M : Nat → Nat → F[X]} {f : Form} (hf : f ≠ .none)
    (h : HasForm r r s M f) : RowReduced r r s M := by
  cases f with
  | none => exact absurd rfl hf
  | reduced => exact h
  | weakPopov => exact PML.Forms.weakPopov_reduced true r r s M h
  | ordWeakPopov => exact hasForm_of_ordered h .reduced (by decide)
  | popov =>
    obtain ⟨piv, δ, h1, h2, _⟩ := h
    exact hasForm_of_ordered ⟨piv, δ, h1, h2⟩ .reduced (by decide)
  | other => exact h.elim

/-- **C79.** `is_approximant_basis` (randomized) accepts every approximant basis in the form asked for, provided that the
    form is at least REDUCED: whatever the random point. -/
theorem C79_verify_complete {mul : PMat F[X] → PMat F[X] → Option (PMat F[X])} (hmul : MulOk mul) (P pmat : PMat F[X])
    (order : List Nat) (shift : List Int) (form : Form) (hlen : order.length = pmat.cols) (hs : shift.length = pmat.rows)
    (hm : 0 < pmat.rows) (hr : P.rows = pmat.rows) (hc : P.cols = pmat.rows) (hf : form ≠ .none)
    (hform : HasForm P.rows P.cols (entryOf shift) (rowsOf P) form)
    (hb : IsApproximantBasisO (mat pmat.rows pmat.cols pmat) (orderOf pmat.cols order) (mat pmat.rows pmat.rows P)) (pt : F) :
    isApproximantBasis mul P pmat order shift form true pt = .ok true := by
  have hv : ValidShift P.cols (some shift) := fun l hl => by cases hl; exact ⟨by omega, by omega⟩
  have hfo : form ≠ .other := fun e => by rw [e] at hform; exact hform
  obtain ⟨b, b1, b2⟩ := (C78_row_form P (some shift) hv form).2 hfo
  have hb' : b = true := b2.2 hform
  rw [hb'] at b1
  obtain ⟨degs, d1, d2, d3, _⟩ := verify_eq hmul P pmat order shift form pt hlen hs hm hr hc b1
  rw [hr, hc] at hform
  have hred := reduced_of_form hf hform
  have hdeg : ∀ i, i < pmat.rows → ShiftedDegree pmat.rows (entryOf shift) (fun j => P.e (i, j)) (degs.getD i 0) := by
    intro i hi
    obtain ⟨d, e1, _⟩ := hred
    exact d2 i hi fun hz => by
      obtain ⟨j, hj, hne, _⟩ := (e1 i hi).attained
      exact hne (hz j hj)
  obtain ⟨c, e, hc0, hdet⟩ := det_monomial (show GenBy _ _ from hb.generates)
  obtain ⟨k1, k2⟩ := reduced_det hred _ hdeg
  have hD : degs.sum - shift.sum = e := by
    rw [sum_getD degs _ d1, sum_getD shift _ hs]
    refine Eq.trans k2.symm ?_
    rw [hdet, natDegree_C_mul_X_pow e c hc0]
  refine d3.2 ⟨fun i j hi hj => ?_, fullRank_of_basis hb.generates, fun h => by omega, ?_⟩
  · have := (show GenBy _ _ from hb.generates).sound ⟨i, hi⟩ ⟨j, hj⟩
    refine this.trans (dvd_of_eq ?_)
    rw [sum_mat]
  · rw [hD, hdet, zpow_natCast]
    simp

/-- **C79.** `is_approximant_basis` rejects a matrix which is not an approximant basis, except for at most `D` values of the
    random point, where `D` is the difference between the sum of the shifted row degrees and the sum of the shift. -/
theorem C79_verify_sound {mul : PMat F[X] → PMat F[X] → Option (PMat F[X])} (hmul : MulOk mul) (P pmat : PMat F[X])
    (order : List Nat) (shift : List Int) (form : Form) (hlen : order.length = pmat.cols) (hs : shift.length = pmat.rows)
    (hm : 0 < pmat.rows) (hr : P.rows = pmat.rows) (hc : P.cols = pmat.rows)
    (hb : ¬ IsApproximantBasisO (mat pmat.rows pmat.cols pmat) (orderOf pmat.cols order) (mat pmat.rows pmat.rows P))
    (d : Nat → Int) (hd : ∀ i, i < pmat.rows → ¬ ZeroVec pmat.rows (fun j => P.e (i, j)) →
      ShiftedDegree pmat.rows (entryOf shift) (fun j => P.e (i, j)) (d i)) :
    ∃ S : Finset F, S.card ≤ (∑ i ∈ Finset.range pmat.rows, (d i - entryOf shift i)).toNat ∧
      ∀ pt, pt ∉ S → isApproximantBasis mul P pmat order shift form true pt ≠ .ok true := by
  have hv : ValidShift P.cols (some shift) := fun l hl => by cases hl; exact ⟨by omega, by omega⟩
  by_cases hform : isForm true form P (some shift) = .ok true
  swap
  · refine ⟨∅, by simp, fun pt _ h => hform ?_⟩
    unfold isApproximantBasis at h
    dsimp only at h
    rw [if_neg (by simp), if_neg (by omega)] at h
    cases hi : isForm true form P (some shift) with
    | ok b =>
      cases b with
      | true => rfl
      | false => rw [hi] at h; exact nomatch (show (Out.ok false : Out Bool) = .ok true from h)
    | error => rw [hi] at h; exact nomatch (show (Out.error : Out Bool) = .ok true from h)
    | ub => rw [hi] at h; exact nomatch (show (Out.ub : Out Bool) = .ok true from h)
    | loops => rw [hi] at h; exact nomatch (show (Out.loops : Out Bool) = .ok true from h)
  set D := ∑ i ∈ Finset.range pmat.rows, (d i - entryOf shift i) with hDdef
  have hD : D = ∑ i : Fin pmat.rows, d i - ∑ i : Fin pmat.rows, entryOf shift i := by
    rw [hDdef, Finset.sum_range, Finset.sum_sub_distrib]
  set Q := (mat pmat.rows pmat.rows P).det - C ((mat pmat.rows pmat.rows P).det.eval 1) * X ^ D.toNat with hQ
  refine ⟨Q.roots.toFinset, ?_, fun pt hpt hacc => ?_⟩
  · by_cases hz : ∀ i, i < pmat.rows → ¬ ZeroVec pmat.rows (fun j => P.e (i, j))
    · have h1 := (det_zcoeff (mat pmat.rows pmat.rows P) (fun j : Fin pmat.rows => entryOf shift j) (fun i : Fin pmat.rows => d i)
        (fun i j => degLE_of_shifted (hd i i.2 (hz i i.2)) j j.2)).1
      refine (Multiset.toFinset_card_le _).trans ((card_roots' Q).trans ?_)
      refine (natDegree_sub_le _ _).trans (max_le ?_ (natDegree_C_mul_X_pow_le _ _))
      refine natDegree_le_iff_coeff_eq_zero.2 fun k hk => h1 k ?_
      rw [← hD]
      omega
    · push Not at hz
      obtain ⟨i, hi, hz⟩ := hz
      have : (mat pmat.rows pmat.rows P).det = 0 := Matrix.det_eq_zero_of_row_eq_zero ⟨i, hi⟩ fun j => hz j j.2
      have hQ0 : Q = 0 := by rw [hQ, this]; simp
      rw [hQ0]
      simp
  · obtain ⟨degs, d1, d2, d3, _⟩ := verify_eq hmul P pmat order shift form pt hlen hs hm hr hc hform
    obtain ⟨a1, a2, a3, a4⟩ := d3.1 hacc
    have hsound : ∀ i j, X ^ orderOf pmat.cols order j ∣ (mat pmat.rows pmat.rows P * mat pmat.rows pmat.cols pmat) i j := by
      intro i j
      have := a1 i j i.2 j.2
      rw [sum_mat]
      exact this
    have hne := det_ne_of_fullRank hsound a2
    have hz : ∀ i, i < pmat.rows → ¬ ZeroVec pmat.rows (fun j => P.e (i, j)) := fun i hi hz =>
      hne (Matrix.det_eq_zero_of_row_eq_zero ⟨i, hi⟩ fun j => hz j j.2)
    have hdd : degs.sum - shift.sum = D := by
      rw [hD, sum_getD degs _ d1, sum_getD shift _ hs]
      congr 1
      exact Finset.sum_congr rfl fun i _ => PML.Forms.ShiftedDegree.unique (d2 i i.2 (hz i i.2)) (hd i i.2 (hz i i.2))
    have h1 := (det_zcoeff (mat pmat.rows pmat.rows P) (fun j : Fin pmat.rows => entryOf shift j) (fun i : Fin pmat.rows => d i)
        (fun i j => degLE_of_shifted (hd i i.2 (hz i i.2)) j j.2)).1
    have hnn : 0 ≤ D := by
      by_contra hneg
      exact hne (Polynomial.ext fun k => by
        rw [coeff_zero]
        exact h1 k (by rw [← hD]; omega))
    have hQ0 : Q ≠ 0 := by
      intro hz0
      rw [hQ, sub_eq_zero] at hz0
      exact hb (basis_of_fullRank hsound ⟨_, _, fun e => hne (by rw [hz0, e]; simp), hz0⟩ a2).isBasisO
    apply hpt
    rw [Multiset.mem_toFinset, mem_roots hQ0]
    show Q.eval pt = 0
    rw [hdd, ← Int.toNat_of_nonneg hnn, zpow_natCast] at a4
    rw [hQ]
    simp only [eval_sub, eval_mul, eval_C, eval_pow, eval_X]
    rw [a4, sub_self]

/-- **C79.** An accepted matrix is square, with the form asked for. -/
theorem C79_verify_form (mul : PMat F[X] → PMat F[X] → Option (PMat F[X])) (P pmat : PMat F[X])
    (order : List Nat) (shift : List Int) (form : Form) (hs : shift.length = pmat.rows) (hm : 0 < pmat.rows) (rand : Bool) (pt : F)
    (h : isApproximantBasis mul P pmat order shift form rand pt = .ok true) :
    P.rows = pmat.rows ∧ P.cols = pmat.rows ∧ HasForm P.rows P.cols (entryOf shift) (rowsOf P) form := by
  unfold isApproximantBasis at h
  dsimp only at h
  cases rand with
  | false => exact absurd h (by simp)
  | true =>
    rw [if_neg (by simp)] at h
    by_cases hdim : P.rows ≠ P.cols ∨ P.cols ≠ pmat.rows
    · rw [if_pos hdim] at h
      exact nomatch h
    · rw [if_neg hdim] at h
      have hv : ValidShift P.cols (some shift) := fun l hl => by cases hl; exact ⟨by omega, by omega⟩
      refine ⟨by omega, by omega, ?_⟩
      by_cases hfo : form = .other
      · rw [(C78_row_form P (some shift) hv form).1 hfo] at h
        exact nomatch (show (Out.error : Out Bool) = .ok true from h)
      · obtain ⟨b, b1, b2⟩ := (C78_row_form P (some shift) hv form).2 hfo
        rw [b1] at h
        cases b with
        | true => exact b2.1 rfl
        | false => exact nomatch (show (Out.ok false : Out Bool) = .ok true from h)

/-- **C79.** A matrix of the wrong dimensions is rejected. -/
theorem C79_verify_dimensions (mul : PMat F[X] → PMat F[X] → Option (PMat F[X])) (P pmat : PMat F[X])
    (order : List Nat) (shift : List Int) (form : Form) (pt : F) (h : ¬ (P.rows = pmat.rows ∧ P.cols = pmat.rows)) :
    isApproximantBasis mul P pmat order shift form true pt = .ok false := by
  unfold isApproximantBasis
  dsimp only
  rw [if_neg (by simp), if_pos (by omega)]

/-- **C79.** Computing then verifying: the output of `approximant_basis` is always accepted. -/
theorem C79_compute_verify {mul : PMat F[X] → PMat F[X] → Option (PMat F[X])} (hmul : MulOk mul) (app0 pmat : PMat F[X])
    (order : List Nat) (shift : List Int) (form : Form) (hlen : order.length = pmat.cols) (hpos : ∀ x ∈ order, 0 < x)
    (hs : shift.length = pmat.rows) (hm : 0 < pmat.rows) (hf : form ≠ .other) (hf' : form ≠ .none) (pt : F) :
    ∃ P t, approximantBasis app0 pmat order shift form true false = .ok (P, t) ∧
      isApproximantBasis mul P pmat order shift form true pt = .ok true := by
  obtain ⟨P, t, h1, _, h3, h4⟩ := C79_approximant_basis app0 pmat order shift form hlen hpos hs hm hf
  exact ⟨P, t, h1, C79_verify_complete hmul P pmat order shift form hlen hs hm h3.rows h3.cols hf' h4 h3.basis pt⟩

/-! ## What the documentation says and the code does not do -/

/-- `is_approximant_basis` with its default argument `randomized = false` always ends in an error. -/
theorem C79_deterministic_verification_missing (mul : PMat F[X] → PMat F[X] → Option (PMat F[X])) (P pmat : PMat F[X])
    (order : List Nat) (shift : List Int) (form : Form) (pt : F) :
    isApproximantBasis mul P pmat order shift form false pt = .error := rfl

/-- `approximant_basis` for column-wise bases, or with `generic = true`, always ends in an error. -/
theorem C79_missing_variants (app0 pmat : PMat F[X]) (order : List Nat) (shift : List Int) (form : Form) (rowWise generic : Bool)
    (h : rowWise = false ∨ generic = true) : approximantBasis app0 pmat order shift form rowWise generic = .error := by
  unfold approximantBasis
  rw [if_neg]
  rintro ⟨h1, h2⟩
  rcases h with h | h
  · rw [h] at h1; exact absurd h1 (by simp)
  · exact h2 h

/-- The matrix `[1]`. -/
noncomputable def oneByOne : PMat (ZMod 5)[X] := ⟨1, 1, fun _ => 1⟩

/-- The default (empty) `shift` of `approximant_basis` is accessed out of its bounds. -/
theorem C79_default_shift : approximantBasis oneByOne oneByOne [1] [] .ordWeakPopov true false = .ub := by
  have h1 : ((1 : (ZMod 5)[X]).coeff 0) ≠ 0 := by simp
  unfold approximantBasis iterative
  rw [if_pos (by simp), if_pos (by decide)]
  unfold loop
  simp [step, oneByOne, maxIndex, findPiv, update, andThen]

/-- An order equal to zero is handled as an order equal to one. -/
theorem C79_zero_order :
    ∃ P t, approximantBasis oneByOne oneByOne [0] [0] .ordWeakPopov true false = .ok (P, t) ∧ P.e (0, 0) = X ∧
      ¬ IsApproximantBasisO (mat 1 1 oneByOne) (orderOf 1 [0]) (mat 1 1 P) := by
  obtain ⟨P, t, h1, hX⟩ : ∃ P t, approximantBasis oneByOne oneByOne [0] [0] .ordWeakPopov true false = .ok (P, t) ∧
      P.e (0, 0) = X := by
    unfold approximantBasis iterative
    rw [if_pos (by simp), if_pos (by decide)]
    unfold loop
    simp [step, oneByOne, maxIndex, findPiv, update, andThen, shiftRow, advance, ident, PMat.setDims, loop, forN, write,
      eliminate, pshift]
  refine ⟨P, t, h1, hX, ?_⟩
  · intro h
    obtain ⟨u, hu⟩ := (h.generates fun _ => 1).1 (fun j => by fin_cases j; simp [orderOf])
    have := congrFun hu 0
    simp [Matrix.vecMul, dotProduct, mat, hX] at this
    have h0 := congrArg (fun p => coeff p 0) this
    simp at h0

/-- `popov_appbas_iterative` on a matrix without rows dereferences the end of a vector. -/
theorem C79_popov_no_rows (app0 : PMat (ZMod 5)[X]) : popovIterative app0 ⟨0, 1, fun _ => 0⟩ [1] [] true = .ub := by
  simp [popovIterative, iterative, loop, step, maxIndex, findPiv, advance, andThen, ident, PMat.setDims, popovShift,
    leadingMatrix, Forms.degrees, forN, withMin, len, minElement]

/-! ## The hypotheses are met -/

/-- The column `(1 + X, X^2 + 3)` modulo 5. -/
noncomputable def sample : PMat (ZMod 5)[X] := ⟨2, 1, fun ij => if ij.1 = 0 then 1 + X else X ^ 2 + C 3⟩

example : ∃ P t, iterative sample sample [3] [0, -1] true = .ok (P, t) ∧ t.length = 2 ∧
    IsMinBasisO sample [3] (entryOf [0, -1]) P (entryOf t) :=
  C79_iterative sample sample [3] [0, -1] true rfl (by decide) rfl

example : ∃ P t, popovIterative sample sample [3] [0, -1] false = .ok (P, t) ∧ t.length = 2 ∧
    IsMinBasisO sample [3] (entryOf [0, -1]) P (entryOf t) ∧ PopovLower 2 2 (entryOf [0, -1]) fun i j => P.e (i, j) :=
  C79_popov sample sample [3] [0, -1] false rfl (by decide) rfl (by decide)

example : ∃ mul : PMat (ZMod 5)[X] → PMat (ZMod 5)[X] → Option (PMat (ZMod 5)[X]), MulOk mul ∧ ∀ pt,
    ∃ P t, approximantBasis sample sample [3] [0, -1] .popov true false = .ok (P, t) ∧
      isApproximantBasis mul P sample [3] [0, -1] .popov true pt = .ok true := by
  obtain ⟨mul, hmul⟩ := mulOk_exists (F := ZMod 5)
  exact ⟨mul, hmul, fun pt => C79_compute_verify hmul sample sample [3] [0, -1] .popov rfl (by decide) rfl (by decide)
    (by simp) (by simp) pt⟩

theorem one_not_basis : ¬ IsApproximantBasisO (mat 1 1 oneByOne) (orderOf 1 [1]) (mat 1 1 oneByOne) := by
  intro h
  have := (h.generates fun _ => 1).2 ⟨fun _ => 1, by
    funext j
    simp [Matrix.vecMul, dotProduct, mat, oneByOne]⟩ 0
  simp [Matrix.vecMul, dotProduct, mat, oneByOne, orderOf] at this
  rw [X_dvd_iff] at this
  simp at this

/-- `[1]` is not an approximant basis of `[1]` at order 1: it is rejected at every point. -/
example {mul : PMat (ZMod 5)[X] → PMat (ZMod 5)[X] → Option (PMat (ZMod 5)[X])} (hmul : MulOk mul) (form : Form) (pt : ZMod 5) :
    isApproximantBasis mul oneByOne oneByOne [1] [0] form true pt ≠ .ok true := by
  obtain ⟨S, h1, h2⟩ := C79_verify_sound hmul oneByOne oneByOne [1] [0] form rfl rfl (by decide) rfl rfl one_not_basis (fun _ => 0)
    (fun i hi _ => by
      obtain rfl : i = 0 := by simpa [oneByOne] using hi
      refine ⟨fun j hj _ => ?_, 0, by decide, ?_, ?_⟩
      · obtain rfl : j = 0 := by simpa [oneByOne] using hj
        simp [oneByOne, entryOf]
      · simp [oneByOne]
      · simp [oneByOne, entryOf])
  have hS : S = ∅ := Finset.card_eq_zero.1 (by
    refine Nat.le_zero.1 (h1.trans (le_of_eq ?_))
    simp [oneByOne, entryOf])
  exact h2 pt (by rw [hS]; simp)

end PML.Ntl.Appbas
