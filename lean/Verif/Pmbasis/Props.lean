import Verif.Pmbasis.Model
import Verif.Mbasis.Props
import Verif.PolyMul.Props

/-!
# C23: the divide-and-conquer approximant basis algorithm
-/

namespace PML.Pmbasis

open PML.MatOps PML.MatPoly PML.MatPoly.Spec PML.Sort PML.Sort.Spec PML.Nullspace
open PML.Nullspace.Spec PML.Approx PML.Approx.Spec PML.Forms.Spec PML.Mbasis PML.PolyMul
open PML.PolyMul.Spec Polynomial

set_option linter.unusedSectionVars false

variable {q : Nat} [hqp : Fact q.Prime]

/-- Changing `F` modulo `X^d` does not change its approximants at order `d`. -/
theorem generates_congr {m n d : Nat} {F G : Matrix (Fin m) (Fin n) (ZMod q)[X]}
    {P : Matrix (Fin m) (Fin m) (ZMod q)[X]} (h : ∀ i j, X ^ d ∣ F i j - G i j)
    (hG : Generates G d P) : Generates F d P := by
  have key : ∀ (v : Fin m → (ZMod q)[X]) (j : Fin n),
      X ^ d ∣ ∑ l, v l * F l j - ∑ l, v l * G l j := by
    intro v j
    rw [← Finset.sum_sub_distrib]
    refine Finset.dvd_sum fun l _ => ?_
    rw [← mul_sub]
    exact Dvd.dvd.mul_left (h l j) _
  refine ⟨fun i j => ?_, fun v hv => hG.complete v fun j => ?_⟩
  · have h1 : X ^ d ∣ ∑ l, P i l * G l j := hG.sound i j
    exact (dvd_sub_left h1).1 (key (P i) j) |> fun t => by rw [Matrix.mul_apply]; exact t
  · have h1 : X ^ d ∣ ∑ l, v l * F l j := hv j
    exact (dvd_sub_right h1).1 (key v j)

theorem dvd_sub_of_coeff {d : Nat} {f g : (ZMod q)[X]} (h : ∀ k, k < d → f.coeff k = g.coeff k) :
    X ^ d ∣ f - g := by
  rw [X_pow_dvd_iff]
  intro k hk
  rw [coeff_sub, h k hk, sub_self]

/-- The contracts of the external functions. -/
structure EnvOK (e : Env q) : Prop where
  fl : FlintContract e.fl
  qs : QsortContract e.qs
  mul : OraclesOK e.mul
  thr : 1 ≤ e.thr

theorem polyMbasis_spec (e : Env q) (he : EnvOK e) (m n : Nat) (appbas : Mat (ZMod q)[X])
    (s : Nat → Int) (F : Mat (ZMod q)[X]) (order : Nat) :
    Generates (asMatrix m n F) order (asMatrix m m (polyMbasis e m n appbas s F order).1) ∧
    DiagPivots order (fun i : Fin m => s i) (asMatrix m m (polyMbasis e m n appbas s F order).1)
      (fun i : Fin m => (polyMbasis e m n appbas s F order).2 i) := by
  have htr := (C19_set_trunc_from_poly_mat m n ⟨0, fun _ _ _ => 0⟩ F order).2
  have hsp := mbasis_spec e.fl he.fl e.qs he.qs m n ⟨0, fun _ _ _ => 0⟩ s
    (setTruncFromPolyMat m n ⟨0, fun _ _ _ => 0⟩ F order) order e.perm0
  unfold polyMbasis
  simp only
  generalize setTruncFromPolyMat m n ⟨0, fun _ _ _ => 0⟩ F order = matp at *
  generalize mbasis e.fl e.qs m n ⟨0, fun _ _ _ => 0⟩ s matp order e.perm0 = res at *
  have heq : asMatrix m m (polyMatSetTrunc m m appbas res.app res.app.len) =
      valueMatrix m m res.app := by
    refine Matrix.ext fun i j => ?_
    show polyMatSetTrunc m m appbas res.app res.app.len i j = value res.app i j
    ext k
    rw [C19_poly_mat_set_trunc m m appbas res.app _ i j i.2 j.2 k, coeff_value]
    split_ifs <;> rfl
  rw [heq]
  refine ⟨generates_congr (fun i j => ?_) hsp.1, hsp.2⟩
  refine dvd_sub_of_coeff fun k hk => ?_
  have := htr i j i.2 j.2 k
  rw [if_pos hk] at this
  exact this.symm

theorem pmbasis_spec (e : Env q) (he : EnvOK e) (m n : Nat) (fuel : Nat) :
    ∀ (appbas : Mat (ZMod q)[X]) (s : Nat → Int) (F : Mat (ZMod q)[X]) (order : Nat),
      order < fuel →
      ∃ P t, pmbasis e m n fuel appbas s F order = Outcome.ok (P, t) ∧
        Generates (asMatrix m n F) order (asMatrix m m P) ∧
        DiagPivots order (fun i : Fin m => s i) (asMatrix m m P) (fun i : Fin m => t i) := by
  induction fuel with
  | zero => intro _ _ _ _ h; omega
  | succ fuel ih =>
    intro appbas s F order hf
    have hthr := he.thr
    have htr : ∀ i j, i < m → j < n → ∀ k, k < order →
        (F i j).coeff k = (truncPoly m n (fun _ _ => 0) F order i j).coeff k := by
      intro i j hi hj k hk
      rw [truncPoly_coeff _ _ _ _ _ _ _ ⟨hi, hj⟩, if_pos hk]
    rw [pmbasis]
    simp only
    generalize truncPoly m n (fun _ _ => 0) F order = pmat at *
    have hcongr : ∀ (i : Fin m) (j : Fin n), X ^ order ∣ asMatrix m n F i j - asMatrix m n pmat i j :=
      fun i j => dvd_sub_of_coeff (htr i j i.2 j.2)
    by_cases hle : order ≤ e.thr
    · rw [if_pos hle]
      have := polyMbasis_spec e he m n appbas s pmat order
      exact ⟨_, _, rfl, generates_congr hcongr this.1, this.2⟩
    · rw [if_neg hle]
      obtain ⟨P1, t1, e1, hG1, hD1⟩ := ih appbas s pmat (order / 2) (by omega)
      rw [e1]
      simp only
      obtain ⟨R, e2, hR, -⟩ := C28_mulmid e.geom e.mul he.mul m m n (order / 2) order 3 (le_refl _)
        (fun _ _ => 0) P1 pmat
      rw [e2]
      simp only
      obtain ⟨P2, t2, e3, hG2, hD2⟩ := ih (fun _ _ => 0) t1 R (order - order / 2) (by omega)
      rw [e3]
      simp only
      obtain ⟨P, e4, hP, -⟩ := C27_multiply e.mul he.mul m m m P1 P2 P1
      rw [e4]
      refine ⟨P, t2, rfl, ?_, ?_⟩
      · rw [hP]
        refine generates_congr hcongr ?_
        have hsum : order / 2 + (order - order / 2) = order := by omega
        have := Generates.mul (d₁ := order / 2) (d₂ := order - order / 2) hG1 (G := asMatrix m n R)
          (fun i j => ?_) hG2
        · rwa [hsum] at this
        · rw [hsum]
          refine dvd_sub_of_coeff fun k hk => ?_
          by_cases hk1 : k < order / 2
          · rw [coeff_X_pow_mul', if_neg (by omega)]
            exact coeff_of_dvd (hG1.sound i j) hk1
          · rw [coeff_X_pow_mul', if_pos (by omega), hR i j, if_pos (by omega)]
            rw [show order / 2 + (k - order / 2) = k by omega]
      · rw [hP]
        exact (hD1.mul hD2).mono (by omega)

/-- C23: for every prime modulus, dimensions, shift, input, order, recursion
    threshold at least 1, and whatever the multiplication and middle product
    algorithms selected at each node, `pmbasis` terminates without failure. Its
    result is an approximant basis of the input at the given order, in
    `s`-ordered weak Popov form with pivots on the diagonal, and the returned
    shift is the list of `s`-row degrees. -/
theorem C23_pmbasis (e : Env q) (he : EnvOK e) (m n fuel : Nat) (appbas : Mat (ZMod q)[X])
    (s : Nat → Int) (F : Mat (ZMod q)[X]) (order : Nat) (hfuel : order < fuel) :
    ∃ P t, pmbasis e m n fuel appbas s F order = Outcome.ok (P, t) ∧
      IsApproximantBasis (asMatrix m n F) order (asMatrix m m P) ∧
      OrderedWeakPopovLower m m s P ∧
      ∀ i, i < m → PivotLower m s (P i) i (t i - s i).toNat ∧ s i ≤ t i ∧
        ShiftedDegree m s (P i) (t i) := by
  obtain ⟨P, t, h, hG, hD⟩ := pmbasis_spec e he m n fuel appbas s F order hfuel
  have hp := pivots_of_diagPivots (V := P) hD
  exact ⟨P, t, h, hG.isBasis, ⟨fun i => i, _, fun i hi => (hp i hi).1, fun i j hij _ => hij⟩,
    fun i hi => ⟨(hp i hi).1, hD.ge ⟨i, hi⟩, (hp i hi).2⟩⟩

/-- C23 for `nmod_poly_mat_mbasis`, the base case with polynomial matrices. -/
theorem C23_poly_mat_mbasis (e : Env q) (he : EnvOK e) (m n : Nat) (appbas : Mat (ZMod q)[X])
    (s : Nat → Int) (F : Mat (ZMod q)[X]) (order : Nat) :
    let res := polyMbasis e m n appbas s F order
    IsApproximantBasis (asMatrix m n F) order (asMatrix m m res.1) ∧
      OrderedWeakPopovLower m m s res.1 ∧
      ∀ i, i < m → PivotLower m s (res.1 i) i (res.2 i - s i).toNat ∧ s i ≤ res.2 i ∧
        ShiftedDegree m s (res.1 i) (res.2 i) := by
  intro res
  have ⟨hG, hD⟩ := polyMbasis_spec e he m n appbas s F order
  have hp := pivots_of_diagPivots (V := res.1) hD
  exact ⟨hG.isBasis, ⟨fun i => i, _, fun i hi => (hp i hi).1, fun i j hij _ => hij⟩,
    fun i hi => ⟨(hp i hi).1, hD.ge ⟨i, hi⟩, (hp i hi).2⟩⟩

/-- The hypotheses are met, with the threshold of the code, for every prime; and
    `pmbasis` then handles `F = [1 + X^40; X]` at order 100 with shift `(4, -1)`. -/
example : ∃ e : Env 5, EnvOK e ∧ e.thr = 32 ∧
    let F : Mat (ZMod 5)[X] := fun i _ => if i = 0 then 1 + X ^ 40 else X
    ∃ P t, pmbasis e 2 1 101 (fun _ _ => 0) (fun i => if i = 0 then 4 else -1) F 100 =
      Outcome.ok (P, t) ∧ IsApproximantBasis (asMatrix 2 1 F) 100 (asMatrix 2 2 P) := by
  obtain ⟨fl, hfl⟩ := flintContract_satisfiable (K := ZMod 5)
  obtain ⟨o, ho⟩ := oracles_satisfiable (q := 5)
  have he : EnvOK (q := 5) ⟨fl, insQsort, o, id, true, 32⟩ := ⟨hfl, insQsort_contract, ho, by show 1 ≤ 32; omega⟩
  refine ⟨⟨fl, insQsort, o, id, true, 32⟩, he, rfl, ?_⟩
  obtain ⟨P, t, h1, h2, -⟩ := C23_pmbasis _ he 2 1 101 (fun _ _ => 0)
    (fun i => if i = 0 then 4 else -1) (fun i _ => if i = 0 then 1 + X ^ 40 else X) 100 (by omega)
  exact ⟨P, t, h1, h2⟩

end PML.Pmbasis
