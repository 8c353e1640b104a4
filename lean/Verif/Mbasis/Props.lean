import Verif.Mbasis.Lemmas
import Verif.Approx.Spec
import Verif.Forms.Spec

/-!
# C21 and C22: the iterative approximant basis algorithm

`fl` is any function meeting FLINT's contract for `nmod_mat_nullspace`, `qs` any
sorting function; both contracts are satisfiable (`flintContract_satisfiable`,
`insQsort_contract`).
-/

namespace PML.Mbasis

open PML.MatOps PML.MatPoly PML.MatPoly.Spec PML.Sort PML.Sort.Spec PML.Nullspace
open PML.Nullspace.Spec PML.Pluq PML.Pluq.Spec PML.Approx PML.Approx.Spec PML.Forms.Spec Polynomial

variable {K : Type} [Field K] [DecidableEq K]

set_option linter.unusedSectionVars false

/-- The rest of the steps when the residual has full row rank. -/
theorem full_rank_steps {m n : Nat} {F : Matrix (Fin m) (Fin n) K[X]} {s0 s : Fin m → Int}
    {P : Matrix (Fin m) (Fin m) K[X]} {d : Nat}
    (hind : ∀ ν : Fin m → K, (∀ j, ∑ t, ν t * ((P * F) t j).coeff d = 0) → ∀ t, ν t = 0)
    (hG : Generates F d P) (hD : DiagPivots d s0 P s) (k : Nat) :
    Generates F (d + k) ((X ^ k : K[X]) • P) ∧
      DiagPivots (d + k) s0 ((X ^ k : K[X]) • P) (fun i => s i + (k : Int)) := by
  induction k with
  | zero =>
    simp only [pow_zero, one_smul, Nat.add_zero, Nat.cast_zero, add_zero]
    exact ⟨hG, hD⟩
  | succ k ih =>
    have hR : ∀ i j, (Matrix.of fun i j => ((P * F) i j).coeff d : Matrix (Fin m) (Fin n) K) i j =
        ((((X ^ k : K[X]) • P) * F) i j).coeff (d + k) := by
      intro i j
      rw [Matrix.smul_mul, Matrix.smul_apply, smul_eq_mul, coeff_X_pow_mul]; rfl
    have hst : Step (Matrix.of fun i j => ((P * F) i j).coeff d : Matrix (Fin m) (Fin n) K)
        (fun i => s i + (k : Int)) (fun i => s i + ((k + 1 : Nat) : Int))
        ((X ^ k : K[X]) • P) ((X ^ (k + 1) : K[X]) • P) Finset.univ (fun _ _ => 0) := by
      refine ⟨fun ν hν t _ => hind ν hν t, fun i hi => absurd (Finset.mem_univ i) hi,
        fun i hi => absurd (Finset.mem_univ i) hi, fun t _ l => ?_,
        fun i hi => absurd (Finset.mem_univ i) hi, fun t _ => by push_cast; ring,
        fun i hi => absurd (Finset.mem_univ i) hi⟩
      simp only [Matrix.smul_apply, smul_eq_mul]; ring
    exact ⟨hst.generates hR ih.1, hst.diagPivots ih.2⟩

theorem residual_eq {m n : Nat} (F : MatPoly K) (s : State K) (ord : Nat)
    (h0 : ord = 0 → valueMatrix m m s.app = 1 ∧ 0 < F.len) (i : Fin m) (j : Fin n) :
    residual m F s ord i j = ((valueMatrix m m s.app * valueMatrix m n F) i j).coeff ord := by
  unfold residual
  by_cases h : ord = 0
  · obtain ⟨h1, h2⟩ := h0 h
    rw [if_pos h, h1, Matrix.one_mul, h]
    show _ = (value F i j).coeff 0
    rw [coeff_value, if_pos h2]
  · rw [if_neg h]; exact C18_mul_coeff m m n s.app F ord i j

theorem loop_spec (fl : RightNullspaceFn K) (hfl : FlintContract fl) (qs : QsortFn)
    (hqs : QsortContract qs) (m n : Nat) (F : MatPoly K) (perm0 : Nat → Nat) (s0 : Nat → Int)
    (steps : Nat) :
    ∀ (ord : Nat) (s : State K), (ord = 0 → valueMatrix m m s.app = 1 ∧ 0 < F.len) →
      Generates (valueMatrix m n F) ord (valueMatrix m m s.app) →
      DiagPivots ord (fun i : Fin m => s0 i) (valueMatrix m m s.app) (fun i : Fin m => s.shift i) →
      Generates (valueMatrix m n F) (ord + steps)
        (valueMatrix m m (loop fl qs m n F perm0 steps ord s).app) ∧
      DiagPivots (ord + steps) (fun i : Fin m => s0 i) (valueMatrix m m (loop fl qs m n F perm0 steps ord s).app)
        (fun i : Fin m => (loop fl qs m n F perm0 steps ord s).shift i) := by
  induction steps with
  | zero => intro ord s _ hG hD; exact ⟨hG, hD⟩
  | succ steps ih =>
    intro ord s h0 hG hD
    have hres := residual_eq (n := n) F s ord h0
    generalize hR : residual m F s ord = R at hres
    have hsort := (sortPerm_spec qs hqs m s.shift perm0).1
    generalize hperm : sortPerm qs m s.shift perm0 = perm at hsort
    have hcomp := compact_spec fl hfl m n (permuteRows m R perm none).1 perm0
    generalize hker : leftNullspaceCompact fl m n (permuteRows m R perm none).1 perm0 = ker at hcomp
    obtain ⟨ns, piv, nu⟩ := ker
    simp only at hcomp
    have hit := iter_of_compact hsort hcomp
    simp only at hit
    have hloop : loop fl qs m n F perm0 (steps + 1) ord s =
        if nu = 0 then
          { app := shiftLeftAliased s.app (steps + 1),
            shift := fun i => if i < m then s.shift i + ((steps + 1 : Nat) : Int) else s.shift i }
        else if nu < m then
          loop fl qs m n F perm0 steps (ord + 1) (usualCase m (m - nu) ns perm piv s)
        else loop fl qs m n F perm0 steps (ord + 1) s := by
      rw [loop]
      simp only [hR, hperm, hker]
    rw [hloop]
    by_cases hnu0 : nu = 0
    · -- full rank
      rw [if_pos hnu0]
      subst hnu0
      have hst := hit.step (V := fun i j => value s.app i j)
        (V' := fun i j => X * value s.app i j) (s' := fun i => s.shift i + 1)
        (fun _ _ _ _ => rfl) (fun i h1 h2 => by omega) (fun _ _ => rfl) (fun i h1 h2 => by omega)
      have huniv : (Finset.univ.filter fun t : Fin m =>
          permInv (fun i => if i < m then perm (piv i) else piv i) m
            (fun i => if i < m then perm (piv i) else piv i) t < m - 0) = Finset.univ := by
        ext t
        simp only [Finset.mem_filter, Finset.mem_univ, true_and, iff_true]
        exact (hit.right t t.2).1
      rw [huniv] at hst
      have := full_rank_steps (s := fun i : Fin m => s.shift i) (F := valueMatrix m n F)
        (P := valueMatrix m m s.app) (d := ord) ?_ hG hD (steps + 1)
      · rw [← C17_shift_left_aliased_partial] at this
        refine ⟨this.1, ?_⟩
        have h2 := this.2
        simp only [Fin.is_lt, if_true]
        exact h2
      · intro ν hν t
        refine hst.indep ν (fun j => ?_) t (Finset.mem_univ t)
        rw [← hν j]
        exact Finset.sum_congr rfl fun i _ => by rw [← hres]; rfl
    · rw [if_neg hnu0]
      by_cases hnum : nu < m
      · rw [if_pos hnum]
        obtain ⟨r1, r2, r3, r4⟩ := usualCase_rows (ns := ns) s hit.rank_le hit.isPerm
        have hst := hit.step (V := fun i j => value s.app i j)
          (V' := fun i j => value (usualCase m (m - nu) ns perm piv s).app i j) r1 r2 r3 r4
        have e : ord + (steps + 1) = ord + 1 + steps := by omega
        rw [e]
        refine ih (ord + 1) _ (fun h => by omega) ?_ ?_
        · exact hst.generates (fun i j => hres i j) hG
        · exact hst.diagPivots hD
      · rw [if_neg hnum]
        have hrk : m - nu = 0 := by omega
        have e : ord + (steps + 1) = ord + 1 + steps := by omega
        rw [e]
        have hst := hit.step (V := fun i j => value s.app i j)
          (V' := fun i j => value s.app i j) (s' := s.shift)
          (fun k hk => by omega) (fun i _ _ l _ => by rw [hrk]; simp)
          (fun k hk => by omega) (fun _ _ _ => rfl)
        refine ih (ord + 1) s (fun h => by omega) ?_ (hD.mono (by omega))
        exact hst.generates (fun i j => hres i j) hG

/-- Both properties of the result. -/
theorem mbasis_spec (fl : RightNullspaceFn K) (hfl : FlintContract fl) (qs : QsortFn)
    (hqs : QsortContract qs) (m n : Nat) (app0 : MatPoly K) (s : Nat → Int) (F : MatPoly K)
    (order : Nat) (perm0 : Nat → Nat) :
    Generates (valueMatrix m n F) order
      (valueMatrix m m (mbasis fl qs m n app0 s F order perm0).app) ∧
    DiagPivots order (fun i : Fin m => s i)
      (valueMatrix m m (mbasis fl qs m n app0 s F order perm0).app)
      (fun i : Fin m => (mbasis fl qs m n app0 s F order perm0).shift i) := by
  have hone : valueMatrix m m (MatPoly.one app0) = 1 := (C20_zero_one_set m m app0 app0).2.1
  unfold mbasis
  by_cases hz : MatPoly.isZero F = true
  · simp only [hz, if_true]
    rw [hone]
    have hF : valueMatrix m n F = 0 := by
      simp only [MatPoly.isZero, beq_iff_eq] at hz
      ext i j k; simp [valueMatrix, coeff_value, hz]
    rw [hF]
    refine ⟨⟨fun i j => by simp, fun v _ => ⟨v, by simp⟩⟩, (DiagPivots.one _).mono (by omega)⟩
  · simp only [hz]
    have hlen : 0 < F.len := by
      simp only [MatPoly.isZero, beq_iff_eq] at hz; omega
    have := loop_spec fl hfl qs hqs m n F perm0 s order 0 ⟨MatPoly.one app0, s⟩
      (fun _ => ⟨hone, hlen⟩) (by rw [hone]; exact Generates.zero_order _)
      (by simp only [hone]; exact DiagPivots.one _)
    rw [Nat.zero_add] at this
    exact this

/-- C21: for every dimension, field, shift and positive order, the result of
    `mbasis` is an approximant basis of the input: it is nonsingular, each of its
    rows is an approximant, and every approximant is a combination of its rows. -/
theorem C21_mbasis_is_approximant_basis (fl : RightNullspaceFn K) (hfl : FlintContract fl)
    (qs : QsortFn) (hqs : QsortContract qs) (m n : Nat) (app0 : MatPoly K) (s : Nat → Int)
    (F : MatPoly K) (order : Nat) (_horder : 0 < order) (perm0 : Nat → Nat) :
    IsApproximantBasis (valueMatrix m n F) order
      (valueMatrix m m (mbasis fl qs m n app0 s F order perm0).app) :=
  (mbasis_spec fl hfl qs hqs m n app0 s F order perm0).1.isBasis

/-- Diagonal pivots are lower pivots in the sense of the specification. -/
theorem pivots_of_diagPivots {m d : Nat} {s t : Nat → Int} {V : Nat → Nat → K[X]}
    (h : DiagPivots d (fun i : Fin m => s i) (Matrix.of fun i j : Fin m => V i j)
      (fun i : Fin m => t i)) :
    ∀ i, i < m → PivotLower m s (V i) i (t i - s i).toNat ∧ ShiftedDegree m s (V i) (t i) := by
  intro i hi
  have hge : s i ≤ t i := h.ge ⟨i, hi⟩
  have hlead : (V i i).coeff (t i - s i).toNat ≠ 0 := h.lead ⟨i, hi⟩
  have hne : V i i ≠ 0 := by intro e; rw [e] at hlead; exact hlead (by simp)
  have hle : ∀ j, j < m → V i j ≠ 0 → ((V i j).natDegree : Int) + s j ≤ t i := fun j hj hn =>
    degLE_iff.1 (h.le ⟨i, hi⟩ ⟨j, hj⟩) hn
  have hdeg : (V i i).natDegree = (t i - s i).toNat := by
    have h1 := hle i hi hne
    have h2 := le_natDegree_of_ne_zero hlead
    omega
  refine ⟨⟨hi, hne, hdeg, fun j hj hn => ?_, fun j hj hij hn => ?_⟩, ⟨hle, i, hi, hne, ?_⟩⟩
  · have := hle j hj hn; omega
  · have : ((V i j).natDegree : Int) + s j ≤ t i - 1 :=
      degLE_iff.1 (h.after ⟨i, hi⟩ ⟨j, hj⟩ hij) hn
    omega
  · omega

/-- C22: the result of `mbasis` is in `s`-ordered weak Popov form, with its
    pivots on the diagonal; the returned shift holds the `s`-row degrees. -/
theorem C22_mbasis_minimal (fl : RightNullspaceFn K) (hfl : FlintContract fl)
    (qs : QsortFn) (hqs : QsortContract qs) (m n : Nat) (app0 : MatPoly K) (s : Nat → Int)
    (F : MatPoly K) (order : Nat) (_horder : 0 < order) (perm0 : Nat → Nat) :
    let res := mbasis fl qs m n app0 s F order perm0
    OrderedWeakPopovLower m m s (value res.app) ∧
    ∀ i, i < m → PivotLower m s (value res.app i) i (res.shift i - s i).toNat ∧
      s i ≤ res.shift i ∧ ShiftedDegree m s (value res.app i) (res.shift i) := by
  intro res
  have hD := (mbasis_spec fl hfl qs hqs m n app0 s F order perm0).2
  have h := pivots_of_diagPivots hD
  exact ⟨⟨fun i => i, _, fun i hi => (h i hi).1, fun i j hij _ => hij⟩,
    fun i hi => ⟨(h i hi).1, hD.ge ⟨i, hi⟩, (h i hi).2⟩⟩

/-- C21, both FLINT branches: moving the row pointers (FLINT < 3.3) and copying
    the rows (FLINT >= 3.3) give the same coefficients, after `grow`. -/
theorem C21_row_shift_branches_agree (m rank : Nat) (P : MatPoly K) :
    (shiftRowsOld rank (grow m rank P)).len = (shiftRows rank (grow m rank P)).len ∧
    ∀ d i j, j < m →
      (shiftRowsOld rank (grow m rank P)).co d i j = (shiftRows rank (grow m rank P)).co d i j := by
  refine ⟨rfl, fun d i j hj => ?_⟩
  simp only [shiftRowsOld, shiftRows]
  by_cases hi : i < rank
  · rw [if_pos hi, if_pos hi]
    by_cases hd : d = 0
    · subst hd
      rw [Function.update_self, Function.update_self]
      exact grow_last m rank P i j hi hj
    · rw [Function.update_of_ne hd, Function.update_of_ne hd]
  · rw [if_neg hi, if_neg hi]

/-- C21, memory: "arrived at this stage, appbas->length must be >= 2"
    (nmod_mat_poly_mbasis.c:328, 337): true because no row of the basis is zero. -/
theorem C21_length_at_least_two (m rank : Nat) (P : MatPoly K) (i : Nat) (hi : i < rank)
    (h : ∃ j, j < m ∧ value P i j ≠ 0) : 2 ≤ (grow m rank P).len := by
  obtain ⟨j, hj, hne⟩ := h
  by_contra hlt
  apply hne
  rw [← value_grow m rank P i j]
  ext k
  rw [coeff_value, coeff_zero]
  by_cases hk : k < (grow m rank P).len
  · rw [if_pos hk]
    have : k = (grow m rank P).len - 1 := by omega
    rw [this]; exact grow_last m rank P i j hi hj
  · rw [if_neg hk]

/-- The hypotheses of C21 and C22 are met by some oracles, for a non-trivial
    input: `F = [1 + X; X]` over the field with five elements, order 3, shift
    `(4, -1)`. -/
example : ∃ (fl : RightNullspaceFn (ZMod 5)) (qs : QsortFn), FlintContract fl ∧ QsortContract qs ∧
    let F : MatPoly (ZMod 5) := ⟨2, fun k i _ => if k = 1 ∨ i = 0 then 1 else 0⟩
    let s : Nat → Int := fun i => if i = 0 then 4 else -1
    (value F 0 0 = 1 + X ∧ value F 1 0 = X) ∧
    IsApproximantBasis (valueMatrix 2 1 F) 3
      (valueMatrix 2 2 (mbasis fl qs 2 1 ⟨0, fun _ _ _ => 0⟩ s F 3 id).app) := by
  obtain ⟨fl, hfl⟩ := flintContract_satisfiable (K := ZMod 5)
  refine ⟨fl, insQsort, hfl, insQsort_contract, ⟨?_, ?_⟩, ?_⟩
  · simp [value, Finset.sum_range_succ, ← monomial_one_one_eq_X]
  · simp [value, Finset.sum_range_succ, ← monomial_one_one_eq_X]
  · exact C21_mbasis_is_approximant_basis fl hfl insQsort insQsort_contract 2 1 _ _ _ 3 (by omega) _

end PML.Mbasis
