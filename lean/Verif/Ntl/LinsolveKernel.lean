import Verif.Ntl.LinsolveProps
import Verif.Ntl.KerbasProps
import Verif.Ntl.FormsProps

/-! # Solving linear systems over `K(X)` by a kernel basis (C95) -/

namespace PML.Ntl.Linsolve

open Polynomial PML.Ntl.Utils PML.Ntl.Inv PML.Ntl.Solve PML.Forms.Spec PML.Ntl.Kerbas PML.Ntl.Mbasis

variable {F : Type} [Field F]

/-- The shift: the degrees of the columns of `A`, and that of `b`. -/
structure ShiftOK (A : PMat F[X]) (b : Nat → F[X]) (s : Nat → Int) : Prop where
  col : ∀ j, j < A.cols → IsVecDegree A.rows (fun _ => 0) (fun i => A.e (i, j)) (-1) (s j)
  rhs : IsVecDegree A.rows (fun _ => 0) b (-1) (s A.cols)

theorem inKernel_sum {A : PMat F[X]} {b : Nat → F[X]} {K : PMat F[X]} (h : InKernel (augmented A b) K) (k : Nat) (hk : k < K.rows) (i : Nat) (hi : i < A.rows) :
    ∑ j ∈ Finset.range A.cols, A.e (i, j) * K.e (k, j) + K.e (k, A.cols) * b i = 0 := by
  have h1 : ∑ j ∈ Finset.range (A.cols + 1), K.e (k, j) * (augmented A b).e (j, i) = 0 := by
    rw [Finset.sum_range]
    exact congrFun (h.zero ⟨k, hk⟩) ⟨i, hi⟩
  rw [Finset.sum_range_succ] at h1
  have e : (augmented A b).e (A.cols, i) = b i := by
    show (if A.cols < A.cols then _ else _) = _
    rw [if_neg (lt_irrefl _)]
  rw [e] at h1
  rw [← h1]
  congr 1
  refine Finset.sum_congr rfl fun j hj => ?_
  show _ = _ * (if j < A.cols then A.e (i, j) else b i)
  rw [if_pos (Finset.mem_range.1 hj), mul_comm]

theorem getD_get (l : List Int) {k : Nat} (h : k < l.length) : l.getD k 0 = l[k] := by
  simp [List.getD, h]

/-- Everything about a run. -/
theorem kernel_core [DecidableEq F] {e : Kerbas.Env F} (he : EnvOk e) (A : PMat F[X]) (b : Nat → F[X]) :
    ∃ (K : PMat F[X]) (shift : List Int), shift.length = A.cols + 1 ∧ ShiftOK A b (fun j => shift.getD j 0) ∧ InKernel (augmented A b) K ∧
      (A.rows ≤ 2 → PML.Kernel.Spec.IsKernelBasis (mat (A.cols + 1) A.rows (augmented A b)) (mat K.rows (A.cols + 1) K) ∧
        OrderedWeakPopovLower K.rows (A.cols + 1) (fun j => shift.getD j 0) fun i j => K.e (i, j)) ∧
      ((viaKernel e A b = .ok none ∧ ∀ k, k < K.rows → ∀ δ, ¬ PivotLower (A.cols + 1) (fun j => shift.getD j 0) (fun j => K.e (k, j)) A.cols δ) ∨
       ∃ u k, viaKernel e A b = .ok (some (u, K.e (k, A.cols))) ∧ k < K.rows ∧ (∀ j, j < A.cols → u j = -K.e (k, j)) ∧
        ∃ δ, PivotLower (A.cols + 1) (fun j => shift.getD j 0) (fun j => K.e (k, j)) A.cols δ) := by
  obtain ⟨shift, z, h1, h2, h3, -, h4⟩ := Forms.C78_degree true (augmented A b) none (fun l hl => by cases hl)
  have z1 : z = -1 := h3 rfl
  have hl : shift.length = A.cols + 1 := h2
  obtain ⟨⟨K, t⟩, k1, k2, k3, k4, k5⟩ := C81_zls_approximation_partial he (augmented A b) shift hl
  obtain ⟨pi, pd, p1, p2, p3, p4⟩ := Forms.C78_pivots true K (some shift) (fun l h => by
    cases h
    have : K.cols = A.cols + 1 := k2.cols
    exact ⟨by rw [hl]; exact this.symm, by show 0 < K.cols; omega⟩)
  have hKc : K.cols = A.cols + 1 := k2.cols
  have hlen : Forms.len true K = A.cols + 1 := hKc
  have hnum : Forms.num true K = K.rows := rfl
  rw [hlen, hnum] at p4
  rw [hnum] at p2
  refine ⟨K, shift, hl, ⟨fun j hj => ?_, ?_⟩, k2, fun hr => ⟨k4 (Or.inl hr), k5 (by have : (augmented A b).cols = A.rows := rfl; omega)⟩, ?_⟩
  · have := h4 j (by show j < A.cols + 1; omega)
    rw [z1] at this
    have e : Forms.linesOf true (augmented A b) j = fun i => A.e (i, j) := by
      funext i
      show (if j < A.cols then _ else _) = _
      rw [if_pos hj]
    rw [e] at this
    exact this
  · have := h4 A.cols (by show A.cols < A.cols + 1; omega)
    rw [z1] at this
    have e : Forms.linesOf true (augmented A b) A.cols = b := by
      funext i
      show (if A.cols < A.cols then _ else _) = _
      rw [if_neg (lt_irrefl _)]
    rw [e] at this
    exact this
  · have piv_of : ∀ k, k < K.rows → pi.getD k 0 = (A.cols : Int) → ∃ δ, PivotLower (A.cols + 1) (fun j => shift.getD j 0) (fun j => K.e (k, j)) A.cols δ := fun k hk hp => by
      obtain ⟨q1, q2⟩ := p4 k hk
      by_cases hz : ZeroVec (A.cols + 1) (Forms.linesOf true K k)
      · have := (q1 hz).1
        rw [hp] at this
        exact absurd this (by omega)
      · obtain ⟨π, δ, r1, r2, r3⟩ := q2 hz
        rw [hp] at r1
        have : π = A.cols := by exact_mod_cast r1.symm
        rw [this] at r3
        exact ⟨δ, r3⟩
    have run : viaKernel e A b = if (pi.findIdx fun x => x == (A.cols : Int)) = pi.length then .ok none
        else .ok (some (forN A.cols (fun j u => write j (-K.e (pi.findIdx (fun x => x == (A.cols : Int)), j)) u) (fun _ => 0), K.e (pi.findIdx (fun x => x == (A.cols : Int)), A.cols))) := by
      unfold viaKernel
      dsimp only
      rw [h1]
      simp only [andThen]
      rw [k1]
      simp only [andThen]
      rw [p1]
    by_cases hf : (pi.findIdx fun x => x == (A.cols : Int)) = pi.length
    · left
      refine ⟨by rw [run, if_pos hf], fun k hk δ hp => ?_⟩
      have hnot := List.findIdx_eq_length.1 hf
      have hkl : k < pi.length := by omega
      have := hnot (pi[k]) (List.getElem_mem hkl)
      obtain ⟨q1, q2⟩ := p4 k hk
      have hnz : ¬ ZeroVec (A.cols + 1) (Forms.linesOf true K k) := fun hz => hp.nonzero (hz _ hp.lt)
      obtain ⟨π, δ', r1, r2, r3⟩ := q2 hnz
      have hpi : π = A.cols := by
        by_contra hne
        have hlt : π < A.cols := by have := r3.lt; omega
        have e1 := r3.after A.cols (by omega) hlt hp.nonzero
        have e2 := hp.le π r3.lt r3.nonzero
        have e3 : ((K.e (k, A.cols)).natDegree : Int) = δ := by have := hp.degree; exact_mod_cast this
        have e4 : ((K.e (k, π)).natDegree : Int) = δ' := by have := r3.degree; exact_mod_cast this
        have e1' : ((K.e (k, A.cols)).natDegree : Int) + shift.getD A.cols 0 < δ' + shift.getD π 0 := e1
        have e2' : ((K.e (k, π)).natDegree : Int) + shift.getD π 0 ≤ δ + shift.getD A.cols 0 := e2
        omega
      rw [getD_get _ hkl, hpi] at r1
      rw [r1] at this
      simp at this
    · right
      have hlt : (pi.findIdx fun x => x == (A.cols : Int)) < pi.length := lt_of_le_of_ne List.findIdx_le_length hf
      have hrow := List.findIdx_getElem (w := hlt)
      refine ⟨_, _, by rw [run, if_neg hf], by omega, fun j hj => ?_, piv_of _ (by omega) ?_⟩
      · exact write_all (fun j => -K.e (pi.findIdx (fun x => x == (A.cols : Int)), j)) _ j hj
      · rw [getD_get _ hlt]
        exact beq_iff_eq.1 hrow

/-- **C95.** `linsolve_via_kernel` always returns, and what it returns, when it does not return 0, is a solution with a nonzero denominator. -/
theorem C95_kernel [DecidableEq F] {e : Kerbas.Env F} (he : EnvOk e) (A : PMat F[X]) (b : Nat → F[X]) :
    ∃ o, viaKernel e A b = .ok o ∧ ∀ u den, o = some (u, den) → den ≠ 0 ∧ Solves A b u den := by
  obtain ⟨K, shift, -, -, hK, -, h | ⟨u, k, h1, hk, h2, δ, h3⟩⟩ := kernel_core he A b
  · exact ⟨_, h.1, fun u den h => by cases h⟩
  · refine ⟨_, h1, fun u' den h => ?_⟩
    obtain ⟨rfl, rfl⟩ := Prod.mk.inj (Option.some.inj h)
    refine ⟨h3.nonzero, fun i hi => ?_⟩
    have h4 := inKernel_sum hK k hk i hi
    rw [Finset.sum_congr rfl fun j hj => by rw [h2 j (Finset.mem_range.1 hj), mul_neg], Finset.sum_neg_distrib]
    exact (eq_neg_of_add_eq_zero_right h4).symm

/-- The pivot of a combination of the rows of a matrix in weak Popov form is the pivot of a row. -/
theorem pivot_of_combination {r n : Nat} {s : Nat → Int} {M : Nat → Nat → F[X]} (hM : OrderedWeakPopovLower r (n + 1) s M) (c : Nat → F[X]) {w : Nat → F[X]}
    (hw : ∀ j, j < n + 1 → w j = ∑ i ∈ Finset.range r, c i * M i j) {δ : Nat} (hp : PivotLower (n + 1) s w n δ) : ∃ i, i < r ∧ ∃ δ', PivotLower (n + 1) s (M i) n δ' := by
  classical
  obtain ⟨piv, dl, h1, h2⟩ := hM
  by_contra hcon
  push Not at hcon
  have hlt : ∀ i, i < r → piv i < n := fun i hi => by
    have h3 := h1 i hi
    have := h3.lt
    rcases Nat.lt_or_ge (piv i) n with h | h
    · exact h
    · have e : piv i = n := by omega
      rw [e] at h3
      exact absurd h3 (hcon i hi (dl i))
  -- the rows that occur
  let S := (Finset.range r).filter fun i => c i ≠ 0
  have hS : S.Nonempty := by
    by_contra hE
    rw [Finset.not_nonempty_iff_eq_empty, Finset.filter_eq_empty_iff] at hE
    refine hp.nonzero ?_
    rw [hw n (by omega)]
    refine Finset.sum_eq_zero fun i hi => ?_
    rw [not_not.1 (hE hi), zero_mul]
  let D : Nat → Int := fun i => (c i).natDegree + dl i + s (piv i)
  obtain ⟨a, haS, hamax⟩ := S.exists_max_image D hS
  -- among the rows of largest degree, that of largest pivot
  let T := S.filter fun i => D i = D a
  obtain ⟨m, hmT, hmmax⟩ := T.exists_max_image piv ⟨a, Finset.mem_filter.2 ⟨haS, rfl⟩⟩
  have hmS := (Finset.mem_filter.1 hmT).1
  have hmD := (Finset.mem_filter.1 hmT).2
  have hmr : m < r := Finset.mem_range.1 (Finset.mem_filter.1 hmS).1
  have hm0 : c m ≠ 0 := (Finset.mem_filter.1 hmS).2
  have pm := h1 m hmr
  -- degree of a term
  have term : ∀ i, i < r → ∀ j, j < n + 1 → c i ≠ 0 → M i j ≠ 0 → ((c i * M i j).natDegree : Int) + s j ≤ D a ∧
      (piv m < j → ((c i * M i j).natDegree : Int) + s j < D a) ∧ (i ≠ m → j = piv m → ((c i * M i j).natDegree : Int) + s j < D a) := by
    intro i hi j hj hci hMij
    have hiS : i ∈ S := Finset.mem_filter.2 ⟨Finset.mem_range.2 hi, hci⟩
    have hle := hamax i hiS
    have h4 := (h1 i hi).le j hj hMij
    have e : ((c i * M i j).natDegree : Int) = (c i).natDegree + (M i j).natDegree := by rw [natDegree_mul hci hMij]; push_cast; rfl
    have eD : D i = (c i).natDegree + dl i + s (piv i) := rfl
    refine ⟨by omega, fun hpj => ?_, fun him hjm => ?_⟩
    · by_cases hiD : D i = D a
      · have := hmmax i (Finset.mem_filter.2 ⟨hiS, hiD⟩)
        have := (h1 i hi).after j hj (by omega) hMij
        omega
      · omega
    · by_cases hiD : D i = D a
      · have h5 := hmmax i (Finset.mem_filter.2 ⟨hiS, hiD⟩)
        have h6 : piv i ≠ piv m := fun he => by
          rcases Nat.lt_trichotomy i m with h | h | h
          · have := h2 i m h hmr; omega
          · exact him h
          · have := h2 m i h hi; omega
        have := (h1 i hi).after j hj (by omega) hMij
        omega
      · omega
  -- the last entry of w is of smaller degree
  have hlast : ((w n).natDegree : Int) + s n < D a := by
    by_contra hge
    have hge' : D a - s n ≤ (w n).natDegree := by omega
    refine hp.nonzero (leadingCoeff_eq_zero.1 ?_)
    rw [leadingCoeff]
    conv_lhs => rw [hw n (by omega)]
    rw [finsetSum_coeff, ← hw n (by omega)]
    refine Finset.sum_eq_zero fun i hi => ?_
    have hi' := Finset.mem_range.1 hi
    by_cases hci : c i = 0
    · rw [hci, zero_mul, coeff_zero]
    by_cases hMi : M i n = 0
    · rw [hMi, mul_zero, coeff_zero]
    refine coeff_eq_zero_of_natDegree_lt ?_
    have := (term i hi' n (by omega) hci hMi).2.1 (hlt m hmr)
    omega
  -- the entry at the pivot is of degree D a
  have hpm : piv m < n := hlt m hmr
  obtain ⟨k, hk⟩ : ∃ k : Nat, (k : Int) + s (piv m) = D a := ⟨(c m).natDegree + dl m, by rw [← hmD]; push_cast; rfl⟩
  have hcoef : (w (piv m)).coeff k ≠ 0 := by
    rw [hw (piv m) (by omega), finsetSum_coeff, Finset.sum_eq_single m]
    · have e : k = (c m).natDegree + (M m (piv m)).natDegree := by
        have h7 := pm.degree
        have h8 : (D m : Int) = (c m).natDegree + dl m + s (piv m) := rfl
        omega
      rw [e, coeff_mul_degree_add_degree]
      exact mul_ne_zero (leadingCoeff_ne_zero.2 hm0) (leadingCoeff_ne_zero.2 pm.nonzero)
    · intro i hi him
      have hi' := Finset.mem_range.1 hi
      by_cases hci : c i = 0
      · rw [hci, zero_mul, coeff_zero]
      by_cases hMi : M i (piv m) = 0
      · rw [hMi, mul_zero, coeff_zero]
      refine coeff_eq_zero_of_natDegree_lt ?_
      have := (term i hi' (piv m) (by omega) hci hMi).2.2 him rfl
      omega
    · intro h
      exact absurd (Finset.mem_range.2 hmr) h
  have hwm : w (piv m) ≠ 0 := fun h => hcoef (by rw [h, coeff_zero])
  have h9 := hp.le (piv m) (by omega) hwm
  have h10 := le_natDegree_of_ne_zero hcoef
  have h11 := hp.degree
  omega

/-- **C95, partial.** For systems of at most two equations, `linsolve_via_kernel` returns a solution as soon as there is one `(v, d)` in which `d` has the largest degree, when the degrees of
    the columns of `A` and of `b` are added to those of `v` and `d`.  What is missing: for more equations this rests on the kernel basis, see C81. -/
theorem C95_kernel_complete_partial [DecidableEq F] {e : Kerbas.Env F} (he : EnvOk e) (A : PMat F[X]) (b : Nat → F[X]) (hr : A.rows ≤ 2) (s : Nat → Int) (hs : ShiftOK A b s)
    (v : Nat → F[X]) (d : F[X]) (hv : Solves A b v d) (hd : d ≠ 0) (hdeg : ∀ j, j < A.cols → v j ≠ 0 → ((v j).natDegree : Int) + s j ≤ d.natDegree + s A.cols) :
    ∃ u den, viaKernel e A b = .ok (some (u, den)) := by
  obtain ⟨K, shift, hl, hS, hK, hB, h | ⟨u, k, h1, -⟩⟩ := kernel_core he A b
  · exfalso
    have uniq : ∀ (p : Nat → F[X]) (x y : Int), IsVecDegree A.rows (fun _ => 0) p (-1) x → IsVecDegree A.rows (fun _ => 0) p (-1) y → x = y := by
      intro p x y hx hy
      by_cases hz : ZeroVec A.rows p
      · rw [hx.1 hz, hy.1 hz]
      · obtain ⟨a1, j1, b1, c1, d1⟩ := hx.2 hz
        obtain ⟨a2, j2, b2, c2, d2⟩ := hy.2 hz
        have := a1 j2 b2 c2
        have := a2 j1 b1 c1
        omega
    have es : ∀ j, j < A.cols + 1 → shift.getD j 0 = s j := fun j hj => by
      rcases Nat.lt_or_ge j A.cols with h | h
      · exact uniq _ _ _ (hS.col j h) (hs.col j h)
      · have : j = A.cols := by omega
        rw [this]
        exact uniq _ _ _ hS.rhs hs.rhs
    let w : Nat → F[X] := fun j => if j < A.cols then -v j else d
    have hwn : w A.cols = d := if_neg (lt_irrefl _)
    have hwj : ∀ j, j < A.cols → w j = -v j := fun j hj => if_pos hj
    have hpiv : PivotLower (A.cols + 1) (fun j => shift.getD j 0) w A.cols d.natDegree := by
      refine ⟨by omega, by rw [hwn]; exact hd, by rw [hwn], fun j hj hw0 => ?_, fun j hj hlt => by omega⟩
      rw [es j hj, es A.cols (by omega)]
      rcases Nat.lt_or_ge j A.cols with h | h
      · rw [hwj j h] at hw0 ⊢
        rw [natDegree_neg]
        exact hdeg j h (fun h0 => hw0 (by rw [h0, neg_zero]))
      · have : j = A.cols := by omega
        rw [this, hwn]
    have hker : Matrix.vecMul (fun j : Fin (A.cols + 1) => w j) (mat (A.cols + 1) A.rows (augmented A b)) = 0 := by
      funext i
      show ∑ j : Fin (A.cols + 1), w j * (augmented A b).e (j, i) = 0
      rw [← Finset.sum_range fun j => w j * (augmented A b).e (j, i), Finset.sum_range_succ]
      have e1 : (augmented A b).e (A.cols, i) = b i := by
        show (if A.cols < A.cols then _ else _) = _
        rw [if_neg (lt_irrefl _)]
      have e2 : ∑ j ∈ Finset.range A.cols, w j * (augmented A b).e (j, i) = -∑ j ∈ Finset.range A.cols, A.e (i, j) * v j := by
        rw [← Finset.sum_neg_distrib]
        refine Finset.sum_congr rfl fun j hj => ?_
        have hj' := Finset.mem_range.1 hj
        have e3 : (augmented A b).e (j, i) = A.e (i, j) := by
          show (if j < A.cols then _ else _) = _
          rw [if_pos hj']
        rw [hwj j hj', e3]
        ring
      rw [e1, e2, hwn, hv i i.2]
      ring
    obtain ⟨c, hc⟩ := ((hB hr).1.generates _).1 hker
    obtain ⟨i, hi, δ', hp⟩ := pivot_of_combination (hB hr).2 (fun i => if h : i < K.rows then c ⟨i, h⟩ else 0) (w := w) (fun j hj => by
      have := congrFun hc ⟨j, hj⟩
      dsimp only at this
      rw [this, Finset.sum_range]
      refine Finset.sum_congr (s₁ := Finset.univ) (f := fun i : Fin K.rows => c i * K.e (i, j)) rfl fun i _ => ?_
      rw [dif_pos i.2]) hpiv
    exact h.2 i hi δ' hp
  · exact ⟨_, _, h1⟩

/-- An invertible matrix, with inverse over the polynomials. -/
noncomputable def shearMat : PMat F[X] := ⟨2, 2, fun ij => if ij = (0, 1) then X else if ij.1 = ij.2 then 1 else 0⟩

/-- The second unit vector. -/
noncomputable def unitVec1 : Nat → F[X] := fun i => if i = 1 then 1 else 0

/-- **C95.** The comment says that for an invertible matrix the last entry is a pivot.  It is not: with `A` the matrix with rows `(1, X)` and `(0, 1)` and `b = (0, 1)`, whose
    solution is `(-X, 1)` with denominator 1, `linsolve_via_kernel` returns 0. -/
theorem C95_kernel_missed [DecidableEq F] {e : Kerbas.Env F} (he : EnvOk e) :
    viaKernel e (shearMat (F := F)) unitVec1 = .ok none ∧ Solves (shearMat (F := F)) unitVec1 (fun j => if j = 0 then -X else 1) 1 := by
  refine ⟨?_, ?_⟩
  · obtain ⟨K, shift, hl, hS, hK, -, h | ⟨u, k, h1, hk, -, δ, h3⟩⟩ := kernel_core he (shearMat (F := F)) unitVec1
    · exact h.1
    · exfalso
      have c0 := inKernel_sum hK k hk 0 (show 0 < 2 by decide)
      have c1 := inKernel_sum hK k hk 1 (show 1 < 2 by decide)
      have n2 := h3.nonzero
      have hc : (shearMat (F := F)).cols = 2 := rfl
      rw [hc] at c0 c1 n2 h3
      simp only [Finset.sum_range_succ, Finset.sum_range_zero, shearMat, unitVec1] at c0 c1
      simp at c0 c1
      -- the shift
      have s1 := hS.col 1 (show 1 < 2 by decide)
      have s2 := hS.rhs
      have e1 : shift.getD 1 0 = 1 := by
        have hnz : ¬ ZeroVec (shearMat (F := F)).rows (fun i => (shearMat (F := F)).e (i, 1)) := fun hz => by
          have := hz 0 (show 0 < 2 by decide)
          simp [shearMat] at this
        obtain ⟨a1, j1, b1, d1, f1⟩ := s1.2 hnz
        have g1 := a1 0 (show 0 < 2 by decide) (by simp [shearMat])
        have x0 : (shearMat (F := F)).e (0, 1) = X := by simp [shearMat]
        have x1 : (shearMat (F := F)).e (1, 1) = 1 := by simp [shearMat]
        rw [x0, natDegree_X] at g1
        have hb : j1 < 2 := b1
        have : j1 = 0 ∨ j1 = 1 := by omega
        rcases this with rfl | rfl
        · rw [x0, natDegree_X] at f1
          omega
        · rw [x1, natDegree_one] at f1
          omega
      have e2 : shift.getD 2 0 = 0 := by
        have hnz : ¬ ZeroVec (shearMat (F := F)).rows (unitVec1 (F := F)) := fun hz => by
          have := hz 1 (show 1 < 2 by decide)
          simp [unitVec1] at this
        obtain ⟨a1, j1, b1, d1, f1⟩ := s2.2 hnz
        have y1 : (unitVec1 (F := F)) 1 = 1 := by simp [unitVec1]
        have y0 : (unitVec1 (F := F)) 0 = 0 := by simp [unitVec1]
        have hb : j1 < 2 := b1
        have : j1 = 0 ∨ j1 = 1 := by omega
        rw [hc] at f1
        rcases this with rfl | rfl
        · exact absurd y0 d1
        · rw [y1, natDegree_one] at f1
          omega
      have k1 : K.e (k, 1) = -K.e (k, 2) := by
        first
        | exact eq_neg_of_add_eq_zero_left c1
        | exact eq_neg_of_add_eq_zero_right c1
      have h4 := h3.le 1 (by decide) (by rw [k1]; exact neg_ne_zero.2 n2)
      have h5 := h3.degree
      rw [k1, natDegree_neg, e1, e2] at h4
      omega
  · intro i hi
    have hi : i < 2 := hi
    have : i = 0 ∨ i = 1 := by omega
    rcases this with rfl | rfl <;> simp [shearMat, unitVec1, Finset.sum_range_succ]

end PML.Ntl.Linsolve
