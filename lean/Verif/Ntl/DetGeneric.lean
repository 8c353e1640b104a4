import Verif.Ntl.DetMinors
import Verif.Ntl.MbasisProps
import Verif.Ntl.ParlinSpec
import Verif.Kernel.Theory
import Mathlib.LinearAlgebra.Matrix.SchurComplement

/-!
# The determinant from a basis of the kernel of the left columns
-/

namespace PML.Ntl.Det
open Polynomial PML.Ntl.Utils PML.Ntl.Inv PML.Ntl.Solve PML.Ntl.MatEval PML.Approx.Spec PML.Kernel.Spec Matrix

variable {F : Type} [Field F]

/-! ### The determinant and the kernel of the left columns -/

/-- The columns, the last ones first. -/
def colEquiv (c1 c2 : Nat) : Fin c2 ⊕ Fin c1 ≃ Fin (c1 + c2) := (Equiv.sumComm _ _).trans finSumFinEquiv

theorem colEquiv_inl (c1 c2 : Nat) (j : Fin c2) : colEquiv c1 c2 (.inl j) = Fin.natAdd c1 j := rfl
theorem colEquiv_inr (c1 c2 : Nat) (j : Fin c1) : colEquiv c1 c2 (.inr j) = Fin.castAdd c2 j := rfl

/-- The left columns. -/
def leftCols {m c1 c2 : Nat} (A : Matrix (Fin m) (Fin (c1 + c2)) F[X]) : Matrix (Fin m) (Fin c1) F[X] := A.submatrix id (Fin.castAdd c2)
/-- The right columns. -/
def rightCols {m c1 c2 : Nat} (A : Matrix (Fin m) (Fin (c1 + c2)) F[X]) : Matrix (Fin m) (Fin c2) F[X] := A.submatrix id (Fin.natAdd c1)

/-- If the first `c2` rows of `Q` (for the order of rows `e`) annihilate the left columns of `A`. -/
theorem det_blocks {c1 c2 : Nat} (e : Fin c2 ⊕ Fin c1 ≃ Fin (c1 + c2)) (Q A : Matrix (Fin (c1 + c2)) (Fin (c1 + c2)) F[X])
    (h : (Q.submatrix (fun i => e (.inl i)) id) * leftCols A = 0) :
    ∃ u : F[X], IsUnit u ∧ Q.det * A.det = u * (((Q.submatrix (fun i => e (.inl i)) id) * rightCols A).det *
      ((Q.submatrix (fun i => e (.inr i)) id) * leftCols A).det) := by
  have hB : (Q * A).submatrix e (colEquiv c1 c2) = fromBlocks ((Q.submatrix (fun i => e (.inl i)) id) * rightCols A) 0
      ((Q.submatrix (fun i => e (.inr i)) id) * rightCols A) ((Q.submatrix (fun i => e (.inr i)) id) * leftCols A) := by
    rw [← h]
    ext i j
    rcases i with i | i <;> rcases j with j | j <;> rfl
  obtain ⟨σ, hσ⟩ : ∃ σ : Equiv.Perm (Fin (c1 + c2)), ∀ j, colEquiv c1 c2 j = σ (e j) := ⟨e.symm.trans (colEquiv c1 c2), fun j => by simp⟩
  have h1 : ((Q * A).submatrix e (colEquiv c1 c2)).det = (Equiv.Perm.sign σ : F[X]) * (Q * A).det := by
    have h2 : (Q * A).submatrix e (colEquiv c1 c2) = (((Q * A).submatrix id σ).submatrix e e) := by
      ext1 i j
      rw [submatrix_apply, hσ]
      rfl
    rw [h2, det_submatrix_equiv_self, det_permute']
  rw [hB, det_fromBlocks_zero₁₂, det_mul] at h1
  refine ⟨((Equiv.Perm.sign σ : ℤ) : F[X]), ?_, ?_⟩
  · rcases Int.units_eq_one_or (Equiv.Perm.sign σ) with hs | hs <;> rw [hs] <;> simp
  · rw [h1]
    rcases Int.units_eq_one_or (Equiv.Perm.sign σ) with hs | hs <;> rw [hs] <;> simp

/-- The last rows of an approximant basis of the left columns, if they annihilate them, are a basis of their
    kernel. -/
theorem kernel_of_appbas {c1 c2 o : Nat} (A P : Matrix (Fin (c1 + c2)) (Fin (c1 + c2)) F[X]) (hA : A.det ≠ 0)
    (hP : IsApproximantBasis (leftCols A) o P) (h : P.submatrix (Fin.natAdd c1) id * leftCols A = 0) :
    IsKernelBasis (leftCols A) (P.submatrix (Fin.natAdd c1) id) := by
  obtain ⟨u, hu, e⟩ := det_blocks (colEquiv c1 c2) P A h
  have hne : ((P.submatrix (Fin.castAdd c2) id) * leftCols A).det ≠ 0 := by
    intro h0
    change P.det * A.det = u * (_ * ((P.submatrix (Fin.castAdd c2) id) * leftCols A).det) at e
    rw [h0, mul_zero, mul_zero] at e
    exact mul_ne_zero hP.nonsingular hA e
  have split : ∀ w : Fin (c1 + c2) → F[X], w ᵥ* P = (fun i => w (Fin.castAdd c2 i)) ᵥ* P.submatrix (Fin.castAdd c2) id +
      (fun i => w (Fin.natAdd c1 i)) ᵥ* P.submatrix (Fin.natAdd c1) id := by
    intro w
    ext1 j
    rw [Pi.add_apply]
    exact Fin.sum_univ_add fun i => w i * P i j
  constructor
  · intro u hu
    have h1 : (Fin.addCases (fun _ => 0) u : Fin (c1 + c2) → F[X]) ᵥ* P = 0 := by
      rw [split]
      have e1 : (fun i : Fin c1 => (Fin.addCases (fun _ => 0) u : Fin (c1 + c2) → F[X]) (Fin.castAdd c2 i)) = 0 := by
        ext1 i; exact Fin.addCases_left i
      have e2 : (fun i : Fin c2 => (Fin.addCases (fun _ => 0) u : Fin (c1 + c2) → F[X]) (Fin.natAdd c1 i)) = u := by
        ext1 i; exact Fin.addCases_right i
      rw [e1, e2, hu, Matrix.zero_vecMul, add_zero]
    have h2 := eq_zero_of_vecMul_eq_zero hP.nonsingular h1
    ext1 i
    have := congrFun h2 (Fin.natAdd c1 i)
    rwa [Fin.addCases_right] at this
  · intro v
    constructor
    · intro hv
      obtain ⟨w, rfl⟩ := (hP.generates v).1 fun j => by rw [hv]; exact dvd_zero _
      rw [split, add_vecMul, vecMul_vecMul, vecMul_vecMul, h, vecMul_zero, add_zero] at hv
      have := eq_zero_of_vecMul_eq_zero hne hv
      refine ⟨fun i => w (Fin.natAdd c1 i), ?_⟩
      rw [split, this, Matrix.zero_vecMul, zero_add]
    · rintro ⟨u, rfl⟩
      rw [vecMul_vecMul, h, vecMul_zero]

/-- The rows of `B`, those of the kernel first. -/
theorem det_dvd_of_kernel {c1 c2 : Nat} (A : Matrix (Fin (c1 + c2)) (Fin (c1 + c2)) F[X]) (K : Matrix (Fin c2) (Fin (c1 + c2)) F[X])
    (hK : IsKernelBasis (leftCols A) K) : (K * rightCols A).det ∣ A.det := by
  obtain ⟨B, B', T, h1, h2, h3⟩ := PML.Kernel.exists_completion hK (r := c1) (Nat.add_comm c2 c1)
  let e : Fin c2 ⊕ Fin c1 ≃ Fin (c1 + c2) := finSumFinEquiv.trans (finCongr (Nat.add_comm c2 c1))
  have hB : B.submatrix (fun i => e (.inl i)) id = T * K := by
    ext i j
    exact congrArg (fun x => Polynomial.coeff x _) (congrFun (h3 i) j)
  have h0 : K * leftCols A = 0 := by
    ext1 i j
    have := congrFun ((hK.generates (K i)).2 ⟨Pi.single i 1, by rw [Matrix.single_one_vecMul]; rfl⟩) j
    exact this
  obtain ⟨u, hu, h4⟩ := det_blocks e B A (by rw [hB, Matrix.mul_assoc, h0, Matrix.mul_zero])
  rw [hB, Matrix.mul_assoc, det_mul] at h4
  have hBu : IsUnit B.det := by
    have := congrArg Matrix.det h1
    rw [det_mul, det_one] at this
    exact IsUnit.of_mul_eq_one _ this
  refine (hBu.dvd_mul_left).1 ?_
  rw [h4]
  exact Dvd.dvd.mul_left (Dvd.dvd.mul_right (Dvd.intro_left _ rfl) _) _

/-! ### The model -/

theorem columns_e (c cnt : Nat) (a : PMat F[X]) (i j : Nat) (hi : i < a.rows) (hj : j < cnt) : (columns c cnt a).e (i, j) = a.e (i, j + c) :=
  loop2_at _ _ (fun i j => a.e (i, j + c)) _ i j hi hj

theorem lastRows_e (r cnt : Nat) (a : PMat F[X]) (i j : Nat) (hi : i < cnt) (hj : j < a.cols) : (lastRows r cnt a).e (i, j) = a.e (i + r, j) :=
  loop2_at _ _ (fun i j => a.e (i + r, j)) _ i j hi hj

theorem step_dvd (pmat app t : PMat F[X]) (c1 c2 o : Nat) (hn : pmat.rows = c1 + c2) (hcol : app.cols = pmat.rows)
    (hb : IsApproximantBasis (Mbasis.mat pmat.rows c1 (columns 0 c1 pmat)) o (Mbasis.mat pmat.rows pmat.rows app))
    (hdet : detN pmat.rows pmat.e ≠ 0)
    (hcl : ∀ i j, i < c2 → j < c1 → ∑ l ∈ Finset.range pmat.rows, (lastRows c1 c2 app).e (i, l) * (columns 0 c1 pmat).e (l, j) = 0)
    (ht : MatMul.IsProduct (lastRows c1 c2 app) (columns c1 c2 pmat) t) : detN c2 t.e ∣ detN pmat.rows pmat.e := by
  obtain ⟨rows, cols, e⟩ := pmat
  dsimp only at hn hb hcl hcol ⊢
  subst hn
  have hL : Mbasis.mat (c1 + c2) c1 (columns 0 c1 (⟨c1 + c2, cols, e⟩ : PMat F[X])) = leftCols (Matrix.of fun i j : Fin (c1 + c2) => e (i, j)) := by
    ext1 i j
    exact columns_e 0 c1 ⟨c1 + c2, cols, e⟩ i j i.2 j.2
  rw [hL] at hb
  have hK : ∀ (i : Fin c2) (l : Fin (c1 + c2)), (lastRows c1 c2 app).e (i, l) = (Mbasis.mat (c1 + c2) (c1 + c2) app).submatrix (Fin.natAdd c1) id i l := by
    intro i l
    rw [lastRows_e c1 c2 app i l i.2 (by omega)]
    show _ = app.e (c1 + i, l)
    rw [Nat.add_comm]
  have h0 : (Mbasis.mat (c1 + c2) (c1 + c2) app).submatrix (Fin.natAdd c1) id * leftCols (Matrix.of fun i j : Fin (c1 + c2) => e (i, j)) = 0 := by
    ext1 i j
    rw [Matrix.mul_apply, Matrix.zero_apply, ← hcl i j i.2 j.2, Finset.sum_range]
    refine Finset.sum_congr rfl fun l _ => ?_
    rw [← hK, columns_e 0 c1 ⟨c1 + c2, cols, e⟩ l j l.2 j.2]
    rfl
  have := det_dvd_of_kernel _ _ (kernel_of_appbas _ _ hdet hb h0)
  have e1 : (Mbasis.mat (c1 + c2) (c1 + c2) app).submatrix (Fin.natAdd c1) id * rightCols (Matrix.of fun i j : Fin (c1 + c2) => e (i, j)) =
      Matrix.of fun i j : Fin c2 => t.e (i, j) := by
    ext1 i j
    have hcols : (lastRows c1 c2 app).cols = c1 + c2 := hcol
    rw [Matrix.mul_apply, Matrix.of_apply, ht.2.2 i j i.2 j.2, hcols, Finset.sum_range]
    refine Finset.sum_congr rfl fun l _ => ?_
    rw [← hK, columns_e c1 c2 ⟨c1 + c2, cols, e⟩ l j l.2 j.2]
    show _ * e (l, c1 + j) = _ * e (l, j + c1)
    rw [Nat.add_comm c1 j]
  rw [e1] at this
  exact this

variable [DecidableEq F]

/-- At each level of the recursion, the last rows of the approximant basis annihilate the left columns. -/
def Clean (C : Calls F) : Nat → PMat F[X] → Prop
  | fuel, pmat =>
    if pmat.rows ≤ 4 then True
    else
      match fuel with
      | 0 => True
      | fuel + 1 =>
        let c1 := pmat.rows / 2
        let c2 := pmat.rows - c1
        let l := columns 0 c1 pmat
        let o := (order C pmat.rows l).toNat
        ∀ app t, Mbasis.pmbasis C.nt C.mid C.mul C.thr o ⟨0, 0, fun _ => 0⟩ l o (fun _ => 0) = .ok app →
          C.mul (lastRows c1 c2 app.1) (columns c1 c2 pmat) = some t →
          (∀ i j, i < c2 → j < c1 → ∑ k ∈ Finset.range pmat.rows, (lastRows c1 c2 app.1).e (i, k) * l.e (k, j) = 0) ∧ Clean C fuel t

/-- What is assumed of the functions called. -/
structure Calls.Ok (C : Calls F) : Prop where
  nt : C.nt.Ok
  mid : Mbasis.MiddleOk C.mid
  mul : MulOk C.mul
  thr : 0 < C.thr
  rd : Parlin.Rounding C.rd

omit [DecidableEq F] in
theorem order_pos {C : Calls F} (hC : C.Ok) (dim : Nat) (l : PMat F[X]) (h : 0 ≤ deg l) : 1 ≤ order C dim l := by
  unfold order
  dsimp only
  have h0 : C.rd 0 = 0 := by simpa using hC.rd.int 0 (by norm_num)
  have h1 : (0 : Rat) ≤ C.rd ((((dim / 2 : Nat) : Int) * deg l : Int) / ((dim - dim / 2 : Nat) : Rat)) := by
    rw [← h0]
    refine hC.rd.mono (div_nonneg ?_ (Nat.cast_nonneg _))
    exact_mod_cast mul_nonneg (Int.natCast_nonneg _) h
  have := Int.ceil_nonneg h1
  omega

omit [DecidableEq F] in
theorem left_deg (pmat : PMat F[X]) (c : Nat) (h0 : 0 < c) (hc : c ≤ pmat.rows) (hdet : detN pmat.rows pmat.e ≠ 0) : 0 ≤ deg (columns 0 c pmat) := by
  by_contra hneg
  have h1 := (deg_spec (columns 0 c pmat)).1
  apply hdet
  refine Matrix.det_eq_zero_of_column_eq_zero (⟨0, by omega⟩ : Fin pmat.rows) fun i => ?_
  have := (deg_neg_iff (columns 0 c pmat)).1 (by omega) i 0 i.2 h0
  rwa [columns_e 0 c pmat i 0 i.2 h0] at this

theorem generic_spec {C : Calls F} (hC : C.Ok) (det0 : F[X]) (degree : Int) : ∀ (fuel : Nat) (pmat : PMat F[X]), pmat.rows ≤ fuel → 0 < pmat.rows →
    detN pmat.rows pmat.e ≠ 0 → Clean C fuel pmat →
    ∃ d, generic C det0 fuel pmat degree = .ok (d, decide (degree = pdeg d)) ∧ d ∣ detN pmat.rows pmat.e := by
  intro fuel
  induction fuel with
  | zero => intro pmat h h'; omega
  | succ fuel ih =>
    intro pmat hf h0 hdet hcl
    unfold generic
    dsimp only
    by_cases h4 : pmat.rows ≤ 4
    · rw [if_pos h4]
      exact ⟨_, rfl, by rw [minors_small _ _ _ h0 h4]⟩
    rw [if_neg h4]
    unfold Clean at hcl
    rw [if_neg h4] at hcl
    dsimp only at hcl
    have hl := left_deg pmat (pmat.rows / 2) (by omega) (by omega) hdet
    have ho := order_pos hC pmat.rows _ hl
    rw [if_neg (by omega)]
    obtain ⟨P, t, e1, hP⟩ := Mbasis.C76_pmbasis_partial hC.nt hC.mid hC.mul hC.thr ⟨0, 0, fun _ => 0⟩ (columns 0 (pmat.rows / 2) pmat)
      (order C pmat.rows (columns 0 (pmat.rows / 2) pmat)).toNat (fun _ => 0) h0 (Or.inl (by omega))
    rw [e1]
    simp only [andThen]
    have hPc : P.cols = pmat.rows := hP.cols
    obtain ⟨T, e2, hT⟩ := hC.mul (lastRows (pmat.rows / 2) (pmat.rows - pmat.rows / 2) P) (columns (pmat.rows / 2) (pmat.rows - pmat.rows / 2) pmat)
      hPc (by show 0 < P.cols; omega)
    rw [e2]
    simp only [ofOpt]
    obtain ⟨q1, q2⟩ := hcl (P, t) T e1 e2
    have hTr : T.rows = pmat.rows - pmat.rows / 2 := hT.1
    have hdvd := step_dvd pmat P T (pmat.rows / 2) (pmat.rows - pmat.rows / 2) _ (by omega) hPc hP.basis hdet q1 hT
    rw [← hTr] at hdvd
    obtain ⟨d, r1, r2⟩ := ih T (by omega) (by omega) (fun h => hdet (zero_dvd_iff.1 (h ▸ hdvd))) q2
    exact ⟨d, r1, r2.trans hdvd⟩

end PML.Ntl.Det
