import Verif.Ntl.SylvLemmas
import Verif.Ntl.MiddleProps
import Mathlib.LinearAlgebra.Matrix.NonsingularInverse

/-!
# Theorems on Sylvester matrices (C86)
-/

namespace PML.Ntl.Struct

open Polynomial PML.Ntl.Utils PML.Ntl.Inv PML.Ntl.Solve PML.Ntl.Middle

variable {p : Nat} [Fact p.Prime]

/-- Two polynomials and an extended gcd, for the examples: `X` and `X^2 + 1` modulo 5 are coprime; `X` and `X^2 + X` are not. -/
theorem example_polys : 0 < (X : (ZMod 5)[X]).natDegree ∧ 0 < (X ^ 2 + 1 : (ZMod 5)[X]).natDegree ∧ IsCoprime (X : (ZMod 5)[X]) (X ^ 2 + 1) ∧
    0 < (X ^ 2 + X : (ZMod 5)[X]).natDegree ∧ ¬ IsCoprime (X : (ZMod 5)[X]) (X ^ 2 + X) := by
  haveI : Fact (Nat.Prime 5) := ⟨by norm_num⟩
  have h1 : (X ^ 2 + 1 : (ZMod 5)[X]).natDegree = 2 := by
    compute_degree!
  have h2 : (X ^ 2 + X : (ZMod 5)[X]).natDegree = 2 := by
    compute_degree!
  refine ⟨by rw [natDegree_X]; omega, by omega, ⟨-X, 1, by ring⟩, by omega, fun h => ?_⟩
  have hu := h.isUnit_of_dvd' (dvd_refl X) ⟨X + 1, by ring⟩
  exact not_isUnit_X hu

/-! ### The matrix and its products -/

/-- **C86**. `to_dense` gives the Sylvester matrix, whatever was in the output. -/
theorem C86_dense {g : Xgcd p} (hg : XgcdOK g) {a b : (ZMod p)[X]} (ha : a ≠ 0) (hb : b ≠ 0) {s : Sylv p} (hs : Reach g a b s)
    (x : PMat (ZMod p)) : IsMat (.ok (s.dense x)) (a.natDegree + b.natDegree) (a.natDegree + b.natDegree) (sylvEntry a b) := by
  have h := reach_good hg ha hb hs
  refine ⟨_, rfl, h.hn, h.hn, fun i j hi hj => ?_⟩
  unfold Sylv.dense
  dsimp only
  rw [h.ha, h.hb, h.hn]
  rw [diag_write a.natDegree b.natDegree b.natDegree b.coeff]
  have := diag_write b.natDegree a.natDegree 0 a.coeff
    (loop2 (a.natDegree + b.natDegree) (a.natDegree + b.natDegree) (fun _ _ _ => (0 : ZMod p)) (x.setDims (a.natDegree + b.natDegree) (a.natDegree + b.natDegree)).e) i j
  simp only [Nat.add_zero, Nat.sub_zero] at this
  rw [this, loop2_at _ _ (fun _ _ => (0 : ZMod p)) _ i j hi hj]
  unfold sylvEntry
  by_cases hjb : j < b.natDegree
  · rw [if_neg (by omega), if_pos hjb, coeff_X_pow_mul']
    by_cases hji : j ≤ i
    · rw [if_pos hji]
      by_cases hi2 : i ≤ j + a.natDegree
      · rw [if_pos (by omega)]
      · rw [if_neg (by omega), coeff_eq_zero_of_natDegree_lt (by omega)]
    · rw [if_neg (by omega), if_neg hji]
  · rw [if_neg hjb, coeff_X_pow_mul', if_neg (by omega : ¬ ((0 ≤ j ∧ j < b.natDegree) ∧ j ≤ i ∧ i ≤ j + a.natDegree))]
    by_cases hji : j - b.natDegree ≤ i
    · rw [if_pos hji]
      by_cases hi2 : i ≤ j - b.natDegree + b.natDegree
      · rw [if_pos (by omega)]
      · rw [if_neg (by omega), coeff_eq_zero_of_natDegree_lt (by omega)]
    · rw [if_neg (by omega), if_neg hji]

example : ∃ g : Xgcd 5, @XgcdOK 5 ⟨by norm_num⟩ g ∧ (X : (ZMod 5)[X]) ≠ 0 ∧ (X ^ 2 + 1 : (ZMod 5)[X]) ≠ 0 := by
  haveI : Fact (Nat.Prime 5) := ⟨by norm_num⟩
  obtain ⟨g, hg⟩ := xgcd_exists (p := 5)
  obtain ⟨h1, h2, -⟩ := example_polys
  exact ⟨g, hg, fun e => by simp [e] at h1, fun e => by simp [e] at h2⟩

/-- **C86**. `mul_right` multiplies a vector by the Sylvester matrix: the result is the vector of the coefficients of `F a + G b`, where `F` is
    made of the first `deg b` entries and `G` of the others.  With another length it is an error. -/
theorem C86_right {g : Xgcd p} (hg : XgcdOK g) {a b : (ZMod p)[X]} (ha : a ≠ 0) (hb : b ≠ 0) {s : Sylv p} (hs : Reach g a b s)
    (v : NVec (ZMod p)) :
    (v.len = a.natDegree + b.natDegree → IsRight (s.right v) (a.natDegree + b.natDegree) (a.natDegree + b.natDegree) (sylvEntry a b) v.e ∧
      ∃ w, s.right v = .ok w ∧ ∀ i, i < w.len → w.e i =
        ((∑ k ∈ Finset.range b.natDegree, C (v.e k) * X ^ k) * a + (∑ k ∈ Finset.range a.natDegree, C (v.e (k + b.natDegree)) * X ^ k) * b).coeff i) ∧
    (v.len ≠ a.natDegree + b.natDegree → s.right v = .error) := by
  have h := reach_good hg ha hb hs
  unfold Sylv.right
  dsimp only
  rw [h.ha, h.hb, h.hn]
  constructor
  · intro hv
    rw [if_neg (by omega)]
    exact ⟨⟨_, rfl, rfl, fun i _ => (sylv_mul a b v.e i).symm⟩, _, rfl, fun i _ => rfl⟩
  · intro hv
    rw [if_pos hv]

/-- **C86**. `mul_right` on matrices multiplies by the Sylvester matrix, whatever was in the output; with another number of rows it is
    an error. -/
theorem C86_right_matrix {g : Xgcd p} (hg : XgcdOK g) {a b : (ZMod p)[X]} (ha : a ≠ 0) (hb : b ≠ 0) {s : Sylv p} (hs : Reach g a b s)
    (x c : PMat (ZMod p)) :
    (c.rows = a.natDegree + b.natDegree → IsMat (s.rightMat x c) (a.natDegree + b.natDegree) c.cols
      fun i j => ∑ k ∈ Finset.range (a.natDegree + b.natDegree), sylvEntry a b i k * c.e (k, j)) ∧
    (c.rows ≠ a.natDegree + b.natDegree → s.rightMat x c = .error) := by
  have h := reach_good hg ha hb hs
  unfold Sylv.rightMat
  rw [h.hn]
  constructor
  · intro hc
    rw [if_neg (by omega)]
    dsimp only
    obtain ⟨u, e, hu⟩ := loopOut_inv (fun k (z : Nat × Nat → ZMod p) => ∀ i j, i < a.natDegree + b.natDegree → j < k →
      z (i, j) = ∑ k ∈ Finset.range (a.natDegree + b.natDegree), sylvEntry a b i k * c.e (k, j)) (k := c.cols)
      (f := fun j e => andThen (s.right ⟨a.natDegree + b.natDegree, fun i => c.e (i, j)⟩) fun w =>
        .ok (forN (a.natDegree + b.natDegree) (fun i => write (i, j) (w.e i)) e)) (s := (x.setDims (a.natDegree + b.natDegree) c.cols).e)
      (fun i j _ hj => by omega) (by
        intro j t hj ht
        obtain ⟨⟨w, hw, hl, he⟩, -⟩ := (C86_right hg ha hb hs ⟨a.natDegree + b.natDegree, fun i => c.e (i, j)⟩).1 rfl
        rw [hw]
        refine ⟨_, rfl, fun i k hi hk => ?_⟩
        rw [col_write _ j w.e (fun i => i) (fun _ h => ⟨rfl, h⟩)]
        by_cases hkj : k = j
        · subst hkj
          rw [if_pos ⟨hi, rfl⟩, he i hi]
        · rw [if_neg (by tauto), ht i k hi (by omega)])
    rw [e]
    exact ⟨_, rfl, rfl, rfl, hu⟩
  · intro hc
    rw [if_pos hc]

/-- The products by `mul_left` do not overflow in the Karatsuba path. -/
def SylvSafe (p cross dA dB : Nat) : Prop :=
  (0 < dB → useLong p = false ∨ (dA + 1) * (p - 1) ^ 2 < SP_BOUND ∨ (cross < dA ∧ cross < dB - 1)) ∧
  (0 < dA → useLong p = false ∨ (dB + 1) * (p - 1) ^ 2 < SP_BOUND ∨ (cross < dB ∧ cross < dA - 1))

theorem mid_spec {red : Nat → ZMod p} (hred : RedOK red) (cross : Nat) {a R : (ZMod p)[X]}
    (hR : ∀ k, R.coeff k = if k ≤ a.natDegree then a.coeff (a.natDegree - k) else 0) (v : Nat → ZMod p) (dB : Nat)
    (hsafe : 0 < dB → useLong p = false ∨ (a.natDegree + 1) * (p - 1) ^ 2 < SP_BOUND ∨ (cross < a.natDegree ∧ cross < dB - 1)) :
    ∃ F, middleOrZero red cross R (ofCoeffs (a.natDegree + dB) v) a.natDegree dB = .ok F ∧
      ∀ j, j < dB → F.coeff j = ∑ i ∈ Finset.range (a.natDegree + dB), v i * (X ^ j * a).coeff i := by
  unfold middleOrZero
  by_cases h0 : dB = 0
  · rw [if_pos h0]
    exact ⟨0, rfl, fun j hj => by omega⟩
  · rw [if_neg h0]
    obtain ⟨F, e, hF⟩ := C56_middle_product_partial hred cross R (ofCoeffs (a.natDegree + dB) v) a.natDegree (dB - 1) (hsafe (by omega))
    rw [e]
    refine ⟨F, rfl, fun j hj => ?_⟩
    have hRd : R.degree < (X ^ (a.natDegree + 1) : (ZMod p)[X]).degree := by
      rw [degree_X_pow, degree_lt_iff_coeff_zero]
      intro m hm
      rw [hR, if_neg (by omega)]
    rw [hF, if_pos (by omega), (modByMonic_eq_self_iff (monic_X_pow _)).2 hRd, coeff_mul,
      rev_mul R hR (fun i => (ofCoeffs (a.natDegree + dB) v).coeff i) j (a.natDegree + dB) (by omega)]
    refine Finset.sum_congr rfl fun i hi => ?_
    rw [ofCoeffs_coeff, if_pos (Finset.mem_range.1 hi)]

/-- **C86**. `mul_left` multiplies a vector on the left of the Sylvester matrix, when the sums of the middle products do not
    overflow; with another length it is an error. -/
theorem C86_left_partial {red : Nat → ZMod p} (hred : RedOK red) (cross : Nat) {g : Xgcd p} (hg : XgcdOK g) {a b : (ZMod p)[X]}
    (ha : a ≠ 0) (hb : b ≠ 0) {s : Sylv p} (hs : Reach g a b s) (v : NVec (ZMod p)) :
    (v.len = a.natDegree + b.natDegree → SylvSafe p cross a.natDegree b.natDegree →
      IsLeft (s.left red cross v) (a.natDegree + b.natDegree) (a.natDegree + b.natDegree) (sylvEntry a b) v.e) ∧
    (v.len ≠ a.natDegree + b.natDegree → s.left red cross v = .error) := by
  have h := reach_good hg ha hb hs
  unfold Sylv.left
  dsimp only
  rw [h.ha, h.hb, h.hn]
  constructor
  · intro hv hsafe
    rw [if_neg (by omega)]
    obtain ⟨F, e1, hF⟩ := mid_spec hred cross h.hrA v.e b.natDegree hsafe.1
    obtain ⟨F', e2, hF'⟩ := mid_spec hred cross h.hrB v.e a.natDegree hsafe.2
    rw [Nat.add_comm] at e2
    rw [e1]
    show IsLeft (andThen (middleOrZero red cross s.revB _ _ _) _) _ _ _ _
    rw [e2]
    refine ⟨_, rfl, rfl, fun j hj => ?_⟩
    dsimp only
    rw [halves_write b.natDegree a.natDegree F.coeff F'.coeff j hj]
    unfold sylvEntry
    by_cases hjb : j < b.natDegree
    · simp only [if_pos hjb]
      exact hF j hjb
    · simp only [if_neg hjb]
      rw [hF' _ (by omega), Nat.add_comm]
  · intro hv
    rw [if_pos hv]

/-- **C86**. `mul_left` on matrices. -/
theorem C86_left_matrix_partial {red : Nat → ZMod p} (hred : RedOK red) (cross : Nat) {g : Xgcd p} (hg : XgcdOK g) {a b : (ZMod p)[X]}
    (ha : a ≠ 0) (hb : b ≠ 0) {s : Sylv p} (hs : Reach g a b s) (x c : PMat (ZMod p)) :
    (c.cols = a.natDegree + b.natDegree → SylvSafe p cross a.natDegree b.natDegree →
      IsMat (s.leftMat red cross x c) c.rows (a.natDegree + b.natDegree)
        fun i j => ∑ k ∈ Finset.range (a.natDegree + b.natDegree), c.e (i, k) * sylvEntry a b k j) ∧
    (c.cols ≠ a.natDegree + b.natDegree → s.leftMat red cross x c = .error) := by
  have h := reach_good hg ha hb hs
  unfold Sylv.leftMat
  rw [h.hn]
  constructor
  · intro hc hsafe
    rw [if_neg (by omega)]
    dsimp only
    obtain ⟨u, e, hu⟩ := loopOut_inv (fun k (z : Nat × Nat → ZMod p) => ∀ i j, i < k → j < a.natDegree + b.natDegree →
      z (i, j) = ∑ k ∈ Finset.range (a.natDegree + b.natDegree), c.e (i, k) * sylvEntry a b k j) (k := c.rows)
      (f := fun j e => andThen (s.left red cross ⟨a.natDegree + b.natDegree, fun i => c.e (j, i)⟩) fun w =>
        .ok (forN (a.natDegree + b.natDegree) (fun i => write (j, i) (w.e i)) e)) (s := (x.setDims c.rows (a.natDegree + b.natDegree)).e)
      (fun i j hj _ => by omega) (by
        intro i t hi ht
        obtain ⟨w, hw, hl, he⟩ := (C86_left_partial hred cross hg ha hb hs ⟨a.natDegree + b.natDegree, fun j => c.e (i, j)⟩).1 rfl hsafe
        rw [hw]
        refine ⟨_, rfl, fun k j hk hj => ?_⟩
        rw [row_write]
        by_cases hkj : k = i
        · subst hkj
          rw [if_pos ⟨rfl, hj⟩, he j hj]
        · rw [if_neg (by tauto), ht k j (by omega) hj])
    rw [e]
    exact ⟨_, rfl, rfl, rfl, hu⟩
  · intro hc
    rw [if_pos hc]

example : SylvSafe 5 20 1 2 ∧ ∃ red : Nat → ZMod 5, RedOK red :=
  ⟨⟨fun _ => Or.inr (Or.inl (by norm_num [SP_BOUND])), fun _ => Or.inr (Or.inl (by norm_num [SP_BOUND]))⟩, _, fun _ _ => rfl⟩

/-! ### Systems -/

/-- **C86**. `solve`, before or after `prepare_inverse`: if `a` and `b` are coprime, the result is a solution of `M w = v`, and otherwise the
    return value is 0.  Neither polynomial is a constant. -/
theorem C86_solve_partial {g : Xgcd p} (hg : XgcdOK g) {a b : (ZMod p)[X]} (ha : 0 < a.natDegree) (hb : 0 < b.natDegree) {s : Sylv p}
    (hs : Reach g a b s) (v : NVec (ZMod p)) (hv : a.natDegree + b.natDegree ≤ v.len) :
    (IsCoprime a b → SolvesRight (s.solve g v) (a.natDegree + b.natDegree) (sylvEntry a b) v.e) ∧
    (¬ IsCoprime a b → s.solve g v = .ok none) := by
  have ha0 : a ≠ 0 := fun e => by simp [e] at ha
  have hb0 : b ≠ 0 := fun e => by simp [e] at hb
  have h := reach_good hg ha0 hb0 hs
  have mA : ∀ F : (ZMod p)[X], (F % a).degree < a.degree := fun F => EuclideanDomain.mod_lt _ ha0
  have mB : ∀ F : (ZMod p)[X], (F % b).degree < b.degree := fun F => EuclideanDomain.mod_lt _ hb0
  unfold Sylv.solve
  dsimp only
  rw [h.ha, h.hb, h.hn, if_neg (by omega)]
  rcases hsing : s.singular with _ | _ | _
  · rw [if_neg (by simp), if_neg (by simp)]
    constructor
    · intro hco
      obtain ⟨e1, e2, e3⟩ := xgcd_factors hg ha hb hco
      rw [if_neg (by rw [not_not, xgcd_coprime hg ha0 hb0]; exact hco), mulMod_ok ha (mA _) e3]
      show SolvesRight (andThen (mulMod _ _ _) _) _ _ _
      rw [mulMod_ok hb (mB _) e2]
      exact ⟨_, rfl, rfl, fun i hi => solve_vec ha0 hb0 e1 v.e i hi⟩
    · intro hco
      rw [if_pos (by rw [xgcd_coprime hg ha0 hb0]; exact hco)]
  · rw [if_neg (by simp), if_pos rfl]
    obtain ⟨hco, e1, e2, e3, -⟩ := h.reg hsing
    refine ⟨fun _ => ?_, fun hn => absurd hco hn⟩
    rw [mulMod_ok ha (mA _) e3]
    show SolvesRight (andThen (mulMod _ _ _) _) _ _ _
    rw [mulMod_ok hb (mB _) e2]
    exact ⟨_, rfl, rfl, fun i hi => solve_vec ha0 hb0 e1 v.e i hi⟩
  · rw [if_pos rfl]
    exact ⟨fun hco => absurd hco (h.sing hsing), fun _ => rfl⟩

/-- **C86**. `solve_transpose`, before or after `prepare_inverse`: if `a` and `b` are coprime, the result is a solution of `w M = v`, and
    otherwise the return value is 0. -/
theorem C86_solve_transpose_partial {g : Xgcd p} (hg : XgcdOK g) {a b : (ZMod p)[X]} (ha : 0 < a.natDegree) (hb : 0 < b.natDegree) {s : Sylv p}
    (hs : Reach g a b s) (v : NVec (ZMod p)) (hv : a.natDegree + b.natDegree ≤ v.len) :
    (IsCoprime a b → SolvesLeft (s.solveT g v) (a.natDegree + b.natDegree) (sylvEntry a b) v.e) ∧
    (¬ IsCoprime a b → s.solveT g v = .ok none) := by
  have ha0 : a ≠ 0 := fun e => by simp [e] at ha
  have hb0 : b ≠ 0 := fun e => by simp [e] at hb
  have h := reach_good hg ha0 hb0 hs
  unfold Sylv.solveT
  dsimp only
  rcases hsing : s.singular with _ | _ | _
  · rw [if_neg (by simp), if_neg (by rw [h.hn]; omega), if_neg (by simp), h.ha, h.hb]
    constructor
    · intro hco
      obtain ⟨e1, e2, e3⟩ := xgcd_factors hg ha hb hco
      rw [if_neg (by rw [not_not, xgcd_coprime hg ha0 hb0]; exact hco)]
      have b1 : buildModulus a = .ok () := if_neg (by omega)
      have b2 : buildModulus b = .ok () := if_neg (by omega)
      have b3 : buildMultiplier (C ((g.d a b).coeff 0)⁻¹ * g.t a b) a = .ok () := if_neg (not_le.2 e3)
      have b4 : buildMultiplier (C ((g.d a b).coeff 0)⁻¹ * g.s a b) b = .ok () := if_neg (not_le.2 e2)
      rw [b1, b2, b3, b4]
      exact ⟨_, rfl, h.hn, fun j hj => solveT_vec ha0 hb0 e1 h.hrA h.hrB h.ha h.hb h.hn rfl rfl v.e j hj⟩
    · intro hco
      rw [if_pos (by rw [xgcd_coprime hg ha0 hb0]; exact hco)]
  · rw [if_neg (by simp), if_neg (by rw [h.hn]; omega), if_pos rfl, h.ha, h.hb]
    obtain ⟨hco, e1, e2, e3, e4, e5, -⟩ := h.reg hsing
    refine ⟨fun _ => ?_, fun hn => absurd hco hn⟩
    rw [e4, e5]
    exact ⟨_, rfl, h.hn, fun j hj => solveT_vec ha0 hb0 e1 h.hrA h.hrB h.ha h.hb h.hn rfl rfl v.e j hj⟩
  · rw [if_pos rfl]
    exact ⟨fun hco => absurd hco (h.sing hsing), fun _ => rfl⟩

/-- **C86**. `solve` on matrices: a solution of `M W = V` if `a` and `b` are coprime; otherwise the return value is 0, provided that there is at
    least one column. -/
theorem C86_solve_matrix_partial {g : Xgcd p} (hg : XgcdOK g) {a b : (ZMod p)[X]} (ha : 0 < a.natDegree) (hb : 0 < b.natDegree) {s : Sylv p}
    (hs : Reach g a b s) (x v : PMat (ZMod p)) (hv : a.natDegree + b.natDegree ≤ v.rows) :
    (IsCoprime a b → SolvesRightMat (s.solveMat g x v) (a.natDegree + b.natDegree) v.cols (sylvEntry a b) v.e) ∧
    (¬ IsCoprime a b → 0 < v.cols → s.solveMat g x v = .ok none) := by
  have ha0 : a ≠ 0 := fun e => by simp [e] at ha
  have hb0 : b ≠ 0 := fun e => by simp [e] at hb
  have h := reach_good hg ha0 hb0 hs
  unfold Sylv.solveMat
  dsimp only
  rw [h.hn]
  constructor
  · intro hco
    obtain ⟨u, e, hu⟩ := loopRet_inv (fun k (z : Nat × Nat → ZMod p) => ∀ i j, i < a.natDegree + b.natDegree → j < k →
      ∑ l ∈ Finset.range (a.natDegree + b.natDegree), sylvEntry a b i l * z (l, j) = v.e (i, j)) (k := v.cols)
      (f := fun j e => if v.rows < a.natDegree + b.natDegree then .ub
        else andThen (s.solve g ⟨a.natDegree + b.natDegree, fun i => v.e (i, j)⟩) fun r =>
          .ok (r.map fun w => forN (a.natDegree + b.natDegree) (fun i => write (i, j) (w.e i)) e)) (s := (x.setDims (a.natDegree + b.natDegree) v.cols).e)
      (fun i j _ hj => by omega) (by
        intro j t hj ht
        obtain ⟨w, hw, hl, he⟩ := (C86_solve_partial hg ha hb hs ⟨a.natDegree + b.natDegree, fun i => v.e (i, j)⟩ le_rfl).1 hco
        rw [if_neg (by omega), hw]
        refine ⟨_, rfl, fun i k hi hk => ?_⟩
        by_cases hkj : k = j
        · subst hkj
          refine Eq.trans ?_ (he i hi)
          refine Finset.sum_congr rfl fun l hl => ?_
          dsimp only
          rw [col_write _ k w.e (fun i => i) (fun _ h => ⟨rfl, h⟩), if_pos ⟨Finset.mem_range.1 hl, rfl⟩]
        · rw [← ht i k hi (by omega)]
          refine Finset.sum_congr rfl fun l hl => ?_
          dsimp only
          rw [col_write _ j w.e (fun i => i) (fun _ h => ⟨rfl, h⟩), if_neg (by tauto)])
    rw [e]
    exact ⟨_, rfl, rfl, rfl, hu⟩
  · intro hco hc
    rw [loopRet_none hc]
    · rfl
    · intro j t hj
      rw [if_neg (by omega), (C86_solve_partial hg ha hb hs ⟨a.natDegree + b.natDegree, fun i => v.e (i, j)⟩ le_rfl).2 hco]
      rfl

/-- **C86**. `solve_transpose` on matrices: a solution of `W M = V` if `a` and `b` are coprime; otherwise the return value is 0, provided that there
    is at least one row.  With another number of columns it is an error. -/
theorem C86_solve_transpose_matrix_partial {g : Xgcd p} (hg : XgcdOK g) {a b : (ZMod p)[X]} (ha : 0 < a.natDegree) (hb : 0 < b.natDegree) {s : Sylv p}
    (hs : Reach g a b s) (x v : PMat (ZMod p)) :
    (v.cols = a.natDegree + b.natDegree → IsCoprime a b → SolvesLeftMat (s.solveTMat g x v) (a.natDegree + b.natDegree) v.rows (sylvEntry a b) v.e) ∧
    (v.cols = a.natDegree + b.natDegree → ¬ IsCoprime a b → 0 < v.rows → s.solveTMat g x v = .ok none) ∧
    (v.cols ≠ a.natDegree + b.natDegree → s.solveTMat g x v = .error) := by
  have ha0 : a ≠ 0 := fun e => by simp [e] at ha
  have hb0 : b ≠ 0 := fun e => by simp [e] at hb
  have h := reach_good hg ha0 hb0 hs
  unfold Sylv.solveTMat
  dsimp only
  rw [h.hn]
  refine ⟨?_, ?_, ?_⟩
  · intro hv hco
    rw [if_neg (by omega)]
    obtain ⟨u, e, hu⟩ := loopRet_inv (fun k (z : Nat × Nat → ZMod p) => ∀ i j, i < k → j < a.natDegree + b.natDegree →
      ∑ l ∈ Finset.range (a.natDegree + b.natDegree), z (i, l) * sylvEntry a b l j = v.e (i, j)) (k := v.rows)
      (f := fun j e => andThen (s.solveT g ⟨a.natDegree + b.natDegree, fun i => v.e (j, i)⟩) fun r =>
          .ok (r.map fun w => forN (a.natDegree + b.natDegree) (fun i => write (j, i) (w.e i)) e)) (s := (x.setDims v.rows (a.natDegree + b.natDegree)).e)
      (fun i j hj _ => by omega) (by
        intro i t hi ht
        obtain ⟨w, hw, hl, he⟩ := (C86_solve_transpose_partial hg ha hb hs ⟨a.natDegree + b.natDegree, fun j => v.e (i, j)⟩ le_rfl).1 hco
        rw [hw]
        refine ⟨_, rfl, fun k j hk hj => ?_⟩
        by_cases hkj : k = i
        · subst hkj
          refine Eq.trans ?_ (he j hj)
          refine Finset.sum_congr rfl fun l hl => ?_
          dsimp only
          rw [row_write, if_pos ⟨rfl, Finset.mem_range.1 hl⟩]
        · rw [← ht k j (by omega) hj]
          refine Finset.sum_congr rfl fun l hl => ?_
          dsimp only
          rw [row_write, if_neg (by tauto)])
    rw [e]
    exact ⟨_, rfl, rfl, rfl, hu⟩
  · intro hv hco hc
    rw [if_neg (by omega), loopRet_none hc]
    · rfl
    · intro j t hj
      rw [(C86_solve_transpose_partial hg ha hb hs ⟨a.natDegree + b.natDegree, fun i => v.e (j, i)⟩ le_rfl).2 hco]
      rfl
  · intro hv
    rw [if_pos hv]

example : ∃ (g : Xgcd 5) (a b c : (ZMod 5)[X]), @XgcdOK 5 ⟨by norm_num⟩ g ∧ 0 < a.natDegree ∧ 0 < b.natDegree ∧ IsCoprime a b ∧ 0 < c.natDegree ∧
    ¬ IsCoprime a c := by
  haveI : Fact (Nat.Prime 5) := ⟨by norm_num⟩
  obtain ⟨g, hg⟩ := xgcd_exists (p := 5)
  obtain ⟨h1, h2, h3, h4, h5⟩ := example_polys
  exact ⟨g, _, _, _, hg, h1, h2, h3, h4, h5⟩

/-! ### The inverse -/

/-- The matrix with given entries. -/
def toM (n m : Nat) (M : Nat → Nat → ZMod p) : Matrix (Fin n) (Fin m) (ZMod p) := Matrix.of fun i j => M i j

theorem toM_mul (n m l : Nat) (M N : Nat → Nat → ZMod p) :
    toM n m M * toM m l N = toM n l fun i j => ∑ k ∈ Finset.range m, M i k * N k j := by
  ext i j
  rw [Matrix.mul_apply]
  show _ = ∑ k ∈ Finset.range m, M i k * N k j
  rw [Finset.sum_range]
  rfl

theorem toM_eq (n m : Nat) (M N : Nat → Nat → ZMod p) : toM n m M = toM n m N ↔ ∀ i j, i < n → j < m → M i j = N i j := by
  constructor
  · intro h i j hi hj
    exact congrFun (congrFun h ⟨i, hi⟩) ⟨j, hj⟩
  · intro h
    ext i j
    exact h i j i.2 j.2

theorem toM_one (n : Nat) : toM n n (fun i j => if i = j then (1 : ZMod p) else 0) = 1 := by
  ext i j
  rw [Matrix.one_apply]
  show (if (i : Nat) = j then _ else _) = _
  by_cases h : i = j
  · rw [if_pos h, if_pos (by rw [h])]
  · rw [if_neg h, if_neg (fun e => h (Fin.ext e))]

theorem isInv_iff (n : Nat) (M N : Nat → Nat → ZMod p) : IsInv n M N ↔ toM n n M * toM n n N = 1 := by
  rw [toM_mul, ← toM_one, toM_eq]
  rfl

theorem coprime_inv {a b : (ZMod p)[X]} (ha : a ≠ 0) (hb : b ≠ 0) (h : IsCoprime a b) :
    ∃ N, IsInv (a.natDegree + b.natDegree) (sylvEntry a b) N := by
  obtain ⟨iA, iB, hz⟩ := h
  refine ⟨fun k j => forN a.natDegree (fun i => write (i + b.natDegree)
        ((ofCoeffs (a.natDegree + b.natDegree) (fun i => if i = j then (1 : ZMod p) else 0) % a * iB % a).coeff i))
        (forN b.natDegree (fun i => write i ((ofCoeffs (a.natDegree + b.natDegree) (fun i => if i = j then (1 : ZMod p) else 0) % b * iA % b).coeff i))
          fun _ => 0) k, fun i j hi hj => ?_⟩
  exact solve_vec ha hb hz (fun i => if i = j then 1 else 0) i hi

/-- **C86**. The Sylvester matrix of two nonzero polynomials is invertible if and only if they are coprime; the return values 0 of `solve`,
    `solve_transpose` and `inv` thus tell that the matrix is not invertible. -/
theorem C86_invertible {a b : (ZMod p)[X]} (ha : a ≠ 0) (hb : b ≠ 0) :
    (∃ N, IsInv (a.natDegree + b.natDegree) (sylvEntry a b) N) ↔ IsCoprime a b := by
  refine ⟨?_, coprime_inv ha hb⟩
  rintro ⟨N, hN⟩
  by_contra hco
  obtain ⟨g, hg⟩ := xgcd_exists (p := p)
  have hd : (g.d a b).natDegree ≠ 0 := fun h => hco ((xgcd_coprime hg ha hb).1 ⟨(hg.monic a b ha hb).ne_zero, h⟩)
  obtain ⟨a', ea⟩ := hg.left a b
  obtain ⟨b', eb⟩ := hg.right a b
  set d := g.d a b with hdd
  have hd0 : d ≠ 0 := fun e => hd (by rw [e, natDegree_zero])
  have ha' : a' ≠ 0 := fun e => ha (by rw [ea, e, mul_zero])
  have hb' : b' ≠ 0 := fun e => hb (by rw [eb, e, mul_zero])
  have da : a.natDegree = d.natDegree + a'.natDegree := by conv_lhs => rw [ea]; rw [natDegree_mul hd0 ha']
  have db : b.natDegree = d.natDegree + b'.natDegree := by conv_lhs => rw [eb]; rw [natDegree_mul hd0 hb']
  have e1 : ofCoeffs b.natDegree b'.coeff = b' := ofCoeffs_self (by rw [degree_eq_natDegree hb']; exact_mod_cast (by omega : b'.natDegree < b.natDegree))
  have e2 : ofCoeffs a.natDegree (-a').coeff = -a' := ofCoeffs_self (by rw [degree_neg, degree_eq_natDegree ha']; exact_mod_cast (by omega : a'.natDegree < a.natDegree))
  -- a vector of the kernel
  set v : Nat → ZMod p := fun k => if k < b.natDegree then b'.coeff k else (-a').coeff (k - b.natDegree) with hv
  have hker : ∀ i, ∑ j ∈ Finset.range (a.natDegree + b.natDegree), sylvEntry a b i j * v j = 0 := by
    intro i
    rw [sylv_mul]
    have f1 : ofCoeffs b.natDegree v = b' := by
      rw [← e1]
      ext k
      rw [ofCoeffs_coeff, ofCoeffs_coeff, hv]
      dsimp only
      split_ifs <;> rfl
    have f2 : (ofCoeffs a.natDegree fun k => v (k + b.natDegree)) = -a' := by
      rw [← e2]
      ext k
      rw [ofCoeffs_coeff, ofCoeffs_coeff, hv]
      dsimp only
      rw [if_neg (by omega : ¬ k + b.natDegree < b.natDegree), Nat.add_sub_cancel]
    rw [f1, f2]
    have : b' * a + -a' * b = 0 := by linear_combination b' * ea - a' * eb
    rw [this, coeff_zero]
  have hM : toM (a.natDegree + b.natDegree) 1 (fun i _ => v i) = (0 : Matrix (Fin (a.natDegree + b.natDegree)) (Fin 1) (ZMod p)) := by
    have h1 := mul_eq_one_comm.1 ((isInv_iff _ _ _).1 hN)
    have h2 : toM (a.natDegree + b.natDegree) (a.natDegree + b.natDegree) (sylvEntry a b) * toM (a.natDegree + b.natDegree) 1 (fun i _ => v i) = 0 := by
      rw [toM_mul]
      ext i j
      exact hker i
    calc toM (a.natDegree + b.natDegree) 1 (fun i _ => v i) = (toM (a.natDegree + b.natDegree) (a.natDegree + b.natDegree) N * toM (a.natDegree + b.natDegree) (a.natDegree + b.natDegree) (sylvEntry a b)) * toM (a.natDegree + b.natDegree) 1 (fun i _ => v i) := by rw [h1, Matrix.one_mul]
      _ = 0 := by rw [Matrix.mul_assoc, h2, Matrix.mul_zero]
  have hlt : b'.natDegree < a.natDegree + b.natDegree := by omega
  have := congrFun (congrFun hM ⟨b'.natDegree, hlt⟩) 0
  have hval : v b'.natDegree = b'.coeff b'.natDegree := if_pos (by omega)
  exact hb' (leadingCoeff_eq_zero.1 (hval.symm.trans this))

/-- **C86**. `phi_plus_generators`, when `b` is not a constant: two matrices `G`, `H` with two columns and `Z_1 M - M Z_0 = G H^t`. -/
theorem C86_generators_partial {g : Xgcd p} (hg : XgcdOK g) {a b : (ZMod p)[X]} (ha : a ≠ 0) (hb : 0 < b.natDegree) {s : Sylv p} (hs : Reach g a b s) :
    ∃ G H, s.generators = .ok (G, H) ∧ G.rows = a.natDegree + b.natDegree ∧ G.cols = 2 ∧ H.rows = a.natDegree + b.natDegree ∧ H.cols = 2 ∧
      HasGens dispTP G H (sylvEntry a b) := by
  have hb0 : b ≠ 0 := fun e => by simp [e] at hb
  have h := reach_good hg ha hb0 hs
  obtain ⟨G, H, e, hG, hH⟩ := generators_eq h hb
  refine ⟨_, _, e, h.hn, rfl, h.hn, rfl, fun i j hi hj => ?_⟩
  dsimp only at hi hj ⊢
  rw [h.hn] at hi hj ⊢
  rw [gen_disp a b hb i j hi hj, Finset.sum_range_succ, Finset.sum_range_one, hG i 0 (by omega) hi, hG i 1 (by omega) hi, (hH j).1, (hH j).2]

/-- **C86**. `phi_plus_generators` writes outside of `H` when `b` is a constant. -/
theorem C86_generators_constant {g : Xgcd p} (hg : XgcdOK g) {a b : (ZMod p)[X]} (ha : a ≠ 0) (hb0 : b ≠ 0) (hb : b.natDegree = 0) {s : Sylv p}
    (hs : Reach g a b s) : s.generators = .ub := by
  have h := reach_good hg ha hb0 hs
  unfold Sylv.generators
  dsimp only
  rw [h.hb, if_pos hb]

example : (X : (ZMod 5)[X]) ≠ 0 ∧ (1 : (ZMod 5)[X]) ≠ 0 ∧ (1 : (ZMod 5)[X]).natDegree = 0 := by
  have : Fact (Nat.Prime 5) := ⟨by norm_num⟩
  exact ⟨X_ne_zero, one_ne_zero, natDegree_one⟩

/-- `prepare_inverse` when neither polynomial is a constant. -/
theorem prepare_ok {g : Xgcd p} (hg : XgcdOK g) {a b : (ZMod p)[X]} (ha : 0 < a.natDegree) (hb : 0 < b.natDegree) {s : Sylv p} (hs : Reach g a b s) :
    ∃ u, s.prepare g = .ok u ∧ (u.singular = some true ↔ ¬ IsCoprime a b) := by
  have ha0 : a ≠ 0 := fun e => by simp [e] at ha
  have hb0 : b ≠ 0 := fun e => by simp [e] at hb
  have h := reach_good hg ha0 hb0 hs
  unfold Sylv.prepare
  dsimp only
  rw [h.ha, h.hb]
  by_cases hco : IsCoprime a b
  · obtain ⟨e1, e2, e3⟩ := xgcd_factors hg ha hb hco
    rw [if_pos ((xgcd_coprime hg ha0 hb0).2 hco)]
    have b1 : buildModulus a = .ok () := if_neg (by omega)
    have b2 : buildModulus b = .ok () := if_neg (by omega)
    have b3 : buildMultiplier (C ((g.d a b).coeff 0)⁻¹ * g.t a b) a = .ok () := if_neg (not_le.2 e3)
    have b4 : buildMultiplier (C ((g.d a b).coeff 0)⁻¹ * g.s a b) b = .ok () := if_neg (not_le.2 e2)
    rw [b1, b2, b4, b3]
    exact ⟨_, rfl, by simp [hco]⟩
  · rw [if_neg (fun h => hco ((xgcd_coprime hg ha0 hb0).1 h))]
    exact ⟨_, rfl, by simp [hco]⟩

/-- **C86**. `prepare_inverse` succeeds when neither polynomial is a constant, whatever was called before. -/
theorem C86_prepare_partial {g : Xgcd p} (hg : XgcdOK g) {a b : (ZMod p)[X]} (ha : 0 < a.natDegree) (hb : 0 < b.natDegree) {s : Sylv p} (hs : Reach g a b s) :
    ∃ u, s.prepare g = .ok u ∧ Reach g a b u := by
  obtain ⟨u, e, -⟩ := prepare_ok hg ha hb hs
  exact ⟨u, e, .prepare hs e⟩

theorem toM_disp (n : Nat) (M : Nat → Nat → ZMod p) :
    toM n n (zEntry n 1) * toM n n M - toM n n M * toM n n (zEntry n 0) = toM n n (dispTP n n M) ∧
    toM n n (zEntry n 0) * toM n n M - toM n n M * toM n n (zEntry n 1) = toM n n (dispTM n n M) := by
  constructor <;> (rw [toM_mul, toM_mul]; ext i j; rfl)

/-- **C86**. `inv`: if `a` and `b` are coprime and none is a constant, the result represents the inverse `N` of the Sylvester matrix `M`: `N M = M N = 1`, `N` is the
    matrix that `to_dense` gives into a fresh output, and by which `mul_right` multiplies.  If they are not coprime, the return value is 0. -/
theorem C86_inv_partial {g : Xgcd p} (hg : XgcdOK g) {a b : (ZMod p)[X]} (ha : 0 < a.natDegree) (hb : 0 < b.natDegree) {s : Sylv p} (hs : Reach g a b s) :
    (IsCoprime a b → ∃ t N, s.inv g = .ok (some t) ∧ IsInv (a.natDegree + b.natDegree) (sylvEntry a b) N ∧
      IsInv (a.natDegree + b.natDegree) N (sylvEntry a b) ∧
      (∀ x : PMat (ZMod p), (x.cols ≠ a.natDegree + b.natDegree ∨ ∀ i j, i < a.natDegree + b.natDegree → j < a.natDegree + b.natDegree → x.e (i, j) = 0) →
        IsMat (t.denseTM x) (a.natDegree + b.natDegree) (a.natDegree + b.natDegree) N) ∧
      ∀ cross (v : NVec (ZMod p)), v.len = a.natDegree + b.natDegree → IsRight (t.rightTM cross v) (a.natDegree + b.natDegree) (a.natDegree + b.natDegree) N v.e) ∧
    (¬ IsCoprime a b → s.inv g = .ok none) := by
  have ha0 : a ≠ 0 := fun e => by simp [e] at ha
  have hb0 : b ≠ 0 := fun e => by simp [e] at hb
  obtain ⟨u, eu, hu⟩ := prepare_ok hg ha hb hs
  have hr : Reach g a b u := .prepare hs eu
  unfold Sylv.inv
  rw [eu]
  constructor
  · intro hco
    show ∃ t N, (if u.singular = some true then _ else _) = _ ∧ _
    rw [if_neg (fun h => hu.1 h hco)]
    obtain ⟨G, H, eg, g1, g2, g3, g4, hgen⟩ := C86_generators_partial hg ha0 hb hr
    rw [eg]
    obtain ⟨iU, e1, u1, u2, u3⟩ := (C86_solve_matrix_partial hg ha hb hr newMat G (by omega)).1 hco
    obtain ⟨iV, e2, v1, v2, v3⟩ := (C86_solve_transpose_matrix_partial hg ha hb hr newMat (denseT H)).1 g3 hco
    show ∃ t N, andThen (u.solveMat g newMat G) _ = _ ∧ _
    rw [e1]
    show ∃ t N, andThen (u.solveTMat g newMat (denseT H)) _ = _ ∧ _
    rw [e2]
    show ∃ t N, andThen (Like.makeTM ⟨iU.rows, iU.cols, fun ij => -iU.e ij⟩ (denseT iV)) _ = _ ∧ _
    obtain ⟨t, et, -⟩ := C84_constructor ⟨iU.rows, iU.cols, fun ij => -iU.e ij⟩ (denseT iV) (by show 0 < iU.rows; omega) (by show 0 < iV.cols; omega)
      (by show iU.cols ≤ iV.rows; rw [u2, v1, g2]; show 2 ≤ H.cols; omega) Like.makeTM (by simp)
    rw [et]
    obtain ⟨N, hN, d1, -, d2⟩ := C84_toeplitz_minus_partial et (by show 0 < iU.rows; omega) (by show 0 < iV.cols; omega)
    -- the inverse has these generators
    obtain ⟨P, hP⟩ := coprime_inv ha0 hb0 hco
    have hMP := (isInv_iff _ _ _).1 hP
    have hPM := mul_eq_one_comm.1 hMP
    set n := a.natDegree + b.natDegree with hn
    set M := toM n n (sylvEntry a b) with hM
    set Q := toM n n P with hQ
    have hdisp : toM n n (zEntry n 1) * M - M * toM n n (zEntry n 0) = toM n 2 (fun i k => G.e (i, k)) * toM 2 n (fun k j => H.e (j, k)) := by
      rw [hM, (toM_disp n _).1, toM_mul, toM_eq]
      intro i j hi hj
      have := hgen i j (by omega) (by omega)
      rw [g1, g2, g3] at this
      exact this
    have hU : M * toM n 2 (fun i k => iU.e (i, k)) = toM n 2 (fun i k => G.e (i, k)) := by
      rw [hM, toM_mul, toM_eq]
      intro i j hi hj
      exact u3 i j hi (by omega)
    have hV : toM 2 n (fun k j => iV.e (k, j)) * M = toM 2 n (fun k j => H.e (j, k)) := by
      rw [hM, toM_mul, toM_eq]
      intro i j hi hj
      exact v3 i j (by show i < H.cols; omega) hj
    have hgens : HasGens dispTM ⟨iU.rows, iU.cols, fun ij => -iU.e ij⟩ (denseT iV) P := by
      have hQd : toM n n (zEntry n 0) * Q - Q * toM n n (zEntry n 1) = -(toM n 2 (fun i k => iU.e (i, k)) * toM 2 n (fun k j => iV.e (k, j))) := by
        have h1 : Q * (toM n n (zEntry n 1) * M - M * toM n n (zEntry n 0)) * Q = toM n 2 (fun i k => iU.e (i, k)) * toM 2 n (fun k j => iV.e (k, j)) := by
          rw [hdisp, ← hU, ← hV]
          calc Q * (M * toM n 2 (fun i k => iU.e (i, k)) * (toM 2 n (fun k j => iV.e (k, j)) * M)) * Q
              = (Q * M) * toM n 2 (fun i k => iU.e (i, k)) * (toM 2 n (fun k j => iV.e (k, j)) * (M * Q)) := by simp only [Matrix.mul_assoc]
            _ = _ := by rw [hPM, hMP, Matrix.one_mul, Matrix.mul_one]
        rw [← h1, Matrix.mul_sub, Matrix.sub_mul]
        have t1 : Q * (toM n n (zEntry n 1) * M) * Q = Q * toM n n (zEntry n 1) := by
          rw [Matrix.mul_assoc, Matrix.mul_assoc, hMP, Matrix.mul_one]
        have t2 : Q * (M * toM n n (zEntry n 0)) * Q = toM n n (zEntry n 0) * Q := by
          rw [← Matrix.mul_assoc, hPM, Matrix.one_mul]
        rw [t1, t2, neg_sub]
      rw [hQ, (toM_disp n _).2, toM_mul] at hQd
      intro i j hi hj
      change i < iU.rows at hi
      change j < iV.cols at hj
      have := congrFun (congrFun hQd ⟨i, by omega⟩) ⟨j, by omega⟩
      change dispTM n n P i j = -∑ k ∈ Finset.range 2, iU.e (i, k) * iV.e (k, j) at this
      show dispTM iU.rows iV.cols P i j = ∑ k ∈ Finset.range iU.cols, -iU.e (i, k) * iV.e (k, j)
      rw [u1, v2, u2, g2, this, ← Finset.sum_neg_distrib]
      exact Finset.sum_congr rfl fun k _ => (neg_mul _ _).symm
    have heq : ∀ i j, i < n → j < n → N i j = P i j := fun i j hi hj =>
      C84_unique (Or.inr (Or.inl ⟨hN, hgens⟩)) i j (by show i < iU.rows; omega) (by show j < iV.cols; omega)
    have hQN : toM n n N = Q := (toM_eq _ _ _ _).2 heq
    have dU : (⟨iU.rows, iU.cols, fun ij => -iU.e ij⟩ : PMat (ZMod p)).rows = n := u1
    have dV : (denseT iV).rows = n := v2
    refine ⟨t, N, rfl, (isInv_iff _ _ _).2 (by rw [hQN]; exact hMP), (isInv_iff _ _ _).2 (by rw [hQN]; exact hPM), ?_, ?_⟩
    · intro x hx
      have := d1 x (by rw [dU, dV]; exact hx)
      rw [dU, dV] at this
      exact this
    · intro cross v hv
      have := d2 cross v (by rw [dV]; exact hv)
      rw [dU, dV] at this
      exact this
  · intro hco
    show (if u.singular = some true then _ else _) = _
    rw [if_pos (hu.2 hco)]

/-! ### What goes wrong -/

/-- **C86**. If one of the two nonzero polynomials is a constant, the matrix is invertible (triangular), and yet `prepare_inverse`, `solve`, `solve_transpose` and
    `inv` stop with an error of NTL. -/
theorem C86_constant {g : Xgcd p} (hg : XgcdOK g) {a b : (ZMod p)[X]} (ha : a ≠ 0) (hb : b ≠ 0) (h : a.natDegree = 0 ∨ b.natDegree = 0)
    (v : NVec (ZMod p)) (hv : a.natDegree + b.natDegree ≤ v.len) :
    (∃ N, IsInv (a.natDegree + b.natDegree) (sylvEntry a b) N) ∧ (Sylv.make a b).prepare g = .error ∧ (Sylv.make a b).solve g v = .error ∧
      (Sylv.make a b).solveT g v = .error ∧ (Sylv.make a b).inv g = .error := by
  have hco : IsCoprime a b := by
    rcases h with h | h
    · have : IsUnit a := by rw [isUnit_iff_degree_eq_zero, degree_eq_natDegree ha, h]; rfl
      obtain ⟨u, hu⟩ := this
      exact ⟨↑u⁻¹, 0, by rw [← hu, zero_mul, add_zero, Units.inv_mul]⟩
    · have : IsUnit b := by rw [isUnit_iff_degree_eq_zero, degree_eq_natDegree hb, h]; rfl
      obtain ⟨u, hu⟩ := this
      exact ⟨0, ↑u⁻¹, by rw [← hu, zero_mul, zero_add, Units.inv_mul]⟩
  have hd := (xgcd_coprime hg ha hb).2 hco
  have hp : (Sylv.make a b).prepare g = .error := by
    show (if g.d a b ≠ 0 ∧ (g.d a b).natDegree = 0 then _ else _) = _
    rw [if_pos hd]
    show andThen (buildModulus a) _ = _
    by_cases h0 : a.natDegree = 0
    · rw [buildModulus, if_pos h0]; rfl
    · rw [buildModulus, if_neg h0]
      show andThen (buildModulus b) _ = _
      rw [buildModulus, if_pos (by omega)]; rfl
  refine ⟨coprime_inv ha hb hco, hp, ?_, ?_, ?_⟩
  · unfold Sylv.solve
    rw [if_neg (by show ¬ v.len < a.natDegree + b.natDegree; omega)]
    show (if ¬ (g.d a b ≠ 0 ∧ (g.d a b).natDegree = 0) then _ else andThen (mulMod _ _ a) _) = _
    rw [if_neg (by rw [not_not]; exact hd)]
    by_cases h0 : a.natDegree = 0
    · rw [mulMod, if_pos (Or.inr (Or.inr h0))]; rfl
    · have : ∀ x y : (ZMod p)[X], mulMod x y b = .error := fun x y => if_pos (Or.inr (Or.inr (by omega)))
      rcases h1 : mulMod (ofCoeffs (Sylv.make a b).n v.e % (Sylv.make a b).a)
        (C ((g.d (Sylv.make a b).a (Sylv.make a b).b).coeff 0)⁻¹ * g.t (Sylv.make a b).a (Sylv.make a b).b) a with y | _ | _ | _
      · show andThen (mulMod _ _ b) _ = _
        rw [this]; rfl
      · rfl
      · unfold mulMod at h1; split_ifs at h1
      · unfold mulMod at h1; split_ifs at h1
  · unfold Sylv.solveT
    rw [if_neg (by simp [Sylv.make]), if_neg (by show ¬ v.len < a.natDegree + b.natDegree; omega)]
    show (if ¬ (g.d a b ≠ 0 ∧ (g.d a b).natDegree = 0) then _ else andThen (buildModulus a) _) = _
    rw [if_neg (by rw [not_not]; exact hd)]
    by_cases h0 : a.natDegree = 0
    · rw [buildModulus, if_pos h0]; rfl
    · rw [buildModulus, if_neg h0]
      show andThen (buildModulus b) _ = _
      rw [buildModulus, if_pos (by omega)]; rfl
  · unfold Sylv.inv
    rw [hp]; rfl

example : ∃ g : Xgcd 5, @XgcdOK 5 ⟨by norm_num⟩ g ∧ (X : (ZMod 5)[X]) ≠ 0 ∧ (1 : (ZMod 5)[X]) ≠ 0 ∧
    ((X : (ZMod 5)[X]).natDegree = 0 ∨ (1 : (ZMod 5)[X]).natDegree = 0) := by
  haveI : Fact (Nat.Prime 5) := ⟨by norm_num⟩
  obtain ⟨g, hg⟩ := xgcd_exists (p := 5)
  exact ⟨g, hg, X_ne_zero, one_ne_zero, Or.inr natDegree_one⟩

/-- **C86**. `solve` and `solve_transpose` on vectors do not test the length of the input, and read outside of a shorter one (except `solve_transpose` on a matrix which is
    known to be singular). -/
theorem C86_short {g : Xgcd p} (hg : XgcdOK g) {a b : (ZMod p)[X]} (ha : a ≠ 0) (hb : b ≠ 0) {s : Sylv p} (hs : Reach g a b s)
    (v : NVec (ZMod p)) (hv : v.len < a.natDegree + b.natDegree) :
    s.solve g v = .ub ∧ (s.singular ≠ some true → s.solveT g v = .ub) := by
  have h := reach_good hg ha hb hs
  unfold Sylv.solve Sylv.solveT
  rw [h.hn, if_pos hv]
  exact ⟨rfl, fun hn => by rw [if_neg hn, if_pos hv]⟩

/-- **C86**. On matrices without column, `solve` returns 1 even if the matrix is not invertible. -/
theorem C86_solve_no_columns {g : Xgcd p} (hg : XgcdOK g) {a b : (ZMod p)[X]} (ha : a ≠ 0) (hb : b ≠ 0) {s : Sylv p} (hs : Reach g a b s)
    (x v : PMat (ZMod p)) (hv : v.cols = 0) :
    ∃ w, s.solveMat g x v = .ok (some w) ∧ w.rows = a.natDegree + b.natDegree ∧ w.cols = 0 := by
  have h := reach_good hg ha hb hs
  unfold Sylv.solveMat
  dsimp only
  rw [hv, h.hn]
  exact ⟨_, rfl, rfl, rfl⟩

end PML.Ntl.Struct
