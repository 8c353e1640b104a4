import Verif.Ntl.CLikeModel
import Verif.Ntl.CLikeSpec
import Verif.Ntl.CauchyProps
import Verif.Ntl.LikeProps
import Mathlib.Algebra.BigOperators.Field

/-!
# Cauchy-like matrices: products (C99)
-/

namespace PML.Ntl.CLike

open PML.Ntl.Utils PML.Ntl.Inv PML.Ntl.Solve PML.Ntl.Middle PML.Ntl.Struct

variable {p : Nat} [Fact p.Prime]

/-- The matrix described by generators and by the two progressions. -/
def clMat (G H : PMat (ZMod p)) (u v rho : ZMod p) : Nat → Nat → ZMod p :=
  mat (genRow G.cols G.e) (genRow G.cols H.e) (progr u rho) (progr v rho)

theorem clMat_eq (G H : PMat (ZMod p)) (u v rho : ZMod p) (i j : Nat) :
    clMat G H u v rho i j = ∑ t ∈ Finset.range G.cols, G.e (i, t) * (cauchyEntry u v rho i j * H.e (j, t)) := by
  unfold clMat mat cauchyEntry progr
  rw [dotProduct, Finset.sum_div, ← Fin.sum_univ_eq_sum_range (fun t => G.e (i, t) * (1 / (u * rho ^ i - v * rho ^ j) * H.e (j, t)))]
  exact Finset.sum_congr rfl fun t _ => by unfold genRow; ring

theorem fill_loop {β : Type} (n : Nat) (f s : Nat → β) (j : Nat) : forN n (fun j => write j (f j)) s j = if j < n then f j else s j := by
  have := forN_inv (n := n) (P := fun (k : Nat) (d : Nat → β) => ∀ y, d y = if y < k then f y else s y) (s := s) (f := fun j => write j (f j))
    (fun y => by rw [if_neg (by omega)]) (by
      intro k d hk hd y
      unfold write
      by_cases h : y = k
      · rw [h, Function.update_self, if_pos (by omega)]
      · rw [Function.update_of_ne h, hd]
        by_cases h2 : y < k
        · rw [if_pos h2, if_pos (by omega)]
        · rw [if_neg h2, if_neg (by omega)])
  exact this j

theorem acc_loop (n : Nat) (f s : Nat → ZMod p) (j : Nat) :
    forN n (fun j e => write j (e j + f j) e) s j = if j < n then s j + f j else s j := by
  have := forN_inv (n := n) (P := fun (k : Nat) (d : Nat → ZMod p) => ∀ y, d y = if y < k then s y + f y else s y) (s := s)
    (f := fun j e => write j (e j + f j) e) (fun y => by rw [if_neg (by omega)]) (by
      intro k d hk hd y
      unfold write
      by_cases h : y = k
      · rw [h, Function.update_self, if_pos (by omega), hd, if_neg (by omega)]
      · rw [Function.update_of_ne h, hd]
        by_cases h2 : y < k
        · rw [if_pos h2, if_pos (by omega)]
        · rw [if_neg h2, if_neg (by omega)])
  exact this j

/-- Writing a column. -/
theorem col_loop {β : Type} (m i : Nat) (f : Nat → β) (e : Nat × Nat → β) (a b : Nat) :
    forN m (fun j => write (j, i) (f j)) e (a, b) = if b = i ∧ a < m then f a else e (a, b) := by
  have := forN_inv (n := m) (P := fun (k : Nat) (d : Nat × Nat → β) => ∀ a b, d (a, b) = if b = i ∧ a < k then f a else e (a, b)) (s := e)
    (f := fun j => write (j, i) (f j)) (fun a b => by rw [if_neg (by omega)]) (by
      intro k d hk hd a b
      unfold write
      by_cases h : (a, b) = (k, i)
      · rw [h, Function.update_self]
        cases h
        rw [if_pos ⟨rfl, by omega⟩]
      · rw [Function.update_of_ne h, hd]
        have h' : ¬(a = k ∧ b = i) := fun h2 => h (by rw [h2.1, h2.2])
        by_cases h2 : b = i ∧ a < k
        · rw [if_pos h2, if_pos ⟨h2.1, by omega⟩]
        · rw [if_neg h2, if_neg (by omega)])
  exact this a b

theorem row_loop {β : Type} (n i : Nat) (f : Nat → β) (e : Nat × Nat → β) (a b : Nat) :
    forN n (fun j => write (i, j) (f j)) e (a, b) = if a = i ∧ b < n then f b else e (a, b) := by
  have := forN_inv (n := n) (P := fun (k : Nat) (d : Nat × Nat → β) => ∀ a b, d (a, b) = if a = i ∧ b < k then f b else e (a, b)) (s := e)
    (f := fun j => write (i, j) (f j)) (fun a b => by rw [if_neg (by omega)]) (by
      intro k d hk hd a b
      unfold write
      by_cases h : (a, b) = (i, k)
      · rw [h, Function.update_self]
        cases h
        rw [if_pos ⟨rfl, by omega⟩]
      · rw [Function.update_of_ne h, hd]
        have h' : ¬(a = i ∧ b = k) := fun h2 => h (by rw [h2.1, h2.2])
        by_cases h2 : a = i ∧ b < k
        · rw [if_pos h2, if_pos ⟨h2.1, by omega⟩]
        · rw [if_neg h2, if_neg (by omega)])
  exact this a b

/-- What the constructor gives. -/
theorem make_clike {U V : PMat (ZMod p)} {u v rho : ZMod p} {c : CLike p} (h : CLike.make U V u v rho = .ok c) :
    ∃ C, Cauchy.make u v rho U.rows V.rows = .ok C ∧ c = ⟨U, V, C⟩ := by
  unfold CLike.make at h
  cases hC : Cauchy.make u v rho U.rows V.rows with
  | ok C => rw [hC] at h; exact ⟨C, rfl, by simpa [andThen, eq_comm] using h⟩
  | _ => rw [hC] at h; cases h

theorem C99_constructor (U V : PMat (ZMod p)) (u v rho : ZMod p) (hm : 0 < U.rows) (hn : 0 < V.rows) :
    (rho ≠ 0 ∧ CauchyOK u v rho U.rows V.rows → ∃ c, CLike.make U V u v rho = .ok c ∧ c.C.m = U.rows ∧ c.C.n = V.rows ∧ c.G = U ∧ c.H = V) ∧
    (¬ (rho ≠ 0 ∧ CauchyOK u v rho U.rows V.rows) → CLike.make U V u v rho = .error) := by
  obtain ⟨h1, h2⟩ := C85_constructor u v rho hm hn
  constructor
  · intro h
    obtain ⟨C, e, a, b⟩ := h1 h
    refine ⟨⟨U, V, C⟩, ?_, a, b, rfl, rfl⟩
    unfold CLike.make; rw [e]; rfl
  · intro h
    unfold CLike.make; rw [h2 h]; rfl

/-- The loop over the generators, for a product by the first factor. -/
theorem gen_loop {step : NVec (ZMod p) → Out (NVec (ZMod p))} {m n : Nat} {M : Nat → Nat → ZMod p} (G H : Nat × Nat → ZMod p) (w : Nat → ZMod p)
    (hs : ∀ z : NVec (ZMod p), z.len = n → IsRight (step z) m n M z.e) (alpha : Nat) (out0 : Nat → ZMod p) (h0 : ∀ i, i < m → out0 i = 0) :
    ∃ out, loopOut alpha (fun i out =>
      andThen (step ⟨n, forN n (fun j => write j (H (j, i) * w j)) fun _ => 0⟩) fun newOut =>
      .ok (forN m (fun j out => write j (out j + G (j, i) * newOut.e j) out) out)) out0 = .ok out ∧
      ∀ i, i < m → out i = ∑ t ∈ Finset.range alpha, G (i, t) * ∑ j ∈ Finset.range n, M i j * (H (j, t) * w j) := by
  refine loopOut_inv (fun k (out : Nat → ZMod p) => ∀ i, i < m → out i = ∑ t ∈ Finset.range k, G (i, t) * ∑ j ∈ Finset.range n, M i j * (H (j, t) * w j))
    (fun i hi => by rw [h0 i hi]; simp) (fun k out hk ho => ?_)
  obtain ⟨r, e, h1, h2⟩ := hs ⟨n, forN n (fun j => write j (H (j, k) * w j)) fun _ => 0⟩ rfl
  refine ⟨_, by rw [e]; rfl, fun i hi => ?_⟩
  rw [acc_loop, if_pos hi, ho i hi, Finset.sum_range_succ, h2 i hi]
  congr 2
  refine Finset.sum_congr rfl fun j hj => ?_
  dsimp only
  rw [fill_loop, if_pos (Finset.mem_range.1 hj)]

/-- **C99**. `mul_right` on vectors is the product by the matrix, if the products of the underlying Toeplitz matrix do not overflow. -/
theorem C99_right_partial {red : Nat → ZMod p} (hred : RedOK red) {U V : PMat (ZMod p)} {u v rho : ZMod p} {c : CLike p}
    (h : CLike.make U V u v rho = .ok c) (hm : 0 < U.rows) (hn : 0 < V.rows) (hg : V.cols = U.cols) (cross : Nat) (w : NVec (ZMod p))
    (hw : w.len = V.rows) (hno : NoOverflow p cross U.rows V.rows V.rows) :
    IsRight (c.right red cross w) U.rows V.rows (clMat U V u v rho) w.e := by
  obtain ⟨C, hC, rfl⟩ := make_clike h
  obtain ⟨hr, hok, -, -, -, hm', hn', -, -⟩ := (cauchy_made hm hn).2.2 C hC
  unfold CLike.right
  dsimp only
  rw [if_neg (by rw [hn']; omega)]
  obtain ⟨out, e, ho⟩ := gen_loop (step := C.right red cross) (m := U.rows) (n := V.rows) U.e V.e w.e
    (fun z hz => (C85_right_partial hred hC hm hn cross z hz hno).1) U.cols (forN C.m (fun i => write i (0 : ZMod p)) fun _ => 0)
    (fun i hi => by rw [fill_loop, if_pos (by omega)])
  rw [hm', hn'] at *
  rw [e]
  refine ⟨_, rfl, rfl, fun i hi => ?_⟩
  rw [show (NVec.mk U.rows out).e i = out i from rfl, ho i hi]
  simp only [clMat_eq, Finset.sum_mul, Finset.mul_sum]
  rw [Finset.sum_comm]
  exact Finset.sum_congr rfl fun j _ => Finset.sum_congr rfl fun t _ => by ring

/-- **C99**. `mul_left` on vectors. -/
theorem C99_left_partial {red : Nat → ZMod p} (hred : RedOK red) {U V : PMat (ZMod p)} {u v rho : ZMod p} {c : CLike p}
    (h : CLike.make U V u v rho = .ok c) (hm : 0 < U.rows) (hn : 0 < V.rows) (hg : V.cols = U.cols) (cross : Nat) (w : NVec (ZMod p))
    (hw : w.len = U.rows) (hno : NoOverflow p cross U.rows V.rows U.rows) :
    IsLeft (c.left red cross w) U.rows V.rows (clMat U V u v rho) w.e := by
  obtain ⟨C, hC, rfl⟩ := make_clike h
  obtain ⟨hr, hok, -, -, -, hm', hn', -, -⟩ := (cauchy_made hm hn).2.2 C hC
  unfold CLike.left
  dsimp only
  rw [if_neg (by rw [hn', hm']; omega)]
  obtain ⟨out, e, ho⟩ := gen_loop (step := C.left red cross) (m := V.rows) (n := U.rows) (M := fun i j => cauchyEntry u v rho j i) V.e U.e w.e
    (fun z hz => by
      obtain ⟨r, e, h1, h2⟩ := (C85_left_partial hred hC hm hn cross z hz hno).1
      exact ⟨r, e, h1, fun i hi => by rw [h2 i hi]; exact Finset.sum_congr rfl fun _ _ => mul_comm _ _⟩) U.cols
    (forN C.n (fun i => write i (0 : ZMod p)) fun _ => 0) (fun i hi => by rw [fill_loop, if_pos (by omega)])
  rw [hm', hn'] at *
  rw [e]
  refine ⟨_, rfl, rfl, fun i hi => ?_⟩
  rw [show (NVec.mk V.rows out).e i = out i from rfl, ho i hi]
  simp only [clMat_eq, Finset.mul_sum]
  rw [Finset.sum_comm]
  exact Finset.sum_congr rfl fun j _ => Finset.sum_congr rfl fun t _ => by ring

/-- **C99**. `mul_right` on matrices. -/
theorem C99_right_matrix_partial {red : Nat → ZMod p} (hred : RedOK red) {U V : PMat (ZMod p)} {u v rho : ZMod p} {c : CLike p}
    (h : CLike.make U V u v rho = .ok c) (hm : 0 < U.rows) (hn : 0 < V.rows) (hg : V.cols = U.cols) (cross : Nat) (x W : PMat (ZMod p))
    (hW : W.rows = V.rows) (hno : NoOverflow p cross U.rows V.rows V.rows) :
    IsMat (c.rightMat red cross x W) U.rows W.cols fun i j => ∑ l ∈ Finset.range V.rows, clMat U V u v rho i l * W.e (l, j) := by
  obtain ⟨C, hC, rfl⟩ := make_clike h
  obtain ⟨hr, hok, -, -, -, hm', hn', hpw, -⟩ := (cauchy_made hm hn).2.2 C hC
  unfold CLike.rightMat
  dsimp only
  rw [if_neg (by omega), if_neg (by omega)]
  rw [hm', hn']
  obtain ⟨e, he, hP⟩ := loopOut_inv (k := W.cols) (fun k (e : Nat × Nat → ZMod p) => ∀ i j, i < U.rows → j < k → e (i, j) =
      ∑ l ∈ Finset.range V.rows, clMat U V u v rho i l * W.e (l, j)) (s := (x.setDims U.rows W.cols).e)
    (f := fun i (e : Nat × Nat → ZMod p) =>
      andThen (loopOut U.cols (fun k vecOut =>
        andThen (C.t.toeplitzRight red cross ⟨V.rows, forN V.rows (fun j => write j (V.e (j, k) * W.e (j, i))) fun _ => 0⟩) fun newOut =>
        .ok (forN U.rows (fun j out => write j (out j + U.e (j, k) * newOut.e j) out) vecOut)) (forN U.rows (fun j => write j (0 : ZMod p)) fun _ => 0)) fun vecOut =>
      .ok (forN U.rows (fun j e => write (j, i) (C.pw j * vecOut j) e) e)) (by omega) (by
      intro k d hk hd
      obtain ⟨out, e, ho⟩ := gen_loop (step := C.rightSimple red cross) (m := U.rows) (n := V.rows) U.e V.e (fun l => W.e (l, k))
        (fun z hz => (C85_right_partial hred hC hm hn cross z hz hno).2) U.cols (forN U.rows (fun i => write i (0 : ZMod p)) fun _ => 0)
        (fun i hi => by rw [fill_loop, if_pos (by omega)])
      unfold Cauchy.rightSimple at e
      rw [e]
      refine ⟨_, rfl, fun i j hi hj => ?_⟩
      have hc := col_loop U.rows k (fun j => C.pw j * out j) d i j
      rw [hc]
      by_cases hjk : j = k
      · rw [if_pos ⟨hjk, hi⟩, hjk, ho i hi, hpw i hi]
        simp only [clMat_eq, ← entry_mul hr, Finset.sum_mul, Finset.mul_sum]
        rw [Finset.sum_comm]
        exact Finset.sum_congr rfl fun j _ => Finset.sum_congr rfl fun t _ => by ring
      · rw [if_neg (by omega), hd i j hi (by omega)])
  rw [he]
  exact ⟨_, rfl, rfl, rfl, fun i j hi hj => hP i j hi hj⟩

/-- **C99**. `mul_left` on matrices. -/
theorem C99_left_matrix_partial {red : Nat → ZMod p} (hred : RedOK red) {U V : PMat (ZMod p)} {u v rho : ZMod p} {c : CLike p}
    (h : CLike.make U V u v rho = .ok c) (hm : 0 < U.rows) (hn : 0 < V.rows) (hg : V.cols = U.cols) (cross : Nat) (x W : PMat (ZMod p))
    (hW : W.cols = U.rows) (hno : NoOverflow p cross U.rows V.rows U.rows) :
    IsMat (c.leftMat red cross x W) W.rows V.rows fun i j => ∑ l ∈ Finset.range U.rows, W.e (i, l) * clMat U V u v rho l j := by
  obtain ⟨C, hC, rfl⟩ := make_clike h
  obtain ⟨hr, hok, -, -, -, hm', hn', hpw, -⟩ := (cauchy_made hm hn).2.2 C hC
  unfold CLike.leftMat
  dsimp only
  rw [if_neg (by omega), if_neg (by omega)]
  rw [hm', hn']
  obtain ⟨e, he, hP⟩ := loopOut_inv (k := W.rows) (fun k (e : Nat × Nat → ZMod p) => ∀ i j, i < k → j < V.rows → e (i, j) =
      ∑ l ∈ Finset.range U.rows, W.e (i, l) * clMat U V u v rho l j) (s := (x.setDims W.rows V.rows).e)
    (f := fun i (e : Nat × Nat → ZMod p) =>
      andThen (loopOut U.cols (fun k vecOut =>
        andThen (C.leftSimple red cross ⟨U.rows, forN U.rows (fun j => write j (U.e (j, k) *
          forN U.rows (fun j => write j (W.e (i, j) * C.pw j)) (fun _ => 0) j)) fun _ => 0⟩) fun newOut =>
        .ok (forN V.rows (fun j out => write j (out j + V.e (j, k) * newOut.e j) out) vecOut)) (forN V.rows (fun j => write j (0 : ZMod p)) fun _ => 0)) fun vecOut =>
      .ok (forN V.rows (fun j e => write (i, j) (vecOut j) e) e)) (by omega) (by
      intro k d hk hd
      obtain ⟨out, e, ho⟩ := gen_loop (step := C.leftSimple red cross) (m := V.rows) (n := U.rows) (M := fun i j => simpleEntry u v rho j i) V.e U.e
        (fun l => forN U.rows (fun j => write j (W.e (k, j) * C.pw j)) (fun _ => 0) l)
        (fun z hz => by
          obtain ⟨r, e, h1, h2⟩ := (C85_left_partial hred hC hm hn cross z hz hno).2
          exact ⟨r, e, h1, fun i hi => by rw [h2 i hi]; exact Finset.sum_congr rfl fun _ _ => mul_comm _ _⟩) U.cols
        (forN V.rows (fun i => write i (0 : ZMod p)) fun _ => 0) (fun i hi => by rw [fill_loop, if_pos (by omega)])
      rw [e]
      refine ⟨_, rfl, fun i j hi hj => ?_⟩
      have hc := row_loop V.rows k (fun j => out j) d i j
      rw [hc]
      by_cases hik : i = k
      · rw [if_pos ⟨hik, hj⟩, hik, ho j hj]
        simp only [clMat_eq, ← entry_mul hr, Finset.mul_sum]
        rw [Finset.sum_comm]
        refine Finset.sum_congr rfl fun l hl => Finset.sum_congr rfl fun t _ => ?_
        rw [fill_loop, if_pos (Finset.mem_range.1 hl), hpw l (Finset.mem_range.1 hl)]
        ring
      · rw [if_neg (by omega), hd i j (by omega) hj])
  rw [he]
  exact ⟨_, rfl, rfl, rfl, fun i j hi hj => hP i j hi hj⟩

/-- **C99**. `to_dense` gives the matrix. -/
theorem C99_dense {U V : PMat (ZMod p)} {u v rho : ZMod p} {c : CLike p} (h : CLike.make U V u v rho = .ok c) (hm : 0 < U.rows) (hn : 0 < V.rows)
    (hg : V.cols = U.cols) : IsMat c.dense U.rows V.rows (clMat U V u v rho) := by
  obtain ⟨C, hC, rfl⟩ := make_clike h
  obtain ⟨hr, hok, hu, hv, hrho, hm', hn', -, -⟩ := (cauchy_made hm hn).2.2 C hC
  unfold CLike.dense denseMul denseT
  rw [if_neg (show ¬U.cols ≠ V.cols by omega)]
  simp only [andThen]
  obtain ⟨e, he, hP⟩ := loopOut_inv (k := C.m) (fun k (d : Nat × Nat → ZMod p) => ∀ a b, a < U.rows → b < V.rows →
      d (a, b) = if a < k then clMat U V u v rho a b else ∑ l ∈ Finset.range U.cols, U.e (a, l) * V.e (b, l))
    (f := fun i e => loopOut C.n (fun j e => if C.u * C.rho ^ i - C.v * C.rho ^ j = 0 then Out.error
      else .ok (write (i, j) (e (i, j) / (C.u * C.rho ^ i - C.v * C.rho ^ j)) e)) e)
    (s := fun ij => ∑ l ∈ Finset.range U.cols, U.e (ij.1, l) * V.e (ij.2, l)) (fun a b _ _ => by rw [if_neg (by omega)]) (by
      intro i d hi hd
      obtain ⟨e, he, hP⟩ := loopOut_inv (k := C.n) (fun k (e : Nat × Nat → ZMod p) => ∀ a b, a < U.rows → b < V.rows →
          e (a, b) = if a = i ∧ b < k then clMat U V u v rho a b else d (a, b))
        (f := fun j e => if C.u * C.rho ^ i - C.v * C.rho ^ j = 0 then Out.error
          else .ok (write (i, j) (e (i, j) / (C.u * C.rho ^ i - C.v * C.rho ^ j)) e)) (s := d) (fun a b _ _ => by rw [if_neg (by omega)]) (by
          intro j e hj he
          rw [hu, hv, hrho] at *
          have hne : u * rho ^ i - v * rho ^ j ≠ 0 := sub_ne_zero.2 (hok i j (by omega) (by omega))
          refine ⟨_, if_neg hne, fun a b ha hb => ?_⟩
          unfold write
          by_cases hab : (a, b) = (i, j)
          · rw [hab, Function.update_self]
            cases hab
            rw [if_pos ⟨rfl, by omega⟩, he i j ha hb, if_neg (by omega), hd i j ha hb, if_neg (by omega)]
            unfold clMat mat dotProduct progr
            rw [← Fin.sum_univ_eq_sum_range (fun l => U.e (i, l) * V.e (j, l))]
            rfl
          · rw [Function.update_of_ne hab, he a b ha hb]
            have h' : ¬(a = i ∧ b = j) := fun h2 => hab (by rw [h2.1, h2.2])
            by_cases h2 : a = i ∧ b < j
            · rw [if_pos h2, if_pos ⟨h2.1, by omega⟩]
            · rw [if_neg h2, if_neg (by omega)])
      refine ⟨e, he, fun a b ha hb => ?_⟩
      rw [hP a b ha hb]
      by_cases hai : a = i
      · rw [if_pos ⟨hai, by omega⟩, if_pos (by omega)]
      · rw [if_neg (by omega), hd a b ha hb]
        by_cases h2 : a < i
        · rw [if_pos h2, if_pos (by omega)]
        · rw [if_neg h2, if_neg (by omega)])
  rw [he]
  refine ⟨_, rfl, rfl, rfl, fun i j hi hj => ?_⟩
  rw [show (PMat.mk U.rows V.rows e).e (i, j) = e (i, j) from rfl, hP i j hi hj, if_pos (by omega)]

end PML.Ntl.CLike
