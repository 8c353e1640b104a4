import Verif.Ntl.VecUtilsModel
import Verif.Ntl.MatUtilsProps
import Verif.Ntl.SolveLemmas
import Verif.Ntl.ShiftProps

/-!
# C65, C66: functions on vectors, and `add_LeftShift` on vectors and matrices
-/

namespace PML.Ntl.VecUtils

open Polynomial PML.Ntl.Utils PML.Ntl.Struct PML.Ntl.Inv PML.Ntl.Solve

variable {R : Type} [CommRing R] {F : Type} [Field F] {α : Type}

theorem write_apply {α : Type} (x : Nat → α) (i : Nat) (w : α) (j : Nat) : write i w x j = if j = i then w else x j := by
  unfold write Function.update
  by_cases h : j = i
  · subst h; simp
  · simp [h]

theorem fill_apply (n : Nat) (g : Nat → (Nat → α) → α) (hg : ∀ i x y, x i = y i → g i x = g i y) (x : Nat → α) (j : Nat) :
    forN n (fun i cur => write i (g i cur) cur) x j = if j < n then g j x else x j := by
  induction n generalizing j with
  | zero => rw [if_neg (by omega)]; rfl
  | succ n ih =>
    change write n _ _ j = _
    rw [write_apply]
    by_cases h : j = n
    · subst h
      rw [if_pos rfl, if_pos (by omega)]
      apply hg
      rw [ih, if_neg (by omega)]
    · rw [if_neg h, ih]
      by_cases h2 : j < n
      · rw [if_pos h2, if_pos (by omega)]
      · rw [if_neg h2, if_neg (by omega)]

theorem each_spec (al : Bool) (x a : NVec α) (f : α → α) :
    (each al x a f).len = a.len ∧ ∀ i, i < a.len → (each al x a f).e i = f (a.e i) := by
  unfold each
  cases al
  · refine ⟨rfl, fun i hi => ?_⟩
    simp only [Bool.false_eq_true, if_false]
    rw [fill_apply a.len (fun i _ => f (a.e i)) (fun _ _ _ _ => rfl), if_pos hi]
  · refine ⟨rfl, fun i hi => ?_⟩
    simp only [if_true]
    rw [fill_apply a.len (fun i cur => f (cur i)) (fun i x y h => by rw [h]), if_pos hi]

theorem zip_spec (op : α → α → α) (alA alB : Bool) (c a b : NVec α) (hal : ¬ (alA = true ∧ alB = true ∧ a ≠ b)) :
    (zip op alA alB c a b = none ↔ a.len ≠ b.len) ∧
    ∀ y, zip op alA alB c a b = some y → y.len = a.len ∧ ∀ i, i < a.len → y.e i = op (a.e i) (b.e i) := by
  unfold zip
  by_cases hl : a.len ≠ b.len
  · rw [if_pos hl]; exact ⟨⟨fun _ => hl, fun _ => rfl⟩, fun y hy => by simp at hy⟩
  rw [if_neg hl]
  refine ⟨⟨fun h => by simp at h, fun h => absurd h hl⟩, fun y hy => ?_⟩
  simp only [Option.some.injEq] at hy
  subst hy
  simp only [ne_eq, not_not] at hl
  refine ⟨?_, fun i hi => ?_⟩
  · cases alA <;> cases alB <;> simp [hl]
  · have := fill_apply a.len (fun i cur => op (if alA = true then cur i else a.e i) (if alB = true then cur i else b.e i))
      (fun i x y h => by simp only [h])
    simp only
    rw [this, if_pos hi]
    cases alA <;> cases alB
    · simp
    · simp
    · simp
    · have : a = b := by by_contra hc; exact hal ⟨rfl, rfl, hc⟩
      subst this
      simp

/-- C65: the zero test on vectors. -/
theorem C65_vec_is_zero [Zero α] [DecidableEq α] (v : NVec α) : isZero v = true ↔ ∀ i, i < v.len → v.e i = 0 := by
  have key : ∀ n i, isZero.go v n i = true ↔ ∀ j, i ≤ j → j < i + n → v.e j = 0 := by
    intro n
    induction n with
    | zero => intro i; exact ⟨fun _ j h1 h2 => absurd h2 (by omega), fun _ => rfl⟩
    | succ n ih =>
      intro i
      unfold isZero.go
      by_cases h : v.e i ≠ 0
      · rw [if_pos h]
        exact ⟨fun h => by simp at h, fun h' => absurd (h' i le_rfl (by omega)) h⟩
      · rw [if_neg h, ih]
        simp only [ne_eq, not_not] at h
        constructor
        · intro h' j h1 h2
          by_cases hj : j = i
          · rw [hj]; exact h
          · exact h' j (by omega) (by omega)
        · intro h' j h1 h2
          exact h' j (by omega) (by omega)
  unfold isZero
  rw [key]
  simp

/-- C65: the degree of a vector is `-1` for the zero vector, otherwise the largest index of a nonzero coefficient. -/
theorem C65_vec_deg (v : NVec R[X]) :
    (deg v = -1 ↔ ∀ i, i < v.len → v.e i = 0) ∧
    ∀ d : Nat, deg v = d ↔ (∃ i, i < v.len ∧ (v.e i).coeff d ≠ 0) ∧ ∀ i, i < v.len → ∀ k, d < k → (v.e i).coeff k = 0 := by
  have e : deg v = Utils.deg ⟨1, v.len, fun ij => v.e ij.2⟩ := rfl
  have h := C65_deg (⟨1, v.len, fun ij => v.e ij.2⟩ : PMat R[X])
  rw [e]
  refine ⟨h.1.trans ?_, fun d => (h.2 d).trans ?_⟩
  · exact ⟨fun h i hi => h 0 i Nat.one_pos hi, fun h _ j _ hj => h j hj⟩
  · exact ⟨fun ⟨⟨_, j, _, hj, h1⟩, h2⟩ => ⟨⟨j, hj, h1⟩, fun i hi => h2 0 i Nat.one_pos hi⟩,
      fun ⟨⟨j, hj, h1⟩, h2⟩ => ⟨⟨0, j, Nat.one_pos, hj, h1⟩, fun _ j _ hj => h2 j hj⟩⟩

/-- C65: `mirror` reverses the order of the entries, in place or not. -/
theorem C65_vec_mirror (al : Bool) (m v : NVec α) (hal : al = true → m = v) :
    (mirror al m v).len = v.len ∧ ∀ i, i < v.len → (mirror al m v).e i = v.e (v.len - 1 - i) := by
  unfold mirror
  dsimp only
  by_cases h0 : v.len = 0
  · rw [if_pos h0]; exact ⟨h0.symm, fun i hi => absurd hi (by omega)⟩
  rw [if_neg h0]
  have hm : (if al = true then m else v) = v := by
    cases al
    · rfl
    · exact hal rfl
  rw [hm]
  refine ⟨rfl, ?_⟩
  have inv : ∀ t, t ≤ v.len / 2 → ∀ i, i < v.len →
      forN t (fun i cur => write (v.len - 1 - i) (cur i) (write i (cur (v.len - 1 - i)) cur)) v.e i
        = if i < t ∨ v.len - 1 - i < t then v.e (v.len - 1 - i) else v.e i := by
    intro t
    induction t with
    | zero => intro _ i hi; rw [if_neg (by omega)]; rfl
    | succ t ih =>
      intro ht i hi
      change write (v.len - 1 - t) _ _ i = _
      rw [write_apply, write_apply]
      by_cases h1 : i = v.len - 1 - t
      · rw [if_pos h1, ih (by omega) t (by omega), if_neg (by omega), if_pos (by omega), h1]
        congr 1; omega
      · rw [if_neg h1]
        by_cases h2 : i = t
        · rw [if_pos h2, ih (by omega) _ (by omega), if_neg (by omega), if_pos (by omega), h2]
        · rw [if_neg h2, ih (by omega) i hi]
          by_cases h3 : i < t ∨ v.len - 1 - i < t
          · rw [if_pos h3, if_pos (by omega)]
          · rw [if_neg h3, if_neg (by omega)]
  intro i hi
  dsimp only
  rw [inv _ le_rfl i hi]
  by_cases h3 : i < v.len / 2 ∨ v.len - 1 - i < v.len / 2
  · rw [if_pos h3]
  · rw [if_neg h3]; congr 1; omega

/-- C65: truncations and shifts of vectors, in place or not. -/
theorem C65_vec_trunc_shift (al : Bool) (x a : NVec R[X]) (n : Nat) (s : Int) :
    ((trunc al x a n).len = a.len ∧ ∀ i, i < a.len → ∀ k, ((trunc al x a n).e i).coeff k = if k < n then (a.e i).coeff k else 0) ∧
    ((leftShift al x a s).len = a.len ∧ ∀ i, i < a.len → ∀ k : Nat,
      ((leftShift al x a s).e i).coeff k = if s ≤ k then (a.e i).coeff ((k : Int) - s).toNat else 0) ∧
    ((rightShift al x a s).len = a.len ∧ ∀ i, i < a.len → ∀ k : Nat,
      ((rightShift al x a s).e i).coeff k = if -s ≤ k then (a.e i).coeff ((k : Int) + s).toNat else 0) := by
  refine ⟨⟨(each_spec al x a _).1, fun i hi k => ?_⟩, ⟨(each_spec al x a _).1, fun i hi k => ?_⟩, (each_spec al x a _).1, fun i hi k => ?_⟩
  · rw [trunc, (each_spec al x a _).2 i hi, ptrunc_coeff]
  · rw [leftShift, (each_spec al x a _).2 i hi, pshift_coeff]
  · rw [rightShift, (each_spec al x a _).2 i hi, pshift_coeff]
    simp only [sub_neg_eq_add]

/-- C66: sums and differences of vectors; the output may be either input, and if it is both, they are the same vector. -/
theorem C66_vec_add_sub (alA alB : Bool) (c a b : NVec R[X]) (hal : ¬ (alA = true ∧ alB = true ∧ a ≠ b)) :
    (add alA alB c a b = none ↔ a.len ≠ b.len) ∧ (sub alA alB c a b = none ↔ a.len ≠ b.len) ∧
    (∀ y, add alA alB c a b = some y → y.len = a.len ∧ ∀ i, i < a.len → y.e i = a.e i + b.e i) ∧
    ∀ y, sub alA alB c a b = some y → y.len = a.len ∧ ∀ i, i < a.len → y.e i = a.e i - b.e i :=
  ⟨(zip_spec _ alA alB c a b hal).1, (zip_spec _ alA alB c a b hal).1, (zip_spec _ alA alB c a b hal).2, (zip_spec _ alA alB c a b hal).2⟩

/-- C66: sums and differences of a vector and a constant one. -/
theorem C66_vec_const (al : Bool) (c a : NVec R[X]) (b : NVec R) :
    ((addConst al c a b = none ↔ a.len ≠ b.len) ∧ ∀ y, addConst al c a b = some y → y.len = a.len ∧ ∀ i, i < a.len → y.e i = a.e i + C (b.e i)) ∧
    ((subConst al c a b = none ↔ a.len ≠ b.len) ∧ ∀ y, subConst al c a b = some y → y.len = a.len ∧ ∀ i, i < a.len → y.e i = a.e i - C (b.e i)) ∧
    ((constSub al c b a = none ↔ b.len ≠ a.len) ∧ ∀ y, constSub al c b a = some y → y.len = b.len ∧ ∀ i, i < b.len → y.e i = C (b.e i) - a.e i) :=
  ⟨zip_spec _ al false c a (const b) (by simp), zip_spec _ al false c a (const b) (by simp), zip_spec _ false al c (const b) a (by simp)⟩

/-- C66: negation and products of a vector, in place or not, by a polynomial which is not an entry of the output. -/
theorem C66_vec_scale (al : Bool) (x a : NVec R[X]) (b : R) (f : R[X]) :
    ((negate al x a).len = a.len ∧ ∀ i, i < a.len → (negate al x a).e i = -a.e i) ∧
    ((scale al x a b).len = a.len ∧ ∀ i, i < a.len → (scale al x a b).e i = a.e i * C b) ∧
    ((mulPoly al x a f).len = a.len ∧ ∀ i, i < a.len → (mulPoly al x a f).e i = a.e i * f) :=
  ⟨each_spec al x a _, each_spec al x a _, each_spec al x a _⟩

/-- C66: the product of a vector by one of its own entries, in place: the entries after it are multiplied by its square. -/
theorem C66_vec_mul_entry_wrong (a : NVec R[X]) (k : Nat) (hk : k < a.len) :
    ∀ i, i < a.len → (mulEntry a k).e i = if i ≤ k then a.e i * a.e k else a.e i * (a.e k * a.e k) := by
  have inv : ∀ t i, forN t (fun i cur => write i (cur i * cur k) cur) a.e i
      = if i < t then (if i ≤ k then a.e i * a.e k else a.e i * (a.e k * a.e k)) else a.e i := by
    intro t
    induction t with
    | zero => intro i; rw [if_neg (by omega)]; rfl
    | succ t ih =>
      intro i
      change write t _ _ i = _
      rw [write_apply]
      by_cases h : i = t
      · subst h
        rw [if_pos rfl, if_pos (by omega), ih, if_neg (by omega), ih]
        by_cases h1 : i ≤ k
        · rw [if_pos h1, if_neg (by omega)]
        · rw [if_neg h1, if_pos (by omega), if_pos le_rfl]
      · rw [if_neg h, ih]
        by_cases h1 : i < t
        · rw [if_pos h1, if_pos (by omega : i < t + 1)]
        · rw [if_neg h1, if_neg (by omega)]
  intro i hi
  unfold mulEntry
  dsimp only
  rw [inv, if_pos hi]

theorem addShift_val [DecidableEq F] (al : Bool) (k : Nat) (a b : F[X]) : (addShift al k a b).val = a + X ^ k * b := by
  ext i
  rw [val_coeff, coeff_add, mul_comm, coeff_mul_X_pow']
  unfold addShift
  dsimp only
  rw [addLeftShift_val]
  have hr : ∀ (f : F[X]) i, i < (repOf f).len ∨ f.coeff i = 0 := by
    intro f i
    by_cases h : i < (repOf f).len
    · exact Or.inl h
    · right
      unfold repOf at h
      dsimp only at h
      exact coeff_gt_pdeg _ _ (by omega)
  unfold Shift.sumCoeff
  congr 1
  · rcases hr a i with h | h
    · rw [if_pos h]; rfl
    · rw [h]; exact ite_eq_right_iff.2 fun _ => h
  · by_cases h : k ≤ i
    · rw [if_pos h]
      rcases hr b (i - k) with h2 | h2
      · rw [if_pos ⟨h, by omega⟩]; rfl
      · rw [h2]; exact ite_eq_right_iff.2 fun _ => h2
    · rw [if_neg h, if_neg (fun hc => h hc.1)]

/-- C66: `add_LeftShift` on vectors and matrices computes `a + X^k b`, in place or not. -/
theorem C66_add_left_shift [DecidableEq F] (al : Bool) (k : Nat) (c : NVec (Sto F)) (a b : NVec F[X]) (x : PMat (Sto F)) (f g : PMat F[X]) :
    ((addShiftVec al c a b k = none ↔ a.len ≠ b.len) ∧
      ∀ y, addShiftVec al c a b k = some y → y.len = a.len ∧ ∀ i, i < a.len → (y.e i).val = a.e i + X ^ k * b.e i) ∧
    ((addShiftMat al x f g k = none ↔ ¬ (f.rows = g.rows ∧ f.cols = g.cols)) ∧
      ∀ y, addShiftMat al x f g k = some y → y.rows = f.rows ∧ y.cols = f.cols ∧
        ∀ i j, i < f.rows → j < f.cols → (y.e (i, j)).val = f.e (i, j) + X ^ k * g.e (i, j)) := by
  refine ⟨?_, ?_⟩
  · unfold addShiftVec
    by_cases hl : a.len ≠ b.len
    · rw [if_pos hl]; exact ⟨⟨fun _ => hl, fun _ => rfl⟩, fun y hy => by simp at hy⟩
    rw [if_neg hl]
    refine ⟨⟨fun h => by simp at h, fun h => absurd h hl⟩, fun y hy => ?_⟩
    simp only [Option.some.injEq] at hy
    subst hy
    refine ⟨by cases al <;> rfl, fun i hi => ?_⟩
    dsimp only
    rw [fill_apply a.len (fun i _ => addShift al k (a.e i) (b.e i)) (fun _ _ _ _ => rfl), if_pos hi, addShift_val]
  · unfold addShiftMat
    by_cases hl : f.rows ≠ g.rows ∨ f.cols ≠ g.cols
    · rw [if_pos hl]; exact ⟨⟨fun _ => by omega, fun _ => rfl⟩, fun y hy => by simp at hy⟩
    rw [if_neg hl]
    refine ⟨⟨fun h => by simp at h, fun h => absurd (by omega) h⟩, fun y hy => ?_⟩
    simp only [Option.some.injEq] at hy
    subst hy
    refine ⟨by cases al <;> rfl, by cases al <;> rfl, fun i j hi hj => ?_⟩
    dsimp only
    rw [loop2_spec _ _ _ (fun _ _ _ _ _ => rfl), if_pos ⟨hi, hj⟩, addShift_val]

/-! ### Instances -/

example : (mirror false ⟨0, fun _ => (0 : ℤ)⟩ ⟨5, fun i => i⟩).e 1 = 3 := by decide

example : isZero (⟨3, fun i => if i < 3 then 0 else 1⟩ : NVec ℤ) = true := (C65_vec_is_zero _).2 fun _ hi => if_pos hi

example : ∃ y, addShiftVec (F := ℚ) true ⟨0, fun _ => 0⟩ ⟨2, fun _ => X⟩ ⟨2, fun _ => 1⟩ 3 = some y ∧ (y.e 1).val = X + X ^ 3 * 1 := by
  have h := (C66_add_left_shift true 3 ⟨0, fun _ => 0⟩ ⟨2, fun _ => (X : ℚ[X])⟩ ⟨2, fun _ => 1⟩ ⟨0, 0, fun _ => 0⟩ ⟨0, 0, fun _ => 0⟩ ⟨0, 0, fun _ => 0⟩).1
  cases hy : addShiftVec (F := ℚ) true ⟨0, fun _ => 0⟩ ⟨2, fun _ => X⟩ ⟨2, fun _ => 1⟩ 3 with
  | none => exact absurd rfl (h.1.1 hy)
  | some y => exact ⟨y, rfl, (h.2 y hy).2 1 (by decide)⟩

end PML.Ntl.VecUtils
