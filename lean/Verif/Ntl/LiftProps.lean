import Verif.Ntl.LiftLemmas
import Verif.Ntl.SolveProps

/-!
# C74: high-order lifting
-/

namespace PML.Ntl.Lift

open Polynomial PML.Ntl.Utils PML.Ntl.Inv PML.Ntl.Solve PML.Ntl.MatMul PML.Ntl.MatMid PML.Ntl.LMul

variable {F : Type} [Field F]

attribute [local irreducible] Utils.deg

/-! ### Columns -/

theorem join_loop {α : Type} (m n off : Nat) (b x : Nat × Nat → α) : ∀ u v,
    forN m (fun i => forN n fun j => write (i, j + off) (b (i, j))) x (u, v) =
      if u < m ∧ off ≤ v ∧ v < off + n then b (u, v - off) else x (u, v) := by
  refine forN_inv (P := fun (m : Nat) (t : Nat × Nat → α) => ∀ u v, t (u, v) = if u < m ∧ off ≤ v ∧ v < off + n then b (u, v - off) else x (u, v))
    (fun u v => by rw [if_neg (by omega)]) ?_
  intro i t _ ht
  have inner := forN_inv (P := fun (n : Nat) (y : Nat × Nat → α) => ∀ u v, y (u, v) = if u = i ∧ off ≤ v ∧ v < off + n then b (i, v - off) else t (u, v))
    (f := fun j => write (i, j + off) (b (i, j))) (s := t) (n := n) (fun u v => by rw [if_neg (by omega)]) (by
      intro j y _ hy u v
      unfold write
      by_cases h : (u, v) = (i, j + off)
      · obtain ⟨rfl, rfl⟩ := Prod.mk.inj h
        rw [Function.update_self, if_pos (by omega), Nat.add_sub_cancel]
      · rw [Function.update_of_ne h, hy u v]
        have : ¬(u = i ∧ v = j + off) := fun ⟨h1, h2⟩ => h (by rw [h1, h2])
        by_cases h2 : u = i ∧ off ≤ v ∧ v < off + j
        · rw [if_pos h2, if_pos (by omega)]
        · rw [if_neg h2, if_neg (by omega)])
  intro u v
  rw [inner u v, ht u v]
  by_cases h : u = i ∧ off ≤ v ∧ v < off + n
  · rw [if_pos h, if_pos (by omega), h.1]
  · rw [if_neg h]
    by_cases h2 : u < i ∧ off ≤ v ∧ v < off + n
    · rw [if_pos h2, if_pos (by omega)]
    · rw [if_neg h2, if_neg (by omega)]

/-- **C74 (join)**. `horizontal_join` puts the columns of `b` after those of `a`; it fails exactly if the numbers of rows
    are different. -/
theorem C74_join (a b : PMat F[X]) : (hjoin a b = none ↔ a.rows ≠ b.rows) ∧ ∀ c, hjoin a b = some c → c.rows = a.rows ∧ c.cols = a.cols + b.cols ∧
    ∀ i, i < a.rows → (∀ j, j < a.cols → c.e (i, j) = a.e (i, j)) ∧ ∀ j, j < b.cols → c.e (i, a.cols + j) = b.e (i, j) := by
  unfold hjoin
  by_cases h : a.rows ≠ b.rows
  · rw [if_pos h]
    exact ⟨⟨fun _ => h, fun _ => rfl⟩, fun c hc => by cases hc⟩
  · rw [if_neg h]
    refine ⟨⟨fun hc => absurd hc (by simp), fun hc => absurd hc h⟩, fun c hc => ?_⟩
    injection hc with hc
    subst hc
    refine ⟨rfl, rfl, fun i hi => ⟨fun j hj => ?_, fun j hj => ?_⟩⟩
    · dsimp only
      rw [join_loop, if_neg (by omega)]
      have := join_loop a.rows a.cols 0 a.e (fun _ => 0) i j
      rw [if_pos (by omega)] at this
      exact this
    · dsimp only
      rw [join_loop, if_pos (by omega), Nat.add_sub_cancel_left]

theorem norm_val [DecidableEq F] (n : Nat) (m : Nat → F) : (⟨Shift.normLen m n, m⟩ : Sto F).val = (⟨n, m⟩ : Sto F).val := by
  ext k
  rw [val_coeff, val_coeff]
  have h1 := Shift.normLen_le m n
  have h2 := (Shift.normLen_spec m n).1
  dsimp only
  by_cases h : k < Shift.normLen m n
  · rw [if_pos h, if_pos (by omega)]
  · rw [if_neg h]
    by_cases h3 : k < n
    · rw [if_pos h3, h2 k (by omega) h3]
    · rw [if_neg h3]

theorem clear_loop (l c : Nat) (m : Nat → F) : ∀ k, forN c (fun j => write (l + j) 0) m k = if l ≤ k ∧ k < l + c then 0 else m k := by
  refine forN_inv (P := fun (c : Nat) (t : Nat → F) => ∀ k, t k = if l ≤ k ∧ k < l + c then 0 else m k) (fun k => by rw [if_neg (by omega)]) ?_
  intro j t _ ht k
  unfold write
  by_cases h : k = l + j
  · rw [h, Function.update_self, if_pos (by omega)]
  · rw [Function.update_of_ne h, ht k]
    by_cases h2 : l ≤ k ∧ k < l + j
    · rw [if_pos h2, if_pos (by omega)]
    · rw [if_neg h2, if_neg (by omega)]

/-- `SetCoeff` sets one coefficient, and does not make the polynomial longer than necessary. -/
theorem setCoeffRep_spec [DecidableEq F] (x : Sto F) (i : Nat) (v : F) : (setCoeffRep x i v).len ≤ max x.len (i + 1) ∧
    ∀ k, (setCoeffRep x i v).val.coeff k = if k = i then v else x.val.coeff k := by
  unfold setCoeffRep
  by_cases h : x.len ≤ i ∧ v = 0
  · rw [if_pos h]
    refine ⟨le_max_left _ _, fun k => ?_⟩
    by_cases hk : k = i
    · rw [if_pos hk, val_coeff, if_neg (by omega), h.2]
    · rw [if_neg hk]
  · rw [if_neg h]
    by_cases h2 : x.len ≤ i
    · rw [if_pos h2]
      dsimp only
      refine ⟨le_trans (Shift.normLen_le _ _) (le_max_right _ _), fun k => ?_⟩
      rw [norm_val, val_coeff]
      dsimp only
      unfold write
      by_cases hk : k = i
      · rw [if_pos hk, if_pos (by omega), hk, Function.update_self]
      · rw [if_neg hk, Function.update_of_ne hk, val_coeff]
        have := clear_loop x.len (i - x.len) x.mem k
        unfold write at this
        rw [this]
        by_cases h3 : k < x.len
        · rw [if_pos (by omega), if_neg (by omega), if_pos h3]
        · rw [if_neg h3]
          by_cases h4 : k < i + 1
          · rw [if_pos h4, if_pos (by omega)]
          · rw [if_neg h4]
    · rw [if_neg h2]
      dsimp only
      refine ⟨le_trans (Shift.normLen_le _ _) (le_max_left _ _), fun k => ?_⟩
      rw [norm_val, val_coeff]
      dsimp only
      unfold write
      by_cases hk : k = i
      · rw [if_pos hk, if_pos (by omega), hk, Function.update_self]
      · rw [if_neg hk, Function.update_of_ne hk, val_coeff]

theorem block_lt {d k k' ell' : Nat} (hk : k' < k) (h : ell' < d) : k' * d + ell' < k * d := by
  have : (k' + 1) * d ≤ k * d := Nat.mul_le_mul_right d hk
  rw [Nat.add_mul, Nat.one_mul] at this
  omega

theorem collapseEntry_spec [DecidableEq F] (d s : Nat) (f : Nat → F[X]) (x : Sto F) :
    (∀ k ell, k < s → ell < d → (collapseEntry d s f x).val.coeff (k * d + ell) = (f k).coeff ell) ∧
    ∀ t, d * s ≤ t → (collapseEntry d s f x).val.coeff t = 0 := by
  have main : (collapseEntry d s f x).len ≤ s * d ∧ ∀ k ell, k < s → ell < d → (collapseEntry d s f x).val.coeff (k * d + ell) = (f k).coeff ell := by
    unfold collapseEntry
    have hi := forN_inv (P := fun (n : Nat) (y : Sto F) => y.len ≤ s * d ∧ ∀ k ell, k < n → ell < d → y.val.coeff (k * d + ell) = (f k).coeff ell)
      (f := fun k => forN d fun ell x => setCoeffRep x (k * d + ell) ((f k).coeff ell)) (s := (⟨d * s, x.mem⟩ : Sto F)) (n := s)
      ⟨le_of_eq (Nat.mul_comm _ _), fun k ell hk => absurd hk (Nat.not_lt_zero _)⟩ (by
        rintro K y hK ⟨hy1, hy2⟩
        have hin := forN_inv (P := fun (n : Nat) (z : Sto F) => z.len ≤ s * d ∧ (∀ k ell, k < K → ell < d → z.val.coeff (k * d + ell) = (f k).coeff ell) ∧
            ∀ ell, ell < n → z.val.coeff (K * d + ell) = (f K).coeff ell)
          (f := fun ell x => setCoeffRep x (K * d + ell) ((f K).coeff ell)) (s := y) (n := d) ⟨hy1, hy2, fun ell h => absurd h (Nat.not_lt_zero _)⟩ (by
            rintro E z hE ⟨hz1, hz2, hz3⟩
            obtain ⟨g1, g2⟩ := setCoeffRep_spec z (K * d + E) ((f K).coeff E)
            have hb := block_lt hK hE
            refine ⟨le_trans g1 (max_le hz1 hb), fun k ell hk hell => ?_, fun ell hell => ?_⟩
            · have hb2 := block_lt hk hell
              rw [g2, if_neg (by omega), hz2 k ell hk hell]
            · rw [g2]
              by_cases h : ell = E
              · rw [h, if_pos rfl]
              · rw [if_neg (by omega), hz3 ell (by omega)])
        refine ⟨hin.1, fun k ell hk hell => ?_⟩
        by_cases h : k = K
        · rw [h]; exact hin.2.2 ell hell
        · exact hin.2.1 k ell (by omega) hell)
    exact hi
  refine ⟨main.2, fun t ht => ?_⟩
  rw [val_coeff, if_neg]
  have := main.1
  rw [Nat.mul_comm] at ht
  omega

/-- **C74 (collapse)**. Each entry of the result is `f_0 + X^d f_1 + X^(2 d) f_2 + ...`, where the polynomials `f_k` are in the
    columns with step 1 or `s` of `a`, truncated at degree `d`, whatever the output contains before. -/
theorem C74_collapse_nonconsecutive [DecidableEq F] (c : PMat (Sto F)) (a : PMat F[X]) (d s r : Nat) (hs : 0 < s) (hr : a.cols = r * s) :
    ∃ y, collapseNonconsecutive c a d s = .ok y ∧ y.rows = a.rows ∧ y.cols = s ∧ ∀ i j, i < a.rows → j < s →
      (∀ k ell, k < r → ell < d → (y.e (i, j)).val.coeff (k * d + ell) = (a.e (i, j + k * s)).coeff ell) ∧
      ∀ t, d * r ≤ t → (y.e (i, j)).val.coeff t = 0 := by
  unfold collapseNonconsecutive
  rw [if_neg (by omega)]
  have : a.cols / s = r := by rw [hr, Nat.mul_div_cancel _ hs]
  dsimp only
  rw [this, if_neg (by omega)]
  refine ⟨_, rfl, rfl, rfl, fun i j hi hj => ?_⟩
  dsimp only
  rw [loop2_spec _ _ _ (fun i j x y h => by rw [h]), if_pos ⟨hi, hj⟩]
  exact collapseEntry_spec d r _ _

theorem C74_collapse_consecutive [DecidableEq F] (c : PMat (Sto F)) (a : PMat F[X]) (d s r : Nat) (hs : 0 < s) (hr : a.cols = r * s) :
    ∃ y, collapseConsecutive c a d s = .ok y ∧ y.rows = a.rows ∧ y.cols = r ∧ ∀ i j, i < a.rows → j < r →
      (∀ k ell, k < s → ell < d → (y.e (i, j)).val.coeff (k * d + ell) = (a.e (i, j * s + k)).coeff ell) ∧
      ∀ t, d * s ≤ t → (y.e (i, j)).val.coeff t = 0 := by
  unfold collapseConsecutive
  rw [if_neg (by omega)]
  have : a.cols / s = r := by rw [hr, Nat.mul_div_cancel _ hs]
  dsimp only
  rw [this, if_neg (by omega)]
  refine ⟨_, rfl, rfl, rfl, fun i j hi hj => ?_⟩
  dsimp only
  rw [loop2_spec _ _ _ (fun i j x y h => by rw [h]), if_pos ⟨hi, hj⟩]
  exact collapseEntry_spec d s _ _

/-- **C74 (collapse)**. A number of columns which is not a multiple of `s` is reported as an error. -/
theorem C74_collapse_reject [DecidableEq F] (c : PMat (Sto F)) (a : PMat F[X]) (d s : Nat) (hs : 0 < s) (hr : ¬s ∣ a.cols) :
    collapseNonconsecutive c a d s = .error ∧ collapseConsecutive c a d s = .error := by
  have h : a.cols ≠ a.cols / s * s := fun h => hr ⟨a.cols / s, by rw [Nat.mul_comm]; exact h⟩
  unfold collapseNonconsecutive collapseConsecutive
  have h2 : ¬s = 0 := by omega
  dsimp only
  rw [if_neg h2, if_neg h2, if_pos h, if_pos h]
  exact ⟨rfl, rfl⟩

/-! ### Transposed middle products -/

/-- The contract of `middle_product`: it may fail if its first matrix is zero, but only then. -/
def MidOr (mid : PMat F[X] → PMat F[X] → Nat → Nat → Option (PMat F[X])) : Prop :=
  ∀ (a c : PMat F[X]) (dA dB : Nat), a.cols = c.rows → 0 < a.cols → deg a ≤ dA → deg a ≤ dB → deg c ≤ dA + dB →
    (∃ b, mid a c dA dB = some b ∧ IsMiddle a c dA dB b) ∨ (mid a c dA dB = none ∧ deg a < 0)

theorem mid_transposed {mid : PMat F[X] → PMat F[X] → Nat → Nat → Option (PMat F[X])} (hmid : MidOr mid) (B S : PMat F[X]) (d : Nat) (hd : 1 ≤ d)
    (hdim : S.cols = B.rows) (h0 : 0 < B.rows) (hB : ∀ i j, i < B.rows → j < B.cols → ∀ t, d ≤ t → (B.e (i, j)).coeff t = 0)
    (hS : ∀ i j, i < S.rows → j < S.cols → ∀ t, 2 * d - 1 ≤ t → (S.e (i, j)).coeff t = 0) :
    (∃ y, mid (transpose false ⟨0, 0, fun _ => 0⟩ B) (transpose false ⟨0, 0, fun _ => 0⟩ S) (d - 1) (d - 1) = some y ∧ y.rows = B.cols ∧ y.cols = S.rows ∧
      ∀ i j, i < S.rows → j < B.cols → ∀ k, (y.e (j, i)).coeff k = if k < d then (cmul B.rows S.e B.e (i, j)).coeff (d - 1 + k) else 0) ∨
    (mid (transpose false ⟨0, 0, fun _ => 0⟩ B) (transpose false ⟨0, 0, fun _ => 0⟩ S) (d - 1) (d - 1) = none ∧
      ∀ i j, i < B.rows → j < B.cols → B.e (i, j) = 0) := by
  obtain ⟨b1, b2, b3⟩ := C65_transpose false ⟨0, 0, fun _ => 0⟩ B
  obtain ⟨s1, s2, s3⟩ := C65_transpose false ⟨0, 0, fun _ => 0⟩ S
  generalize transpose false ⟨0, 0, fun _ => 0⟩ B = BT at *
  generalize transpose false ⟨0, 0, fun _ => 0⟩ S = ST at *
  have dB : deg BT < ((d : Nat) : Int) := (deg_lt_iff BT d).2 fun i j hi hj t ht => by
    rw [b3 i j (by omega) (by omega)]
    exact hB j i (by omega) (by omega) t ht
  have dS : deg ST < ((2 * d - 1 : Nat) : Int) := (deg_lt_iff ST _).2 fun i j hi hj t ht => by
    rw [s3 i j (by omega) (by omega)]
    exact hS j i (by omega) (by omega) t ht
  have e1 : ((d - 1 : Nat) : Int) = d - 1 := by omega
  rcases hmid BT ST (d - 1) (d - 1) (by omega) (by omega) (by omega) (by omega) (by omega) with ⟨y, ey, y1, y2, y3⟩ | ⟨ey, hz⟩
  · left
    refine ⟨y, ey, by omega, by omega, fun i j hi hj k => ?_⟩
    rw [y3 j i (by omega) (by omega) k]
    by_cases hk : k < d
    · rw [if_pos (by omega), if_pos hk]
      congr 1
      rw [b2]
      unfold cmul
      refine Finset.sum_congr rfl fun l hl => ?_
      have hl := Finset.mem_range.1 hl
      dsimp only
      rw [b3 j l (by omega) hl, s3 l i (by omega) hi, mid_trunc _ _ fun t ht => hB l j hl hj t (by omega), mul_comm]
    · rw [if_neg (by omega), if_neg hk]
  · right
    refine ⟨ey, fun i j hi hj => ?_⟩
    have := (deg_neg_iff BT).1 (by have := (deg_spec BT).1; omega) j i (by omega) (by omega)
    rwa [b3 j i hj hi] at this

/-! ### Lifting -/

/-- The context of the lifting: `A` is square of degree at most `d`, `h` is its inverse, `ma` and `mi` multiply by `A` and by
    the inverse modulo `X^d`. -/
structure Ctx (A invA : PMat F[X]) (h : Nat × Nat → PowerSeries F) (d : Nat) (ma mi : PMat F[X] → Res (PMat F[X])) : Prop where
  d1 : 1 ≤ d
  n0 : 0 < A.rows
  sq : A.rows = A.cols
  deg : ∀ i j, i < A.rows → j < A.rows → ∀ u, d < u → (A.e (i, j)).coeff u = 0
  inv : IsSeriesInv A h
  slice : IsSlice A.rows h 0 d invA
  ma : Multiplies A (d - 1) ma
  mi : Multiplies invA (d - 1) mi

variable {A invA : PMat F[X]} {h : Nat × Nat → PowerSeries F} {d : Nat} {ma mi : PMat F[X] → Res (PMat F[X])}

theorem Ctx.serdeg (K : Ctx A invA h d ma mi) : ∀ k l, k < A.rows → l < A.rows → ∀ u, d < u → PowerSeries.coeff u (ser A.e (k, l)) = 0 :=
  fun k l hk hl u hu => by rw [coeff_ser]; exact K.deg k l hk hl u hu

theorem Ctx.left (K : Ctx A invA h d ma mi) : ∀ i j, i < A.rows → j < A.rows → cmul A.rows h (ser A.e) (i, j) = if i = j then 1 else 0 := K.inv.left

theorem Ctx.right (K : Ctx A invA h d ma mi) : ∀ i j, i < A.rows → j < A.rows → cmul A.rows (ser A.e) h (i, j) = if i = j then 1 else 0 := K.inv.right

theorem Ctx.unit_high (K : Ctx A invA h d ma mi) (j : Nat) (hj : j < A.rows) :
    ∀ k, k < A.rows → ∀ u, d ≤ u → PowerSeries.coeff u (cmul A.rows (ser A.e) h (k, j)) = 0 := by
  intro k hk u hu
  have := K.d1
  rw [K.right k j hk hj]
  by_cases h : k = j
  · rw [if_pos h, PowerSeries.coeff_one, if_neg (by omega)]
  · rw [if_neg h, map_zero]

theorem deg_of_coeff (x : PMat F[X]) (d : Nat) (hd : 1 ≤ d) (hx : ∀ i j, i < x.rows → j < x.cols → ∀ t, d ≤ t → (x.e (i, j)).coeff t = 0) :
    Utils.deg x ≤ (d - 1 : Nat) := by
  have := (deg_lt_iff x d).2 hx
  omega

/-- Coefficients of a residue, truncated. -/
theorem Ctx.residue (K : Ctx A invA h d ma mi) {g : Nat × Nat → PowerSeries F} {j J : Nat}
    (hg : ∀ k, k < A.rows → ∀ u, d ≤ u → PowerSeries.coeff u (cmul A.rows (ser A.e) g (k, j)) = 0) {N : Nat → F[X]}
    (hN : ∀ l, l < A.rows → ∀ n, n < d → (N l).coeff n = PowerSeries.coeff (n + J) (g (l, j))) {r : Nat → F[X]}
    (hr : ∀ i, i < A.rows → ∀ n, (r i).coeff n = if n < d then (∑ l ∈ Finset.range A.rows, A.e (i, l) * N l).coeff n else 0) (i : Nat) (hi : i < A.rows) :
    (r i : PowerSeries F) = res A.rows (ser A.e) g J (i, j) := by
  ext n
  rw [coeff_coe, hr i hi n]
  by_cases hn : n < d
  · rw [if_pos hn, ← low_residue (N := fun x => (N x.1 : PowerSeries F)) (fun l hl n hn => by rw [coeff_coe]; exact hN l hl n hn) n hn]
    exact (coeff_ser_cmul A.rows A.e (fun x => N x.1) (i, j) n).symm
  · rw [if_neg hn, res_high (fun l hl => K.serdeg i l hi hl) (hg i hi) J n (by omega)]

set_option maxHeartbeats 1000000 in
/-- The end of the lifting, from the `d` first coefficients. -/
theorem lift_tail (K : Ctx A invA h d ma mi) (next : PMat F[X]) (N : Nat) (n1 : next.rows = A.rows) (n2 : next.cols = A.rows)
    (hnext : ∀ i j, i < A.rows → j < A.rows → ∀ n, (next.e (i, j)).coeff n = if n < d then PowerSeries.coeff (n + N) (h (i, j)) else 0) :
    ∃ y, (andThen (ofRes (ma next)) fun m =>
      let m := rightShift true m m d
      let m := trunc true m m (d - 1)
      andThen (ofRes (mi m)) fun tmp =>
      let tmp := trunc true tmp tmp (d - 1)
      let tmp := leftShift true tmp tmp d
      ofOpt (zipWith (· - ·) false false ⟨0, 0, fun _ => 0⟩ next tmp)) = .ok y ∧ IsSlice A.rows h N (2 * d - 1) y := by
  have hd := K.d1
  have hsq := K.sq
  have hi1 := K.slice.rows
  have hi2 := K.slice.cols
  have nd := deg_of_coeff next d hd fun i j hi hj t ht => by rw [hnext i j (by omega) (by omega), if_neg (by omega)]
  obtain ⟨m, em, m1, m2, m3⟩ := K.ma next (by omega) nd
  clear nd
  rw [em]
  dsimp only [ofRes, andThen]
  obtain ⟨-, p1, p2, p3⟩ := C65_shift true m m d
  generalize rightShift true m m d = m' at *
  obtain ⟨q1, q2, q3⟩ := C65_trunc true m' m' (d - 1)
  generalize trunc true m' m' (d - 1) = m'' at *
  have hm : ∀ i j, i < A.rows → j < A.rows → ∀ t, (m''.e (i, j)).coeff t = if t < d - 1 then
      -PowerSeries.coeff t (res A.rows (ser A.e) h (N + d) (i, j)) else 0 := by
    intro i j hi hj t
    rw [q3 i j (by omega) (by omega)]
    by_cases ht : t < d - 1
    · rw [if_pos ht, if_pos ht, p3 i j (by omega) (by omega), if_pos (by omega), show ((t : Int) + (d : Int)).toNat = d + t by omega, m3 i j hi (by omega),
        ← upper_residue (N := ser next.e) (fun l hl => K.serdeg i l hi hl) (K.unit_high j hj i hi) (fun l hl n => by rw [coeff_ser, hnext l j hl hj]) t, coeff_ser_cmul, ← hsq]
      rfl
    · rw [if_neg ht, if_neg ht]
  have md := deg_of_coeff m'' d hd fun i j hi hj t ht => by rw [hm i j (by omega) (by omega), if_neg (by omega)]
  obtain ⟨w, ew, w1, w2, w3⟩ := K.mi m'' (by omega) md
  clear md
  rw [ew]
  dsimp only
  obtain ⟨r1, r2, r3⟩ := C65_trunc true w w (d - 1)
  generalize trunc true w w (d - 1) = w' at *
  obtain ⟨⟨v1, v2, v3⟩, -⟩ := C65_shift true w' w' d
  generalize leftShift true w' w' d = v at *
  obtain ⟨-, z2, -, z4⟩ := C66_add_sub false false ⟨0, 0, fun _ => 0⟩ next v (by simp)
  obtain ⟨x, ex⟩ : ∃ x, zipWith (· - ·) false false ⟨0, 0, fun _ => 0⟩ next v = some x := by
    rcases hz : zipWith (· - ·) false false ⟨0, 0, fun _ => 0⟩ next v with _ | x
    · exact absurd ⟨by omega, by omega⟩ (z2.1 hz)
    · exact ⟨x, rfl⟩
  obtain ⟨x1, x2, x3⟩ := z4 x ex
  clear z2 z4
  rw [ex]
  refine ⟨x, rfl, by omega, by omega, fun i j hi hj t => ?_⟩
  rw [x3 i j (by omega) (by omega), coeff_sub, hnext i j hi hj, v3 i j (by omega) (by omega)]
  by_cases ht : t < d
  · rw [if_pos ht, if_neg (by omega), if_pos (by omega), sub_zero, Nat.add_comm]
  · rw [if_neg ht, if_pos (by omega), show ((t : Int) - (d : Int)).toNat = t - d by omega, r3 i j (by omega) (by omega), zero_sub]
    by_cases ht2 : t < 2 * d - 1
    · rw [if_pos (by omega), if_pos ht2, w3 i j (by omega) (by omega), show invA.cols = A.rows by omega]
      have := inv_residue (s := A.rows) (K := N + d) (c := d - 1) (a := ser A.e) (h := h) (g := h) (I := ser invA.e) (m := ser m''.e) (i := i) (j := j) hi K.left (-1)
        (fun l hl t ht => by rw [coeff_ser, K.slice.coeff i l hi hl, if_pos (by omega), Nat.zero_add])
        (fun l hl t ht => by rw [coeff_ser, hm l j hl hj, if_pos ht, neg_one_mul]) (t - d) (by omega)
      rw [coeff_ser_cmul] at this
      rw [show ∑ k ∈ Finset.range A.rows, invA.e (i, k) * m''.e (k, j) = cmul A.rows invA.e m''.e (i, j) from rfl, this, neg_one_mul, neg_neg]
      rw [show t - d + (N + d) = N + t by omega]
    · rw [if_neg (by omega), if_neg ht2, neg_zero]

/-- **C74 (lifting)**. If `src` is made of the coefficients `o`, ..., `o + 2 d - 2` of the inverse of `A`, then
    `high_order_lift_inverse_odd` gives the coefficients `2 o + d - 1`, ..., `2 o + 3 d - 3`; or it fails, and all
    the coefficients of the inverse from `o` on are zero.  Full statement: it does not fail. -/
theorem C74_lift_partial {mid : PMat F[X] → PMat F[X] → Nat → Nat → Option (PMat F[X])} (hmid : MidOr mid) (K : Ctx A invA h d ma mi)
    (src : PMat F[X]) (o : Nat) (hsrc : IsSlice A.rows h o (2 * d - 1) src) :
    (∃ y, liftOdd mid ma mi src d = .ok y ∧ IsSlice A.rows h (2 * o + d - 1) (2 * d - 1) y) ∨
    (liftOdd mid ma mi src d = .ub ∧ ∀ i j, i < A.rows → j < A.rows → ∀ t, o ≤ t → PowerSeries.coeff t (h (i, j)) = 0) := by
  have hd := K.d1
  have hn := K.n0
  have hsq := K.sq
  have hs1 := hsrc.rows
  have hs2 := hsrc.cols
  have hi1 := K.slice.rows
  have hi2 := K.slice.cols
  unfold liftOdd
  dsimp only
  obtain ⟨t1, t2, t3⟩ := C65_trunc false ⟨0, 0, fun _ => 0⟩ src d
  have td := deg_of_coeff (trunc false ⟨0, 0, fun _ => 0⟩ src d) d hd fun i j hi hj t ht => by rw [t3 i j (by omega) (by omega), if_neg (by omega)]
  generalize trunc false ⟨0, 0, fun _ => 0⟩ src d = src1 at *
  obtain ⟨c, ec, c1, c2, c3⟩ := K.ma src1 (by omega) td
  clear td
  rw [ec]
  dsimp only [ofRes, andThen]
  obtain ⟨b1, b2, b3⟩ := C65_trunc true c c d
  generalize trunc true c c d = b at *
  have hb : ∀ i j, i < A.rows → j < A.rows → ser b.e (i, j) = res A.rows (ser A.e) h o (i, j) := by
    intro i j hi hj
    refine K.residue (g := h) (N := fun l => src1.e (l, j)) (r := fun i => b.e (i, j)) (K.unit_high j hj) (fun l hl n hn => ?_) (fun i hi n => ?_) i hi
    · rw [t3 l j (by omega) (by omega), if_pos hn, hsrc.coeff l j hl hj, if_pos (by omega), Nat.add_comm]
    · rw [b3 i j (by omega) (by omega), c3 i j hi (by omega), hsq]
  have hbz : ∀ i j, i < A.rows → j < A.rows → ∀ t, d ≤ t → (b.e (i, j)).coeff t = 0 := fun i j hi hj t ht => by
    rw [b3 i j (by omega) (by omega), if_neg (by omega)]
  rcases mid_transposed hmid b src d hd (by omega) (by omega) (fun i j hi hj => hbz i j (by omega) (by omega))
    (fun i j hi hj t ht => by rw [hsrc.coeff i j (by omega) (by omega), if_neg (by omega)]) with ⟨y, ey, y1, y2, y3⟩ | ⟨ey, hz⟩
  swap
  · right
    rw [ey]
    refine ⟨rfl, fun i j hi hj t ht => ?_⟩
    have e1 : cmul A.rows h (res A.rows (ser A.e) h o) (i, j) = sh o (h (i, j)) := cmul_left_inv K.left (fun x => sh o (h x)) i j hi
    have e2 : cmul A.rows h (res A.rows (ser A.e) h o) (i, j) = 0 := Finset.sum_eq_zero fun l hl => by
      have hl := Finset.mem_range.1 hl
      dsimp only
      rw [← hb l j hl hj]
      unfold ser
      rw [hz l j (by omega) (by omega), coe_zero, mul_zero]
    have e3 := congrArg (PowerSeries.coeff (t - o)) (e1.symm.trans e2)
    rwa [coeff_sh, map_zero, Nat.sub_add_cancel ht] at e3
  left
  rw [ey]
  dsimp only [ofMid]
  obtain ⟨n1, n2, n3⟩ := C65_transpose false ⟨0, 0, fun _ => 0⟩ y
  generalize transpose false ⟨0, 0, fun _ => 0⟩ y = next at *
  have hnext : ∀ i j, i < A.rows → j < A.rows → ∀ n, (next.e (i, j)).coeff n = if n < d then PowerSeries.coeff (n + (2 * o + d - 1)) (h (i, j)) else 0 := by
    intro i j hi hj n
    rw [n3 i j (by omega) (by omega), y3 i j (by omega) (by omega)]
    by_cases hnd : n < d
    · rw [if_pos hnd, if_pos hnd, show b.rows = A.rows by omega, ← coeff_ser_cmul,
        next_coeff (o := o) (J := o) (a := ser A.e) (h := h) (g := h) hd hi K.left K.serdeg (K.unit_high j hj) (fun l hl t ht => ?_) (fun l hl => hb l j hl hj) n hnd]
      · rw [show o + (d - 1) + n + o = n + (2 * o + d - 1) by omega]
      · rw [coeff_ser, hsrc.coeff i l hi hl, if_pos ht]
    · rw [if_neg hnd, if_neg hnd]
  exact lift_tail K next (2 * o + d - 1) (by omega) (by omega) hnext

/-! ### The loop -/

/-- The columns of `sol` are the residues of order `0, d, 2 d, ...`, in `c` blocks of `w` columns. -/
structure LoopInv (A : PMat F[X]) (g : Nat × Nat → PowerSeries F) (d w c : Nat) (sol : PMat F[X]) : Prop where
  rows : sol.rows = A.rows
  cols : sol.cols = c * w
  res : ∀ i J, i < A.rows → J < c * w → ser sol.e (i, J) = res A.rows (ser A.e) g (J / w * d) (i, J % w)

/-- The first middle product fails, or the number of blocks is doubled. -/
theorem loop_step {mid : PMat F[X] → PMat F[X] → Nat → Nat → Option (PMat F[X])} (hmid : MidOr mid) (K : Ctx A invA h d ma mi)
    {g : Nat × Nat → PowerSeries F} {w : Nat} (hw : 0 < w)
    (hg : ∀ k j, k < A.rows → j < w → ∀ u, d ≤ u → PowerSeries.coeff u (cmul A.rows (ser A.e) g (k, j)) = 0)
    {c : Nat} (hc : 1 ≤ c) {sol slice : PMat F[X]} (hI : LoopInv A g d w c sol) (hsl : IsSlice A.rows h ((c - 1) * d + 1) (2 * d - 1) slice)
    (nbcols fuel : Nat) (hlt : c * w < nbcols) :
    (liftLoop mid ma mi d nbcols (fuel + 1) sol slice = .ub ∧ (∀ i J, i < A.rows → J < c * w → sol.e (i, J) = 0)) ∨
    ∃ sol', LoopInv A g d w (2 * c) sol' ∧ liftLoop mid ma mi d nbcols (fuel + 1) sol slice =
      if 2 * c * w < nbcols then andThen (liftOdd mid ma mi slice d) fun slice => liftLoop mid ma mi d nbcols fuel sol' slice
      else liftLoop mid ma mi d nbcols fuel sol' slice := by
  have hd := K.d1
  have hn := K.n0
  have hsq := K.sq
  have hs1 := hI.rows
  have hs2 := hI.cols
  have hl1 := hsl.rows
  have hl2 := hsl.cols
  have hcd : (c - 1) * d + 1 + (d - 1) = c * d := by
    obtain ⟨e, rfl⟩ : ∃ e, c = e + 1 := ⟨c - 1, by omega⟩
    rw [Nat.add_mul, Nat.add_sub_cancel]
    omega
  have hsolz : ∀ i J, i < A.rows → J < c * w → ∀ t, d ≤ t → (sol.e (i, J)).coeff t = 0 := by
    intro i J hi hJ t ht
    rw [← coeff_ser, hI.res i J hi hJ]
    exact res_high (fun l hl => K.serdeg i l hi hl) (hg i _ hi (Nat.mod_lt _ hw)) _ t ht
  rw [liftLoop]
  rw [if_pos (by omega)]
  dsimp only
  rcases mid_transposed hmid sol slice d hd (by omega) (by omega) (fun i j hi hj => hsolz i j (by omega) (by omega))
    (fun i j hi hj t ht => by rw [hsl.coeff i j (by omega) (by omega), if_neg (by omega)]) with ⟨y, ey, y1, y2, y3⟩ | ⟨ey, hz⟩
  swap
  · left
    rw [ey]
    exact ⟨rfl, fun i J hi hJ => hz i J (by omega) (by omega)⟩
  right
  rw [ey]
  dsimp only [ofMid, andThen]
  obtain ⟨n1, n2, n3⟩ := C65_transpose true y y
  generalize transpose true y y = next at *
  have hnext : ∀ i J, i < A.rows → J < c * w → ∀ n, (next.e (i, J)).coeff n =
      if n < d then PowerSeries.coeff (n + (c + J / w) * d) (g (i, J % w)) else 0 := by
    intro i J hi hJ n
    rw [n3 i J (by omega) (by omega), y3 i J (by omega) (by omega)]
    by_cases hnd : n < d
    · rw [if_pos hnd, if_pos hnd, hs1, ← coeff_ser_cmul]
      have := next_coeff (s := A.rows) (d := d) (o := (c - 1) * d + 1) (J := J / w * d) (a := ser A.e) (h := h) (g := g) (S := ser slice.e)
        (r := fun x => ser sol.e (x.1, J)) (i := i) (j := J % w) hd hi K.left K.serdeg (fun k hk => hg k _ hk (Nat.mod_lt _ hw))
        (fun l hl t ht => by rw [coeff_ser, hsl.coeff i l hi hl, if_pos ht]) (fun l hl => hI.res l J hl hJ) n hnd
      rw [show (c - 1) * d + 1 + (d - 1) + n + J / w * d = n + (c + J / w) * d by rw [hcd, Nat.add_mul]; omega] at this
      exact this
    · rw [if_neg hnd, if_neg hnd]
  have nd := deg_of_coeff next d hd fun i j hi hj t ht => by rw [hnext i j (by omega) (by omega), if_neg (by omega)]
  obtain ⟨m, em, m1, m2, m3⟩ := K.ma next (by omega) nd
  clear nd
  rw [em]
  dsimp only [ofRes]
  obtain ⟨t1, t2, t3⟩ := C65_trunc false ⟨0, 0, fun _ => 0⟩ m d
  generalize trunc false ⟨0, 0, fun _ => 0⟩ m d = m' at *
  obtain ⟨j1, j2⟩ := C74_join sol m'
  obtain ⟨x, ex⟩ : ∃ x, hjoin sol m' = some x := by
    rcases hz : hjoin sol m' with _ | x
    · exact absurd (show sol.rows = m'.rows by omega) (j1.1 hz)
    · exact ⟨x, rfl⟩
  obtain ⟨x1, x2, x3⟩ := j2 x ex
  clear j1 j2
  rw [ex]
  dsimp only [ofOpt]
  have hcols : x.cols = 2 * c * w := by
    rw [Nat.mul_assoc]
    omega
  refine ⟨x, ⟨by omega, hcols, fun i J hi hJ => ?_⟩, ?_⟩
  · by_cases h1 : J < c * w
    · have : ser x.e (i, J) = ser sol.e (i, J) := by
        unfold ser
        rw [(x3 i (by omega)).1 J (by omega)]
      rw [this]
      exact hI.res i J hi h1
    · obtain ⟨J', rfl⟩ : ∃ J', J = c * w + J' := ⟨J - c * w, by omega⟩
      have h2 : J' < c * w := by
        rw [Nat.mul_assoc] at hJ
        omega
      have : ser x.e (i, c * w + J') = (m'.e (i, J') : PowerSeries F) := by
        unfold ser
        rw [← hs2, (x3 i (by omega)).2 J' (by omega)]
      rw [this, Nat.mul_comm c w, Nat.mul_add_div hw, Nat.mul_add_mod]
      refine K.residue (g := g) (N := fun l => next.e (l, J')) (r := fun i => m'.e (i, J')) (fun k hk => hg k _ hk (Nat.mod_lt _ hw)) (fun l hl n hn => ?_) (fun i hi n => ?_) i hi
      · rw [hnext l J' hl h2, if_pos hn]
      · rw [t3 i J' (by omega) (by omega), m3 i J' hi (by omega), hsq]
  · rw [hcols]

/-- The inverse of `A` is a polynomial matrix of degree less than `o`. -/
def Vanish (s : Nat) (h : Nat × Nat → PowerSeries F) (o : Nat) : Prop := ∀ i j, i < s → j < s → ∀ t, o ≤ t → PowerSeries.coeff t (h (i, j)) = 0

theorem offset_double (c d : Nat) (hc : 1 ≤ c) (hd : 1 ≤ d) : 2 * ((c - 1) * d + 1) + d - 1 = (2 * c - 1) * d + 1 := by
  obtain ⟨e, rfl⟩ : ∃ e, c = e + 1 := ⟨c - 1, by omega⟩
  rw [Nat.add_sub_cancel, show 2 * (e + 1) - 1 = 2 * e + 1 by omega, Nat.add_mul, Nat.mul_assoc]
  omega

theorem liftLoop_spec {mid : PMat F[X] → PMat F[X] → Nat → Nat → Option (PMat F[X])} (hmid : MidOr mid) (K : Ctx A invA h d ma mi)
    {g : Nat × Nat → PowerSeries F} {w : Nat} (hw : 0 < w)
    (hg : ∀ k j, k < A.rows → j < w → ∀ u, d ≤ u → PowerSeries.coeff u (cmul A.rows (ser A.e) g (k, j)) = 0) (nbcols : Nat) :
    ∀ (fuel c : Nat) (sol slice : PMat F[X]), 1 ≤ c → nbcols ≤ c * w + fuel → LoopInv A g d w c sol →
      (c * w < nbcols → IsSlice A.rows h ((c - 1) * d + 1) (2 * d - 1) slice) →
      (∃ sol' c', liftLoop mid ma mi d nbcols fuel sol slice = .ok sol' ∧ LoopInv A g d w c' sol' ∧ nbcols ≤ c' * w) ∨
      (liftLoop mid ma mi d nbcols fuel sol slice = .ub ∧
        ((∀ i j, i < A.rows → j < w → res A.rows (ser A.e) g 0 (i, j) = 0) ∨ ∃ o, Vanish A.rows h o)) := by
  intro fuel
  induction fuel with
  | zero =>
    intro c sol slice hc hf hI _
    left
    have := hI.cols
    refine ⟨sol, c, ?_, hI, by omega⟩
    rw [liftLoop, if_neg (by omega)]
  | succ fuel ih =>
    intro c sol slice hc hf hI hsl
    by_cases hlt : c * w < nbcols
    · have hcw : 1 * 1 ≤ c * w := Nat.mul_le_mul hc hw
      have h2c : 2 * c * w = c * w + c * w := by rw [Nat.mul_assoc]; omega
      rcases loop_step hmid K hw hg hc hI (hsl hlt) nbcols fuel hlt with ⟨e, hz⟩ | ⟨sol', hI', e⟩
      · right
        refine ⟨e, Or.inl fun i j hi hj => ?_⟩
        have hjw : 1 * w ≤ c * w := Nat.mul_le_mul_right w hc
        have h1 := hI.res i j hi (by omega)
        rw [Nat.div_eq_of_lt hj, Nat.mod_eq_of_lt hj, Nat.zero_mul] at h1
        rw [← h1]
        unfold ser
        rw [hz i j hi (by omega), coe_zero]
      · rw [e]
        by_cases h2 : 2 * c * w < nbcols
        · rw [if_pos h2]
          rcases C74_lift_partial hmid K slice _ (hsl hlt) with ⟨y, ey, hy⟩ | ⟨ey, hv⟩
          · rw [ey]
            dsimp only [andThen]
            rw [offset_double c d hc K.d1] at hy
            exact ih (2 * c) sol' y (by omega) (by omega) hI' fun _ => hy
          · right
            rw [ey]
            exact ⟨rfl, Or.inr ⟨_, hv⟩⟩
        · rw [if_neg h2]
          exact ih (2 * c) sol' slice (by omega) (by omega) hI' fun h => absurd h h2
    · left
      have := hI.cols
      refine ⟨sol, c, ?_, hI, by omega⟩
      rw [liftLoop, if_neg (by omega)]

/-! ### Main theorem -/

/-- What is computed before the loop. -/
theorem solveLift_start [DecidableEq F] {C : Calls F} (hC : C.Ok) (cinv : Nat → (Nat × Nat → F) → Option (Nat × Nat → F)) (u : PMat (Sto F))
    (A b : PMat F[X]) (prec d : Nat) (hn : 0 < A.rows) (hsq : A.rows = A.cols) (hc : ConstInv A) (hd : deg A = d) (hd1 : 1 ≤ d) (hbd : deg b < d) :
    ∃ (h : Nat × Nat → PowerSeries F) (invA slice : PMat F[X]) (ma mi : PMat F[X] → Res (PMat F[X])), Ctx A invA h d ma mi ∧ IsSlice A.rows h 1 (2 * d - 1) slice ∧
      solveLift C cinv u A b prec = andThen (liftLoop C.mid ma mi d ((1 + ((prec : Int) - 1).tdiv d) * b.cols).toNat ((1 + ((prec : Int) - 1).tdiv d) * b.cols).toNat b slice)
        fun sol => andThen (ofRes (mi sol)) fun buf1 => andThen (collapseNonconsecutive u (trunc true buf1 buf1 d) d b.cols) fun u =>
          .ok (trunc true (vals u) (vals u) prec) := by
  obtain ⟨h, hh⟩ := seriesInv_exists hc
  unfold solveLift
  dsimp only
  rw [if_neg (by omega), if_neg (by omega), hd, Int.toNat_natCast]
  obtain ⟨x, ex, hx⟩ := hC.inv A (2 * d) hsq hn hc (by omega)
  have hs := slice_of_inv hx hh
  have r1 := hs.rows
  have r2 := hs.cols
  rw [ex]
  dsimp only [andThen]
  obtain ⟨-, s1, s2, s3⟩ := C65_shift false ⟨0, 0, fun _ => 0⟩ x 1
  obtain ⟨t1, t2, t3⟩ := C65_trunc true x x d
  have hx0 : 0 ≤ deg (trunc true x x d) := by
    refine inv_deg_nonneg (A := A) (m := d) ⟨by omega, by omega, fun i j hi hj k hk => ?_, fun i j hi hj k hk => ?_, fun i j hi hj k hk => ?_⟩ hd1 hn
    · rw [t3 i j (by omega) (by omega), if_neg (by omega)]
    · rw [← hx.left i j hi hj k (by omega)]
      refine (dvd_iff _ _ d).1 (cmul_dvd (n := A.rows) (a := (trunc true x x d).e) (b := A.e) (fun l hl => ?_) fun l _ => by rw [sub_self]; exact dvd_zero _) k hk
      rw [dvd_iff]
      intro t ht
      rw [t3 i l (by omega) (by omega), if_pos ht]
    · rw [← hx.right i j hi hj k (by omega)]
      refine (dvd_iff _ _ d).1 (cmul_dvd (n := A.rows) (a := A.e) (b := (trunc true x x d).e) (fun l _ => by rw [sub_self]; exact dvd_zero _) fun l hl => ?_) k hk
      rw [dvd_iff]
      intro t ht
      rw [t3 l j (by omega) (by omega), if_pos ht]
  generalize rightShift false ⟨0, 0, fun _ => 0⟩ x 1 = slice at *
  generalize trunc true x x d = invA at *
  obtain ⟨ma, ema, hma⟩ := hC.lm A (d - 1) (by omega) (by omega)
  obtain ⟨mi, emi, hmi⟩ := hC.lm invA (d - 1) (by omega) hx0
  rw [ema]
  dsimp only [ofRes]
  rw [emi]
  refine ⟨h, invA, slice, ma, mi, ⟨hd1, hn, hsq, fun i j hi hj k hk => ?_, hh, ⟨by omega, by omega, fun i j hi hj t => ?_⟩, hma, hmi⟩,
    ⟨by omega, by omega, fun i j hi hj t => ?_⟩, rfl⟩
  · exact (deg_lt_iff A (d + 1)).1 (by omega) i j hi (by omega) k (by omega)
  · rw [t3 i j (by omega) (by omega), hs.coeff i j hi hj]
    by_cases ht : t < d
    · rw [if_pos ht, if_pos ht, if_pos (by omega)]
    · rw [if_neg ht, if_neg ht]
  · rw [s3 i j (by omega) (by omega), if_pos (by omega), hs.coeff i j hi hj, show ((t : Int) + 1).toNat = t + 1 by omega]
    by_cases ht : t < 2 * d - 1
    · rw [if_pos ht, if_pos (by omega), Nat.zero_add, Nat.add_comm]
    · rw [if_neg ht, if_neg (by omega)]

/-- `nbcols` blocks of `d` coefficients are enough. -/
theorem prec_le {prec d w c : Nat} (hw : 0 < w) (hd : 1 ≤ d) (h : ((1 + ((prec : Int) - 1).tdiv d) * w).toNat ≤ c * w) : prec ≤ c * d := by
  rcases Nat.eq_zero_or_pos prec with rfl | hp
  · exact Nat.zero_le _
  · obtain ⟨q, rfl⟩ : ∃ q, prec = q + 1 := ⟨prec - 1, by omega⟩
    have e1 : (((q + 1 : Nat) : Int) - 1).tdiv d = ((q / d : Nat) : Int) := by
      rw [show ((q + 1 : Nat) : Int) - 1 = (q : Int) by omega]
      rfl
    rw [e1, show ((1 + ((q / d : Nat) : Int)) * w) = (((1 + q / d) * w : Nat) : Int) by push_cast; rfl, Int.toNat_natCast] at h
    have h2 : 1 + q / d ≤ c := Nat.le_of_mul_le_mul_right h hw
    have h3 := Nat.div_add_mod q d
    have h4 := Nat.mod_lt q hd
    have h5 : (1 + q / d) * d ≤ c * d := Nat.mul_le_mul_right d h2
    rw [Nat.add_mul, Nat.one_mul, Nat.mul_comm (q / d)] at h5
    omega

theorem sh_zero (f : PowerSeries F) : sh 0 f = f := by
  ext n
  rw [coeff_sh, Nat.add_zero]

/-- The series solution. -/
noncomputable def serSol (A b : PMat F[X]) (h : Nat × Nat → PowerSeries F) : Nat × Nat → PowerSeries F := cmul A.rows h (ser b.e)

theorem Ctx.sol (K : Ctx A invA h d ma mi) (b : PMat F[X]) (i j : Nat) (hi : i < A.rows) : cmul A.rows (ser A.e) (serSol A b h) (i, j) = ser b.e (i, j) :=
  cmul_left_inv K.right (ser b.e) i j hi

theorem Ctx.sol_res (K : Ctx A invA h d ma mi) (b : PMat F[X]) (i j : Nat) (hi : i < A.rows) : res A.rows (ser A.e) (serSol A b h) 0 (i, j) = ser b.e (i, j) := by
  unfold res
  simp only [sh_zero]
  exact K.sol b i j hi

theorem Ctx.start (K : Ctx A invA h d ma mi) (b : PMat F[X]) (hb : b.rows = A.rows) : LoopInv A (serSol A b h) d b.cols 1 b := by
  refine ⟨hb, (Nat.one_mul _).symm, fun i J hi hJ => ?_⟩
  rw [Nat.one_mul] at hJ
  rw [Nat.div_eq_of_lt hJ, Nat.mod_eq_of_lt hJ, Nat.zero_mul, K.sol_res b i J hi]

theorem Ctx.sol_high (K : Ctx A invA h d ma mi) (b : PMat F[X]) (hb : b.rows = A.rows) (hbd : Utils.deg b < d) : ∀ k j, k < A.rows → j < b.cols → ∀ u, d ≤ u →
    PowerSeries.coeff u (cmul A.rows (ser A.e) (serSol A b h) (k, j)) = 0 := by
  intro k j hk hj u hu
  rw [K.sol b k j hk, coeff_ser]
  exact (deg_lt_iff b d).1 hbd k j (by omega) hj u hu

/-- After the loop: the solution. -/
theorem finish [DecidableEq F] (K : Ctx A invA h d ma mi) (u : PMat (Sto F)) (b : PMat F[X]) (hb : b.rows = A.rows) (hw : 0 < b.cols) (hbd : Utils.deg b < d)
    {c : Nat} {sol : PMat F[X]} (hI : LoopInv A (serSol A b h) d b.cols c sol) (prec : Nat) (hp : prec ≤ c * d) :
    ∃ y, (andThen (ofRes (mi sol)) fun buf1 => andThen (collapseNonconsecutive u (trunc true buf1 buf1 d) d b.cols) fun u =>
          .ok (trunc true (vals u) (vals u) prec)) = .ok y ∧ IsSol A b prec y := by
  have hd := K.d1
  have hsq := K.sq
  have hi1 := K.slice.rows
  have hi2 := K.slice.cols
  have hs1 := hI.rows
  have hs2 := hI.cols
  have sd := deg_of_coeff sol d hd fun i J hi hJ t ht => by
    rw [← coeff_ser, hI.res i J (by omega) (by omega)]
    exact res_high (fun l hl => K.serdeg i l (by omega) hl) (K.sol_high b hb hbd i _ (by omega) (Nat.mod_lt _ hw)) _ t ht
  obtain ⟨v, ev, v1, v2, v3⟩ := K.mi sol (by omega) sd
  rw [ev]
  dsimp only [ofRes, andThen]
  obtain ⟨t1, t2, t3⟩ := C65_trunc true v v d
  generalize trunc true v v d = v' at *
  obtain ⟨y, ey, y1, y2, y3⟩ := C74_collapse_nonconsecutive u v' d b.cols c hw (by omega)
  rw [ey]
  obtain ⟨z1, z2, z3⟩ := C65_trunc true (vals y) (vals y) prec
  have z1 : (trunc true (vals y) (vals y) prec).rows = A.rows := z1.trans (by show y.rows = _; omega)
  have z2 : (trunc true (vals y) (vals y) prec).cols = b.cols := z2.trans (by show y.cols = _; omega)
  have hy : ∀ i j, i < A.rows → j < b.cols → ∀ k, k < prec → ((trunc true (vals y) (vals y) prec).e (i, j)).coeff k = PowerSeries.coeff k (serSol A b h (i, j)) := by
    intro i j hi hj k hk
    rw [z3 i j (by show i < y.rows; omega) (by show j < y.cols; omega), if_pos hk]
    have hkd : k / d < c := (Nat.div_lt_iff_lt_mul hd).2 (by omega)
    have hdm := Nat.div_add_mod k d
    have hml := Nat.mod_lt k hd
    show ((y.e (i, j)).val).coeff k = _
    have h1 := (y3 i j (by omega) hj).1 (k / d) (k % d) hkd hml
    rw [show k / d * d + k % d = k by rw [Nat.mul_comm]; exact hdm] at h1
    have hJ : j + k / d * b.cols < c * b.cols := by
      have := block_lt hkd hj
      omega
    rw [h1, t3 i _ (by omega) (by omega), if_pos hml, v3 i _ (by omega) (by omega), hi2]
    have := inv_residue (s := A.rows) (K := k / d * d) (c := d) (a := ser A.e) (h := h) (g := serSol A b h) (I := ser invA.e)
      (m := fun x => ser sol.e (x.1, j + k / d * b.cols)) (i := i) (j := j) hi K.left 1
      (fun l hl t ht => by rw [coeff_ser, K.slice.coeff i l hi hl, if_pos (by omega), Nat.zero_add])
      (fun l hl t ht => by
        dsimp only
        rw [hI.res l _ hl hJ, Nat.add_mul_div_right _ _ hw, Nat.add_mul_mod_self_right, Nat.div_eq_of_lt hj, Nat.mod_eq_of_lt hj, Nat.zero_add, one_mul]) (k % d) hml
    rw [one_mul, show k % d + k / d * d = k by rw [Nat.mul_comm]; omega] at this
    rw [← this]
    exact (coeff_ser_cmul A.rows invA.e sol.e (i, j + k / d * b.cols) (k % d)).symm
  refine ⟨_, rfl, by omega, z2, fun i j hi hj k hk => ?_, fun i j hi hj k hk => ?_⟩
  · rw [z3 i j (by show i < y.rows; omega) (by show j < y.cols; omega), if_neg (by omega)]
  · rw [← hsq]
    have h1 := coeff_ser_cmul A.rows A.e (trunc true (vals y) (vals y) prec).e (i, j) k
    refine Eq.trans h1.symm ?_
    rw [cmul_coeff_congr (f' := ser A.e) (g' := serSol A b h) (fun _ _ _ _ => rfl) fun l hl t ht => by rw [coeff_ser, hy l j hl hj t (by omega)], K.sol b i j hi, coeff_ser]

/-- **C74**. For a square matrix `A` such that `A(0)` is invertible and any `b` of smaller degree with at least one column,
    `solve_series_high_order_lifting` gives the solution of `A u = b` modulo `X^prec`, or it fails, and then `b` is zero or the
    inverse of `A` is a polynomial matrix.  Full statement: it does not fail. -/
theorem C74_solve_partial [DecidableEq F] {C : Calls F} (hC : C.Ok) {cinv : Nat → (Nat × Nat → F) → Option (Nat × Nat → F)} (hcinv : MatEval.InvOk cinv) (u : PMat (Sto F))
    (A b : PMat F[X]) (prec : Nat) (hn : 0 < A.rows) (hsq : A.rows = A.cols) (hc : ConstInv A) (hb : b.rows = A.rows) (hw : 0 < b.cols) (hbd : deg b < deg A) :
    (∃ y, solveLift C cinv u A b prec = .ok y ∧ IsSol A b prec y) ∨
    (solveLift C cinv u A b prec = .ub ∧ ((∀ i j, i < A.rows → j < b.cols → b.e (i, j) = 0) ∨
      ∃ P : Nat × Nat → F[X], ∀ i j, i < A.rows → j < A.rows → ∑ l ∈ Finset.range A.rows, A.e (i, l) * P (l, j) = if i = j then 1 else 0)) := by
  have hA0 := ConstInv.deg_nonneg hc hn hsq
  by_cases hd0 : deg A = 0
  · left
    have hbz : ∀ i j, i < b.rows → j < b.cols → b.e (i, j) = 0 := (deg_neg_iff b).1 (by have := (deg_spec b).1; omega)
    unfold solveLift
    dsimp only
    rw [if_neg (by omega), if_pos hd0, if_neg (by omega)]
    obtain ⟨W, eW⟩ := hcinv.complete A.rows (fun ij => (A.e ij).coeff 0) hc
    rw [eW]
    dsimp only [ofOpt, andThen]
    obtain ⟨m1, m2⟩ := C66_mul_const_left ⟨A.rows, A.rows, W⟩ b
    obtain ⟨x, ex⟩ : ∃ x, mulConstLeft ⟨A.rows, A.rows, W⟩ b = some x := by
      rcases hz : mulConstLeft ⟨A.rows, A.rows, W⟩ b with _ | x
      · exact absurd hb.symm (m1.1 hz)
      · exact ⟨x, rfl⟩
    obtain ⟨x1, x2, x3⟩ := m2 x ex
    rw [ex]
    dsimp only
    obtain ⟨t1, t2, t3⟩ := C65_trunc true x x prec
    have x1 : x.rows = A.rows := x1
    have hz : ∀ i j, i < A.rows → j < b.cols → (trunc true x x prec).e (i, j) = 0 := by
      intro i j hi hj
      ext k
      rw [t3 i j (by omega) (by omega), x3 i j hi hj, Finset.sum_eq_zero fun l hl => ?_, coeff_zero, ite_self]
      have hl : l < A.rows := Finset.mem_range.1 hl
      rw [hbz l j (by omega) hj, mul_zero]
    refine ⟨_, rfl, by omega, by omega, fun i j hi hj k hk => ?_, fun i j hi hj k hk => ?_⟩
    · rw [hz i j (by omega) hj, coeff_zero]
    · rw [hbz i j (by omega) hj, Finset.sum_eq_zero fun l hl => ?_]
      rw [hz l j (by have := Finset.mem_range.1 hl; omega) hj, mul_zero]
  · obtain ⟨d, hd⟩ : ∃ d : Nat, deg A = d := ⟨(deg A).toNat, by omega⟩
    obtain ⟨h, invA, slice, ma, mi, K, hsl, e⟩ := solveLift_start hC cinv u A b prec d hn hsq hc hd (by omega) (by omega)
    rw [e]
    have hbd' : deg b < d := by omega
    rcases liftLoop_spec hC.mid K hw (K.sol_high b hb hbd') ((1 + ((prec : Int) - 1).tdiv d) * b.cols).toNat ((1 + ((prec : Int) - 1).tdiv d) * b.cols).toNat 1 b slice (le_refl _) (by omega) (K.start b hb)
      (fun _ => by rw [Nat.sub_self, Nat.zero_mul, Nat.zero_add]; exact hsl) with ⟨sol, c, es, hI, hle⟩ | ⟨es, hz⟩
    · left
      rw [es]
      exact finish K u b hb hw hbd' hI prec (prec_le hw K.d1 hle)
    · right
      rw [es]
      refine ⟨rfl, ?_⟩
      rcases hz with hz | ⟨o, hv⟩
      · left
        intro i j hi hj
        have := hz i j hi hj
        rw [K.sol_res b i j hi] at this
        exact coe_eq_zero_iff.1 this
      · right
        refine ⟨fun x => ofCoeffs o fun t => PowerSeries.coeff t (h x), fun i j hi hj => ?_⟩
        have e1 : ∀ i j, i < A.rows → j < A.rows → ser (fun x => ofCoeffs o fun t => PowerSeries.coeff t (h x)) (i, j) = h (i, j) := by
          intro i j hi hj
          ext t
          rw [coeff_ser, ofCoeffs_coeff]
          by_cases ht : t < o
          · rw [if_pos ht]
          · rw [if_neg ht, hv i j hi hj t (by omega)]
        have e2 := ser_cmul A.rows A.e (fun x => ofCoeffs o fun t => PowerSeries.coeff t (h x)) (i, j)
        rw [cmul_congr (fun _ _ => rfl) (fun l hl => e1 l j hl hj), K.right i j hi hj] at e2
        apply coe_injective F
        refine Eq.trans e2.symm ?_
        by_cases hij : i = j
        · rw [if_pos hij, if_pos hij, coe_one]
        · rw [if_neg hij, if_neg hij, coe_zero]

/-! ### Failures -/

/-- Lifting fails when the coefficients of the inverse are zero from `o` on, if `middle_product` fails on zero matrices. -/
theorem C74_lift_fails {mid : PMat F[X] → PMat F[X] → Nat → Nat → Option (PMat F[X])} (D : Nat)
    (hz : ∀ a c dA dB, Utils.deg a < 0 → D ≤ dB → mid a c dA dB = none) (K : Ctx A invA h d ma mi) (hD : D ≤ d - 1)
    (src : PMat F[X]) (o : Nat) (hsrc : IsSlice A.rows h o (2 * d - 1) src) (hv : Vanish A.rows h o) : liftOdd mid ma mi src d = .ub := by
  have hd := K.d1
  have hsq := K.sq
  have hs1 := hsrc.rows
  have hs2 := hsrc.cols
  unfold liftOdd
  dsimp only
  obtain ⟨t1, t2, t3⟩ := C65_trunc false ⟨0, 0, fun _ => 0⟩ src d
  have tz : ∀ i j, i < A.rows → j < A.rows → (trunc false ⟨0, 0, fun _ => 0⟩ src d).e (i, j) = 0 := by
    intro i j hi hj
    ext t
    rw [t3 i j (by omega) (by omega), hsrc.coeff i j hi hj, hv i j hi hj (o + t) (by omega), ite_self, ite_self, coeff_zero]
  have td := deg_of_coeff (trunc false ⟨0, 0, fun _ => 0⟩ src d) d hd fun i j hi hj t ht => by rw [tz i j (by omega) (by omega), coeff_zero]
  generalize trunc false ⟨0, 0, fun _ => 0⟩ src d = src1 at *
  obtain ⟨c, ec, c1, c2, c3⟩ := K.ma src1 (by omega) td
  clear td
  rw [ec]
  dsimp only [ofRes, andThen]
  obtain ⟨b1, b2, b3⟩ := C65_trunc true c c d
  generalize trunc true c c d = b at *
  obtain ⟨e1, e2, e3⟩ := C65_transpose false ⟨0, 0, fun _ => 0⟩ b
  rw [hz _ _ _ _ ?_ hD]
  · rfl
  · have := (deg_neg_iff (transpose false ⟨0, 0, fun _ => 0⟩ b)).2 fun i j hi hj => ?_
    · omega
    · rw [e3 i j (by omega) (by omega)]
      ext t
      rw [b3 j i (by omega) (by omega), c3 j i (by omega) (by omega), Finset.sum_eq_zero fun l hl => ?_, coeff_zero, ite_self]
      rw [tz l i (by have := Finset.mem_range.1 hl; omega) (by omega), mul_zero]

theorem nbcols_gt {prec d w q : Nat} (hw : 0 < w) (hd : 1 ≤ d) (h : q * d < prec) : q * w < ((1 + ((prec : Int) - 1).tdiv d) * w).toNat := by
  obtain ⟨r, rfl⟩ : ∃ r, prec = r + 1 := ⟨prec - 1, by omega⟩
  have e1 : (((r + 1 : Nat) : Int) - 1).tdiv d = ((r / d : Nat) : Int) := by
    rw [show ((r + 1 : Nat) : Int) - 1 = (r : Int) by omega]
    rfl
  rw [e1, show ((1 + ((r / d : Nat) : Int)) * w) = (((1 + r / d) * w : Nat) : Int) by push_cast; rfl, Int.toNat_natCast]
  have : q ≤ r / d := (Nat.le_div_iff_mul_le hd).2 (by omega)
  exact Nat.mul_lt_mul_of_pos_right (by omega) hw

/-- **C74, negation**. If `b` is zero, `A` is not constant and the precision is more than the degree of `A`,
    `solve_series_high_order_lifting` fails, for any `middle_product` that fails on zero matrices (C69). -/
theorem C74_zero_rhs_fails [DecidableEq F] {C : Calls F} (hC : C.Ok) (D : Nat) (hz : ∀ a c dA dB, deg a < 0 → D ≤ dB → C.mid a c dA dB = none)
    (cinv : Nat → (Nat × Nat → F) → Option (Nat × Nat → F)) (u : PMat (Sto F)) (A b : PMat F[X]) (prec : Nat) (hn : 0 < A.rows) (hsq : A.rows = A.cols)
    (hc : ConstInv A) (hb : b.rows = A.rows) (hw : 0 < b.cols) (h1 : 1 ≤ deg A) (hD : (D : Int) < deg A) (hp : deg A < prec)
    (hb0 : ∀ i j, i < b.rows → j < b.cols → b.e (i, j) = 0) : solveLift C cinv u A b prec = .ub := by
  obtain ⟨d, hd⟩ : ∃ d : Nat, deg A = d := ⟨(deg A).toNat, by omega⟩
  have hbd : deg b = -1 := (deg_neg_iff b).2 hb0
  obtain ⟨h, invA, slice, ma, mi, K, hsl, e⟩ := solveLift_start hC cinv u A b prec d hn hsq hc hd (by omega) (by omega)
  rw [e]
  have hlt := nbcols_gt (q := 1) (prec := prec) hw K.d1 (by omega)
  rw [Nat.one_mul] at hlt
  generalize ((1 + ((prec : Int) - 1).tdiv d) * b.cols).toNat = nb at *
  obtain ⟨f, rfl⟩ : ∃ f, nb = f + 1 := ⟨nb - 1, by omega⟩
  obtain ⟨e1, e2, e3⟩ := C65_transpose false ⟨0, 0, fun _ => 0⟩ b
  rw [liftLoop, if_pos hlt]
  dsimp only
  rw [hz _ _ _ _ ?_ (by omega)]
  · rfl
  · have := (deg_neg_iff (transpose false ⟨0, 0, fun _ => 0⟩ b)).2 fun i j hi hj => ?_
    · omega
    · rw [e3 i j (by omega) (by omega), hb0 j i (by omega) (by omega)]

/-- **C74, negation**. If `A` has an inverse which is a polynomial matrix of degree at most that of `A`, which is not constant, and
    the precision is more than four times the degree of `A`, `solve_series_high_order_lifting` fails, whatever `b`, for any
    `middle_product` that fails on zero matrices (C69). -/
theorem C74_unimodular_fails [DecidableEq F] {C : Calls F} (hC : C.Ok) (D : Nat) (hz : ∀ a c dA dB, deg a < 0 → D ≤ dB → C.mid a c dA dB = none)
    (cinv : Nat → (Nat × Nat → F) → Option (Nat × Nat → F)) (u : PMat (Sto F)) (A b : PMat F[X]) (prec : Nat) (hn : 0 < A.rows) (hsq : A.rows = A.cols)
    (hc : ConstInv A) (hb : b.rows = A.rows) (hw : 0 < b.cols) (h1 : 1 ≤ deg A) (hD : (D : Int) < deg A) (hp : 4 * deg A < prec) (hbd : deg b < deg A)
    (P : Nat × Nat → F[X]) (hP : ∀ i j, i < A.rows → j < A.rows → ∑ l ∈ Finset.range A.rows, A.e (i, l) * P (l, j) = if i = j then 1 else 0)
    (hPd : ∀ i j, i < A.rows → j < A.rows → ∀ t : Nat, deg A < t → (P (i, j)).coeff t = 0) : solveLift C cinv u A b prec = .ub := by
  obtain ⟨d, hd⟩ : ∃ d : Nat, deg A = d := ⟨(deg A).toNat, by omega⟩
  obtain ⟨h, invA, slice, ma, mi, K, hsl, e⟩ := solveLift_start hC cinv u A b prec d hn hsq hc hd (by omega) (by omega)
  rw [e]
  have hbd' : deg b < d := by omega
  have hg := K.sol_high b hb hbd'
  have hlt := nbcols_gt (q := 4) (prec := prec) hw K.d1 (by omega)
  have hv : Vanish A.rows h (d + 1) := by
    intro i j hi hj t ht
    have e1 : cmul A.rows h (cmul A.rows (ser A.e) (ser P)) (i, j) = ser P (i, j) := cmul_left_inv K.left (ser P) i j hi
    rw [cmul_one A.rows h _ i j hj fun l hl => ?_] at e1
    · rw [e1, coeff_ser]
      exact hPd i j hi hj t (by omega)
    · rw [ser_cmul]
      refine (congrArg (fun f : F[X] => (f : PowerSeries F)) (hP l j hl hj)).trans ?_
      by_cases hlj : l = j
      · rw [if_pos hlj, if_pos hlj, coe_one]
      · rw [if_neg hlj, if_neg hlj, coe_zero]
  generalize ((1 + ((prec : Int) - 1).tdiv d) * b.cols).toNat = nb at *
  obtain ⟨f, rfl⟩ : ∃ f, nb = f + 1 + 1 := ⟨nb - 2, by omega⟩
  have key : liftLoop C.mid ma mi d (f + 1 + 1) (f + 1 + 1) b slice = .ub := by
    rcases loop_step hC.mid K hw hg (le_refl 1) (K.start b hb) (by rw [Nat.sub_self, Nat.zero_mul, Nat.zero_add]; exact hsl) (f + 1 + 1) (f + 1) (by omega)
      with ⟨e1, -⟩ | ⟨sol', hI, e1⟩
    · exact e1
    rw [e1, if_pos (by omega)]
    rcases C74_lift_partial hC.mid K slice 1 hsl with ⟨y, ey, hy⟩ | ⟨ey, -⟩
    swap
    · rw [ey]; rfl
    rw [ey]
    dsimp only [andThen]
    have hy' : IsSlice A.rows h ((2 * 1 - 1) * d + 1) (2 * d - 1) y := by
      rw [← offset_double 1 d (le_refl 1) K.d1, Nat.sub_self, Nat.zero_mul, Nat.zero_add]
      exact hy
    rcases loop_step hC.mid K hw hg (by omega) hI hy' (f + 1 + 1) f (by omega) with ⟨e2, -⟩ | ⟨sol'', hI', e2⟩
    · exact e2
    rw [e2, if_pos (by omega), C74_lift_fails D hz K (by omega) y _ hy' (by rw [show (2 * 1 - 1) * d + 1 = d + 1 by omega]; exact hv)]
    rfl
  rw [key]
  rfl

/-- **C74, negation**. A matrix `b` without columns makes `collapse_nonconsecutive_columns` divide by zero. -/
theorem C74_no_column_fails [DecidableEq F] {C : Calls F} (hC : C.Ok) (cinv : Nat → (Nat × Nat → F) → Option (Nat × Nat → F)) (u : PMat (Sto F)) (A b : PMat F[X]) (prec : Nat)
    (hn : 0 < A.rows) (hsq : A.rows = A.cols) (hc : ConstInv A) (hb : b.rows = A.rows) (hw : b.cols = 0) (h1 : 1 ≤ deg A) :
    solveLift C cinv u A b prec = .ub := by
  obtain ⟨d, hd⟩ : ∃ d : Nat, deg A = d := ⟨(deg A).toNat, by omega⟩
  have hbd : deg b = -1 := (deg_neg_iff b).2 fun i j _ hj => by omega
  obtain ⟨h, invA, slice, ma, mi, K, hsl, e⟩ := solveLift_start hC cinv u A b prec d hn hsq hc hd (by omega) (by omega)
  have hi := K.slice.cols
  rw [e, hw, Nat.cast_zero, mul_zero, Int.toNat_zero]
  rw [liftLoop, if_neg (by omega)]
  dsimp only [andThen]
  obtain ⟨v, ev, -⟩ := K.mi b (by omega) (by omega)
  rw [ev]
  dsimp only [ofRes]
  unfold collapseNonconsecutive
  rw [if_pos rfl]

/-- **C74**. The degree of `b` must be less than that of `A`: this is checked. -/
theorem C74_reject [DecidableEq F] (C : Calls F) (cinv : Nat → (Nat × Nat → F) → Option (Nat × Nat → F)) (u : PMat (Sto F)) (A b : PMat F[X]) (prec : Nat) (h : deg A ≤ deg b) :
    solveLift C cinv u A b prec = .error := if_pos h

/-! ### The hypotheses can be met -/

theorem inv5_deg1 : deg inv5 = 1 := by
  have h1 := inv5_deg
  have h2 := ConstInv.deg_nonneg inv5_const (Nat.succ_pos 1) rfl
  have h3 : deg inv5 < (2 : Nat) := (deg_lt_iff inv5 2).2 fun i j hi hj k hk => by
    have e1 : i = 0 ∨ i = 1 := by have : i < 2 := hi; omega
    have e2 : j = 0 ∨ j = 1 := by have : j < 2 := hj; omega
    rcases e1 with rfl | rfl <;> rcases e2 with rfl | rfl
    · show (1 + X : (ZMod 5)[X]).coeff k = 0
      rw [coeff_add, coeff_one, coeff_X, if_neg (by omega), if_neg (by omega), add_zero]
    · show (X : (ZMod 5)[X]).coeff k = 0
      rw [coeff_X, if_neg (by omega)]
    · show (X : (ZMod 5)[X]).coeff k = 0
      rw [coeff_X, if_neg (by omega)]
    · show (C 2 : (ZMod 5)[X]).coeff k = 0
      rw [coeff_C, if_neg (by omega)]
  omega

theorem deg_one5 : deg (⟨2, 3, fun _ => 1⟩ : PMat (ZMod 5)[X]) < (1 : Nat) := (deg_lt_iff _ 1).2 fun i j _ _ k hk => by
  show (1 : (ZMod 5)[X]).coeff k = 0
  rw [coeff_one, if_neg (by omega)]

/-- Three right-hand sides modulo 5, for any precision; `inv5` has degree 1 and its inverse is not a polynomial matrix. -/
example (prec : Nat) {cinv : Nat → (Nat × Nat → ZMod 5) → Option (Nat × Nat → ZMod 5)} (hcinv : MatEval.InvOk cinv) :=
  C74_solve_partial (callsEx_ok 1 2) hcinv (fresh (ZMod 5)) inv5 ⟨2, 3, fun _ => 1⟩ prec (Nat.succ_pos 1) rfl inv5_const rfl (Nat.succ_pos 2)
    (by have := deg_one5; rw [inv5_deg1]; omega)

/-- The matrix with rows `(1, X)`, `(0, 1)`, and its inverse. -/
noncomputable def uni5 : PMat (ZMod 5)[X] := ⟨2, 2, fun ij => if ij = (0, 1) then X else if ij.1 = ij.2 then 1 else 0⟩

theorem uni5_deg : deg uni5 = 1 := by
  have h1 : ¬deg uni5 < (1 : Nat) := fun h => by
    have := (deg_lt_iff uni5 1).1 h 0 1 (Nat.succ_pos 1) (Nat.lt_succ_self 1) 1 (le_refl _)
    simp [uni5] at this
  have h2 : deg uni5 < (2 : Nat) := (deg_lt_iff uni5 2).2 fun i j hi hj k hk => by
    have e1 : i = 0 ∨ i = 1 := by have : i < 2 := hi; omega
    have e2 : j = 0 ∨ j = 1 := by have : j < 2 := hj; omega
    rcases e1 with rfl | rfl <;> rcases e2 with rfl | rfl <;> simp [uni5, coeff_X, coeff_one] <;> omega
  omega

example (u : PMat (Sto (ZMod 5))) : solveLift (callsEx (ZMod 5) 0 2) (fun _ _ => none) u uni5 ⟨2, 1, fun _ => 1⟩ 5 = .ub := by
  refine C74_unimodular_fails (callsEx_ok 0 2) 0 (fun a c dA dB h1 h2 => if_pos ⟨h1, h2⟩) _ u uni5 _ 5 (Nat.succ_pos 1) rfl
    ⟨fun ij => if ij.1 = ij.2 then 1 else 0, fun i j hi hj => ?_⟩ rfl (Nat.succ_pos 0) (by rw [uni5_deg]) (by rw [uni5_deg]; omega) (by rw [uni5_deg]; omega) ?_
    (fun ij => if ij = (0, 1) then -X else if ij.1 = ij.2 then 1 else 0) (fun i j hi hj => ?_) (fun i j hi hj t ht => ?_)
  · have e1 : i = 0 ∨ i = 1 := by have : i < 2 := hi; omega
    have e2 : j = 0 ∨ j = 1 := by have : j < 2 := hj; omega
    show ∑ k ∈ Finset.range 2, _ = _
    rw [Finset.sum_range_succ, Finset.sum_range_one]
    rcases e1 with rfl | rfl <;> rcases e2 with rfl | rfl <;> simp [uni5]
  · rw [uni5_deg]
    have := (deg_lt_iff (⟨2, 1, fun _ => 1⟩ : PMat (ZMod 5)[X]) 1).2 fun i j _ _ k hk => by
      show (1 : (ZMod 5)[X]).coeff k = 0
      rw [coeff_one, if_neg (by omega)]
    omega
  · have e1 : i = 0 ∨ i = 1 := by have : i < 2 := hi; omega
    have e2 : j = 0 ∨ j = 1 := by have : j < 2 := hj; omega
    show ∑ k ∈ Finset.range 2, _ = _
    rw [Finset.sum_range_succ, Finset.sum_range_one]
    rcases e1 with rfl | rfl <;> rcases e2 with rfl | rfl <;> simp [uni5]
  · rw [uni5_deg] at ht
    have e1 : i = 0 ∨ i = 1 := by have : i < 2 := hi; omega
    have e2 : j = 0 ∨ j = 1 := by have : j < 2 := hj; omega
    rcases e1 with rfl | rfl <;> rcases e2 with rfl | rfl <;> simp [coeff_X, coeff_one] <;> omega

example (u : PMat (Sto (ZMod 5))) : solveLift (callsEx (ZMod 5) 0 2) (fun _ _ => none) u inv5 ⟨2, 1, fun _ => 0⟩ 2 = .ub :=
  C74_zero_rhs_fails (callsEx_ok 0 2) 0 (fun a c dA dB h1 h2 => if_pos ⟨h1, h2⟩) _ u inv5 _ 2 (Nat.succ_pos 1) rfl inv5_const rfl (Nat.succ_pos 0)
    (by rw [inv5_deg1]) (by rw [inv5_deg1]; omega) (by rw [inv5_deg1]; omega) fun _ _ _ _ => rfl

example (u : PMat (Sto (ZMod 5))) : solveLift (callsEx (ZMod 5) 0 2) (fun _ _ => none) u inv5 ⟨2, 0, fun _ => 0⟩ 2 = .ub :=
  C74_no_column_fails (callsEx_ok 0 2) _ u inv5 _ 2 (Nat.succ_pos 1) rfl inv5_const rfl rfl (by rw [inv5_deg1])

/-- A slice of the inverse of `inv5`, lifted. -/
example : ∃ (h : Nat × Nat → PowerSeries (ZMod 5)) (invA slice : PMat (ZMod 5)[X]) (ma mi : PMat (ZMod 5)[X] → Res (PMat (ZMod 5)[X])),
    Ctx inv5 invA h 1 ma mi ∧ IsSlice inv5.rows h 1 (2 * 1 - 1) slice :=
  let ⟨h, invA, slice, ma, mi, K, hs, _⟩ := solveLift_start (callsEx_ok 1 2) (fun _ _ => none) (fresh (ZMod 5)) inv5 ⟨2, 3, fun _ => 1⟩ 3 1 (Nat.succ_pos 1) rfl inv5_const
    inv5_deg1 (le_refl 1) deg_one5
  ⟨h, invA, slice, ma, mi, K, hs⟩

example (c : PMat (Sto (ZMod 5))) := C74_collapse_nonconsecutive c ⟨1, 6, fun _ => 1⟩ 2 3 2 (by omega) rfl
example (c : PMat (Sto (ZMod 5))) := C74_collapse_consecutive c ⟨1, 6, fun _ => 1⟩ 2 3 2 (by omega) rfl
example (c : PMat (Sto (ZMod 5))) := C74_collapse_reject c ⟨1, 7, fun _ => 1⟩ 2 3 (by omega) (by show ¬3 ∣ 7; decide)

end PML.Ntl.Lift
