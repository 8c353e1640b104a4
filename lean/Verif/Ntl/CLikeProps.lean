import Verif.Ntl.CLikeRec

/-!
# C100, C101: inversion of Cauchy-like matrices, and linear systems
-/

namespace PML.Ntl.CLike

open PML.Ntl.Utils PML.Ntl.Inv PML.Ntl.Solve PML.Ntl.Middle PML.Ntl.Struct

variable {p : Nat} [Fact p.Prime]

theorem Half.inverse {K : Type} [Field K] {α k : Nat} {x y : Nat → K} {Y Z Y' Z' : Nat → Fin α → K} (h : Half k x y Y Z Y' Z')
    (hxy : ∀ i j, i < k → j < k → x i ≠ y j) {a : Nat} (ha : a < k) :
    ∀ i, i < k → ∑ l ∈ Finset.range k, mat Y Z x y i l * mat Y' Z' y x l a = if i = a then 1 else 0 :=
  (h.sweep (m := k) (n := k) (le_refl _) (le_refl _) (fun _ _ => rfl) (fun _ _ => rfl) (fun i _ _ => by omega) (fun i _ _ => by omega)).inverse hxy ha

/-- A 0 by 0 matrix. -/
theorem make_zero (G H : PMat (ZMod p)) (hG : G.rows = 0) (hH : H.rows = 0) (u v rho : ZMod p) :
    CLike.make G H u v rho = .ok ⟨G, H, ⟨u, v, rho, 0, 0, Band.empty, fun _ => 0⟩⟩ := by
  unfold CLike.make
  rw [hG, hH]
  rfl

theorem make_square {G H : PMat (ZMod p)} {u v rho : ZMod p} (hr : rho ≠ 0) (h : H.rows = G.rows) (hok : CauchyOK u v rho G.rows G.rows) :
    ∃ c, CLike.make G H u v rho = .ok c ∧ c.C.m = G.rows ∧ c.C.n = G.rows := by
  by_cases h0 : G.rows = 0
  · exact ⟨_, make_zero G H h0 (by omega) u v rho, h0.symm, h0.symm⟩
  · obtain ⟨c, e, h1, h2, -, -⟩ := (C99_constructor G H u v rho (by omega) (by omega)).1 ⟨hr, by rwa [h]⟩
    exact ⟨c, e, h1, by omega⟩

/-- The matrix `d` is a Cauchy-like matrix of size `r`, with the points `v rho^i` and `u rho^j`, and is the inverse of the leading
    block of size `r` of `M`. -/
def IsInverse (d : CLike p) (u v rho : ZMod p) (M : Nat → Nat → ZMod p) (r : Nat) : Prop :=
  ∃ Y Z : PMat (ZMod p), CLike.make Y Z v u rho = .ok d ∧ Y.rows = r ∧ Z.rows = r ∧ Z.cols = Y.cols ∧ d.C.m = r ∧ d.C.n = r ∧
    ∀ i j, i < r → j < r → ∑ l ∈ Finset.range r, M i l * clMat Y Z v u rho l j = if i = j then 1 else 0

theorem Half.isInverse {U V : PMat (ZMod p)} {u v rho : ZMod p} (hr : rho ≠ 0) {r : Nat} {Y' Z' : PMat (ZMod p)}
    (hok : CauchyOK u v rho r r) (h1 : Y'.rows = r) (h2 : Y'.cols = U.cols) (h3 : Z'.rows = r) (h4 : Z'.cols = U.cols)
    (hh : Half r (progr u rho) (progr v rho) (genRow U.cols U.e) (genRow U.cols V.e) (genRow U.cols Y'.e) (genRow U.cols Z'.e)) :
    ∃ d, CLike.make Y' Z' v u rho = .ok d ∧ IsInverse d u v rho (clMat U V u v rho) r := by
  obtain ⟨d, e, a, b⟩ := make_square (G := Y') (H := Z') (u := v) (v := u) hr (by omega) (fun i j hi hj => (hok j i (by omega) (by omega)).symm)
  refine ⟨d, e, Y', Z', e, h1, h3, by omega, by omega, by omega, fun i j hi hj => ?_⟩
  have := hh.inverse hok hj i hi
  unfold clMat
  rw [h2]
  exact this

variable {red : Nat → ZMod p} {U V : PMat (ZMod p)} {u v rho : ZMod p} {c : CLike p}

/-- The call to `invertRec` in `CLike.invert`. -/
theorem invert_core (hred : RedOK red) (h : CLike.make U V u v rho = .ok c) (hm : 0 < U.rows) (hn : 0 < V.rows)
    (hg : V.cols = U.cols) (cross : Nat) (rnd : Nat → Nat → ZMod p) (ta : Int) (ha : 0 < U.cols ∨ 0 < alphaBound p ta)
    (hu : Distinct u rho (min U.rows V.rows)) (hv : Distinct v rho (min U.rows V.rows))
    (hno : ∀ a b s, s ≤ max U.rows V.rows → NoOverflow p cross a b s) :
    rho ≠ 0 ∧ CauchyOK u v rho U.rows V.rows ∧ c.C.m = U.rows ∧ c.C.n = V.rows ∧ ∃ o,
      RecOK U.rows V.rows U.cols (progr u rho) (progr v rho) (genRow U.cols U.e) (genRow U.cols V.e) o ∧
      (c.invert red cross rnd ta = match o with
        | none => .ok none
        | some (_, Yp, Zp) => andThen (CLike.make Yp Zp v u rho) fun d => .ok (some d)) ∧
      (200 ≤ min U.rows V.rows → (∀ c j, rnd c j = 0) → ∀ N r, N = (min U.rows V.rows + 1) / 2 → r < N →
        GenericRankProfile N N (clMat U V u v rho) → Spanned N N r (clMat U V u v rho) → o ≠ none) := by
  obtain ⟨C, hC, rfl⟩ := make_clike h
  obtain ⟨hr, hok, e1, e2, e3, hm', hn', -, -⟩ := (cauchy_made hm hn).2.2 C hC
  obtain ⟨c', o, e, ho, hl⟩ := invertRec_spec hred cross rnd hr (thresh := 200) (by omega) (alphaBound p ta) hno (min U.rows V.rows + 1) U V u v 0 (by omega) hm hn
    (by omega) (by omega) ha hg hok hu hv
  refine ⟨hr, hok, hm', hn', o, ho, ?_, hl⟩
  unfold CLike.invert
  dsimp only
  rw [e1, e2, e3, e, andThen_ok']
  match o with
  | none => rfl
  | some _ => rfl

/-- **C100**. `invert_leading_principal_minor_grp` returns 0 or 1.  If it returns 1, `Cinv` is the inverse of a leading block of the
    matrix, and if the matrix has generic rank profile, it returns 1, and the size of this block is the rank.
    Partial: no overflow in the products by Toeplitz matrices is assumed (see C83), and if the least dimension is at least 200, the
    function can return 1 for a matrix without generic rank profile, see `C100_random`. -/
theorem C100_invert_partial (hred : RedOK red) (h : CLike.make U V u v rho = .ok c) (hm : 0 < U.rows) (hn : 0 < V.rows)
    (hg : V.cols = U.cols) (cross : Nat) (rnd : Nat → Nat → ZMod p) (ta : Int) (ha : 0 < U.cols ∨ 0 < alphaBound p ta)
    (hu : Distinct u rho (min U.rows V.rows)) (hv : Distinct v rho (min U.rows V.rows))
    (hno : ∀ a b s, s ≤ max U.rows V.rows → NoOverflow p cross a b s) :
    ∃ o, c.invert red cross rnd ta = .ok o ∧
      (∀ d, o = some d → ∃ r, r ≤ U.rows ∧ r ≤ V.rows ∧ IsInverse d u v rho (clMat U V u v rho) r) ∧
      (GenericRankProfile U.rows V.rows (clMat U V u v rho) → ∃ d r, o = some d ∧ r ≤ U.rows ∧ r ≤ V.rows ∧
        IsInverse d u v rho (clMat U V u v rho) r ∧ Spanned U.rows V.rows r (clMat U V u v rho)) := by
  obtain ⟨hr, hok, -, -, o, ho, e, -⟩ := invert_core hred h hm hn hg cross rnd ta ha hu hv hno
  rw [e]
  match o, ho with
  | none, ho => exact ⟨none, rfl, fun d e => (by cases e), fun hgr => absurd hgr (ho.no rfl)⟩
  | some (r, Yp, Zp), ho =>
    obtain ⟨a1, a2, a3, a4, a5, a6, hh, hs⟩ := ho.yes r Yp Zp rfl
    obtain ⟨d, ed, hd⟩ := hh.isInverse hr (fun i j hi hj => hok i j (by omega) (by omega)) a3 a4 a5 a6
    dsimp only
    rw [ed]
    refine ⟨some d, rfl, fun d' e => ?_, fun hgr => ⟨d, r, rfl, a1, a2, hd, hs hgr⟩⟩
    cases e
    exact ⟨r, a1, a2, hd⟩

/-- **C100**. If the least dimension is less than 200, the size of the block is the rank of the matrix, even without generic rank
    profile.  If moreover the number of generators is less than `thresh_alpha`, or more than the least dimension, the function returns
    1 exactly for the matrices with generic rank profile. -/
theorem C100_small (h : CLike.make U V u v rho = .ok c) (hm : 0 < U.rows) (hn : 0 < V.rows)
    (hg : V.cols = U.cols) (cross : Nat) (rnd : Nat → Nat → ZMod p) (ta : Int) (ha : 0 < U.cols ∨ 0 < alphaBound p ta)
    (hu : Distinct u rho (min U.rows V.rows)) (hv : Distinct v rho (min U.rows V.rows)) (hN : min U.rows V.rows < 200) :
    ∃ o, c.invert red cross rnd ta = .ok o ∧
      (∀ d, o = some d → ∃ r, r ≤ U.rows ∧ r ≤ V.rows ∧ IsInverse d u v rho (clMat U V u v rho) r ∧ Spanned U.rows V.rows r (clMat U V u v rho)) ∧
      (GenericRankProfile U.rows V.rows (clMat U V u v rho) → o ≠ none) ∧
      ((U.cols : Int) < alphaBound p ta ∨ min U.rows V.rows < U.cols → (o ≠ none ↔ GenericRankProfile U.rows V.rows (clMat U V u v rho))) := by
  obtain ⟨C, hC, rfl⟩ := make_clike h
  obtain ⟨hr, hok, e1, e2, e3, hm', hn', -, -⟩ := (cauchy_made hm hn).2.2 C hC
  have key : ∃ o, invertRec red cross rnd rho 200 (alphaBound p ta) (min U.rows V.rows + 1) U V u v 0 = .ok (0, takeRows U.cols o) ∧
      Exact U.rows V.rows (progr u rho) (progr v rho) (genRow U.cols U.e) (genRow U.cols V.e) o ∧
      ((U.cols : Int) < alphaBound p ta ∨ min U.rows V.rows < U.cols → ∀ r Y' Z', o = some (r, Y', Z') → ∀ j, j ≤ r →
        Nonsing j (mat (genRow U.cols U.e) (genRow U.cols V.e) (progr u rho) (progr v rho))) := by
    unfold invertRec
    dsimp only
    rw [if_pos hN]
    by_cases hb : (U.cols : Int) < alphaBound p ta ∨ min U.rows V.rows < U.cols
    · rw [if_pos hb]
      obtain ⟨o, eo, h1, h2⟩ := invertRaw_spec hr hm hn hg hok hu hv
      rw [eo]
      exact ⟨o, rfl, h1, fun _ => h2⟩
    · rw [if_neg hb]
      obtain ⟨o, eo, h1⟩ := invertBlock_spec hr hm hn (by omega) hg hok hu hv
      rw [eo]
      exact ⟨o, rfl, h1, fun h => absurd h hb⟩
  obtain ⟨o, e, hx, hmin⟩ := key
  have hrec := hx.recOK
  unfold CLike.invert
  dsimp only
  rw [e1, e2, e3, e, andThen_ok']
  match o, hx, hmin, hrec with
  | none, hx, _, _ =>
    exact ⟨none, rfl, fun d e => (by cases e), fun hgr => absurd hgr (hx.no rfl), fun _ => ⟨fun h => absurd rfl h, fun hgr => absurd hgr (hx.no rfl)⟩⟩
  | some (r, Y', Z'), hx, hmin, hrec =>
    obtain ⟨hsw, hsp⟩ := hx.yes r Y' Z' rfl
    obtain ⟨a1, a2, a3, a4, a5, a6, hh, hs⟩ := hrec.yes r _ _ rfl
    obtain ⟨d, ed, hd⟩ := hh.isInverse hr (fun i j hi hj => hok i j (by omega) (by omega)) a3 a4 a5 a6
    show ∃ o, andThen (CLike.make _ _ v u rho) _ = .ok o ∧ _
    rw [ed]
    refine ⟨some d, rfl, fun d' e => ?_, fun _ e => (by cases e), fun hb => ⟨fun _ => ⟨r, a1, a2, hmin hb r Y' Z' rfl, hsp⟩, fun _ e => by cases e⟩⟩
    cases e
    exact ⟨r, a1, a2, hd, hsp⟩

/-- **C100**. If the least dimension is at least 200, and all random elements are zero, the function returns 1 as soon as the leading
    block of half the size is singular and has generic rank profile, whatever the other entries are. -/
theorem C100_random (hred : RedOK red) (h : CLike.make U V u v rho = .ok c) (hg : V.cols = U.cols) (cross : Nat) (ta : Int)
    (ha : 0 < U.cols ∨ 0 < alphaBound p ta) (hu : Distinct u rho (min U.rows V.rows)) (hv : Distinct v rho (min U.rows V.rows))
    (hno : ∀ a b s, s ≤ max U.rows V.rows → NoOverflow p cross a b s) (hN : 200 ≤ min U.rows V.rows) {r N : Nat}
    (hN1 : N = (min U.rows V.rows + 1) / 2) (hrN : r < N) (hgr : GenericRankProfile N N (clMat U V u v rho)) (hsp : Spanned N N r (clMat U V u v rho)) :
    ∃ d, c.invert red cross (fun _ _ => 0) ta = .ok (some d) := by
  obtain ⟨hr, hok, -, -, o, ho, e, hl⟩ := invert_core hred h (by omega) (by omega) hg cross (fun _ _ => 0) ta ha hu hv hno
  rw [e]
  match o, ho, hl with
  | none, _, hl => exact absurd rfl (hl hN (fun _ _ => rfl) N r hN1 hrN hgr hsp)
  | some (r, Yp, Zp), ho, _ =>
    obtain ⟨a1, a2, a3, a4, a5, a6, hh, hs⟩ := ho.yes r Yp Zp rfl
    obtain ⟨d, ed, hd⟩ := hh.isInverse hr (fun i j hi hj => hok i j (by omega) (by omega)) a3 a4 a5 a6
    dsimp only
    rw [ed]
    exact ⟨d, rfl⟩

/-- **C100**. With as many generators as rows and columns, and at least `thresh_alpha` of them, the function returns 1 for all
    invertible matrices, with or without generic rank profile. -/
theorem C100_block_accepts (h : CLike.make U V u v rho = .ok c) (hm : 0 < U.rows) (hn : V.rows = U.rows)
    (hc : U.cols = U.rows) (hg : V.cols = U.cols) (cross : Nat) (rnd : Nat → Nat → ZMod p) (ta : Int) (ha : alphaBound p ta ≤ U.cols)
    (hu : Distinct u rho U.rows) (hv : Distinct v rho U.rows) (hN : U.rows < 200) (hns : Nonsing U.rows (clMat U V u v rho)) :
    ∃ d, c.invert red cross rnd ta = .ok (some d) := by
  obtain ⟨C, hC, rfl⟩ := make_clike h
  obtain ⟨hr, hok, e1, e2, e3, hm', hn', -, -⟩ := (cauchy_made hm (by omega)).2.2 C hC
  have hmin : min U.rows V.rows = U.rows := by omega
  obtain ⟨w, ew, hw⟩ := prepare_ok hr hm (by omega) hok (by rwa [hmin]) (by rwa [hmin])
  obtain ⟨o, eo, hx⟩ := invertBlock_spec hr hm (by omega) (by omega) hg hok (by rwa [hmin]) (by rwa [hmin])
  have hsome : o ≠ none := by
    rintro rfl
    unfold invertBlock at eo
    dsimp only at eo
    rw [ew, andThen_ok', if_neg (by omega)] at eo
    unfold blockLoop at eo
    dsimp only at eo
    rw [if_neg (by omega), show min U.cols (min U.rows V.rows - 0) = U.rows by omega, if_neg, if_neg (by decide)] at eo
    · unfold blockLoop at eo
      dsimp only at eo
      rw [if_pos (by omega)] at eo
      cases eo
    · have := (nonsing_iff_rank (s := U.rows) (d := fun i j => -blockA U.cols U.rows (min U.rows V.rows) w 0 U.e V.e (i + 0) j)).1 (by
        intro x hx
        refine hns.neg x fun i hi => ?_
        rw [← hx i hi]
        exact Finset.sum_congr rfl fun j hj => by
          have hj := Finset.mem_range.1 hj
          have := blockA_below hw U.e V.e (k := 0) (i := i) (j := j) (alpha := U.cols) (by omega) (by omega) (by omega)
          show -clMat U V u v rho i j * x j = -blockA U.cols U.rows (min U.rows V.rows) w 0 U.e V.e i j * x j
          rw [show blockA U.cols U.rows (min U.rows V.rows) w 0 U.e V.e i j = _ from this, Nat.zero_add]
          rfl)
      omega
  have hrec := hx.recOK
  unfold CLike.invert
  dsimp only
  rw [e1, e2, e3]
  unfold invertRec
  dsimp only
  rw [if_pos (by omega), if_neg (by omega), eo, andThen_ok', andThen_ok']
  match o, hsome, hrec with
  | none, hs, _ => exact absurd rfl hs
  | some (r, Y', Z'), _, hrec =>
    obtain ⟨a1, a2, a3, a4, a5, a6, hh, hs⟩ := hrec.yes r _ _ rfl
    obtain ⟨d, ed, hd⟩ := hh.isInverse hr (fun i j hi hj => hok i j (by omega) (by omega)) a3 a4 a5 a6
    show ∃ o, andThen (CLike.make _ _ v u rho) _ = .ok (some o)
    rw [ed]
    exact ⟨d, rfl⟩

/-- The vector of inverses of the differences, if two points are equal. -/
theorem fwd_equal {u rho : ZMod p} {N : Nat} (hr : rho ≠ 0) (hd : ¬Distinct u rho N) : fwdInverses u u rho N 0 = .error := by
  unfold Distinct at hd
  push Not at hd
  obtain ⟨i, j, hij, hj, he⟩ := hd
  unfold fwdInverses
  rw [if_neg hr, if_neg (by omega), if_neg (by omega)]
  have h0 : fwdDen u u rho N 0 (N - 1 - (j - i)) = 0 := by
    rw [fwdDen_spec hr (by omega) _ (by omega),
      show ((N - 1 - (j - i) : Nat) : Int) - ((N : Int) - 1) = ((0 : Nat) : Int) - ((j - i : Nat) : Int) by omega, den_prog hr]
    refine mul_eq_zero_of_left ?_ _
    have : progr u rho i = progr u rho (j - i) * rho ^ i := by
      rw [he]; unfold progr; rw [mul_assoc, ← pow_add, Nat.sub_add_cancel (by omega)]
    have h2 : progr u rho 0 * rho ^ i = progr u rho (j - i) * rho ^ i := by rw [← this]; unfold progr; rw [pow_zero, mul_one]
    rw [mul_right_cancel₀ (pow_ne_zero _ hr) h2, sub_self]
  rw [((PML.Ntl.Order.C64_inv (N + 0 - 1) (fwdDen u u rho N 0) fun _ => 0).2 ⟨_, by omega, h0⟩).1]

/-- **C100**. If two of the first points of the rows are equal, or two of the first points of the columns, for instance if one of `u`
    and `v` is 0, the function stops with an error, although the constructor accepts the points. -/
theorem C100_equal_points (h : CLike.make U V u v rho = .ok c) (hm : 0 < U.rows) (hn : 0 < V.rows)
    (hg : V.cols = U.cols) (cross : Nat) (rnd : Nat → Nat → ZMod p) (ta : Int) (hN : min U.rows V.rows < 200)
    (hd : ¬(Distinct u rho (min U.rows V.rows) ∧ Distinct v rho (min U.rows V.rows))) : c.invert red cross rnd ta = .error := by
  obtain ⟨C, hC, rfl⟩ := make_clike h
  obtain ⟨hr, hok, e1, e2, e3, hm', hn', -, -⟩ := (cauchy_made hm hn).2.2 C hC
  have hp : prepare u v rho U.rows V.rows = .error := by
    obtain ⟨a, ea, ha⟩ := fwd_full hr hm hn hok
    unfold prepare
    rw [if_neg hr, if_neg (by omega), ea, andThen_ok']
    by_cases hu : Distinct u rho (min U.rows V.rows)
    · obtain ⟨b, eb, hb⟩ := fwd_diff hr (show 0 < min U.rows V.rows by omega) hu
      rw [eb, andThen_ok', fwd_equal hr (fun hv => hd ⟨hu, hv⟩)]; rfl
    · rw [fwd_equal hr hu]; rfl
  unfold CLike.invert
  dsimp only
  rw [e1, e2, e3]
  unfold invertRec
  dsimp only
  rw [if_pos hN]
  have h1 : invertRaw U V u v rho = .error := by
    unfold invertRaw
    dsimp only
    rw [hp, if_neg (by omega)]
    rfl
  have h2 : invertBlock U V u v rho = .error := by
    unfold invertBlock
    dsimp only
    rw [hp]
    rfl
  rw [h1, h2]
  split <;> rfl

/-- **C100**. Without generator, and if `thresh_alpha` is neither positive nor -1, the function does not end. -/
theorem C100_forever (h : CLike.make U V u v rho = .ok c) (hm : 0 < U.rows) (hn : 0 < V.rows) (hc : U.cols = 0) (hg : V.cols = 0)
    (cross : Nat) (rnd : Nat → Nat → ZMod p) (ta : Int) (ha : ta ≤ 0) (ha' : ta ≠ -1) (hN : min U.rows V.rows < 200)
    (hu : Distinct u rho (min U.rows V.rows)) (hv : Distinct v rho (min U.rows V.rows)) : c.invert red cross rnd ta = .loops := by
  obtain ⟨C, hC, rfl⟩ := make_clike h
  obtain ⟨hr, hok, e1, e2, e3, hm', hn', -, -⟩ := (cauchy_made hm hn).2.2 C hC
  obtain ⟨w, ew, hw⟩ := prepare_ok hr hm hn hok hu hv
  unfold CLike.invert
  dsimp only
  rw [e1, e2, e3]
  unfold invertRec
  dsimp only
  have hal : alphaBound p ta = ta := if_neg ha'
  rw [if_pos hN, hal, if_neg (by omega)]
  unfold invertBlock
  dsimp only
  rw [ew, andThen_ok', if_neg (by omega), hc, blockLoop_forever w (by omega)]
  rfl

/-! ### Linear systems -/

theorem sub_loop (rk : Nat) (b s : Nat → ZMod p) (j : Nat) : forN rk (fun i t => write i (b i - t i) t) s j = if j < rk then b j - s j else s j := by
  have := forN_inv (n := rk) (P := fun (k : Nat) (d : Nat → ZMod p) => ∀ y, d y = if y < k then b y - s y else s y) (s := s)
    (f := fun i t => write i (b i - t i) t) (fun y => by rw [if_neg (by omega)]) (by
      intro k d hk hd y
      unfold write
      by_cases hy : y = k
      · subst hy
        rw [Function.update_self, if_pos (by omega), hd, if_neg (by omega)]
      · rw [Function.update_of_ne hy, hd]
        by_cases h : y < k
        · rw [if_pos h, if_pos (by omega)]
        · rw [if_neg h, if_neg (by omega)])
  exact this j

/-- What the function does after a successful inversion with a block of size at least 1. -/
theorem solve_core (hred : RedOK red) (h : CLike.make U V u v rho = .ok c) (hm : 0 < U.rows) (hn : 0 < V.rows)
    (hg : V.cols = U.cols) (cross : Nat) (rnd : Nat → Nat → ZMod p) (rx : Nat → ZMod p) (ta : Int)
    (hno : ∀ a b s, s ≤ max U.rows V.rows → NoOverflow p cross a b s) {d : CLike p} {r : Nat} (hi : c.invert red cross rnd ta = .ok (some d))
    (hr0 : 0 < r) (hr1 : r ≤ U.rows) (hr2 : r ≤ V.rows) (hd : IsInverse d u v rho (clMat U V u v rho) r) (b : NVec (ZMod p)) (hb : r ≤ b.len) :
    ∃ x : Nat → ZMod p, (∀ i, i < r → ∑ j ∈ Finset.range V.rows, clMat U V u v rho i j * x j = b.e i) ∧
      (((b.len = U.rows ∧ ∀ i, i < U.rows → ∑ j ∈ Finset.range V.rows, clMat U V u v rho i j * x j = b.e i) ∧
          c.solve red cross rnd rx ta b = .ok (some ⟨V.rows, x⟩)) ∨
        (¬(b.len = U.rows ∧ ∀ i, i < U.rows → ∑ j ∈ Finset.range V.rows, clMat U V u v rho i j * x j = b.e i) ∧
          c.solve red cross rnd rx ta b = .ok (some ⟨0, x⟩))) := by
  obtain ⟨Y, Z, ed, b1, b2, b3, b4, b5, b6⟩ := hd
  have hcn : c.C.n = V.rows := by
    obtain ⟨C, hC, rfl⟩ := make_clike h
    obtain ⟨-, -, -, -, -, -, hn', -, -⟩ := (cauchy_made hm hn).2.2 C hC
    exact hn'
  unfold CLike.solve
  rw [hi, andThen_ok']
  dsimp only
  rw [b4, hcn]
  generalize hx0 : forN (V.rows - r) (fun i => write (r + i) (rx i)) (forN r (fun i => write i (0 : ZMod p)) fun _ => 0) = x0
  have hx0' : ∀ i, i < r → x0 i = 0 := by
    intro i hi'
    rw [← hx0]
    have := forN_inv (n := V.rows - r) (P := fun (_ : Nat) (t : Nat → ZMod p) => t i = 0) (s := forN r (fun i => write i (0 : ZMod p)) fun _ => 0)
      (f := fun i => write (r + i) (rx i)) (by rw [fill_loop, if_pos hi']) (by
        intro k t _ ht
        unfold write
        rw [Function.update_of_ne (by omega), ht])
    exact this
  obtain ⟨tmp, et, ht1, ht2⟩ := C99_right_partial hred h hm hn hg cross ⟨V.rows, x0⟩ rfl (hno _ _ _ (by omega))
  rw [et, andThen_ok', if_neg (by omega)]
  obtain ⟨top, ep, hp1, hp2⟩ := C99_right_partial hred ed (by omega) (by omega) b3 cross ⟨r, forN r (fun i t => write i (b.e i - t i) t) tmp.e⟩ b2.symm
    (hno _ _ _ (by omega))
  rw [ep, andThen_ok']
  generalize hx : forN r (fun i => write i (top.e i)) x0 = x
  obtain ⟨y, ey, hy1, hy2⟩ := C99_right_partial hred h hm hn hg cross ⟨V.rows, x⟩ rfl (hno _ _ _ (by omega))
  rw [ey, andThen_ok']
  dsimp only at ht2 hp2 hy2
  have hxi : ∀ j, x j = if j < r then top.e j else x0 j := fun j => by rw [← hx]; exact fill_loop r top.e x0 j
  refine ⟨x, fun i hi' => ?_, ?_⟩
  · rw [show V.rows = r + (V.rows - r) by omega, Finset.sum_range_add]
    have e1 : ∑ t ∈ Finset.range (V.rows - r), clMat U V u v rho i (r + t) * x (r + t) = tmp.e i := by
      rw [ht2 i (by omega), show Finset.range V.rows = Finset.range (r + (V.rows - r)) by congr 1; omega, Finset.sum_range_add,
        Finset.sum_eq_zero (s := Finset.range r) fun t ht => by rw [hx0' t (Finset.mem_range.1 ht), mul_zero], zero_add]
      exact Finset.sum_congr rfl fun t _ => by rw [hxi, if_neg (by omega)]
    have e2 : ∑ j ∈ Finset.range r, clMat U V u v rho i j * x j = b.e i - tmp.e i := by
      have : ∑ j ∈ Finset.range r, clMat U V u v rho i j * x j = ∑ j ∈ Finset.range r, ∑ l ∈ Finset.range r,
          clMat U V u v rho i j * (clMat Y Z v u rho j l * (b.e l - tmp.e l)) := Finset.sum_congr rfl fun j hj => by
        have hj := Finset.mem_range.1 hj
        rw [hxi, if_pos hj, hp2 j (by omega), b2, Finset.mul_sum]
        exact Finset.sum_congr rfl fun l hl => by rw [sub_loop, if_pos (Finset.mem_range.1 hl)]
      rw [this, Finset.sum_comm]
      have : ∑ l ∈ Finset.range r, ∑ j ∈ Finset.range r, clMat U V u v rho i j * (clMat Y Z v u rho j l * (b.e l - tmp.e l)) =
          ∑ l ∈ Finset.range r, (if i = l then 1 else 0) * (b.e l - tmp.e l) := Finset.sum_congr rfl fun l hl => by
        rw [← b6 i l hi' (Finset.mem_range.1 hl), Finset.sum_mul]
        exact Finset.sum_congr rfl fun j _ => by ring
      rw [this]
      simp only [ite_mul, one_mul, zero_mul, Finset.sum_ite_eq, Finset.mem_range, if_pos hi']
    rw [e1, e2]; ring
  · by_cases hc : b.len = U.rows ∧ ∀ i, i < U.rows → ∑ j ∈ Finset.range V.rows, clMat U V u v rho i j * x j = b.e i
    · refine Or.inl ⟨hc, if_neg ?_⟩
      rintro (h1 | h1)
      · exact h1 (by omega)
      · rw [List.any_eq_true] at h1
        obtain ⟨i, hi1, hi2⟩ := h1
        have hi1 := List.mem_range.1 hi1
        exact of_decide_eq_true hi2 ((hy2 i (by omega)).trans (hc.2 i (by omega)))
    · refine Or.inr ⟨hc, if_pos ?_⟩
      by_cases hl : b.len = U.rows
      · right
        have : ∃ i, i < U.rows ∧ ∑ j ∈ Finset.range V.rows, clMat U V u v rho i j * x j ≠ b.e i := by
          by_contra hcc
          push Not at hcc
          exact hc ⟨hl, hcc⟩
        obtain ⟨i, hi1, hi2⟩ := this
        rw [List.any_eq_true]
        refine ⟨i, List.mem_range.2 (by omega), decide_eq_true ?_⟩
        rw [hy2 i hi1]
        exact hi2
      · left; omega

/-- The vector `x` is a solution of the system. -/
def IsSolution (U V : PMat (ZMod p)) (u v rho : ZMod p) (b x : NVec (ZMod p)) : Prop :=
  x.len = V.rows ∧ b.len = U.rows ∧ ∀ i, i < U.rows → ∑ j ∈ Finset.range V.rows, clMat U V u v rho i j * x.e j = b.e i

/-- **C101**. A vector `x` returned by `solve_grp` with the value 1 is empty, or a solution of the system.  If the matrix is not zero
    and has generic rank profile, the function returns 1, and `x` is a solution if there is one, whatever the random choices.
    Partial: no overflow in the products by Toeplitz matrices is assumed (see C83), and the matrix of the last statement is not zero
    (see `C101_zero`). -/
theorem C101_solve_partial (hred : RedOK red) (h : CLike.make U V u v rho = .ok c) (hm : 0 < U.rows) (hn : 0 < V.rows)
    (hg : V.cols = U.cols) (cross : Nat) (rnd : Nat → Nat → ZMod p) (rx : Nat → ZMod p) (ta : Int) (ha : 0 < U.cols ∨ 0 < alphaBound p ta)
    (hu : Distinct u rho (min U.rows V.rows)) (hv : Distinct v rho (min U.rows V.rows))
    (hno : ∀ a b s, s ≤ max U.rows V.rows → NoOverflow p cross a b s) (b : NVec (ZMod p)) (hb : b.len = U.rows) :
    (∀ x, c.solve red cross rnd rx ta b = .ok (some x) → x.len = 0 ∨ IsSolution U V u v rho b x) ∧
    (GenericRankProfile U.rows V.rows (clMat U V u v rho) → (∃ i j, i < U.rows ∧ j < V.rows ∧ clMat U V u v rho i j ≠ 0) →
      ∃ x, c.solve red cross rnd rx ta b = .ok (some x) ∧ ((∃ z, IsSolution U V u v rho b z) → IsSolution U V u v rho b x)) := by
  obtain ⟨o, eo, ho1, ho2⟩ := C100_invert_partial hred h hm hn hg cross rnd ta ha hu hv hno
  have hcn : c.C.n = V.rows := by
    obtain ⟨C, hC, rfl⟩ := make_clike h
    obtain ⟨-, -, -, -, -, -, hn', -, -⟩ := (cauchy_made hm hn).2.2 C hC
    exact hn'
  constructor
  · intro x hx
    have key : x.len = 0 ∨ ∃ y : NVec (ZMod p), c.right red cross ⟨V.rows, x.e⟩ = .ok y ∧ x.len = V.rows ∧ ∀ i, i < b.len → y.e i = b.e i := by
      unfold CLike.solve at hx
      rw [eo, andThen_ok'] at hx
      match o, hx with
      | none, hx => cases hx
      | some d, hx =>
        dsimp only at hx
        rw [hcn] at hx
        obtain ⟨tmp, et, -⟩ := C99_right_partial hred h hm hn hg cross ⟨V.rows, forN (V.rows - d.C.m) (fun i => write (d.C.m + i) (rx i))
          (forN d.C.m (fun i => write i (0 : ZMod p)) fun _ => 0)⟩ rfl (hno _ _ _ (by omega))
        rw [et, andThen_ok'] at hx
        split at hx
        · cases hx
        · generalize d.right red cross _ = w at hx
          cases w with
          | error => cases hx
          | ub => cases hx
          | loops => cases hx
          | ok top =>
            rw [andThen_ok'] at hx
            obtain ⟨y, ey, hy1, hy2⟩ := C99_right_partial hred h hm hn hg cross ⟨V.rows, forN d.C.m (fun i => write i (top.e i))
              (forN (V.rows - d.C.m) (fun i => write (d.C.m + i) (rx i)) (forN d.C.m (fun i => write i (0 : ZMod p)) fun _ => 0))⟩ rfl (hno _ _ _ (by omega))
            rw [ey, andThen_ok'] at hx
            split at hx
            · cases hx
              exact Or.inl rfl
            · rename_i hne
              cases hx
              refine Or.inr ⟨y, ey, rfl, fun i hi => ?_⟩
              by_contra hcc
              refine hne (Or.inr ?_)
              rw [List.any_eq_true]
              exact ⟨i, List.mem_range.2 hi, decide_eq_true hcc⟩
    rcases key with hk | ⟨y, ey, hl, hy⟩
    · exact Or.inl hk
    · obtain ⟨y', ey', hy1, hy2⟩ := C99_right_partial hred h hm hn hg cross ⟨V.rows, x.e⟩ rfl (hno _ _ _ (by omega))
      rw [ey] at ey'
      cases ey'
      exact Or.inr ⟨hl, hb, fun i hi => by rw [← hy i (by omega)]; exact (hy2 i hi).symm⟩
  · intro hgr ⟨i0, j0, hi0, hj0, hne⟩
    obtain ⟨d, r, rfl, hr1, hr2, hd, hs⟩ := ho2 hgr
    have hr0 : 0 < r := by
      by_contra hc
      obtain rfl : r = 0 := by omega
      obtain ⟨cc, hcc⟩ := hs i0 hi0
      exact hne (by rw [hcc j0 hj0, Finset.range_zero, Finset.sum_empty])
    obtain ⟨x, hx, hx2⟩ := solve_core hred h hm hn hg cross rnd rx ta hno eo hr0 hr1 hr2 hd b (by omega)
    rcases hx2 with ⟨hx2, e⟩ | ⟨hx2, e⟩
    · exact ⟨_, e, fun _ => ⟨rfl, hx2⟩⟩
    · refine ⟨_, e, fun ⟨z, hz1, hz2, hz3⟩ => absurd ⟨hb, fun i hi => ?_⟩ hx2⟩
      obtain ⟨cc, hcc⟩ := hs i hi
      have hz : ∀ w : Nat → ZMod p, ∑ j ∈ Finset.range V.rows, clMat U V u v rho i j * w j =
          ∑ l ∈ Finset.range r, cc l * ∑ j ∈ Finset.range V.rows, clMat U V u v rho l j * w j := by
        intro w
        have : ∑ j ∈ Finset.range V.rows, clMat U V u v rho i j * w j = ∑ j ∈ Finset.range V.rows, ∑ l ∈ Finset.range r, cc l * (clMat U V u v rho l j * w j) :=
          Finset.sum_congr rfl fun j hj => by
            rw [hcc j (Finset.mem_range.1 hj), Finset.sum_mul]
            exact Finset.sum_congr rfl fun l _ => by ring
        rw [this, Finset.sum_comm]
        exact Finset.sum_congr rfl fun l _ => by rw [Finset.mul_sum]
      rw [← hz3 i hi, hz, hz]
      exact Finset.sum_congr rfl fun l hl => by
        have := Finset.mem_range.1 hl
        rw [hx l this, hz3 l (by omega)]

/-- **C101**. For the zero matrix, `solve_grp` stops with an error, although 0 is a solution of the system of right-hand side 0. -/
theorem C101_zero (hred : RedOK red) (h : CLike.make U V u v rho = .ok c) (hm : 0 < U.rows) (hn : 0 < V.rows)
    (hg : V.cols = U.cols) (cross : Nat) (rnd : Nat → Nat → ZMod p) (rx : Nat → ZMod p) (ta : Int) (ha : 0 < U.cols)
    (hu : Distinct u rho (min U.rows V.rows)) (hv : Distinct v rho (min U.rows V.rows))
    (hno : ∀ a b s, s ≤ max U.rows V.rows → NoOverflow p cross a b s) (b : NVec (ZMod p))
    (h0 : ∀ i j, i < U.rows → j < V.rows → clMat U V u v rho i j = 0) : c.solve red cross rnd rx ta b = .error := by
  obtain ⟨hr, hok, hm', hcn, o, ho, eo, -⟩ := invert_core hred h hm hn hg cross rnd ta (Or.inl ha) hu hv hno
  have hgr : GenericRankProfile U.rows V.rows (clMat U V u v rho) :=
    ⟨0, by omega, by omega, fun j hj v _ i hi => by omega, fun i hi => ⟨fun _ => 0, fun j hj => by rw [h0 i j hi hj, Finset.range_zero, Finset.sum_empty]⟩⟩
  match o, ho, eo with
  | none, ho, _ => exact absurd hgr (ho.no rfl)
  | some (r, Yp, Zp), ho, eo =>
    obtain ⟨a1, a2, a3, a4, a5, a6, hh, hs⟩ := ho.yes r Yp Zp rfl
    have hr0 : r = 0 := by
      by_contra hc
      have := hh.nons (fun _ => 1) (fun i hi => Finset.sum_eq_zero fun j hj => by
        have hj := Finset.mem_range.1 hj
        have := h0 i j (by omega) (by omega)
        unfold clMat at this
        rw [this, zero_mul]) 0 (by omega)
      exact one_ne_zero this
    dsimp only at eo
    rw [make_zero Yp Zp (by omega) (by omega), andThen_ok'] at eo
    unfold CLike.solve
    rw [eo, andThen_ok']
    dsimp only
    rw [hcn]
    obtain ⟨tmp, et, -⟩ := C99_right_partial hred h hm hn hg cross ⟨V.rows, forN (V.rows - 0) (fun i => write (0 + i) (rx i))
      (forN 0 (fun i => write i (0 : ZMod p)) fun _ => 0)⟩ rfl (hno _ _ _ (by omega))
    rw [et, andThen_ok', if_neg (by omega)]
    have : ∀ w, CLike.right ⟨Yp, Zp, ⟨v, u, rho, 0, 0, Band.empty, fun _ => 0⟩⟩ red cross ⟨0, w⟩ = .error := by
      intro w
      unfold CLike.right
      dsimp only
      rw [if_neg (by omega), a4, show U.cols = (U.cols - 1) + 1 by omega]
      have he : ∀ w, (Cauchy.mk v u rho 0 0 Band.empty (fun _ => 0) : Cauchy p).right red cross ⟨0, w⟩ = .error := fun w => by
        obtain ⟨c', e1, e2⟩ := C85_empty v u rho red cross w
        cases e1
        exact e2
      have hl : ∀ k s, loopOut (k + 1) (fun i (out : Nat → ZMod p) => andThen ((Cauchy.mk v u rho 0 0 Band.empty (fun _ => 0) : Cauchy p).right red cross
          ⟨0, forN 0 (fun j => write j (Zp.e (j, i) * w j)) fun _ => 0⟩) fun newOut =>
          .ok (forN 0 (fun j out => write j (out j + Yp.e (j, i) * newOut.e j) out) out)) s = .error := by
        intro k
        induction k with
        | zero => intro s; unfold loopOut loopOut; rw [andThen_ok']; dsimp only; rw [he]; rfl
        | succ k ih => intro s; unfold loopOut; rw [ih]; rfl
      rw [hl]; rfl
    rw [this]; rfl

end PML.Ntl.CLike
