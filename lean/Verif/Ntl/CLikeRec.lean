import Verif.Ntl.CLikeBlock

/-!
# Cauchy-like matrices: divide and conquer
-/

namespace PML.Ntl.CLike

open PML.Ntl.Utils PML.Ntl.Inv PML.Ntl.Solve PML.Ntl.Middle PML.Ntl.Struct

variable {p : Nat} [Fact p.Prime]

section
variable {K : Type} [Field K] {α : Nat} {m n k : Nat} {x y : Nat → K} {Y Z Y' Z' Y'' Z'' : Nat → Fin α → K}

/-- The leading block of size `k` is invertible, and `Y', Z'` are the generators of its inverse. -/
structure Half (k : Nat) (x y : Nat → K) (Y Z Y' Z' : Nat → Fin α → K) : Prop where
  nons : Nonsing k (mat Y Z x y)
  row : ∀ i, i < k → Y i + ∑ l ∈ Finset.range k, mat Y Z x y i l • Y' l = 0
  col : ∀ j, j < k → Z j - ∑ l ∈ Finset.range k, mat Y Z x y l j • Z' l = 0

theorem Sweep.half (h : Sweep m n k x y Y Z Y' Z') : Half k x y Y Z Y' Z' :=
  ⟨h.nons, fun i hi => by rw [h.row i (by have := h.le_m; omega), if_pos hi], fun j hj => by rw [h.col j (by have := h.le_n; omega), if_pos hj]⟩

theorem Half.congr (h : Half k x y Y Z Y' Z') (h1 : ∀ i, i < k → Y'' i = Y' i) (h2 : ∀ i, i < k → Z'' i = Z' i) : Half k x y Y Z Y'' Z'' := by
  refine ⟨h.nons, fun i hi => ?_, fun j hj => ?_⟩
  · rw [← h.row i hi]
    congr 1
    exact Finset.sum_congr rfl fun l hl => by rw [h1 l (Finset.mem_range.1 hl)]
  · rw [← h.col j hj]
    congr 1
    exact Finset.sum_congr rfl fun l hl => by rw [h2 l (Finset.mem_range.1 hl)]

theorem Half.sweep (h : Half k x y Y Z Y' Z') (hm : k ≤ m) (hn : k ≤ n) (h1 : ∀ i, i < k → Y'' i = Y' i) (h2 : ∀ i, i < k → Z'' i = Z' i)
    (h3 : ∀ i, k ≤ i → i < m → Y'' i = Y i + ∑ l ∈ Finset.range k, mat Y Z x y i l • Y' l)
    (h4 : ∀ j, k ≤ j → j < n → Z'' j = Z j - ∑ l ∈ Finset.range k, mat Y Z x y l j • Z' l) : Sweep m n k x y Y Z Y'' Z'' := by
  have h' := h.congr h1 h2
  refine ⟨hm, hn, h.nons, fun i hi => ?_, fun j hj => ?_⟩
  · by_cases hik : i < k
    · rw [if_pos hik, h'.row i hik]
    · rw [if_neg hik, h3 i (by omega) hi]
      congr 1
      exact Finset.sum_congr rfl fun l hl => by rw [h1 l (Finset.mem_range.1 hl)]
  · by_cases hjk : j < k
    · rw [if_pos hjk, h'.col j hjk]
    · rw [if_neg hjk, h4 j (by omega) hj]
      congr 1
      exact Finset.sum_congr rfl fun l hl => by rw [h2 l (Finset.mem_range.1 hl)]

theorem Half.extend {G H : Nat → Fin α → K} (h : Half k x y Y Z Y' Z') (hm : k ≤ m) (hn : k ≤ n)
    (hG : ∀ i, i < m - k → G i = Y (k + i) + ∑ l ∈ Finset.range k, mat Y Z x y (k + i) l • Y' l)
    (hH : ∀ j, j < n - k → H j = Z (k + j) - ∑ l ∈ Finset.range k, mat Y Z x y l (k + j) • Z' l) :
    Sweep m n k x y Y Z (fun i => if i < k then Y' i else G (i - k)) (fun i => if i < k then Z' i else H (i - k)) := by
  refine h.sweep hm hn (fun i hi => if_pos hi) (fun i hi => if_pos hi) (fun i hi hi' => ?_) (fun i hi hi' => ?_)
  · rw [if_neg (by omega), hG _ (by omega), show k + (i - k) = i by omega]
  · rw [if_neg (by omega), hH _ (by omega), show k + (i - k) = i by omega]

theorem Half.comp {G H G' H' A B : Nat → Fin α → K} {s : Nat} (h : Half k x y Y Z Y' Z') (hxy : ∀ i j, i < m → j < n → x i ≠ y j)
    (hG : ∀ i, i < m - k → G i = Y (k + i) + ∑ l ∈ Finset.range k, mat Y Z x y (k + i) l • Y' l)
    (hH : ∀ j, j < n - k → H j = Z (k + j) - ∑ l ∈ Finset.range k, mat Y Z x y l (k + j) • Z' l)
    (h2 : Half s (fun i => x (k + i)) (fun i => y (k + i)) G H G' H') (hm : k + s ≤ m) (hn : k + s ≤ n)
    (hy : ∀ l t, l < k → t < s → y l ≠ y (k + t)) (hx : ∀ l t, l < k → t < s → x l ≠ x (k + t))
    (hA : ∀ l, l < k → A l = Y' l + ∑ t ∈ Finset.range s, ((Y' l ⬝ᵥ H t) / (y l - y (k + t))) • G' t)
    (hB : ∀ l, l < k → B l = Z' l - ∑ t ∈ Finset.range s, ((G t ⬝ᵥ Z' l) / (x (k + t) - x l)) • H' t) :
    Half (k + s) x y Y Z (fun i => if i < k then A i else G' (i - k)) (fun i => if i < k then B i else H' (i - k)) ∧
    (Spanned (m - k) (n - k) s (mat G H (fun i => x (k + i)) fun i => y (k + i)) → Spanned m n (k + s) (mat Y Z x y)) := by
  have h1 := h.extend (m := m) (n := n) (by omega) (by omega) hG hH
  have e2 := h2.extend (m := m - k) (n := n - k)
    (G := fun i => G (s + i) + ∑ l ∈ Finset.range s, mat G H (fun i => x (k + i)) (fun i => y (k + i)) (s + i) l • G' l)
    (H := fun j => H (s + j) - ∑ l ∈ Finset.range s, mat G H (fun i => x (k + i)) (fun i => y (k + i)) l (s + j) • H' l)
    (by omega) (by omega) (fun _ _ => rfl) (fun _ _ => rfl)
  generalize hYE : (fun i => if i < s then G' i else (fun i => G (s + i) + ∑ l ∈ Finset.range s,
    mat G H (fun i => x (k + i)) (fun i => y (k + i)) (s + i) l • G' l) (i - s)) = YE at e2
  generalize hZE : (fun i => if i < s then H' i else (fun j => H (s + j) - ∑ l ∈ Finset.range s,
    mat G H (fun i => x (k + i)) (fun i => y (k + i)) l (s + j) • H' l) (i - s)) = ZE at e2
  have hYE' : ∀ i, i < s → YE i = G' i := fun i hi => by rw [← hYE]; exact if_pos hi
  have hZE' : ∀ i, i < s → ZE i = H' i := fun i hi => by rw [← hZE]; exact if_pos hi
  have sh : ∀ (a b : Nat → Fin α → K) (i : Nat), (if k + i < k then a (k + i) else b (k + i - k)) = b i := fun a b i => by
    rw [if_neg (by omega), Nat.add_sub_cancel_left]
  have hc : Sweep m n (k + s) x y Y Z (fun i => if i < k then A i else YE (i - k)) (fun i => if i < k then B i else ZE (i - k)) := by
    refine h1.comp hxy ?_ hy hx (fun l hl => ?_) (fun l hl => ?_)
    · simp only [sh]
      exact e2
    · simp only [sh, if_pos hl]
      rw [hA l hl]
      congr 1
      exact Finset.sum_congr rfl fun t ht => by rw [hYE' t (Finset.mem_range.1 ht)]
    · simp only [sh, if_pos hl]
      rw [hB l hl]
      congr 1
      exact Finset.sum_congr rfl fun t ht => by rw [hZE' t (Finset.mem_range.1 ht)]
  refine ⟨hc.half.congr (fun i hi => ?_) (fun i hi => ?_), fun hs => ?_⟩
  · by_cases hik : i < k
    · rw [if_pos hik, if_pos hik]
    · rw [if_neg hik, if_neg hik, hYE' _ (by omega)]
  · by_cases hik : i < k
    · rw [if_pos hik, if_pos hik]
    · rw [if_neg hik, if_neg hik, hZE' _ (by omega)]
  · refine hc.spanned hxy fun i j hi hi' hj hj' => ?_
    rw [if_neg (by omega), if_neg (by omega)]
    exact e2.schur_zero (fun a b ha hb => hxy _ _ (by omega) (by omega)) hs _ _ (by omega) (by omega) (by omega) (by omega)
end

/-- The constructor without columns. -/
theorem cauchy_no_cols {u v rho : ZMod p} {m : Nat} (hr : rho ≠ 0) (hm : 0 < m) (hok : CauchyOK u v rho m 1) :
    ∃ C, Cauchy.make u v rho m 0 = .ok C ∧ C.m = m ∧ C.n = 0 := by
  unfold Cauchy.make
  rw [if_neg (by omega)]
  have h : ∃ w, cauchyInverses u v rho m 0 = .ok w ∧ w.len = m - 1 := by
    unfold cauchyInverses
    rw [if_neg hr]
    by_cases h1 : m + 0 - 1 = 0
    · rw [if_pos h1]
      exact ⟨_, rfl, by dsimp only; omega⟩
    · rw [if_neg h1]
      have hne : ∀ e, e < m + 0 - 1 → cauchyDen u v rho m 0 e ≠ 0 := by
        intro e he
        have := cauchyDen_spec (u := u) (v := v) (m := m) (n := 0) hr (by omega) (m + 0 - 1 - 1 - e) (by omega)
        rw [show m + 0 - 1 - 1 - (m + 0 - 1 - 1 - e) = e by omega] at this
        rw [this, show ((m + 0 - 1 - 1 - e : Nat) : Int) - ((m : Int) - 1) = ((0 : Nat) : Int) - ((e + 1 : Nat) : Int) by omega, den_eq hr]
        exact mul_ne_zero (sub_ne_zero.2 (hok (e + 1) 0 (by omega) (by omega))) (pow_ne_zero _ (inv_ne_zero hr))
      rw [((PML.Ntl.Order.C64_inv (m + 0 - 1) (cauchyDen u v rho m 0) fun _ => 0).1 hne).1]
      exact ⟨_, rfl, by dsimp only; omega⟩
  obtain ⟨w, ew, hl⟩ := h
  rw [ew]
  obtain ⟨t, et, -⟩ := make_made w m 0 (by omega) (by omega)
  show ∃ C, (if m = 0 then Out.ub else andThen (Band.make w m 0) _) = .ok C ∧ _
  rw [if_neg (by omega), et]
  exact ⟨_, rfl, rfl, rfl⟩

theorem addProd_spec {red : Nat → ZMod p} (hred : RedOK red) {cross : Nat} {G H X : PMat (ZMod p)} {u v rho : ZMod p} (hr : rho ≠ 0)
    (hG : 0 < G.rows) (hH : H.cols = G.cols) (hX : X.cols = G.cols) (hX2 : X.rows = H.rows) (hok : CauchyOK u v rho G.rows (max H.rows 1))
    (hno : NoOverflow p cross G.rows H.rows H.rows) :
    ∃ R, addProd red cross G H X u v rho = .ok R ∧ R.rows = G.rows ∧ R.cols = G.cols ∧ ∀ i, i < G.rows → genRow G.cols R.e i =
      genRow G.cols G.e i + ∑ l ∈ Finset.range H.rows, mat (genRow G.cols G.e) (genRow G.cols H.e) (progr u rho) (progr v rho) i l • genRow G.cols X.e l := by
  unfold addProd
  by_cases h0 : H.rows = 0
  · rw [h0] at hok
    obtain ⟨C, eC, h1, h2⟩ := cauchy_no_cols hr hG hok
    unfold CLike.make
    rw [h0, eC]
    show ∃ R, andThen (CLike.rightMat ⟨G, H, C⟩ red cross newMat X) _ = .ok R ∧ _
    unfold CLike.rightMat
    dsimp only
    rw [if_pos (Or.inr h2), h1]
    show ∃ R, denseAdd G _ = .ok R ∧ _
    have ha : ∀ T : PMat (ZMod p), T.rows = G.rows → T.cols = X.cols → denseAdd G T = .ok ⟨G.rows, G.cols, fun ij => G.e ij + T.e ij⟩ := by
      intro T h1 h2
      unfold denseAdd
      rw [if_neg (by omega)]
    refine ⟨_, ha _ rfl rfl, rfl, rfl, fun i hi => ?_⟩
    rw [Finset.range_zero, Finset.sum_empty, add_zero]
    funext t
    unfold genRow
    dsimp only
    rw [loop2_at G.rows X.cols (fun _ _ => (0 : ZMod p)) _ i t hi (by have := t.2; omega), add_zero]
  · obtain ⟨c, ec, -⟩ := (C99_constructor G H u v rho hG (by omega)).1 ⟨hr, fun i j hi hj => hok i j hi (by omega)⟩
    rw [ec]
    obtain ⟨R, eR, h1, h2, h3⟩ := C99_right_matrix_partial hred ec hG (by omega) hH cross newMat X hX2 hno
    show ∃ R, andThen (c.rightMat red cross newMat X) _ = .ok R ∧ _
    rw [eR]
    show ∃ R', denseAdd G R = .ok R' ∧ _
    unfold denseAdd
    rw [if_neg (by omega)]
    refine ⟨_, rfl, rfl, rfl, fun i hi => ?_⟩
    funext t
    show G.e (i, t) + R.e (i, t) = _
    rw [h3 i t hi (by have := t.2; omega)]
    simp only [Pi.add_apply, Finset.sum_apply, Pi.smul_apply, smul_eq_mul]
    rfl

/-- What an inversion function returns. -/
structure RecOK (m n α : Nat) (x y : Nat → ZMod p) (Y Z : Nat → Fin α → ZMod p) (o : Res p) : Prop where
  no : o = none → ¬GenericRankProfile m n (mat Y Z x y)
  yes : ∀ r Y' Z', o = some (r, Y', Z') → r ≤ m ∧ r ≤ n ∧ Y'.rows = r ∧ Y'.cols = α ∧ Z'.rows = r ∧ Z'.cols = α ∧
    Half r x y Y Z (genRow α Y'.e) (genRow α Z'.e) ∧ (GenericRankProfile m n (mat Y Z x y) → Spanned m n r (mat Y Z x y))

theorem Exact.recOK {m n α : Nat} {x y : Nat → ZMod p} {Y Z : Nat → Fin α → ZMod p} {o : Option (Nat × (Nat × Nat → ZMod p) × (Nat × Nat → ZMod p))}
    (h : Exact m n x y Y Z o) : RecOK m n α x y Y Z (takeRows α o) := by
  cases o with
  | none => exact ⟨fun _ => h.no rfl, fun r Y' Z' e => by cases e⟩
  | some t =>
    obtain ⟨r, Y', Z'⟩ := t
    obtain ⟨h1, h2⟩ := h.yes r Y' Z' rfl
    refine ⟨fun e => (by cases e), ?_⟩
    rintro r' Y'' Z'' e
    cases e
    exact ⟨h1.le_m, h1.le_n, rfl, rfl, rfl, rfl, h1.half, fun _ => h2⟩

theorem progr_shift (u rho : ZMod p) (r i : Nat) : progr (u * rho ^ r) rho i = progr u rho (r + i) := by
  unfold progr; rw [pow_add, mul_assoc]

theorem mat_neg {α : Nat} (Y Z : Nat → Fin α → ZMod p) (x y : Nat → ZMod p) (i j : Nat) : mat Z Y y x j i = -mat Y Z x y i j := by
  unfold mat
  rw [dotProduct_comm, ← neg_sub (x i), div_neg]

theorem andThen_ok' {A B : Type} (a : A) (f : A → Out B) : andThen (Out.ok a) f = f a := rfl

theorem invertRec_spec {red : Nat → ZMod p} (hred : RedOK red) (cross : Nat) (rnd : Nat → Nat → ZMod p) {rho : ZMod p} (hr : rho ≠ 0) {thresh : Nat}
    (hth : 2 ≤ thresh) (ta : Int) {B : Nat} (hno : ∀ a b s, s ≤ B → NoOverflow p cross a b s) : ∀ (f : Nat) (Y Z : PMat (ZMod p)) (u v : ZMod p) (c : Nat),
    min Y.rows Z.rows < f → 0 < Y.rows → 0 < Z.rows → Y.rows ≤ B → Z.rows ≤ B → 0 < Y.cols ∨ 0 < ta → Z.cols = Y.cols →
    CauchyOK u v rho Y.rows Z.rows → Distinct u rho (min Y.rows Z.rows) → Distinct v rho (min Y.rows Z.rows) →
    ∃ c' o, invertRec red cross rnd rho thresh ta f Y Z u v c = .ok (c', o) ∧
      RecOK Y.rows Z.rows Y.cols (progr u rho) (progr v rho) (genRow Y.cols Y.e) (genRow Y.cols Z.e) o ∧
      (thresh ≤ min Y.rows Z.rows → (∀ c j, rnd c j = 0) → ∀ N r, N = (min Y.rows Z.rows + 1) / 2 → r < N →
        GenericRankProfile N N (mat (genRow Y.cols Y.e) (genRow Y.cols Z.e) (progr u rho) (progr v rho)) →
        Spanned N N r (mat (genRow Y.cols Y.e) (genRow Y.cols Z.e) (progr u rho) (progr v rho)) → o ≠ none) := by
  intro f
  induction f with
  | zero => intro Y Z u v c h; omega
  | succ f ih =>
  intro Y Z u v c hf hm hn hmB hnB ha hg hok hu hv
  have hxy : ∀ i j, i < Y.rows → j < Z.rows → progr u rho i ≠ progr v rho j := hok
  unfold invertRec
  dsimp only
  by_cases hN : min Y.rows Z.rows < thresh
  · rw [if_pos hN]
    by_cases hb : (Y.cols : Int) < ta ∨ min Y.rows Z.rows < Y.cols
    · rw [if_pos hb]
      obtain ⟨o, eo, h1, -⟩ := invertRaw_spec hr hm hn hg hok hu hv
      rw [eo]
      exact ⟨c, _, rfl, h1.recOK, fun h => by omega⟩
    · rw [if_neg hb]
      obtain ⟨o, eo, h1⟩ := invertBlock_spec hr hm hn (by omega) hg hok hu hv
      rw [eo]
      exact ⟨c, _, rfl, h1.recOK, fun h => by omega⟩
  rw [if_neg hN]
  generalize hN1 : (min Y.rows Z.rows + 1) / 2 = N1
  obtain ⟨c1, o1, e1, h1, -⟩ := ih (firstRows N1 Y) (firstRows N1 Z) u v c (by show min N1 N1 < f; omega) (by show 0 < N1; omega) (by show 0 < N1; omega)
    (by show N1 ≤ B; omega) (by show N1 ≤ B; omega) ha hg (fun i j (hi : i < N1) (hj : j < N1) => hok i j (by omega) (by omega))
    (fun i j hij (hj : j < min N1 N1) => hu i j hij (by omega)) (fun i j hij (hj : j < min N1 N1) => hv i j hij (by omega))
  rw [e1, andThen_ok']
  replace h1 : RecOK N1 N1 Y.cols (progr u rho) (progr v rho) (genRow Y.cols Y.e) (genRow Y.cols Z.e) o1 := h1
  match o1, h1 with
  | none, h1 => exact ⟨_, _, rfl, ⟨fun _ hg' => h1.no rfl (hg'.block (by omega) (by omega)), fun r Y' Z' e => (by cases e)⟩,
      fun _ _ N r hN _ hg' => absurd (by rwa [hN] at hg') (h1.no rfl)⟩
  | some (r, Yp, Zp), h1 =>
  obtain ⟨hr1, -, hYr, hYc, hZr, hZc, hh, hsp⟩ := h1.yes r Yp Zp rfl
  dsimp only
  obtain ⟨G2, eG, hGr, hGc, hG⟩ := addProd_spec hred (cross := cross) (G := dropRows r Y) (H := firstRows r Z) (X := Yp) (u := u * rho ^ r) (v := v) hr
    (by show 0 < Y.rows - r; omega) hg hYc hYr (fun i j (hi : i < Y.rows - r) (hj : j < max r 1) => by
      have := hok (r + i) j (by omega) (by omega)
      rwa [pow_add, ← mul_assoc] at this) (hno _ _ _ (by show r ≤ B; omega))
  obtain ⟨H2, eH, hHr, hHc, hH⟩ := addProd_spec hred (cross := cross) (G := dropRows r Z) (H := firstRows r Y) (X := Zp) (u := v * rho ^ r) (v := u) hr
    (by show 0 < Z.rows - r; omega) hg.symm (by rw [hZc]; exact hg.symm) hZr (fun i j (hi : i < Z.rows - r) (hj : j < max r 1) => by
      have := hok j (r + i) (by omega) (by omega)
      rw [pow_add, ← mul_assoc] at this
      exact this.symm) (hno _ _ _ (by show r ≤ B; omega))
  rw [eG, andThen_ok', eH, andThen_ok']
  replace hGr : G2.rows = Y.rows - r := hGr
  replace hGc : G2.cols = Y.cols := hGc
  replace hHr : H2.rows = Z.rows - r := hHr
  replace hHc : H2.cols = Z.cols := hHc
  have hG' : ∀ i, i < Y.rows - r → genRow Y.cols G2.e i = genRow Y.cols Y.e (r + i) + ∑ l ∈ Finset.range r,
      mat (genRow Y.cols Y.e) (genRow Y.cols Z.e) (progr u rho) (progr v rho) (r + i) l • genRow Y.cols Yp.e l := by
    intro i hi
    refine (hG i hi).trans ?_
    have e : ∀ i, genRow Y.cols (dropRows r Y).e i = genRow Y.cols Y.e (r + i) := fun i => by
      funext t; show Y.e (i + r, _) = Y.e (r + i, _); rw [Nat.add_comm]
    show genRow Y.cols (dropRows r Y).e i + ∑ l ∈ Finset.range r, mat (genRow Y.cols (dropRows r Y).e) (genRow Y.cols Z.e) (progr (u * rho ^ r) rho)
      (progr v rho) i l • genRow Y.cols Yp.e l = _
    unfold mat
    simp only [e, progr_shift]
  have hH' : ∀ j, j < Z.rows - r → genRow Y.cols H2.e j = genRow Y.cols Z.e (r + j) - ∑ l ∈ Finset.range r,
      mat (genRow Y.cols Y.e) (genRow Y.cols Z.e) (progr u rho) (progr v rho) l (r + j) • genRow Y.cols Zp.e l := by
    intro i hi
    have := hH i hi
    rw [show (dropRows r Z).cols = Y.cols from hg] at this
    refine this.trans ?_
    have e : ∀ i, genRow Y.cols (dropRows r Z).e i = genRow Y.cols Z.e (r + i) := fun i => by
      funext t; show Z.e (i + r, _) = Z.e (r + i, _); rw [Nat.add_comm]
    rw [e, sub_eq_add_neg, ← Finset.sum_neg_distrib]
    congr 1
    refine Finset.sum_congr rfl fun l _ => ?_
    rw [← neg_smul, ← mat_neg]
    show mat (genRow Y.cols (dropRows r Z).e) (genRow Y.cols Y.e) (progr (v * rho ^ r) rho) (progr u rho) i l • _ = _
    unfold mat
    simp only [e, progr_shift]
  have hsw := hh.extend (m := Y.rows) (n := Z.rows) (by omega) (by omega) hG' hH'
  by_cases hrN : r < N1
  · rw [if_pos hrN]
    have hfull : GenericRankProfile Y.rows Z.rows (mat (genRow Y.cols Y.e) (genRow Y.cols Z.e) (progr u rho) (progr v rho)) →
        Spanned Y.rows Z.rows r (mat (genRow Y.cols Y.e) (genRow Y.cols Z.e) (progr u rho) (progr v rho)) := by
      intro hgr
      have hs1 := hsp (hgr.block (by omega) (by omega))
      obtain ⟨R, hR1, hR2, hR3, hR4⟩ := hgr
      have h2 := hh.nons.le_of_spanned (by omega) (by omega) hR4
      by_cases h3 : R = r
      · rwa [h3] at hR4
      · have := (hR3 (r + 1) (by omega)).le_of_spanned (by omega) (by omega) hs1
        omega
    generalize hany : (List.range (Y.rows - r)).any _ = b
    cases b with
    | true =>
      refine ⟨_, _, rfl, ⟨fun _ hgr => ?_, fun r Y' Z' e => (by cases e)⟩, fun _ h0 => ?_⟩
      swap
      · exfalso
        rw [List.any_eq_true] at hany
        obtain ⟨i, hi, hne⟩ := hany
        refine of_decide_eq_true hne ?_
        simp only [h0, zero_mul, Finset.sum_const_zero, mul_zero]
      have h0 := hsw.schur_zero hxy (hfull hgr)
      rw [List.any_eq_true] at hany
      obtain ⟨i, hi, hne⟩ := hany
      rw [List.mem_range] at hi
      refine of_decide_eq_true hne ?_
      simp only [Finset.mul_sum]
      rw [Finset.sum_comm]
      refine Finset.sum_eq_zero fun j hj => ?_
      have := h0 (r + i) (r + j) (by omega) (by omega) (by omega) (by have := Finset.mem_range.1 hj; omega)
      rw [if_neg (by omega), if_neg (by omega), Nat.add_sub_cancel_left, Nat.add_sub_cancel_left] at this
      have e : ∑ t ∈ Finset.range Y.cols, G2.e (i, t) * (rnd c1 j * H2.e (j, t)) = rnd c1 j * (genRow Y.cols G2.e i ⬝ᵥ genRow Y.cols H2.e j) := by
        rw [dotProduct, Finset.mul_sum, ← Fin.sum_univ_eq_sum_range (fun t => G2.e (i, t) * (rnd c1 j * H2.e (j, t)))]
        exact Finset.sum_congr rfl fun t _ => by unfold genRow; ring
      rw [e, this, mul_zero]
    | false =>
      refine ⟨_, _, rfl, ⟨fun e => (by cases e), ?_⟩, fun _ _ _ _ _ _ _ _ e => (by cases e)⟩
      rintro r' Y' Z' e
      cases e
      exact ⟨by omega, by omega, hYr, hYc, hZr, hZc, hh, hfull⟩
  · rw [if_neg hrN]
    obtain rfl : r = N1 := by omega
    have hlast : ∀ (o : Res p), thresh ≤ min Y.rows Z.rows → (∀ c j, rnd c j = 0) → ∀ N r', N = r → r' < N →
        GenericRankProfile N N (mat (genRow Y.cols Y.e) (genRow Y.cols Z.e) (progr u rho) (progr v rho)) →
        Spanned N N r' (mat (genRow Y.cols Y.e) (genRow Y.cols Z.e) (progr u rho) (progr v rho)) → o ≠ none := by
      intro o _ _ N r' hN hlt _ hs
      have := hh.nons.le_of_spanned (by omega) (by omega) hs
      omega
    have hshift : ∀ w : ZMod p, progr (w * rho ^ r) rho = fun i => progr w rho (r + i) := fun w => funext fun i => progr_shift w rho r i
    obtain ⟨c2, o2, e2, h2, -⟩ := ih G2 H2 (u * rho ^ r) (v * rho ^ r) c1 (by omega) (by omega) (by omega) (by omega) (by omega) (by omega) (by omega)
      (fun i j hi hj => by
        have := hok (r + i) (r + j) (by omega) (by omega)
        rwa [pow_add, ← mul_assoc, pow_add, ← mul_assoc] at this)
      (fun i j hij hj => by rw [progr_shift, progr_shift]; exact hu _ _ (by omega) (by omega))
      (fun i j hij hj => by rw [progr_shift, progr_shift]; exact hv _ _ (by omega) (by omega))
    rw [e2, andThen_ok']
    rw [hGc, hGr, hHr, hshift, hshift] at h2
    have hS : ∀ i j, mat (fun i => if i < r then genRow Y.cols Yp.e i else genRow Y.cols G2.e (i - r))
        (fun i => if i < r then genRow Y.cols Zp.e i else genRow Y.cols H2.e (i - r)) (progr u rho) (progr v rho) (r + i) (r + j) =
        mat (genRow Y.cols G2.e) (genRow Y.cols H2.e) (fun i => progr u rho (r + i)) (fun i => progr v rho (r + i)) i j := fun i j => by
      unfold mat
      dsimp only
      rw [if_neg (by omega), if_neg (by omega), Nat.add_sub_cancel_left, Nat.add_sub_cancel_left]
    have hprof : GenericRankProfile Y.rows Z.rows (mat (genRow Y.cols Y.e) (genRow Y.cols Z.e) (progr u rho) (progr v rho)) →
        GenericRankProfile (Y.rows - r) (Z.rows - r) (mat (genRow Y.cols G2.e) (genRow Y.cols H2.e) (fun i => progr u rho (r + i)) (fun i => progr v rho (r + i))) := by
      intro hgr
      have := hsw.profile_schur hxy hgr
      simp only [hS] at this
      exact this
    match o2, h2 with
    | none, h2 => exact ⟨_, _, rfl, ⟨fun _ hgr => h2.no rfl (hprof hgr), fun r Y' Z' e => (by cases e)⟩, hlast _⟩
    | some (s, iG2, iH2), h2 =>
    obtain ⟨hs1, hs2, hir, hic, hjr, hjc, hh2, hsp2⟩ := h2.yes s iG2 iH2 rfl
    dsimp only
    obtain ⟨Y3, eY, hY3r, hY3c, hY3⟩ := addProd_spec hred (cross := cross) (G := Yp) (H := firstRows s H2) (X := iG2) (u := v) (v := v * rho ^ r) hr
      (by omega) (by show H2.cols = _; omega) (by omega) hir (fun i j (hi : i < Yp.rows) (hj : j < max s 1) => by
        have := hv i (r + j) (by omega) (by omega)
        rw [← progr_shift] at this
        exact this) (hno _ _ _ (by show s ≤ B; omega))
    obtain ⟨Z3, eZ, hZ3r, hZ3c, hZ3⟩ := addProd_spec hred (cross := cross) (G := Zp) (H := firstRows s G2) (X := iH2) (u := u) (v := u * rho ^ r) hr
      (by omega) (by show G2.cols = _; omega) (by omega) hjr (fun i j (hi : i < Zp.rows) (hj : j < max s 1) => by
        have := hu i (r + j) (by omega) (by omega)
        rw [← progr_shift] at this
        exact this) (hno _ _ _ (by show s ≤ B; omega))
    rw [eY, andThen_ok', eZ, andThen_ok']
    obtain ⟨hc1, hc2⟩ := hh.comp (s := s) (A := genRow Y.cols Y3.e) (B := genRow Y.cols Z3.e) hxy hG' hH' hh2 (by omega) (by omega)
      (fun l t hl ht => hv l (r + t) (by omega) (by omega)) (fun l t hl ht => hu l (r + t) (by omega) (by omega))
      (fun l hl => by
        have := hY3 l (by omega)
        rw [hYc, hshift] at this
        exact this)
      (fun l hl => by
        have := hZ3 l (by omega)
        rw [hZc, hshift] at this
        refine this.trans ?_
        rw [sub_eq_add_neg, ← Finset.sum_neg_distrib]
        congr 1
        refine Finset.sum_congr rfl fun t _ => ?_
        rw [← neg_smul, ← div_neg, neg_sub, dotProduct_comm]
        rfl)
    refine ⟨_, _, rfl, ⟨fun e => (by cases e), ?_⟩, hlast _⟩
    rintro r' Y' Z' e
    cases e
    refine ⟨by omega, by omega, rfl, ?_, rfl, ?_, ?_, fun hgr => hc2 (hsp2 (hprof hgr))⟩
    · show Y3.cols = _; omega
    · show Z3.cols = _; omega
    · convert hc1 using 1
      · funext i t
        unfold genRow stack
        dsimp only
        split <;> rfl
      · funext i t
        unfold genRow stack
        dsimp only
        split <;> rfl

end PML.Ntl.CLike
