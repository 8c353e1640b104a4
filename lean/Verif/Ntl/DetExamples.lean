import Verif.Ntl.DetGeneric

/-!
# Approximant bases at order 1, and two matrices of dimension 5
-/

namespace PML.Ntl.Det
open Polynomial PML.Ntl.Utils PML.Ntl.Inv PML.Ntl.Solve PML.Ntl.Mbasis PML.Approx.Spec

variable {F : Type} [Field F] [DecidableEq F]

/-- With order 1, each row of the basis is constant, or is that of `X` times the identity. -/
theorem order_one {N : Nt F} (hN : N.Ok) (app0 pmat : PMat F[X]) (s : Nat → Int) (hm : 0 < pmat.rows) (P : PMat F[X]) (t : Nat → Int)
    (h : rescomp N app0 pmat 1 s = .ok (P, t)) : ∀ i, i < pmat.rows →
    (∀ l, l < pmat.rows → ∃ c, P.e (i, l) = C c) ∨ ∀ l, l < pmat.rows → P.e (i, l) = if i = l then X else 0 := by
  have hpc := (C65_conv_order pmat pmat 1 0 0 0 fun _ _ => 0).1.2
  have hone : ∀ i l, i < pmat.rows → l < pmat.rows → (start (F := F) pmat.rows s).poly i l = if i = l then 1 else 0 := by
    intro i l _ _
    ext k
    unfold State.poly start
    dsimp only
    rw [ofCoeffs_coeff]
    by_cases hk : k < 1
    · have : k = 0 := by omega
      subst this
      rw [if_pos hk]
      split_ifs with h1 h2 h2
      · rw [coeff_one, if_pos rfl]
      · exact absurd h1.2 h2
      · exact absurd ⟨rfl, h2⟩ h1
      · rw [coeff_zero]
    · rw [if_neg hk]
      split_ifs
      · rw [coeff_one, if_neg (by omega)]
      · rw [coeff_zero]
  unfold rescomp at h
  dsimp only at h
  rw [if_neg (by omega), if_neg (by omega)] at h
  unfold rescompLoop at h
  dsimp only at h
  have hs := start_ok pmat.rows pmat.cols (fun i j => pmat.e (i, j)) s
  have hres : ∀ i j, i < pmat.rows → j < pmat.cols → (convToCoeffsOrder pmat 1).2 (0, (i, j)) = resid pmat.rows (start pmat.rows s).poly (fun i j => pmat.e (i, j)) 0 i j := by
    intro i j hi hj
    rw [resid_start _ _ _ _ _ _ hi]
    exact hpc 0 i j one_pos hi hj
  have hp := sortBy_spec s pmat.rows
  obtain ⟨w1, -⟩ := swap_loop hp (fun _ _ => 0) fun i j => (convToCoeffsOrder pmat 1).2 (0, (i, j))
  have hst : (start (F := F) pmat.rows s).shift = s := rfl
  rw [hst] at h
  generalize (forN pmat.rows (fun i (st : (Nat → Nat → F) × (Nat → Nat → F)) =>
      (write i (st.2 ((sortBy s pmat.rows).getD i 0)) st.1, write ((sortBy s pmat.rows).getD i 0) (st.1 i) st.2))
      ((fun _ _ => 0), fun i j => (convToCoeffsOrder pmat 1).2 (0, (i, j)))) = sw at w1 h
  obtain ⟨-, k2, k3⟩ := kernel_facts hN ⟨pmat.rows, pmat.cols, fun ij => sw.1 ij.1 ij.2⟩
  generalize N.ker ⟨pmat.rows, pmat.cols, fun ij => sw.1 ij.1 ij.2⟩ = pk at k2 k3 h
  dsimp only at k2 k3
  by_cases hk0 : pk.rows = 0
  · rw [if_pos hk0] at h
    obtain ⟨t1, t2, t3⟩ := toPoly_spec hs ⟨0, 0, fun _ => 0⟩
    obtain ⟨l1, l2, l3⟩ := leftShift_spec (toPoly pmat.rows ⟨0, 0, fun _ => 0⟩ (start (F := F) pmat.rows s)) 1
    intro i hi
    right
    intro l hl
    have hP : P = (early pmat.rows (0 + 1) (start (F := F) pmat.rows s)).1 := by
      injection h with h
      rw [h]
    rw [hP]
    unfold early
    dsimp only
    rw [l3 i l (by omega) (by omega), t3 i l hi hl, hone i l hi hl]
    split_ifs <;> simp
  by_cases hkm : pk.rows = pmat.rows
  · rw [if_neg hk0, if_pos hkm, if_pos rfl] at h
    unfold rescompLoop at h
    obtain ⟨t1, t2, t3⟩ := toPoly_spec hs app0
    have hP : P = toPoly pmat.rows app0 (start pmat.rows s) := by
      injection h with h
      exact (congrArg Prod.fst h).symm
    intro i hi
    left
    intro l hl
    rw [hP, t3 i l hi hl, hone i l hi hl]
    exact ⟨if i = l then 1 else 0, by split_ifs <;> simp⟩
  · rw [if_neg hk0, if_neg hkm] at h
    have k3' : Spans pmat.rows pmat.cols (fun i j => (convToCoeffsOrder pmat 1).2 (0, ((sortBy s pmat.rows).getD i 0, j))) pk.rows fun r l => pk.e (r, l) := by
      intro v
      rw [← k3 v]
      refine forall_congr' fun j => forall_congr' fun _ => ?_
      have : ∑ l ∈ Finset.range pmat.rows, v l * sw.1 l j = ∑ l ∈ Finset.range pmat.rows, v l * (convToCoeffsOrder pmat 1).2 (0, ((sortBy s pmat.rows).getD l 0, j)) :=
        Finset.sum_congr rfl fun l hl => by rw [w1 l (Finset.mem_range.1 hl)]
      rw [this]
    obtain ⟨b, e, hb⟩ := base_spec hN (A := fun i j => (convToCoeffsOrder pmat 1).2 (0, (i, j))) hp (start (F := F) pmat.rows s).kerbas pk ((start (F := F) pmat.rows s).pPiv.drop pk.rows) k2 k3'
    rw [e] at h
    simp only [andThen] at h
    rw [if_pos trivial] at h
    unfold rescompLoop at h
    obtain ⟨u1, -, -, u4, u5⟩ := usual_ok hs hres hb fun _ => rfl
    obtain ⟨t1, t2, t3⟩ := toPoly_spec u1 app0
    have hP : P = toPoly pmat.rows app0 (usual pmat.rows pk.rows b (start pmat.rows s)) := by
      injection h with h
      exact (congrArg Prod.fst h).symm
    intro i hi
    by_cases hex : ∃ r, r < pk.rows ∧ b.pos r = i
    · left
      obtain ⟨r, hr, rfl⟩ := hex
      intro l hl
      rw [hP, t3 _ l hi hl, u4 r l hr hl]
      refine ⟨b.kerbas.e (r, l), ?_⟩
      rw [Finset.sum_eq_single l]
      · rw [hone l l hl hl, if_pos rfl, mul_one]
      · intro x hx hne
        rw [hone x l (Finset.mem_range.1 hx) hl, if_neg hne, mul_zero]
      · intro h; exact absurd (Finset.mem_range.2 hl) h
    · right
      intro l hl
      rw [hP, t3 _ l hi hl, u5 i l hi hl fun r hr e => hex ⟨r, hr, e⟩, hone i l hi hl]
      split_ifs <;> simp

/-- The same for `pmbasis`, with few columns. -/
theorem pmbasis_one {C : Calls F} (hC : C.Ok) (app0 pmat : PMat F[X]) (s : Nat → Int) (hm : 0 < pmat.rows) (hn : pmat.cols ≤ pmat.rows / 2 + 1) :
    ∃ P t, pmbasis C.nt C.mid C.mul C.thr 1 app0 pmat 1 s = .ok (P, t) ∧ IsMinBasis pmat 1 s P t ∧ ∀ i, i < pmat.rows →
    (∀ l, l < pmat.rows → ∃ c, P.e (i, l) = Polynomial.C c) ∨ ∀ l, l < pmat.rows → P.e (i, l) = if i = l then X else 0 := by
  obtain ⟨P, t, h1, h2⟩ := C76_pmbasis_partial hC.nt hC.mid hC.mul hC.thr app0 pmat 1 s hm (Or.inl one_pos)
  refine ⟨P, t, h1, h2, order_one hC.nt app0 pmat s hm P t ?_⟩
  unfold pmbasis mbasis at h1
  have := hC.thr
  rwa [if_pos (by omega), if_neg (by omega)] at h1

/-! ### Matrices of dimension 5 whose left columns are unit vectors -/

/-- The left columns are the unit vectors `a` and `b`. -/
structure UnitLeft (a b : Nat) (pmat : PMat F[X]) : Prop where
  rows : pmat.rows = 5
  ha : a < 5
  hb : b < 5
  ne : a ≠ b
  left : ∀ i, i < 5 → pmat.e (i, 0) = if i = a then 1 else 0
  right : ∀ i, i < 5 → pmat.e (i, 1) = if i = b then 1 else 0

omit [DecidableEq F] in
theorem UnitLeft.deg {a b : Nat} {pmat : PMat F[X]} (h : UnitLeft a b pmat) : deg (columns 0 2 pmat) = 0 := by
  have hr := h.rows
  have he : ∀ i j, i < pmat.rows → j < 2 → (columns 0 2 pmat).e (i, j) = if (j = 0 ∧ i = a) ∨ (j = 1 ∧ i = b) then 1 else 0 := by
    intro i j hi hj
    rw [columns_e 0 2 pmat i j hi hj]
    obtain rfl | rfl : j = 0 ∨ j = 1 := by omega
    · rw [h.left i (by omega)]; simp
    · rw [h.right i (by omega)]; simp
  have h1 : Utils.deg (columns 0 2 pmat) < (1 : Nat) := (deg_lt_iff _ 1).2 fun i j hi hj k hk => by
    rw [he i j hi hj]
    split_ifs
    · rw [coeff_one, if_neg (by omega)]
    · rw [coeff_zero]
  have h2 := (deg_spec (columns 0 2 pmat)).1
  by_contra hne
  have := (deg_neg_iff (columns 0 2 pmat)).1 (by omega) a 0 (by show a < pmat.rows; have := h.ha; omega) (by show 0 < 2; omega)
  rw [he a 0 (by have := h.ha; omega) (by omega)] at this
  simp at this

omit [DecidableEq F] in
theorem UnitLeft.order {C : Calls F} (hC : C.Ok) {a b : Nat} {pmat : PMat F[X]} (h : UnitLeft a b pmat) : order C 5 (columns 0 2 pmat) = 1 := by
  unfold Det.order
  have h0 : C.rd 0 = 0 := by simpa using hC.rd.int 0 (by norm_num)
  rw [h.deg]
  simp [h0]

omit [DecidableEq F] in
/-- Every row of the basis has entries `a` and `b` divisible by `X`; rows `a` and `b` are those of `X` times the
    identity; in the other ones, entries `a` and `b` are zero. -/
theorem UnitLeft.basis {a b : Nat} {pmat P : PMat F[X]} {t : Nat → Int} (h : UnitLeft a b pmat) (hP : IsMinBasis (columns 0 2 pmat) 1 (fun _ => 0) P t)
    (h1 : ∀ i, i < pmat.rows → (∀ l, l < pmat.rows → ∃ c, P.e (i, l) = C c) ∨ ∀ l, l < pmat.rows → P.e (i, l) = if i = l then X else 0) :
    (∀ i l, i = a ∨ i = b → l < 5 → P.e (i, l) = if i = l then X else 0) ∧
    (∀ i, i < 5 → i ≠ a → i ≠ b → P.e (i, a) = 0 ∧ P.e (i, b) = 0) := by
  have hr := h.rows
  have ha := h.ha
  have hb := h.hb
  have hdiv : ∀ i, i < 5 → X ∣ P.e (i, a) ∧ X ∣ P.e (i, b) := by
    intro i hi
    have hbas : IsApproximantBasis (mat pmat.rows 2 (columns 0 2 pmat)) 1 (mat pmat.rows pmat.rows P) := hP.basis
    have happ := (hbas.generates (mat pmat.rows pmat.rows P ⟨i, by omega⟩)).2 ⟨Pi.single (⟨i, by omega⟩ : Fin pmat.rows) 1, by rw [Matrix.single_one_vecMul]; rfl⟩
    have key : ∀ (j : Fin 2) (x : Nat) (hx : x < 5), (∀ l, l < 5 → pmat.e (l, j) = if l = x then 1 else 0) → X ∣ P.e (i, x) := by
      intro j x hx hl
      have := happ j
      rw [pow_one] at this
      change X ∣ ∑ l : Fin pmat.rows, P.e (i, l) * (columns 0 2 pmat).e (l, j) at this
      rw [Finset.sum_eq_single (⟨x, by omega⟩ : Fin pmat.rows)] at this
      · rw [columns_e 0 2 pmat x j (by omega) j.2] at this
        change X ∣ P.e (i, x) * pmat.e (x, j) at this
        rwa [hl x hx, if_pos rfl, mul_one] at this
      · intro l _ hne
        rw [columns_e 0 2 pmat l j l.2 j.2]
        change _ * pmat.e (l, j) = 0
        rw [hl l (by omega), if_neg (fun e => hne (Fin.ext e)), mul_zero]
      · intro h; exact absurd (Finset.mem_univ _) h
    exact ⟨key 0 a ha fun l hl => h.left l hl, key 1 b hb fun l hl => h.right l hl⟩
  have hC0 : ∀ (p : F[X]), X ∣ p → (∃ c, p = Polynomial.C c) → p = 0 := by
    rintro _ hX ⟨c, rfl⟩
    rw [X_dvd_iff, coeff_C_zero] at hX
    rw [hX, C_0]
  refine ⟨fun i l hi hl => ?_, fun i hi hia hib => ?_⟩
  · have hi5 : i < 5 := by rcases hi with rfl | rfl <;> assumption
    rcases h1 i (by omega) with hc | hx
    · have h0 : P.e (i, i) = 0 := by
        refine hC0 _ ?_ (hc i (by omega))
        rcases hi with rfl | rfl
        · exact (hdiv _ hi5).1
        · exact (hdiv _ hi5).2
      exact absurd h0 (hP.pivot i (by show i < pmat.rows; omega)).nonzero
    · exact hx l (by omega)
  · rcases h1 i (by omega) with hc | hx
    · exact ⟨hC0 _ (hdiv i hi).1 (hc a (by omega)), hC0 _ (hdiv i hi).2 (hc b (by omega))⟩
    · rw [hx a (by omega), hx b (by omega), if_neg hia, if_neg hib]
      exact ⟨rfl, rfl⟩

/-- A matrix on which the last rows of the approximant basis do annihilate the left columns. -/
noncomputable def goodMat : PMat F[X] := ⟨5, 5, fun ij => if ij.1 = ij.2 then (if ij.1 = 2 then X + 1 else if ij.1 = 3 then X else 1) else if ij = (2, 3) then 1 else 0⟩

omit [DecidableEq F] in
theorem goodMat_unit : UnitLeft 0 1 (goodMat (F := F)) := by
  refine ⟨rfl, by omega, by omega, by omega, fun i hi => ?_, fun i hi => ?_⟩ <;> unfold goodMat <;> dsimp only <;> interval_cases i <;> simp

omit [DecidableEq F] in
theorem goodMat_det : detN 5 (goodMat (F := F)).e = (X + 1) * X := by
  unfold detN goodMat
  rw [Matrix.det_of_isUpperTriangular]
  · simp [Fin.prod_univ_succ]
  · intro i j hij
    have : (j : Nat) < i := hij
    simp only [Matrix.of_apply]
    rw [if_neg (by omega), if_neg (by rw [Prod.mk.injEq]; omega)]

theorem goodMat_clean {C : Calls F} (hC : C.Ok) (fuel : Nat) : Clean C (fuel + 1) goodMat := by
  unfold Clean
  have hr : (goodMat (F := F)).rows = 5 := rfl
  have ho := goodMat_unit.order hC
  dsimp only
  rw [hr, if_neg (by omega)]
  intro app t h1 h2
  rw [show (5 / 2 : Nat) = 2 from rfl, ho, show (1 : Int).toNat = 1 from rfl] at h1
  obtain ⟨P, t', e1, hP, hrow⟩ := pmbasis_one hC ⟨0, 0, fun _ => 0⟩ (columns 0 2 (goodMat (F := F))) (fun _ => 0) (by show 0 < 5; omega) (by show 2 ≤ 5 / 2 + 1; omega)
  rw [e1] at h1
  injection h1 with h1
  subst h1
  dsimp only at h2 ⊢
  have hPc : P.cols = 5 := hP.cols
  obtain ⟨b1, b2⟩ := goodMat_unit.basis hP hrow
  constructor
  · intro i j hi hj
    refine Finset.sum_eq_zero fun l hl => ?_
    have hl' := Finset.mem_range.1 hl
    rw [lastRows_e _ _ _ _ _ hi (by omega), columns_e _ _ _ _ _ hl' hj]
    obtain ⟨c1, c2⟩ := b2 (i + 2) (by omega) (by omega) (by omega)
    obtain rfl | rfl : j = 0 ∨ j = 1 := by omega
    · rw [goodMat_unit.left l hl']
      split_ifs with e
      · subst e; rw [c1, zero_mul]
      · rw [mul_zero]
    · rw [goodMat_unit.right l hl']
      split_ifs with e
      · subst e; rw [c2, zero_mul]
      · rw [mul_zero]
  · obtain ⟨T, e2, hT⟩ := hC.mul (lastRows (5 / 2) (5 - 5 / 2) P) (columns (5 / 2) (5 - 5 / 2) (goodMat (F := F))) hPc (by show 0 < P.cols; omega)
    rw [h2] at e2
    injection e2 with e2
    subst e2
    have : t.rows = 3 := hT.1
    unfold Clean
    rw [if_pos (by omega)]
    trivial

/-- A matrix on which they do not. -/
noncomputable def badMat : PMat F[X] := ⟨5, 5, fun ij => if ij = (0, 2) then (X + 1) ^ 2 else
  if ij = (1, 3) ∨ ij = (2, 4) ∨ ij = (3, 0) ∨ ij = (3, 2) ∨ ij = (4, 1) ∨ ij = (4, 3) then 1 else 0⟩

omit [DecidableEq F] in
theorem badMat_unit : UnitLeft 3 4 (badMat (F := F)) := by
  refine ⟨rfl, by omega, by omega, by omega, fun i hi => ?_, fun i hi => ?_⟩ <;> unfold badMat <;> dsimp only <;> interval_cases i <;> simp

omit [DecidableEq F] in
theorem badMat_det : detN 5 (badMat (F := F)).e = (X + 1) ^ 2 := by
  have := minorsRec_spec 5 (badMat (F := F)).e (by omega)
  unfold detN badMat
  simp [Matrix.det_succ_row_zero, Fin.sum_univ_succ, Fin.succAbove]

theorem badMat_result {C : Calls F} (hC : C.Ok) (det0 : F[X]) (fuel : Nat) : ∃ c : F, c ≠ 0 ∧ generic C det0 (fuel + 1) badMat 2 = .ok (Polynomial.C c * X ^ 2, true) := by
  have hr : (badMat (F := F)).rows = 5 := rfl
  have ho := badMat_unit.order hC
  unfold generic
  dsimp only
  rw [hr, if_neg (by omega), show (5 / 2 : Nat) = 2 from rfl, ho, if_neg (by omega), show (1 : Int).toNat = 1 from rfl]
  obtain ⟨P, t', e1, hP, hrow⟩ := pmbasis_one hC ⟨0, 0, fun _ => 0⟩ (columns 0 2 (badMat (F := F))) (fun _ => 0) (by show 0 < 5; omega) (by show 2 ≤ 5 / 2 + 1; omega)
  rw [e1]
  simp only [andThen]
  have hPc : P.cols = 5 := hP.cols
  obtain ⟨b1, b2⟩ := badMat_unit.basis hP hrow
  change ∀ i, i < 5 → (∀ l, l < 5 → _) ∨ ∀ l, l < 5 → _ at hrow
  obtain ⟨T, e2, hT⟩ := hC.mul (lastRows 2 (5 - 2) P) (columns 2 (5 - 2) (badMat (F := F))) hPc (by show 0 < P.cols; omega)
  rw [e2]
  simp only [ofOpt]
  -- rows 0 and 1 have their entry 2 divisible by X
  have hX : ∀ i, i < 2 → X ∣ P.e (i, 2) := by
    intro i hi
    rcases hrow i (by omega) with hc | hx
    · have hp := hP.pivot i (by show i < 5; omega)
      obtain ⟨c, hc'⟩ := hc i (by omega)
      have h0 : (P.e (i, i)).natDegree = 0 := by rw [hc', natDegree_C]
      have hd := hp.degree
      by_contra hne
      have := hp.after 2 (by show 2 < 5; omega) hi (fun h => hne (by rw [h]; exact dvd_zero _))
      rw [h0] at hd
      rw [← hd] at this
      have := Int.natCast_nonneg (P.e (i, 2)).natDegree
      omega
    · rw [hx 2 (by omega), if_neg (by omega)]; exact dvd_zero _
  have h2c : ∀ l, l < 5 → ∃ c, P.e (2, l) = Polynomial.C c := by
    rcases hrow 2 (by omega) with hc | hx
    · exact hc
    · exfalso
      have happ : IsApproximant (mat 5 2 (columns 0 2 (badMat (F := F)))) 1 (Pi.single 2 1) := by
        intro j
        rw [Matrix.single_one_vecMul]
        change _ ∣ (columns 0 2 (badMat (F := F))).e (2, j)
        rw [columns_e 0 2 badMat 2 j (by show 2 < 5; omega) j.2]
        change _ ∣ (badMat (F := F)).e (2, j)
        have : (badMat (F := F)).e (2, j) = 0 := by
          have := j.2
          obtain h | h : (j : Nat) = 0 ∨ (j : Nat) = 1 := by omega
          · rw [h, badMat_unit.left 2 (by omega)]; simp
          · rw [h, badMat_unit.right 2 (by omega)]; simp
        rw [this]
        exact dvd_zero _
      obtain ⟨u, hu⟩ := (hP.basis.generates _).1 happ
      have h1 := congrFun hu (2 : Fin 5)
      rw [Pi.single_eq_same] at h1
      have hd : (X : F[X]) ∣ 1 := by
        rw [h1]
        change X ∣ ∑ l : Fin 5, u l * P.e (l, 2)
        refine Finset.dvd_sum fun l _ => Dvd.dvd.mul_left ?_ _
        have hl := l.2
        obtain h | h | h : (l : Nat) < 2 ∨ (l : Nat) = 2 ∨ ((l : Nat) = 3 ∨ (l : Nat) = 4) := by omega
        · exact hX l h
        · rw [h, hx 2 (by omega), if_pos rfl]
        · rw [b1 l 2 h (by omega), if_neg (by omega)]
          exact dvd_zero _
      rw [X_dvd_iff] at hd
      simp at hd
  obtain ⟨c0, hc0⟩ := h2c 0 (by omega)
  obtain ⟨c1, hc1⟩ := h2c 1 (by omega)
  obtain ⟨c2, hc2⟩ := h2c 2 (by omega)
  have hne : c2 ≠ 0 := by
    rintro rfl
    exact (hP.pivot 2 (by show 2 < 5; omega)).nonzero (by show P.e (2, 2) = 0; rw [hc2, C_0])
  obtain ⟨z3, z4⟩ := b2 2 (by omega) (by omega) (by omega)
  have hTe : ∀ i j, i < 3 → j < 3 → T.e (i, j) = ∑ l ∈ Finset.range 5, P.e (i + 2, l) * (badMat (F := F)).e (l, j + 2) := by
    intro i j hi hj
    rw [hT.2.2 i j hi hj]
    show ∑ l ∈ Finset.range P.cols, _ = _
    rw [hPc]
    refine Finset.sum_congr rfl fun l hl => ?_
    rw [lastRows_e _ _ _ _ _ hi (by have := Finset.mem_range.1 hl; omega), columns_e _ _ _ _ _ (Finset.mem_range.1 hl) hj]
  have hTr : T.rows = 3 := hT.1
  have hdet : detN 3 T.e = Polynomial.C c2 * X ^ 2 := by
    have r1 : ∀ l, l < 5 → P.e (3, l) = if 3 = l then X else 0 := fun l hl => b1 3 l (Or.inl rfl) hl
    have r2 : ∀ l, l < 5 → P.e (4, l) = if 4 = l then X else 0 := fun l hl => b1 4 l (Or.inr rfl) hl
    unfold detN
    rw [Matrix.det_fin_three]
    simp only [Matrix.of_apply]
    change T.e (0, 0) * T.e (1, 1) * T.e (2, 2) - T.e (0, 0) * T.e (1, 2) * T.e (2, 1) - T.e (0, 1) * T.e (1, 0) * T.e (2, 2) +
      T.e (0, 1) * T.e (1, 2) * T.e (2, 0) + T.e (0, 2) * T.e (1, 0) * T.e (2, 1) - T.e (0, 2) * T.e (1, 1) * T.e (2, 0) = _
    simp only [hTe _ _ (show 0 < 3 by omega) (show 0 < 3 by omega), hTe _ _ (show 0 < 3 by omega) (show 1 < 3 by omega), hTe _ _ (show 0 < 3 by omega) (show 2 < 3 by omega),
      hTe _ _ (show 1 < 3 by omega) (show 0 < 3 by omega), hTe _ _ (show 1 < 3 by omega) (show 1 < 3 by omega), hTe _ _ (show 1 < 3 by omega) (show 2 < 3 by omega),
      hTe _ _ (show 2 < 3 by omega) (show 0 < 3 by omega), hTe _ _ (show 2 < 3 by omega) (show 1 < 3 by omega), hTe _ _ (show 2 < 3 by omega) (show 2 < 3 by omega)]
    simp only [Finset.sum_range_succ, Finset.sum_range_zero, Nat.reduceAdd, hc0, hc1, hc2, z3, z4, r1 _ (show 0 < 5 by omega), r1 _ (show 1 < 5 by omega), r1 _ (show 2 < 5 by omega),
      r1 _ (show 3 < 5 by omega), r1 _ (show 4 < 5 by omega), r2 _ (show 0 < 5 by omega), r2 _ (show 1 < 5 by omega), r2 _ (show 2 < 5 by omega),
      r2 _ (show 3 < 5 by omega), r2 _ (show 4 < 5 by omega)]
    simp [badMat]
    ring
  refine ⟨c2, hne, ?_⟩
  unfold generic
  dsimp only
  rw [if_pos (by omega), hTr, minors_small _ _ _ (by omega) (by omega), hdet]
  have : pdeg (Polynomial.C c2 * X ^ 2 : F[X]) = 2 := by
    rw [pdeg_ne _ (mul_ne_zero (C_ne_zero.2 hne) (pow_ne_zero _ X_ne_zero)), natDegree_C_mul_X_pow _ _ hne]
    rfl
  rw [this]
  simp

end PML.Ntl.Det
