import Verif.Ntl.MosaicPre

/-!
# Mosaic matrices: linear systems (C104)
-/

namespace PML.Ntl.Mosaic

open Polynomial PML.Ntl.Utils PML.Ntl.Inv PML.Ntl.Solve PML.Ntl.Middle PML.Ntl.Struct PML.Ntl.CLike PML.Ntl.Geom

variable {p : Nat} [Fact p.Prime] {k : Kind} {g : Grid p} {nb mb : Nat} {R C : Nat → Nat} {A : Nat → Nat → NVec (ZMod p)} {M : Mosaic p}
  {E : Nat → Nat → ZMod p}

/-- **C103**. `to_cauchy_grp` returns 0 if and only if the field is too small.  Otherwise, it raises an error if no element of large
    order was drawn, runs forever if no suitable point is drawn, or returns a Cauchy-like matrix which is the mosaic matrix multiplied
    by invertible Vandermonde matrices and by diagonal random matrices (see `PreOK`). -/
theorem C103_reduction (h : Tiled g nb mb R C A) (hM : Mosaic.make g = .ok M) (hF : Full nb mb R C) (hE : IsMosaic k nb mb R C A E)
    (S : Env p) (D : Draws p) (hmp : MidOK S.mp (off R nb)) (hmp' : MidOK S.mp (off C mb)) :
    (p / 10 < max (off C mb) (off R nb) ∧ M.toCauchy k S D = .ok none) ∨
    (max (off C mb) (off R nb) ≤ p / 10 ∧
      ((M.toCauchy k S D = .error ∧ Order.elementOfOrder D.ord (2 * max (off C mb) (off R nb)) 100 true = some 0) ∨
        (M.toCauchy k S D = .loops ∧ ∃ a, Order.elementOfOrder D.ord (2 * max (off C mb) (off R nb)) 100 true = some a ∧ a ≠ 0 ∧
          ∀ t, ¬ goodC (a * a) (off R nb) (off C mb) (D.c t)) ∨
        ∃ P U V c b, M.toCauchy k S D = .ok (some P) ∧ PreOK S (off R nb) (off C mb) (k.turn (off C mb) E) P U V c b ∧ P.e = D.e ∧ P.f = D.f ∧
          ∃ a, Order.elementOfOrder D.ord (2 * max (off C mb) (off R nb)) 100 true = some a ∧ a ≠ 0 ∧ b = a * a ∧
            goodC b (off R nb) (off C mb) c ∧ ∃ t, c = D.c t)) :=
  toCauchy_spec (built_of_make h hM) hF hE S D hmp hmp'

/-- **C103**. If the field is not too small for `to_cauchy_grp`, there are suitable points for `find_c`. -/
theorem C103_point_exists (b : ZMod p) {n m : Nat} (hn : 0 < n) (h : max m n ≤ p / 10) : ∃ c, goodC b n m c :=
  exists_goodC b (by have := Nat.mul_div_le p 10; omega)

/-! ### Vandermonde matrices -/

theorem vdm_inj {mp : (ZMod p)[X] → (ZMod p)[X] → Nat → Nat → Option (ZMod p)[X]} {o : Obj (ZMod p)} {n : Nat} {pt : Nat → ZMod p}
    (ho : MultipointSpec mp o n pt) {u v : Nat → ZMod p}
    (h : ∀ i, i < n → ∑ j ∈ Finset.range n, u j * pt i ^ j = ∑ j ∈ Finset.range n, v j * pt i ^ j) (j : Nat) (hj : j < n) : u j = v j := by
  have key : ∀ u : Nat → ZMod p, u j = ∑ i ∈ Finset.range n, invMulLeft o (Pi.single j 1) i * ∑ l ∈ Finset.range n, u l * pt i ^ l := by
    intro u
    rw [Finset.sum_congr rfl fun i _ => Finset.mul_sum _ _ _, Finset.sum_comm]
    rw [Finset.sum_congr rfl fun l hl => show _ = u l * (Pi.single j 1 : Nat → ZMod p) l by
      rw [← ho.inv_mul_left (Pi.single j 1) l (Finset.mem_range.1 hl), Finset.mul_sum]
      exact Finset.sum_congr rfl fun i _ => by ring]
    rw [Finset.sum_eq_single_of_mem j (Finset.mem_range.2 hj) (fun l _ hl => by rw [Pi.single_eq_of_ne hl, mul_zero]), Pi.single_eq_same, mul_one]
  rw [key u, key v]
  exact Finset.sum_congr rfl fun i hi => by rw [h i (Finset.mem_range.1 hi)]

theorem vdm_inj' {mp : (ZMod p)[X] → (ZMod p)[X] → Nat → Nat → Option (ZMod p)[X]} {o : Obj (ZMod p)} {n : Nat} {pt : Nat → ZMod p}
    (ho : MultipointSpec mp o n pt) {u : Nat → ZMod p}
    (h : ∀ i, i < n → ∑ j ∈ Finset.range n, u j * pt i ^ j = 0) (j : Nat) (hj : j < n) : u j = 0 :=
  vdm_inj ho (u := u) (v := fun _ => 0) (fun i hi => by rw [h i hi]; simp) j hj

variable {S : Env p} {n m : Nat} {W : Nat → Nat → ZMod p} {P : Pre p} {U V : PMat (ZMod p)} {c b : ZMod p}

/-- The system for the Cauchy-like matrix. -/
theorem pre_system (hP : PreOK S n m W P U V c b) (xp : Nat → ZMod p) {i : Nat} (hi : i < n) :
    ∑ j ∈ Finset.range m, clMat U V 1 c b i j * xp j = P.e i * ∑ s ∈ Finset.range n,
      (∑ t ∈ Finset.range m, W s t * ∑ j ∈ Finset.range m, xp j * P.f j * (c * b ^ j) ^ t) * (b ^ i) ^ s := by
  rw [Finset.sum_congr rfl fun j hj => by rw [hP.entry i j hi (Finset.mem_range.1 hj)]]
  unfold bivar
  simp only [Finset.mul_sum, Finset.sum_mul]
  rw [Finset.sum_comm]
  refine Finset.sum_congr rfl fun s _ => ?_
  rw [Finset.sum_comm]
  refine Finset.sum_congr rfl fun t _ => Finset.sum_congr rfl fun j _ => ?_
  ring

theorem mul_loop {n : Nat} {f : Nat → ZMod p} {u : Nat → ZMod p} (i : Nat) :
    forN n (fun i u => write i (u i * f i) u) u i = if i < n then u i * f i else u i := by
  have := forN_inv (n := n) (P := fun n (w : Nat → ZMod p) => ∀ i, w i = if i < n then u i * f i else u i) (s := u)
    (f := fun i u => write i (u i * f i) u) (fun i => by rw [if_neg (by omega)]) (by
      intro l w hl hP i
      unfold write
      by_cases h : i = l
      · rw [h, Function.update_self, if_pos (by omega), hP, if_neg (by omega)]
      · rw [Function.update_of_ne h, hP]
        by_cases h2 : i < l
        · rw [if_pos h2, if_pos (by omega)]
        · rw [if_neg h2, if_neg (by omega)])
  exact this i

theorem PreOK.len_min (hP : PreOK S n m W P U V c b) (x : ZMod p) (h : Distinct x b (max m n)) : Distinct x b (min U.rows V.rows) := by
  intro i j hij hj
  rw [hP.rows, hP.cols] at hj
  exact h i j hij (by omega)

/-- The steps of `solve` after the reduction: `z` is the vector solved for, `y` its image. -/
theorem solve_steps (hred : RedOK S.red) (hn : 0 < n) (hm : 0 < m) (hMn : M.n = n) (hMm : M.m = m) (D : Draws p)
    (hT : M.toCauchy k S D = .ok (some P)) (hP : PreOK S n m W P U V c b)
    (hno : ∀ a b s, s ≤ max n m → NoOverflow p S.cross a b s) (rnd : Nat → Nat → ZMod p) (rx : Nat → ZMod p) (ta : Int) (rhs : NVec (ZMod p))
    (hl : n ≤ rhs.len) :
    ∃ z : NVec (ZMod p), z.len = n ∧ (∀ i, i < n → z.e i = (∑ s ∈ Finset.range n, rhs.e s * (b ^ i) ^ s) * P.e i) ∧
      (∀ xp : NVec (ZMod p), P.CL.solve S.red S.cross rnd rx ta z = .ok (some xp) → xp.len = 0 ∨ IsSolution U V 1 c b z xp) ∧
      (GenericRankProfile n m (clMat U V 1 c b) → (∃ i j, i < n ∧ j < m ∧ clMat U V 1 c b i j ≠ 0) →
        ∃ xp, P.CL.solve S.red S.cross rnd rx ta z = .ok (some xp) ∧ ((∃ w, IsSolution U V 1 c b z w) → IsSolution U V 1 c b z xp)) ∧
      ((∃ o, P.CL.solve S.red S.cross rnd rx ta z = .ok o ∧
        ((o = none ∧ M.solve k S D rnd rx ta rhs = .ok none) ∨
          (∃ xp : NVec (ZMod p), o = some xp ∧ xp.len < m ∧ M.solve k S D rnd rx ta rhs = .ub) ∨
          ∃ (xp : NVec (ZMod p)) (x : Nat → ZMod p), o = some xp ∧ m ≤ xp.len ∧
            (∀ t, t < m → x t = ∑ j ∈ Finset.range m, xp.e j * P.f j * (c * b ^ j) ^ t) ∧
            M.solve k S D rnd rx ta rhs = .ok (some ⟨m, fun i => x (k.flip m i)⟩))) ∨
        (∀ o, P.CL.solve S.red S.cross rnd rx ta z ≠ .ok o) ∧ ∀ o, M.solve k S D rnd rx ta rhs ≠ .ok o) := by
  obtain ⟨bp, eb, hb⟩ := hP.mulX.mul_right rhs.e
  have hz : ∀ i, i < n → (forN n (fun i bp => write i (bp i * P.e i) bp) bp) i = (∑ s ∈ Finset.range n, rhs.e s * (b ^ i) ^ s) * P.e i :=
    fun i hi => by rw [mul_loop, if_pos hi, hb i hi]
  have hs := C101_solve_partial (c := P.CL) hred hP.make (by rw [hP.rows]; exact hn) (by rw [hP.cols]; exact hm) hP.gens S.cross rnd rx ta
    (Or.inl hP.gens_pos) (hP.len_min _ hP.distinct_x) (hP.len_min _ hP.distinct_y)
    (fun a b s hs => hno a b s (by rw [hP.rows, hP.cols] at hs; exact hs)) ⟨n, forN n (fun i bp => write i (bp i * P.e i) bp) bp⟩ hP.rows.symm
  rw [hP.rows, hP.cols] at hs
  refine ⟨⟨n, forN n (fun i bp => write i (bp i * P.e i) bp) bp⟩, rfl, hz, hs.1, hs.2, ?_⟩
  unfold Mosaic.solve
  rw [if_neg (by rw [hMn, hMm]; exact Nat.mul_ne_zero (by omega) (by omega)), hT, andThen_ok']
  dsimp only
  rw [hMn, hMm, if_neg (by omega), eb]
  show _ ∨ _ ∧ ∀ o, andThen (P.CL.solve S.red S.cross rnd rx ta _) _ ≠ _
  cases hc : P.CL.solve S.red S.cross rnd rx ta ⟨n, forN n (fun i bp => write i (bp i * P.e i) bp) bp⟩ with
  | ok o =>
    refine Or.inl ⟨o, rfl, ?_⟩
    show (_ ∧ andThen (P.CL.solve S.red S.cross rnd rx ta _) _ = _) ∨ (∃ xp, _ ∧ _ ∧ andThen (P.CL.solve S.red S.cross rnd rx ta _) _ = _) ∨
      ∃ xp x, _ ∧ _ ∧ _ ∧ andThen (P.CL.solve S.red S.cross rnd rx ta _) _ = _
    rw [hc, andThen_ok']
    cases o with
    | none => exact Or.inl ⟨rfl, rfl⟩
    | some xp =>
      refine Or.inr ?_
      dsimp only
      by_cases hlen : xp.len < m
      · exact Or.inl ⟨xp, rfl, hlen, if_pos hlen⟩
      · refine Or.inr ?_
        obtain ⟨x, ex, hx⟩ := hP.mulY.mul_left (forN m (fun i x => write i (x i * P.f i) x) xp.e)
        refine ⟨xp, x, rfl, by omega, fun t ht => ?_, ?_⟩
        · rw [hx t ht]
          exact Finset.sum_congr rfl fun j hj => by rw [mul_loop, if_pos (Finset.mem_range.1 hj)]
        · rw [if_neg hlen, ex]; rfl
  | error => exact Or.inr ⟨fun o e => (by cases e), fun o e => (by cases e)⟩
  | ub => exact Or.inr ⟨fun o e => (by cases e), fun o e => (by cases e)⟩
  | loops => exact Or.inr ⟨fun o e => (by cases e), fun o e => (by cases e)⟩

/-- A solution of the first system gives one of the system for the mosaic matrix. -/
theorem solution_back (hP : PreOK S n m (k.turn m E) P U V c b) (he : ∀ i, i < n → P.e i ≠ 0) {rhs z xp : NVec (ZMod p)} {x : Nat → ZMod p}
    (hz : ∀ i, i < n → z.e i = (∑ s ∈ Finset.range n, rhs.e s * (b ^ i) ^ s) * P.e i) (hs : IsSolution U V 1 c b z xp)
    (hx : ∀ t, t < m → x t = ∑ j ∈ Finset.range m, xp.e j * P.f j * (c * b ^ j) ^ t) (i : Nat) (hi : i < n) :
    ∑ j ∈ Finset.range m, E i j * x (k.flip m j) = rhs.e i := by
  obtain ⟨-, -, h3⟩ := hs
  rw [hP.rows, hP.cols] at h3
  have := vdm_inj hP.mulX (u := fun s => ∑ t ∈ Finset.range m, k.turn m E s t * x t) (v := rhs.e) (fun i hi => by
    apply mul_left_cancel₀ (he i hi)
    rw [mul_comm (P.e i) (∑ j ∈ Finset.range n, rhs.e j * (b ^ i) ^ j), ← hz i hi, ← h3 i hi, pre_system hP xp.e hi]
    congr 1
    refine Finset.sum_congr rfl fun s _ => ?_
    congr 1
    exact Finset.sum_congr rfl fun t ht => by rw [hx t (Finset.mem_range.1 ht)]) i hi
  rw [← this, ← sum_flip (k := k) m]
  exact Finset.sum_congr rfl fun t ht => by rw [flip_flip (Finset.mem_range.1 ht)]; rfl

/-- And conversely. -/
theorem solution_forth (hP : PreOK S n m (k.turn m E) P U V c b) (hf : ∀ j, j < m → P.f j ≠ 0) {rhs z : NVec (ZMod p)} {x : Nat → ZMod p}
    (hzl : z.len = n) (hz : ∀ i, i < n → z.e i = (∑ s ∈ Finset.range n, rhs.e s * (b ^ i) ^ s) * P.e i)
    (hx : ∀ i, i < n → ∑ j ∈ Finset.range m, E i j * x j = rhs.e i) : ∃ w, IsSolution U V 1 c b z w := by
  have hw : ∀ t, t < m → ∑ j ∈ Finset.range m, invMulLeft P.Y (fun t => x (k.flip m t)) j / P.f j * P.f j * (c * b ^ j) ^ t = x (k.flip m t) := by
    intro t ht
    rw [← hP.mulY.inv_mul_left (fun t => x (k.flip m t)) t ht]
    exact Finset.sum_congr rfl fun j hj => by rw [div_mul_cancel₀ _ (hf j (Finset.mem_range.1 hj))]
  refine ⟨⟨m, fun j => invMulLeft P.Y (fun t => x (k.flip m t)) j / P.f j⟩, hP.cols.symm, by rw [hzl, hP.rows], fun i hi => ?_⟩
  rw [hP.rows] at hi
  rw [hP.cols, hz i hi, pre_system hP _ hi, mul_comm]
  congr 1
  refine Finset.sum_congr rfl fun s hs => ?_
  congr 1
  rw [← hx s (Finset.mem_range.1 hs), ← sum_flip (k := k) m]
  refine Finset.sum_congr rfl fun t ht => ?_
  dsimp only
  rw [hw _ (flip_lt (Finset.mem_range.1 ht)), flip_flip (Finset.mem_range.1 ht)]
  show E s (k.flip m (k.flip m t)) * _ = _
  rw [flip_flip (Finset.mem_range.1 ht)]

/-- The Cauchy-like matrix is not zero. -/
theorem pre_nonzero (hP : PreOK S n m (k.turn m E) P U V c b) (he : ∀ i, i < n → P.e i ≠ 0) (hf : ∀ j, j < m → P.f j ≠ 0)
    (h : ∃ i j, i < n ∧ j < m ∧ E i j ≠ 0) : ∃ i j, i < n ∧ j < m ∧ clMat U V 1 c b i j ≠ 0 := by
  by_contra hc
  obtain ⟨i0, j0, hi0, hj0, h0⟩ := h
  refine h0 ?_
  have hz : ∀ i j, i < n → j < m → bivar n m (k.turn m E) (b ^ i) (c * b ^ j) = 0 := by
    intro i j hi hj
    by_contra hne
    refine hc ⟨i, j, hi, hj, ?_⟩
    rw [hP.entry i j hi hj]
    exact mul_ne_zero (mul_ne_zero (he i hi) hne) (hf j hj)
  have h1 : ∀ j, j < m → ∀ s, s < n → ∑ t ∈ Finset.range m, k.turn m E s t * (c * b ^ j) ^ t = 0 := by
    intro j hj
    refine vdm_inj' hP.mulX (u := fun s => ∑ t ∈ Finset.range m, k.turn m E s t * (c * b ^ j) ^ t) fun i hi => ?_
    rw [← hz i j hi hj]
    unfold bivar
    refine Finset.sum_congr rfl fun s _ => ?_
    rw [Finset.sum_mul]
    exact Finset.sum_congr rfl fun t _ => by ring
  have := vdm_inj' hP.mulY (u := fun t => k.turn m E i0 t) (fun j hj => h1 j hj i0 hi0) (k.flip m j0) (flip_lt hj0)
  unfold Kind.turn at this
  rwa [flip_flip hj0] at this

/-- **C104**. A vector returned by `solve` with the value 1 is a solution of the system.  Partial: the random elements `e` which are drawn
    must not be zero, and no overflow in the products by Toeplitz matrices is assumed (see C83, C101). -/
theorem C104_solve_partial (h : Tiled g nb mb R C A) (hM : Mosaic.make g = .ok M) (hF : Full nb mb R C) (hE : IsMosaic k nb mb R C A E)
    (S : Env p) (D : Draws p) (hred : RedOK S.red) (hmp : MidOK S.mp (off R nb)) (hmp' : MidOK S.mp (off C mb))
    (hno : ∀ a b s, s ≤ max (off R nb) (off C mb) → NoOverflow p S.cross a b s)
    (he : ∀ i, i < off R nb → D.e i ≠ 0) (rnd : Nat → Nat → ZMod p) (rx : Nat → ZMod p) (ta : Int) (rhs : NVec (ZMod p)) (hl : rhs.len = off R nb)
    (x : NVec (ZMod p)) (hx : M.solve k S D rnd rx ta rhs = .ok (some x)) :
    x.len = off C mb ∧ ∀ i, i < off R nb → ∑ j ∈ Finset.range (off C mb), E i j * x.e j = rhs.e i := by
  have hB := built_of_make h hM
  have hn := hF.n_pos h.nb_pos
  have hm := hF.m_pos h.mb_pos
  have h0 : ¬M.m * M.n = 0 := by rw [hB.n, hB.m]; exact Nat.mul_ne_zero (by omega) (by omega)
  have hbad : ∀ o : Out (Option (Pre p)), M.toCauchy k S D = o → (∃ P, o = .ok (some P)) := by
    intro o ho
    unfold Mosaic.solve at hx
    rw [if_neg h0, ho] at hx
    match o with
    | .ok (some P) => exact ⟨P, rfl⟩
    | .ok none => cases hx
    | .error => cases hx
    | .ub => cases hx
    | .loops => cases hx
  obtain ⟨P', hP'⟩ := hbad _ rfl
  rcases toCauchy_spec hB hF hE S D hmp hmp' with ⟨-, e⟩ | ⟨-, ⟨e, -⟩ | ⟨e, -⟩ | ⟨P, U, V, c, b, e, hP, he', hf', -⟩⟩
  · rw [e] at hP'; cases hP'
  · rw [e] at hP'; cases hP'
  · rw [e] at hP'; cases hP'
  · obtain ⟨z, hz1, hz2, hz3, -, ⟨o, eo, ⟨-, e3⟩ | ⟨xp, -, -, e3⟩ | ⟨xp, y, rfl, hy1, hy2, e3⟩⟩ | ⟨-, e3⟩⟩ :=
      solve_steps hred hn hm hB.n hB.m D e hP hno rnd rx ta rhs hl.ge
    · rw [e3] at hx; cases hx
    · rw [e3] at hx; cases hx
    · rw [e3] at hx
      cases hx
      rcases hz3 xp eo with h5 | h5
      · omega
      · exact ⟨rfl, solution_back hP (fun i hi => by rw [he']; exact he i hi) hz2 h5 hy2⟩
    · exact absurd hx (e3 _)

/-- **C104**. If the draws `e`, `f` are not zero, the mosaic matrix is not zero, and the Cauchy-like matrix of `to_cauchy_grp` has generic
    rank profile, `solve` finds a solution if there is one.  If there is none, it reads an empty vector. -/
theorem C104_complete_partial (h : Tiled g nb mb R C A) (hM : Mosaic.make g = .ok M) (hF : Full nb mb R C)
    (S : Env p) (D : Draws p) (hred : RedOK S.red)
    (hno : ∀ a b s, s ≤ max (off R nb) (off C mb) → NoOverflow p S.cross a b s)
    (hT : M.toCauchy k S D = .ok (some P)) (hP : PreOK S (off R nb) (off C mb) (k.turn (off C mb) E) P U V c b)
    (he : ∀ i, i < off R nb → P.e i ≠ 0) (hf : ∀ j, j < off C mb → P.f j ≠ 0)
    (hE0 : ∃ i j, i < off R nb ∧ j < off C mb ∧ E i j ≠ 0) (hgr : GenericRankProfile (off R nb) (off C mb) (clMat U V 1 c b))
    (rnd : Nat → Nat → ZMod p) (rx : Nat → ZMod p) (ta : Int) (rhs : NVec (ZMod p)) (hl : rhs.len = off R nb) :
    ((∃ w : Nat → ZMod p, ∀ i, i < off R nb → ∑ j ∈ Finset.range (off C mb), E i j * w j = rhs.e i) →
      ∃ x, M.solve k S D rnd rx ta rhs = .ok (some x) ∧ x.len = off C mb ∧
        ∀ i, i < off R nb → ∑ j ∈ Finset.range (off C mb), E i j * x.e j = rhs.e i) ∧
    ((¬∃ w : Nat → ZMod p, ∀ i, i < off R nb → ∑ j ∈ Finset.range (off C mb), E i j * w j = rhs.e i) →
      M.solve k S D rnd rx ta rhs = .ub) := by
  have hB := built_of_make h hM
  have hn := hF.n_pos h.nb_pos
  have hm := hF.m_pos h.mb_pos
  obtain ⟨z, hz1, hz2, hz3, hz4, hz5⟩ := solve_steps hred hn hm hB.n hB.m D hT hP hno rnd rx ta rhs hl.ge
  obtain ⟨xp, exp, hxp⟩ := hz4 hgr (pre_nonzero hP he hf hE0)
  rcases hz5 with ⟨o, eo, hcase⟩ | ⟨hbad, -⟩
  · rw [exp] at eo
    cases eo
    constructor
    · rintro ⟨w, hw⟩
      have hsol := hxp (solution_forth hP hf hz1 hz2 hw)
      have hlen : xp.len = off C mb := by rw [hsol.1, hP.cols]
      rcases hcase with ⟨e, -⟩ | ⟨xp', e, h1, -⟩ | ⟨xp', y, e, h1, h2, h3⟩
      · cases e
      · cases e; omega
      · cases e
        exact ⟨_, h3, rfl, solution_back hP he hz2 hsol h2⟩
    · intro hnone
      rcases hcase with ⟨e, -⟩ | ⟨xp', e, h1, h2⟩ | ⟨xp', y, e, h1, h2, h3⟩
      · cases e
      · exact h2
      · cases e
        rcases hz3 xp exp with h5 | h5
        · omega
        · exact absurd ⟨fun j => y (k.flip (off C mb) j), solution_back hP he hz2 h5 h2⟩ hnone
  · exact absurd exp (hbad _)

/-- **C104**, finding. If the draws `e` are zero except for the first one, and the first entry of the Cauchy-like matrix is not zero,
    `solve` returns 1 for every right-hand side, also for those for which the system has no solution. -/
theorem C104_zero_draws (h : Tiled g nb mb R C A) (hM : Mosaic.make g = .ok M) (hF : Full nb mb R C)
    (S : Env p) (D : Draws p) (hred : RedOK S.red)
    (hno : ∀ a b s, s ≤ max (off R nb) (off C mb) → NoOverflow p S.cross a b s)
    (hT : M.toCauchy k S D = .ok (some P)) (hP : PreOK S (off R nb) (off C mb) (k.turn (off C mb) E) P U V c b)
    (he : ∀ i, 0 < i → i < off R nb → P.e i = 0) (h00 : clMat U V 1 c b 0 0 ≠ 0)
    (rnd : Nat → Nat → ZMod p) (rx : Nat → ZMod p) (ta : Int) (rhs : NVec (ZMod p)) (hl : rhs.len = off R nb) :
    ∃ x, M.solve k S D rnd rx ta rhs = .ok (some x) := by
  have hB := built_of_make h hM
  have hn := hF.n_pos h.nb_pos
  have hm := hF.m_pos h.mb_pos
  have hrow : ∀ i j, 0 < i → i < off R nb → j < off C mb → clMat U V 1 c b i j = 0 := by
    intro i j h0 hi hj
    rw [hP.entry i j hi hj, he i h0 hi, zero_mul, zero_mul]
  obtain ⟨z, hz1, hz2, hz3, hz4, hz5⟩ := solve_steps hred hn hm hB.n hB.m D hT hP hno rnd rx ta rhs hl.ge
  obtain ⟨xp, exp, hxp⟩ := hz4 ⟨1, by omega, by omega, fun j hj v hv i hi => by
      obtain rfl : j = 1 := by omega
      obtain rfl : i = 0 := by omega
      have := hv 0 (by omega)
      rw [Finset.sum_range_one] at this
      exact (mul_eq_zero.1 this).resolve_left h00, fun i hi => by
      by_cases h0 : i = 0
      · exact ⟨fun _ => 1, fun j hj => by rw [Finset.sum_range_one, h0, one_mul]⟩
      · exact ⟨fun _ => 0, fun j hj => by rw [Finset.sum_range_one, zero_mul, hrow i j (by omega) hi hj]⟩⟩ ⟨0, 0, hn, hm, h00⟩
  have hsol : IsSolution U V 1 c b z xp := by
    refine hxp ⟨⟨off C mb, Pi.single 0 (z.e 0 / clMat U V 1 c b 0 0)⟩, hP.cols.symm, by rw [hz1, hP.rows], fun i hi => ?_⟩
    rw [hP.rows] at hi
    rw [hP.cols, Finset.sum_eq_single_of_mem 0 (Finset.mem_range.2 hm) (fun j _ hj => by
      show _ * (Pi.single 0 _ : Nat → ZMod p) j = 0
      rw [Pi.single_eq_of_ne hj, mul_zero])]
    dsimp only
    rw [Pi.single_eq_same]
    by_cases h0 : i = 0
    · rw [h0, mul_div_cancel₀ _ h00]
    · rw [hrow i 0 (by omega) hi hm, zero_mul, hz2 i hi, he i (by omega) hi, mul_zero]
  rcases hz5 with ⟨o, eo, hcase⟩ | ⟨hbad, -⟩
  · rw [exp] at eo
    cases eo
    have hlen : xp.len = off C mb := by rw [hsol.1, hP.cols]
    rcases hcase with ⟨e, -⟩ | ⟨xp', e, h1, -⟩ | ⟨xp', y, e, h1, h2, h3⟩
    · cases e
    · cases e; omega
    · exact ⟨_, h3⟩
  · exact absurd exp (hbad _)

/-- **C104**. If the field is too small for `to_cauchy_grp`, `solve` returns 0. -/
theorem C104_small_field (h : Tiled g nb mb R C A) (hM : Mosaic.make g = .ok M) (hF : Full nb mb R C) (hE : IsMosaic k nb mb R C A E)
    (S : Env p) (D : Draws p) (hmp : MidOK S.mp (off R nb)) (hmp' : MidOK S.mp (off C mb)) (hp : p / 10 < max (off C mb) (off R nb))
    (rnd : Nat → Nat → ZMod p) (rx : Nat → ZMod p) (ta : Int) (rhs : NVec (ZMod p)) : M.solve k S D rnd rx ta rhs = .ok none := by
  have hB := built_of_make h hM
  have hn := hF.n_pos h.nb_pos
  have hm := hF.m_pos h.mb_pos
  unfold Mosaic.solve
  rw [if_neg (by rw [hB.n, hB.m]; exact Nat.mul_ne_zero (by omega) (by omega))]
  rcases toCauchy_spec hB hF hE S D hmp hmp' with ⟨-, e⟩ | ⟨h1, -⟩
  · rw [e]; rfl
  · omega

/-- **C104**, finding. A right-hand side which is too short is read out of its bounds; it is not rejected. -/
theorem C104_short (h : Tiled g nb mb R C A) (hM : Mosaic.make g = .ok M) (hF : Full nb mb R C) (S : Env p) (D : Draws p)
    (hT : M.toCauchy k S D = .ok (some P)) (rnd : Nat → Nat → ZMod p) (rx : Nat → ZMod p) (ta : Int) (rhs : NVec (ZMod p))
    (hl : rhs.len < off R nb) : M.solve k S D rnd rx ta rhs = .ub := by
  have hB := built_of_make h hM
  have hn := hF.n_pos h.nb_pos
  have hm := hF.m_pos h.mb_pos
  unfold Mosaic.solve
  rw [if_neg (by rw [hB.n, hB.m]; exact Nat.mul_ne_zero (by omega) (by omega)), hT, andThen_ok']
  dsimp only
  rw [if_pos (by rw [hB.n]; exact hl)]

end PML.Ntl.Mosaic
