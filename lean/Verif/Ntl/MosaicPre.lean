import Verif.Ntl.MosaicGens
import Verif.Ntl.GeomProps
import Verif.Ntl.OrderProps

/-!
# Mosaic matrices: reduction to Cauchy-like matrices (C103)
-/

namespace PML.Ntl.Mosaic

open Polynomial PML.Ntl.Utils PML.Ntl.Inv PML.Ntl.Solve PML.Ntl.Middle PML.Ntl.Struct PML.Ntl.CLike PML.Ntl.Geom

variable {p : Nat} [Fact p.Prime] {k : Kind} {g : Grid p} {nb mb : Nat} {R C : Nat → Nat} {A : Nat → Nat → NVec (ZMod p)} {M : Mosaic p}
  {E : Nat → Nat → ZMod p}

/-! ### The identity behind the reduction -/

/-- `∑ x^i W i j y^j`. -/
def bivar (n m : Nat) (W : Nat → Nat → ZMod p) (x y : ZMod p) : ZMod p :=
  ∑ i ∈ Finset.range n, ∑ j ∈ Finset.range m, x ^ i * W i j * y ^ j

theorem shift_left (n : Nat) (hn : 0 < n) (u : Nat → ZMod p) (x : ZMod p) :
    ∑ i ∈ Finset.range n, x ^ i * u (if i = 0 then n - 1 else i - 1) = x * ∑ i ∈ Finset.range n, x ^ i * u i - (x ^ n - 1) * u (n - 1) := by
  obtain ⟨l, rfl⟩ : ∃ l, n = l + 1 := ⟨n - 1, by omega⟩
  rw [Finset.sum_range_succ', Finset.sum_range_succ (fun i => x ^ i * u i)]
  simp only [Nat.add_one_ne_zero, if_false, if_true, Nat.add_sub_cancel, pow_zero]
  rw [mul_add, Finset.mul_sum, Finset.sum_congr rfl fun i _ => show x ^ (i + 1) * u i = x * (x ^ i * u i) by ring]
  ring

theorem shift_right (m : Nat) (hm : 0 < m) (u : Nat → ZMod p) (y : ZMod p) :
    ∑ j ∈ Finset.range m, (if j = 0 then 0 else u (j - 1)) * y ^ j = y * ∑ j ∈ Finset.range m, u j * y ^ j - y ^ m * u (m - 1) := by
  obtain ⟨l, rfl⟩ : ∃ l, m = l + 1 := ⟨m - 1, by omega⟩
  rw [Finset.sum_range_succ', Finset.sum_range_succ (fun j => u j * y ^ j)]
  simp only [Nat.add_one_ne_zero, if_false, if_true, Nat.add_sub_cancel, zero_mul, add_zero]
  rw [mul_add, Finset.mul_sum, Finset.sum_congr rfl fun j _ => show u j * y ^ (j + 1) = y * (u j * y ^ j) by ring]
  ring

theorem core_identity {n m : Nat} (hn : 0 < n) (hm : 0 < m) (W : Nat → Nat → ZMod p) (x y : ZMod p) :
    (x - y) * bivar n m W x y =
      bivar n m (fun i j => W (if i = 0 then n - 1 else i - 1) j - if j = 0 then 0 else W i (j - 1)) x y +
        (x ^ n - 1) * (∑ j ∈ Finset.range m, W (n - 1) j * y ^ j) + (∑ i ∈ Finset.range n, W i (m - 1) * x ^ i) * -y ^ m := by
  have h1 : bivar n m (fun i j => W (if i = 0 then n - 1 else i - 1) j) x y =
      x * bivar n m W x y - (x ^ n - 1) * ∑ j ∈ Finset.range m, W (n - 1) j * y ^ j := by
    unfold bivar
    rw [Finset.sum_comm, Finset.sum_congr rfl fun j _ => by rw [← Finset.sum_mul, shift_left n hn (fun i => W i j)],
      Finset.sum_comm (s := Finset.range n), Finset.mul_sum, Finset.mul_sum, ← Finset.sum_sub_distrib]
    refine Finset.sum_congr rfl fun j _ => ?_
    rw [← Finset.sum_mul]
    ring
  have h2 : bivar n m (fun i j => if j = 0 then 0 else W i (j - 1)) x y =
      y * bivar n m W x y - (∑ i ∈ Finset.range n, W i (m - 1) * x ^ i) * y ^ m := by
    unfold bivar
    rw [Finset.mul_sum, Finset.sum_mul, ← Finset.sum_sub_distrib]
    refine Finset.sum_congr rfl fun i _ => ?_
    rw [Finset.sum_congr rfl fun j _ => mul_assoc _ _ _, ← Finset.mul_sum, shift_right m hm (fun j => W i j),
      Finset.sum_congr rfl fun j _ => mul_assoc (x ^ i) (W i j) (y ^ j), ← Finset.mul_sum]
    ring
  have h3 : bivar n m (fun i j => W (if i = 0 then n - 1 else i - 1) j - if j = 0 then 0 else W i (j - 1)) x y =
      bivar n m (fun i j => W (if i = 0 then n - 1 else i - 1) j) x y - bivar n m (fun i j => if j = 0 then 0 else W i (j - 1)) x y := by
    unfold bivar
    rw [← Finset.sum_sub_distrib]
    refine Finset.sum_congr rfl fun i _ => ?_
    rw [← Finset.sum_sub_distrib]
    exact Finset.sum_congr rfl fun j _ => by ring
  rw [h3, h1, h2]
  ring

/-- The matrix, with reversed columns for `mosaic_toeplitz_lzz_p`. -/
def Kind.turn (k : Kind) (m : Nat) (E : Nat → Nat → ZMod p) (i j : Nat) : ZMod p := E i (k.flip m j)

theorem flip_lt {m j : Nat} (hj : j < m) : k.flip m j < m := by
  cases k
  · exact hj
  · show m - 1 - j < m; omega

theorem flip_flip {m j : Nat} (hj : j < m) : k.flip m (k.flip m j) = j := by
  cases k
  · rfl
  · show m - 1 - (m - 1 - j) = j; omega

theorem sum_flip (m : Nat) (f : Nat → ZMod p) : ∑ j ∈ Finset.range m, f (k.flip m j) = ∑ j ∈ Finset.range m, f j := by
  cases k
  · rfl
  · exact Finset.sum_range_reflect f m

theorem turn_dd {n m i j : Nat} (hj : j < m) :
    k.dd n m E i (k.flip m j) = k.turn m E (if i = 0 then n - 1 else i - 1) j - if j = 0 then 0 else k.turn m E i (j - 1) := by
  cases k
  · rfl
  · show _ - (if m - 1 - j + 1 = m then 0 else E i (m - 1 - j + 1)) = _ - if j = 0 then 0 else E i (m - 1 - (j - 1))
    by_cases h : j = 0
    · have h1 : (if m - 1 - j + 1 = m then (0 : ZMod p) else E i (m - 1 - j + 1)) = 0 := if_pos (by omega)
      have h2 : (if j = 0 then (0 : ZMod p) else E i (m - 1 - (j - 1))) = 0 := if_pos h
      rw [h1, h2]; rfl
    · have h1 : (if m - 1 - j + 1 = m then (0 : ZMod p) else E i (m - 1 - j + 1)) = E i (m - 1 - (j - 1)) := by
        rw [if_neg (by omega), show m - 1 - j + 1 = m - 1 - (j - 1) by omega]
      have h2 : (if j = 0 then (0 : ZMod p) else E i (m - 1 - (j - 1))) = E i (m - 1 - (j - 1)) := if_neg h
      rw [h1, h2]; rfl

theorem bivar_gens {n m α : Nat} {G H : Nat × Nat → ZMod p} {D : Nat → Nat → ZMod p}
    (h : ∀ i j, i < n → j < m → ∑ t ∈ Finset.range α, G (i, t) * H (j, t) = D i j) (x y : ZMod p) :
    ∑ t ∈ Finset.range α, (∑ i ∈ Finset.range n, G (i, t) * x ^ i) * (∑ j ∈ Finset.range m, H (j, t) * y ^ j) = bivar n m D x y := by
  unfold bivar
  simp only [Finset.sum_mul_sum]
  rw [Finset.sum_comm]
  refine Finset.sum_congr rfl fun i hi => ?_
  rw [Finset.sum_comm]
  refine Finset.sum_congr rfl fun j hj => ?_
  rw [← h i j (Finset.mem_range.1 hi) (Finset.mem_range.1 hj), Finset.mul_sum, Finset.sum_mul]
  exact Finset.sum_congr rfl fun t _ => by ring

/-! ### The points -/

theorem findC_ok {a : ZMod p} {n m : Nat} {rc : Nat → ZMod p} (hn : 0 < n) (hm : 0 < m) (ha : a ≠ 0) :
    (∃ c, findC a n m rc = .ok c ∧ goodC a n m c ∧ ∃ t, c = rc t) ∨ findC a n m rc = .loops ∧ ∀ t, ¬ goodC a n m (rc t) := by
  classical
  unfold findC
  rw [if_neg (by omega), if_neg ha]
  by_cases h : ∃ t, goodC a n m (rc t)
  · rw [dif_pos h]
    refine Or.inl ⟨_, rfl, ?_, _, rfl⟩
    convert Nat.find_spec h
  · rw [dif_neg h]
    exact Or.inr ⟨rfl, fun t ht => h ⟨t, ht⟩⟩

theorem goodC_cauchy {a c : ZMod p} {n m : Nat} (ha : a ≠ 0) (h : goodC a n m c) : CauchyOK 1 c a n m := by
  intro i j hi hj e
  obtain ⟨-, h1, h2⟩ := h
  rw [one_mul] at e
  by_cases hij : j ≤ i
  · refine h1 (i - j) (by omega) ?_
    apply mul_right_cancel₀ (pow_ne_zero j ha)
    rw [← e, ← pow_add]; congr 1; omega
  · refine h2 (j - i) (by omega) ?_
    apply mul_right_cancel₀ (pow_ne_zero j ha)
    rw [← e, inv_pow, show j = (j - i) + i by omega, pow_add, ← mul_assoc, show j - i + i - i = j - i by omega,
      inv_mul_cancel₀ (pow_ne_zero _ ha), one_mul]

/-- A suitable point exists if the field is not too small, whatever the ratio. -/
theorem exists_goodC (a : ZMod p) {n m : Nat} (h : n + m + 1 < p) : ∃ c, goodC a n m c := by
  classical
  by_contra hc
  have hall : ∀ c : ZMod p, c ∈ insert 0 ((Finset.range n).image (fun i => a ^ i) ∪ (Finset.range m).image fun i => a⁻¹ ^ i) := by
    intro c
    by_contra hn
    simp only [Finset.mem_insert, Finset.mem_union, Finset.mem_image, Finset.mem_range, not_or, not_exists, not_and] at hn
    exact hc ⟨c, hn.1, fun i hi e => hn.2.1 i hi e.symm, fun i hi e => hn.2.2 i hi e.symm⟩
  have h1 : Fintype.card (ZMod p) ≤ _ := Finset.card_le_card (s := Finset.univ) fun c _ => hall c
  rw [ZMod.card] at h1
  have h2 := Finset.card_insert_le (0 : ZMod p) ((Finset.range n).image (fun i => a ^ i) ∪ (Finset.range m).image fun i => a⁻¹ ^ i)
  have h3 := Finset.card_union_le ((Finset.range n).image (fun i => a ^ i)) ((Finset.range m).image fun i => a⁻¹ ^ i)
  have h4 : ((Finset.range n).image (fun i => a ^ i)).card ≤ n := le_trans Finset.card_image_le (by rw [Finset.card_range])
  have h5 : ((Finset.range m).image (fun i => a⁻¹ ^ i)).card ≤ m := le_trans Finset.card_image_le (by rw [Finset.card_range])
  omega

theorem order_pow {a : ZMod p} {N : Nat} (h : 2 * N ≤ orderOf a) (i : Nat) (h1 : 1 ≤ i) (h2 : i < N) : a ^ (2 * i) ≠ 1 := fun e => by
  have := orderOf_le_of_pow_eq_one (by omega) e
  omega

theorem order_distinct {a u : ZMod p} {N : Nat} (hu : u ≠ 0) (ha : a ≠ 0) (h : 2 * N ≤ orderOf a) : Distinct u (a * a) N := by
  intro i j hij hj e
  unfold progr at e
  have e := mul_left_cancel₀ hu e
  refine order_pow h (j - i) (by omega) (by omega) ?_
  apply mul_left_cancel₀ (pow_ne_zero i (mul_ne_zero ha ha))
  rw [mul_one, pow_mul, pow_two, ← pow_add, show i + (j - i) = j by omega, ← e]

/-! ### The columns of the generators -/

theorem build_deg {n : Nat} (hn : 0 < n) (v : Nat → ZMod p) : (Series.build n v).natDegree < n := by
  by_cases h0 : Series.build n v = 0
  · rw [h0, natDegree_zero]; exact hn
  · rw [natDegree_lt_iff_degree_lt h0, degree_lt_iff_coeff_zero]
    intro j hj
    rw [Series.build_coeff, if_neg (by omega)]

theorem build_eval (n : Nat) (v : Nat → ZMod p) (x : ZMod p) : (Series.build n v).eval x = ∑ i ∈ Finset.range n, v i * x ^ i := by
  unfold Series.build
  rw [eval_finset_sum]
  exact Finset.sum_congr rfl fun i _ => by rw [eval_mul, eval_C, eval_pow, eval_X]

theorem evalCol_spec {S : Env p} {o : Obj (ZMod p)} {n : Nat} {pt : Nat → ZMod p} (hn : 0 < n) (ho : MultipointSpec S.mp o n pt)
    (v d : Nat → ZMod p) (j : Nat) (X : Nat × Nat → ZMod p) :
    ∃ X', evalCol S o n v d j X = .ok X' ∧ (∀ i, i < n → X' (i, j) = (∑ l ∈ Finset.range n, v l * pt i ^ l) * d i) ∧
      ∀ i l, l ≠ j → X' (i, l) = X (i, l) := by
  unfold evalCol
  obtain ⟨w, e, hw⟩ := ho.eval (Series.build n v) (build_deg hn v)
  rw [e]
  refine ⟨_, rfl, fun i hi => ?_, fun i l hl => ?_⟩
  · rw [col_fill (f := fun i => w i * d i), if_pos ⟨hi, rfl⟩, hw i hi, build_eval]
  · rw [col_fill (f := fun i => w i * d i), if_neg (by omega)]

theorem evalCols_spec {S : Env p} {o : Obj (ZMod p)} {n : Nat} {pt : Nat → ZMod p} (hn : 0 < n) (ho : MultipointSpec S.mp o n pt)
    (α : Nat) (v : Nat → Nat → ZMod p) (d : Nat → ZMod p) (X : Nat × Nat → ZMod p) :
    ∃ X', loopOut α (fun j X => evalCol S o n (v j) d j X) X = .ok X' ∧
      ∀ i j, i < n → j < α → X' (i, j) = (∑ l ∈ Finset.range n, v j l * pt i ^ l) * d i := by
  obtain ⟨u, e, hu⟩ := loopOut_inv (k := α) (fun c (X' : Nat × Nat → ZMod p) =>
      ∀ i j, i < n → j < c → X' (i, j) = (∑ l ∈ Finset.range n, v j l * pt i ^ l) * d i) (f := fun j X => evalCol S o n (v j) d j X) (s := X)
    (fun i j _ hj => absurd hj (by omega)) (by
      intro c X' hc hP
      obtain ⟨X2, e, h1, h2⟩ := evalCol_spec hn ho (v c) d c X'
      refine ⟨X2, e, fun i j hi hj => ?_⟩
      by_cases hjc : j = c
      · rw [hjc, h1 i hi]
      · rw [h2 i j hjc, hP i j hi (by omega)])
  exact ⟨u, e, hu⟩

/-! ### The reduction -/

theorem put_together {d B S q T w y e f : ZMod p} (hd : d ≠ 0) (key : d * B = S + q * T + w * -y) :
    S * (e * f / d) + e * q * (1 / d * (T * f)) + w * e * (1 / d * (-f * y)) = e * B * f := by
  have hB : B = (S + q * T + w * -y) / d := by rw [← key, mul_div_cancel_left₀ _ hd]
  rw [hB]
  ring

/-- What `to_cauchy_grp` returns for the matrix `W` with `n` rows and `m` columns: a Cauchy-like matrix with the entries
    `e_i f_j ∑ x_i^s W s t y_j^t`, for `n` distinct points `x_i = b^i` and `m` distinct points `y_j = c b^j`, with the objects for
    products by the Vandermonde matrices of these points. -/
structure PreOK (S : Env p) (n m : Nat) (W : Nat → Nat → ZMod p) (P : Pre p) (U V : PMat (ZMod p)) (c b : ZMod p) : Prop where
  make : CLike.make U V 1 c b = .ok P.CL
  rows : U.rows = n
  cols : V.rows = m
  gens : V.cols = U.cols
  gens_pos : 0 < U.cols
  distinct_x : Distinct 1 b (max m n)
  distinct_y : Distinct c b (max m n)
  mulX : MultipointSpec S.mp P.X n fun i => b ^ i
  mulY : MultipointSpec S.mp P.Y m fun j => c * b ^ j
  entry : ∀ i j, i < n → j < m → clMat U V 1 c b i j = P.e i * bivar n m W (b ^ i) (c * b ^ j) * P.f j

theorem toCauchy_spec (hB : Built M nb mb R C A) (hF : Full nb mb R C) (hE : IsMosaic k nb mb R C A E) (S : Env p) (D : Draws p)
    (hmp : MidOK S.mp (off R nb)) (hmp' : MidOK S.mp (off C mb)) :
    (p / 10 < max (off C mb) (off R nb) ∧ M.toCauchy k S D = .ok none) ∨
    (max (off C mb) (off R nb) ≤ p / 10 ∧
      ((M.toCauchy k S D = .error ∧ Order.elementOfOrder D.ord (2 * max (off C mb) (off R nb)) 100 true = some 0) ∨
        (M.toCauchy k S D = .loops ∧ ∃ a, Order.elementOfOrder D.ord (2 * max (off C mb) (off R nb)) 100 true = some a ∧ a ≠ 0 ∧
          ∀ t, ¬ goodC (a * a) (off R nb) (off C mb) (D.c t)) ∨
        ∃ P U V c b, M.toCauchy k S D = .ok (some P) ∧ PreOK S (off R nb) (off C mb) (k.turn (off C mb) E) P U V c b ∧ P.e = D.e ∧ P.f = D.f ∧
          ∃ a, Order.elementOfOrder D.ord (2 * max (off C mb) (off R nb)) 100 true = some a ∧ a ≠ 0 ∧ b = a * a ∧
            goodC b (off R nb) (off C mb) c ∧ ∃ t, c = D.c t)) := by
  haveI : Fact (1 < p) := ⟨(Fact.out : p.Prime).one_lt⟩
  have hn := hF.n_pos hB.tiled.nb_pos
  have hm := hF.m_pos hB.tiled.mb_pos
  have hnb := hB.tiled.nb_pos
  have hmb := hB.tiled.mb_pos
  obtain ⟨G, H, eG, hG1, hH1, hG2, hH2, hGH⟩ := gens_spec hB hF hE newMat newMat
  unfold Mosaic.toCauchy
  rw [eG, andThen_ok']
  dsimp only
  rw [hB.n, hB.m]
  by_cases hp : p / 10 < max (off C mb) (off R nb)
  · exact Or.inl ⟨hp, if_pos hp⟩
  · refine Or.inr ⟨by omega, ?_⟩
    rw [if_neg hp]
    have hp10 : 10 * (p / 10) ≤ p := Nat.mul_div_le p 10
    obtain ⟨a, ea, -⟩ := (Order.C63_element_of_order_strong D.ord (2 * max (off C mb) (off R nb)) 100).2 (by omega)
    rw [ea]
    by_cases ha : a = 0
    · refine Or.inl ⟨?_, by rw [ha]⟩
      show andThen (findC (a * a) _ _ _) _ = _
      unfold findC
      rw [if_neg (by omega), if_pos (by rw [ha, mul_zero])]
      rfl
    · refine Or.inr ?_
      obtain ⟨-, hord⟩ := Order.C63_order_at_least D.ord _ 100 a ha ea
      have hb0 : a * a ≠ 0 := mul_ne_zero ha ha
      show (andThen (findC (a * a) _ _ _) _ = _ ∧ _) ∨ ∃ P U V c b, andThen (findC (a * a) _ _ _) _ = _ ∧ _
      rcases findC_ok (rc := D.c) hn hm hb0 with ⟨c, ec, hc, hct⟩ | ⟨el, hl⟩
      · refine Or.inr ?_
        rw [ec, andThen_ok']
        have hc0 : c ≠ 0 := hc.1
        obtain ⟨X0, X0', eX, eX', hX⟩ := C62_geometric (mp := S.mp) (off R nb) hmp S.feasible S.flags a 1 hn ha one_ne_zero
          (fun i h1 h2 => order_pow hord i h1 (by omega)) [] (fun d hd => by cases hd)
        obtain ⟨Y0, Y0', eY, eY', hY⟩ := C62_geometric (mp := S.mp) (off C mb) hmp' S.feasible S.flags a c hm ha hc0
          (fun i h1 h2 => order_pow hord i h1 (by omega)) [] (fun d hd => by cases hd)
        cases eX'
        cases eY'
        have hX : MultipointSpec S.mp X0 (off R nb) fun i => (a * a) ^ i := by
          convert hX using 2 with i
          rw [one_mul, pow_mul, pow_two]
        have hY : MultipointSpec S.mp Y0 (off C mb) fun i => c * (a * a) ^ i := by
          convert hY using 2 with i
          rw [pow_mul, pow_two]
        rw [eX]
        show ∃ P U V c b, andThen (ofOpt (Geom.construct _ _ _ _ _)) _ = _ ∧ _
        rw [eY]
        show ∃ P U V c b, andThen (loopOut G.cols _ _) _ = _ ∧ _
        obtain ⟨X1, eX1, hX1⟩ := evalCols_spec hn hX G.cols (fun j i => G.e (i, j)) D.e (fun _ => 0)
        rw [eX1, andThen_ok']
        have hv : ∃ v, M.edgeCol k = .ok v ∧
            ∀ x, x < off R nb → v x = k.turn (off C mb) E x (off C mb - 1) := by
          unfold Mosaic.edgeCol
          rw [hB.mb]
          cases k
          · obtain ⟨v, e, hv⟩ := lastCol_spec hB hE (show mb - 1 < mb by omega) (hF.2 _ (by omega))
            exact ⟨v, e, fun x hx => by rw [hv x hx, show mb - 1 + 1 = mb by omega]; rfl⟩
          · obtain ⟨v, e, hv⟩ := firstCol_spec hB hE hmb (hF.2 _ hmb)
            refine ⟨v, e, fun x hx => ?_⟩
            rw [hv x hx, off_zero]
            show _ = E x (off C mb - 1 - (off C mb - 1))
            rw [Nat.sub_self]
        obtain ⟨v, ev, hv⟩ := hv
        rw [ev, andThen_ok']
        obtain ⟨X2, eX2, hX2, hX3⟩ := evalCol_spec hn hX v D.e (G.cols + 1)
          (forN (off R nb) (fun i => write (i, G.cols) (D.e i * (((a * a) ^ i) ^ off R nb - 1))) X1)
        rw [eX2, andThen_ok']
        obtain ⟨Y1, eY1, hY1⟩ := evalCols_spec hm hY G.cols (fun j i => H.e (k.flip (off C mb) i, j)) D.f (fun _ => 0)
        rw [eY1, andThen_ok']
        obtain ⟨w, ew, hw⟩ := lastRow_spec hB hE (show nb - 1 < nb by omega) (hF.1 _ (by omega))
        rw [hB.nb, ew, andThen_ok']
        obtain ⟨Y2, eY2, hY2, hY3⟩ := evalCol_spec hm hY (fun i => w (k.flip (off C mb) i)) D.f G.cols Y1
        rw [eY2, andThen_ok']
        obtain ⟨CL, eC, -⟩ := (C99_constructor ⟨off R nb, G.cols + 2, X2⟩ ⟨off C mb, G.cols + 2,
          forN (off C mb) (fun i => write (i, G.cols + 1) (-D.f i * (c * (a * a) ^ i) ^ off C mb)) Y2⟩ 1 c (a * a) hn hm).1
          ⟨hb0, goodC_cauchy hb0 hc⟩
        rw [eC, andThen_ok']
        refine ⟨_, _, _, c, a * a, rfl, ⟨eC, rfl, rfl, rfl, Nat.succ_pos _, order_distinct one_ne_zero ha hord,
          order_distinct hc0 ha hord, hX, hY, fun i j hi hj => ?_⟩, rfl, rfl, a, rfl, ha, rfl, hc, hct⟩
        rw [clMat_eq]
        dsimp only
        have hxy : (a * a) ^ i - c * (a * a) ^ j ≠ 0 := sub_ne_zero.2 (by have := goodC_cauchy hb0 hc i j hi hj; rwa [one_mul] at this)
        have key := core_identity hn hm (k.turn (off C mb) E) ((a * a) ^ i) (c * (a * a) ^ j)
        have hgen := bivar_gens (n := off R nb) (m := off C mb) (α := G.cols) (G := G.e) (H := fun jt => H.e (k.flip (off C mb) jt.1, jt.2))
          (D := fun i j => k.turn (off C mb) E (if i = 0 then off R nb - 1 else i - 1) j - if j = 0 then 0 else k.turn (off C mb) E i (j - 1))
          (fun i j hi hj => by dsimp only; rw [hG2, hGH i _ hi (flip_lt hj), turn_dd hj]) ((a * a) ^ i) (c * (a * a) ^ j)
        rw [← hgen] at key
        have hxa : X2 (i, G.cols) = D.e i * (((a * a) ^ i) ^ off R nb - 1) := by
          rw [hX3 i _ (by omega), col_fill (f := fun i => D.e i * (((a * a) ^ i) ^ off R nb - 1)), if_pos ⟨hi, rfl⟩]
        have hxt : ∀ t, t < G.cols → X2 (i, t) = (∑ l ∈ Finset.range (off R nb), G.e (l, t) * ((a * a) ^ i) ^ l) * D.e i := by
          intro t ht
          rw [hX3 i _ (by omega), col_fill (f := fun i => D.e i * (((a * a) ^ i) ^ off R nb - 1)), if_neg (by omega), hX1 i t hi ht]
        rw [Finset.sum_range_succ, Finset.sum_range_succ, hxa, hX2 i hi]
        have hy : ∀ t, forN (off C mb) (fun i => write (i, G.cols + 1) (-D.f i * (c * (a * a) ^ i) ^ off C mb)) Y2 (j, t) =
            if t = G.cols + 1 then -D.f j * (c * (a * a) ^ j) ^ off C mb else Y2 (j, t) := by
          intro t
          rw [col_fill (f := fun i => -D.f i * (c * (a * a) ^ i) ^ off C mb)]
          by_cases ht : t = G.cols + 1
          · rw [if_pos ⟨hj, ht⟩, if_pos ht]
          · rw [if_neg (by omega), if_neg ht]
        have hya : Y2 (j, G.cols) = (∑ l ∈ Finset.range (off C mb), k.turn (off C mb) E (off R nb - 1) l * (c * (a * a) ^ j) ^ l) * D.f j := by
          rw [hY2 j hj]
          congr 1
          refine Finset.sum_congr rfl fun l hl => ?_
          rw [hw _ (flip_lt (Finset.mem_range.1 hl)), show nb - 1 + 1 = nb by omega]
          rfl
        have hyt : ∀ t, t < G.cols → Y2 (j, t) = (∑ l ∈ Finset.range (off C mb), H.e (k.flip (off C mb) l, t) * (c * (a * a) ^ j) ^ l) * D.f j := by
          intro t ht
          rw [hY3 j t (by omega), hY1 j t hj ht]
        rw [hy (G.cols + 1), if_pos rfl, hy G.cols, if_neg (by omega), hya]
        rw [Finset.sum_congr rfl fun t ht => by
          rw [hxt t (Finset.mem_range.1 ht), hy t, if_neg (by have := Finset.mem_range.1 ht; omega), hyt t (Finset.mem_range.1 ht)]]
        have hsum : ∑ l ∈ Finset.range (off R nb), v l * ((a * a) ^ i) ^ l =
            ∑ l ∈ Finset.range (off R nb), k.turn (off C mb) E l (off C mb - 1) * ((a * a) ^ i) ^ l :=
          Finset.sum_congr rfl fun l hl => by rw [hv l (Finset.mem_range.1 hl)]
        rw [hsum]
        unfold cauchyEntry
        rw [one_mul]
        have hfac : ∀ T : Nat → ZMod p, ∀ U : Nat → ZMod p, ∑ t ∈ Finset.range G.cols, T t * D.e i * (1 / ((a * a) ^ i - c * (a * a) ^ j) * (U t * D.f j)) =
            (∑ t ∈ Finset.range G.cols, T t * U t) * (D.e i * D.f j / ((a * a) ^ i - c * (a * a) ^ j)) := by
          intro T U
          rw [Finset.sum_mul]
          exact Finset.sum_congr rfl fun t _ => by ring
        rw [hfac (fun t => ∑ l ∈ Finset.range (off R nb), G.e (l, t) * ((a * a) ^ i) ^ l)
          (fun t => ∑ l ∈ Finset.range (off C mb), H.e (k.flip (off C mb) l, t) * (c * (a * a) ^ j) ^ l)]
        dsimp only at key ⊢
        exact put_together hxy key
      · exact Or.inl ⟨by rw [el]; rfl, a, rfl, ha, hl⟩

end PML.Ntl.Mosaic
