import Verif.Ntl.OneColLoop
import Verif.Ntl.ParlinProps
import Verif.Ntl.BivarRes

/-!
# Approximant bases of one generic column: theorems

C106.
-/

namespace PML.Ntl.OneCol

open Polynomial PML.Ntl.Utils PML.Ntl.Inv PML.Ntl.Solve PML.Ntl.Parlin PML.Ntl.Struct PML.Ntl.MatMul

variable {F : Type} [Field F]

/-! ### The iterative algorithm -/

theorem loop_ok {ker : PMat F → PMat F} (hk : KerTop ker) (n D m : Nat) (s : St F) : ∃ s', loopOut m (step ker n D) s = .ok s' :=
  let ⟨s', h, _⟩ := Bivar.loopOut_inv (fun _ _ => True) (f := step ker n D) (s := s) m trivial fun d s _ _ => ⟨_, step_ok hk n D d s, trivial⟩
  ⟨s', h⟩

theorem final_app (D : Nat) (cf : Nat → Nat × Nat → F) (ij : Nat × Nat) : ofCoeffs (D + 1) (fun k => write D identM cf k ij) = app D cf ij := by
  ext k
  rw [ofCoeffs_coeff, app_coeff, write_at]
  by_cases h : k < D
  · rw [if_pos (by omega), if_neg (by omega), if_pos h]
  · rw [if_neg h]
    by_cases h' : k = D
    · rw [if_pos (by omega), if_pos h', if_pos h']
    · rw [if_neg (by omega), if_neg h']

theorem image_zero (n : Nat) (cf : Nat → Nat × Nat → F) (f : Nat → F[X]) (i : Nat) (hi : i < n) : image n 0 cf f i = f i := by
  unfold image
  have e : ∀ j, app 0 cf (i, j) = if i = j then 1 else 0 := by
    intro j
    ext k
    rw [app_coeff, if_neg (by omega)]
    show (if k = 0 then if i = j then 1 else 0 else 0) = _
    by_cases h : i = j
    · rw [if_pos h, if_pos h, coeff_one]
    · rw [if_neg h, if_neg h, coeff_zero]; split_ifs <;> rfl
  rw [Finset.sum_eq_single_of_mem i (Finset.mem_range.2 hi), e, if_pos rfl, one_mul]
  intro j _ hj
  rw [e, if_neg (Ne.symm hj), zero_mul]

/-- What `mbasis` returns when it returns. -/
theorem mbasis_ok {ker : PMat F → PMat F} (hk : KerTop ker) {pmat : PMat F[X]} {order : Nat} (hn : 0 < pmat.rows) (hc : 0 < pmat.cols)
    (hL : Long pmat (pmat.rows * (order / pmat.rows))) :
    ∃ P, mbasis ker pmat order = .ok (⟨pmat.rows, pmat.rows, P⟩, ⟨pmat.rows, fun _ => (order / pmat.rows : Nat)⟩) ∧ MonicOf pmat.rows (order / pmat.rows) P ∧
      (Generic pmat.rows (order / pmat.rows) (column pmat) → ∀ i, i < pmat.rows →
        X ^ (pmat.rows * (order / pmat.rows)) ∣ ∑ j ∈ Finset.range pmat.rows, P (i, j) * column pmat j) := by
  rcases cut_spec pmat (order / pmat.rows) hn hc with ⟨-, r, e, hr⟩ | ⟨h, -⟩
  swap
  · exact absurd hL h
  obtain ⟨s, hs⟩ := loop_ok hk pmat.rows (order / pmat.rows) (order / pmat.rows) ⟨r, fun _ _ => 0, fun _ => 0⟩
  refine ⟨app (order / pmat.rows) s.cf, ?_, app_monic _ _ _, fun hg => ?_⟩
  · unfold mbasis
    dsimp only
    rw [if_neg (by omega), e]
    show andThen (loopOut _ _ _) _ = _
    rw [hs]
    show Out.ok (_, _) = _
    rw [funext (final_app (order / pmat.rows) s.cf)]
  · obtain ⟨s', hs', hh⟩ := Bivar.loopOut_inv (fun d s => Holds pmat.rows (order / pmat.rows) (column pmat) d s) (f := step ker pmat.rows (order / pmat.rows))
      (s := (⟨r, fun _ _ => 0, fun _ => 0⟩ : St F)) (order / pmat.rows)
      ⟨fun k i j _ h2 hi hj => by rw [image_zero _ _ _ _ hi]; exact hr k i j h2 hi hj, fun i _ t ht => by omega, fun _ _ => rfl⟩
      fun d s hd h => ⟨_, step_ok hk _ _ d s, step_holds hk hn hd hg h⟩
    rw [hs] at hs'
    cases hs'
    intro i hi
    rw [X_pow_dvd_iff]
    intro t ht
    exact hh.low i hi t (by rw [Nat.mul_comm]; exact ht)

/-- **C106**. For a generic column of `n` polynomials which all have at least `n * (order / n)` coefficients, `mbasis_generic_onecolumn` returns an
    approximant basis at order `n * (order / n)`: it is in Popov form, of degree `order / n`, the value returned for every row. -/
theorem C106_mbasis {ker : PMat F → PMat F} (hk : KerTop ker) (pmat : PMat F[X]) (order : Nat) (hn : 0 < pmat.rows) (hc : 0 < pmat.cols)
    (hL : Long pmat (pmat.rows * (order / pmat.rows))) (hg : Generic pmat.rows (order / pmat.rows) (column pmat)) :
    ∃ P, mbasis ker pmat order = .ok (⟨pmat.rows, pmat.rows, P⟩, ⟨pmat.rows, fun _ => (order / pmat.rows : Nat)⟩) ∧ MonicOf pmat.rows (order / pmat.rows) P ∧
      PML.Approx.Spec.IsApproximantBasis (fun (i : Fin pmat.rows) (_ : Fin 1) => column pmat i) (pmat.rows * (order / pmat.rows))
        (fun i j : Fin pmat.rows => P (i, j)) :=
  let ⟨P, h1, h2, h3⟩ := mbasis_ok hk hn hc hL
  ⟨P, h1, h2, h2.basis hg (h3 hg)⟩

/-- **C106, negation**. If an entry has fewer coefficients, even if the column is generic, `mbasis_generic_onecolumn` reads out of bounds. -/
theorem C106_short_entry_fails (ker : PMat F → PMat F) (pmat : PMat F[X]) (order : Nat) (hn : 0 < pmat.rows) (hc : 0 < pmat.cols)
    (hL : ¬Long pmat (pmat.rows * (order / pmat.rows))) : mbasis ker pmat order = .ub := by
  rcases cut_spec pmat (order / pmat.rows) hn hc with ⟨h, -⟩ | ⟨-, e⟩
  · exact absurd h hL
  · unfold mbasis
    dsimp only
    rw [if_neg (by omega), e]
    rfl

/-- **C106, negation**. Without row, `mbasis_generic_onecolumn` divides by zero. -/
theorem C106_no_row_fails (ker : PMat F → PMat F) (pmat : PMat F[X]) (order : Nat) (hn : pmat.rows = 0) : mbasis ker pmat order = .ub := by
  unfold mbasis
  dsimp only
  rw [if_pos hn]

/-- **C106, negation**. At an order smaller than the number of rows, `mbasis_generic_onecolumn` returns the identity: its first row is not an
    approximant at order 1 or more if the first entry has a nonzero constant coefficient. -/
theorem C106_small_order_wrong {ker : PMat F → PMat F} (hk : KerTop ker) (pmat : PMat F[X]) (order : Nat) (ho : 0 < order) (h : order < pmat.rows) (hc : 0 < pmat.cols)
    (h0 : (column pmat 0).coeff 0 ≠ 0) :
    ∃ P, mbasis ker pmat order = .ok (⟨pmat.rows, pmat.rows, P⟩, ⟨pmat.rows, fun _ => 0⟩) ∧ (∀ i j, i < pmat.rows → j < pmat.rows → P (i, j) = if i = j then 1 else 0) ∧
      ¬X ^ order ∣ ∑ j ∈ Finset.range pmat.rows, P (0, j) * column pmat j := by
  have hD : order / pmat.rows = 0 := Nat.div_eq_of_lt h
  obtain ⟨P, h1, h2, -⟩ := mbasis_ok (order := order) hk (pmat := pmat) (by omega) hc (by
    rw [hD, Nat.mul_zero]
    intro i _
    have := Utils.pdeg_ge (pmat.e (i, 0))
    omega)
  rw [hD] at h1 h2
  have hP : ∀ i j, i < pmat.rows → j < pmat.rows → P (i, j) = if i = j then 1 else 0 := by
    intro i j hi hj
    rw [eq_C_of_natDegree_le_zero (h2.deg i j hi hj), h2.lead i j hi hj]
    by_cases hij : i = j
    · rw [if_pos hij, if_pos hij, C_1]
    · rw [if_neg hij, if_neg hij, C_0]
  refine ⟨P, h1, hP, fun hd => h0 ?_⟩
  rw [Finset.sum_eq_single_of_mem 0 (Finset.mem_range.2 (by omega)) fun j hj hj0 => by
    rw [hP 0 j (by omega) (Finset.mem_range.1 hj), if_neg (Ne.symm hj0), zero_mul], hP 0 0 (by omega) (by omega), if_pos rfl, one_mul] at hd
  exact X_pow_dvd_iff.1 hd 0 ho

/-! ### Genericity of truncations and residuals -/

theorem Generic.trunc {n D D1 : Nat} {f g : Nat → F[X]} (h : Generic n D f) (h1 : D1 ≤ D) (hg : ∀ i, i < n → X ^ (n * D1) ∣ f i - g i) : Generic n D1 g := by
  intro k hk v hv hd
  refine h k (by omega) v hv ?_
  have e : ∑ i ∈ Finset.range n, v i * f i = ∑ i ∈ Finset.range n, v i * g i + ∑ i ∈ Finset.range n, v i * (f i - g i) := by
    rw [← Finset.sum_add_distrib]
    exact Finset.sum_congr rfl fun i _ => by ring
  rw [e]
  refine dvd_add hd (Finset.dvd_sum fun i hi => Dvd.dvd.mul_left ((pow_dvd_pow X (Nat.mul_le_mul_left n hk)).trans (hg i (Finset.mem_range.1 hi))) _)

theorem swap_sum (n : Nat) (v : Nat → F[X]) (P : Nat × Nat → F[X]) (f : Nat → F[X]) :
    ∑ j ∈ Finset.range n, (∑ i ∈ Finset.range n, v i * P (i, j)) * f j = ∑ i ∈ Finset.range n, v i * ∑ j ∈ Finset.range n, P (i, j) * f j := by
  rw [Finset.sum_congr rfl fun j _ => Finset.sum_mul _ _ _, Finset.sum_comm]
  refine Finset.sum_congr rfl fun i _ => ?_
  rw [Finset.mul_sum]
  exact Finset.sum_congr rfl fun j _ => mul_assoc _ _ _

/-- A product by the residuals. -/
theorem residual_dvd {n D1 D2 k : Nat} {P : Nat × Nat → F[X]} {f g : Nat → F[X]}
    (hg : ∀ i, i < n → X ^ (n * (D1 + D2)) ∣ ∑ j ∈ Finset.range n, P (i, j) * f j - X ^ (n * D1) * g i) (hk : k ≤ D2) {v : Nat → F[X]}
    (hd : X ^ (n * k) ∣ ∑ i ∈ Finset.range n, v i * g i) : X ^ (n * (D1 + k)) ∣ ∑ j ∈ Finset.range n, (∑ i ∈ Finset.range n, v i * P (i, j)) * f j := by
  rw [swap_sum]
  have e : ∑ i ∈ Finset.range n, v i * ∑ j ∈ Finset.range n, P (i, j) * f j =
      X ^ (n * D1) * ∑ i ∈ Finset.range n, v i * g i + ∑ i ∈ Finset.range n, v i * (∑ j ∈ Finset.range n, P (i, j) * f j - X ^ (n * D1) * g i) := by
    rw [Finset.mul_sum, ← Finset.sum_add_distrib]
    exact Finset.sum_congr rfl fun i _ => by ring
  rw [e]
  refine dvd_add ?_ (Finset.dvd_sum fun i hi => Dvd.dvd.mul_left ((pow_dvd_pow X (Nat.mul_le_mul_left n (by omega))).trans (hg i (Finset.mem_range.1 hi))) _)
  rw [Nat.mul_add, pow_add]
  exact mul_dvd_mul_left _ hd

theorem Generic.residual {n D1 D2 : Nat} {P : Nat × Nat → F[X]} {f g : Nat → F[X]} (h : Generic n (D1 + D2) f) (hP : MonicOf n D1 P)
    (hg : ∀ i, i < n → X ^ (n * (D1 + D2)) ∣ ∑ j ∈ Finset.range n, P (i, j) * f j - X ^ (n * D1) * g i) : Generic n D2 g := by
  intro k hk v hv hd
  cases k with
  | zero => exact fun i hi => degree_eq_bot.1 (Nat.WithBot.lt_zero_iff.1 (hv i hi))
  | succ N =>
    have hw := h (D1 + (N + 1)) (by omega) (fun j => ∑ i ∈ Finset.range n, v i * P (i, j))
      (fun j hj => by
        have := degree_lt_of_le (hP.row_deg (v := v) (N := N) (fun i hi => natDegree_le_of_lt (hv i hi)) hj)
        rw [show D1 + (N + 1) = N + D1 + 1 by omega]
        exact this)
      (residual_dvd hg hk hd)
    exact hP.cancel hw

/-! ### The divide and conquer algorithm -/

theorem monic_deg {n D : Nat} {P : Nat × Nat → F[X]} (hn : 0 < n) (h : MonicOf n D P) : deg (⟨n, n, P⟩ : PMat F[X]) = D := by
  obtain ⟨-, h2, -⟩ := deg_spec (⟨n, n, P⟩ : PMat F[X])
  have h3 : deg (⟨n, n, P⟩ : PMat F[X]) < (D + 1 : Nat) := (deg_lt_iff _ _).2 fun i j hi hj k hk =>
    (natDegree_le_iff_coeff_eq_zero.1 (h.deg i j hi hj)) k (by omega)
  have h4 := h2 0 0 hn hn
  have h5 : ¬pdeg (P (0, 0)) < D := by
    intro hlt
    have := (pdeg_lt_iff _ _).1 hlt D (le_refl _)
    rw [h.lead 0 0 hn hn, if_pos rfl] at this
    exact one_ne_zero this
  dsimp only at h4
  omega

theorem middle_dims {rd : Rat → Rat} {mul : PMat F[X] → PMat F[X] → Option (PMat F[X])} {c : PMat (Sto F)} {a b : PMat F[X]} {p : Nat} {t : Nat → Int} {dA dB : Nat}
    {y : PMat (Sto F)} (h : rightParlinMiddle rd mul c a b p t dA dB = .ok y) : y.rows = a.rows ∧ y.cols = b.cols := by
  unfold rightParlinMiddle at h
  dsimp only at h
  obtain ⟨x1, -, h1⟩ := Bivar.andThen_eq_ok h
  obtain ⟨x2, -, h2⟩ := Bivar.andThen_eq_ok h1
  obtain ⟨x3, -, h3⟩ := Bivar.andThen_eq_ok h2
  cases h3
  exact ⟨rfl, rfl⟩

/-- Unfolding of one level. -/
theorem pmbasis_small (ker : PMat F → PMat F) (rd : Rat → Rat) (mul : PMat F[X] → PMat F[X] → Option (PMat F[X])) (fuel : Nat) (pmat : PMat F[X]) (order : Nat)
    (shift : NVec Int) (h : order ≤ 16 * pmat.rows) : pmbasis ker rd mul fuel pmat order shift = mbasis ker pmat order := by
  unfold pmbasis
  rw [if_pos h]

theorem pmbasis_large (ker : PMat F → PMat F) (rd : Rat → Rat) (mul : PMat F[X] → PMat F[X] → Option (PMat F[X])) (fuel : Nat) (pmat : PMat F[X]) (order : Nat)
    (shift : NVec Int) (h : ¬order ≤ 16 * pmat.rows) : pmbasis ker rd mul (fuel + 1) pmat order shift =
      andThen (pmbasis ker rd mul fuel (Utils.trunc false ⟨0, 0, fun _ => 0⟩ pmat (order / 2)) (order / 2) shift) fun r =>
        if shift.len < r.2.len ∨ pmat.rows < r.2.len then .ub
        else
          andThen (rightParlinMiddle rd mul (fresh F) r.1 pmat (pmat.cols * order / (2 * pmat.rows)) (fun _ => (order : Int) - 1) (order / 2) (order - order / 2 - 1)) fun res =>
          andThen (pmbasis ker rd mul fuel (vals res) (order - order / 2) ⟨pmat.rows, fun i => if i < r.2.len then r.2.e i + shift.e i else 0⟩) fun r2 =>
          andThen (Bivar.ofOpt (mul r2.1 r.1)) fun app =>
          if r2.2.len < r.2.len then .ub else .ok (app, ⟨r.2.len, fun i => r.2.e i + r2.2.e i⟩) := by
  rw [pmbasis, if_neg h]

/-- The degree of the result at `order`. -/
def blocks (n : Nat) : Nat → Nat → Nat
  | fuel, order =>
    if order ≤ 16 * n then order / n
    else
      match fuel with
      | 0 => 0
      | fuel + 1 => blocks n fuel (order / 2) + blocks n fuel (order - order / 2)

theorem trunc_dims (pmat : PMat F[X]) (k : Nat) : (Utils.trunc false ⟨0, 0, fun _ => 0⟩ pmat k).rows = pmat.rows ∧ (Utils.trunc false ⟨0, 0, fun _ => 0⟩ pmat k).cols = pmat.cols ∧
    ∀ i j, i < pmat.rows → j < pmat.cols → (Utils.trunc false ⟨0, 0, fun _ => 0⟩ pmat k).e (i, j) = ptrunc (pmat.e (i, j)) k :=
  entrywise_spec false ⟨0, 0, fun _ => 0⟩ pmat fun _ _ f => ptrunc f k

theorem product_monic {n D1 D2 : Nat} {P Q : Nat × Nat → F[X]} {c : PMat F[X]} (hP : MonicOf n D1 P) (hQ : MonicOf n D2 Q)
    (hc : IsProduct ⟨n, n, Q⟩ ⟨n, n, P⟩ c) : MonicOf n (D1 + D2) c.e where
  deg i j hi hj := by rw [hc.2.2 i j hi hj, Nat.add_comm]; exact (hQ.mul hP).deg i j hi hj
  lead i j hi hj := by rw [hc.2.2 i j hi hj, Nat.add_comm]; exact (hQ.mul hP).lead i j hi hj

/-- Whatever the input, the result has the degree of `blocks`. -/
theorem pmbasis_monic {ker : PMat F → PMat F} (hk : KerTop ker) (rd : Rat → Rat) {mul : PMat F[X] → PMat F[X] → Option (PMat F[X])} (hmul : MulOk mul) :
    ∀ (fuel : Nat) (pmat : PMat F[X]) (order : Nat) (shift : NVec Int) (r : PMat F[X] × NVec Int), 0 < pmat.rows → 0 < pmat.cols →
      pmbasis ker rd mul fuel pmat order shift = .ok r →
      r.1.rows = pmat.rows ∧ r.1.cols = pmat.rows ∧ r.2.len = pmat.rows ∧ (∀ i, i < pmat.rows → r.2.e i = (blocks pmat.rows fuel order : Nat)) ∧
        MonicOf pmat.rows (blocks pmat.rows fuel order) r.1.e := by
  intro fuel
  induction fuel with
  | zero =>
    intro pmat order shift r hn hc h
    unfold pmbasis at h
    by_cases hs : order ≤ 16 * pmat.rows
    · rw [if_pos hs] at h
      have hb : blocks pmat.rows 0 order = order / pmat.rows := by unfold blocks; rw [if_pos hs]
      rw [hb]
      by_cases hL : Long pmat (pmat.rows * (order / pmat.rows))
      · obtain ⟨P, h1, h2, -⟩ := mbasis_ok (order := order) hk hn hc hL
        rw [h1] at h
        cases h
        exact ⟨rfl, rfl, rfl, fun _ _ => rfl, h2⟩
      · rw [C106_short_entry_fails ker pmat order hn hc hL] at h
        cases h
    · rw [if_neg hs] at h
      cases h
  | succ fuel ih =>
    intro pmat order shift r hn hc h
    by_cases hs : order ≤ 16 * pmat.rows
    · rw [pmbasis_small _ _ _ _ _ _ _ hs] at h
      have hb : blocks pmat.rows (fuel + 1) order = order / pmat.rows := by unfold blocks; rw [if_pos hs]
      rw [hb]
      by_cases hL : Long pmat (pmat.rows * (order / pmat.rows))
      · obtain ⟨P, h1, h2, -⟩ := mbasis_ok (order := order) hk hn hc hL
        rw [h1] at h
        cases h
        exact ⟨rfl, rfl, rfl, fun _ _ => rfl, h2⟩
      · rw [C106_short_entry_fails ker pmat order hn hc hL] at h
        cases h
    · rw [pmbasis_large _ _ _ _ _ _ _ hs] at h
      have hb : blocks pmat.rows (fuel + 1) order = blocks pmat.rows fuel (order / 2) + blocks pmat.rows fuel (order - order / 2) := by
        rw [blocks, if_neg hs]
      rw [hb]
      obtain ⟨⟨⟨pr, pc, P⟩, ⟨dl, dv⟩⟩, h1, h⟩ := Bivar.andThen_eq_ok h
      obtain ⟨t1, t2, -⟩ := trunc_dims pmat (order / 2)
      obtain ⟨rfl, rfl, rfl, p4, p5⟩ := ih _ _ _ _ (by rw [t1]; exact hn) (by rw [t2]; exact hc) h1
      rw [t1] at p4 p5 h
      dsimp only at p4 p5 h
      by_cases hsh : shift.len < pmat.rows ∨ pmat.rows < pmat.rows
      · rw [if_pos hsh] at h; cases h
      rw [if_neg hsh] at h
      obtain ⟨res, h2, h⟩ := Bivar.andThen_eq_ok h
      obtain ⟨d1, d2⟩ := middle_dims h2
      dsimp only at d1
      obtain ⟨⟨⟨qr, qc, Q⟩, ⟨el, ev⟩⟩, h3, h⟩ := Bivar.andThen_eq_ok h
      obtain ⟨q1, q2, q3, q4, q5⟩ := ih _ _ _ _ (by show 0 < res.rows; rw [d1]; exact hn) (by show 0 < res.cols; rw [d2]; exact hc) h3
      have hrr : (vals res).rows = pmat.rows := d1
      rw [hrr] at q1 q2 q3 q4 q5
      dsimp only at q1 q2 q3 q4 q5
      subst q1 q2 q3
      obtain ⟨app, h4, h⟩ := Bivar.andThen_eq_ok h
      obtain ⟨c, hc1, hc2⟩ := hmul ⟨pmat.rows, pmat.rows, Q⟩ ⟨pmat.rows, pmat.rows, P⟩ rfl hn
      dsimp only at h4 h
      rw [hc1] at h4
      cases h4
      rw [if_neg (by omega)] at h
      cases h
      exact ⟨hc2.1, hc2.2.1, rfl, fun i hi => by show dv i + ev i = _; rw [p4 i hi, q4 i hi]; push_cast; rfl, product_monic p5 q5 hc2⟩

/-- **C106, negation**. At order `17 n`, with `n ≥ 2` rows, `pmbasis_generic_onecolumn` never returns an approximant basis of a generic column: it fails,
    or no row of the matrix it returns is an approximant. -/
theorem C106_degree_lost {ker : PMat F → PMat F} (hk : KerTop ker) (rd : Rat → Rat) {mul : PMat F[X] → PMat F[X] → Option (PMat F[X])} (hmul : MulOk mul) (fuel : Nat)
    (hf : 0 < fuel) (pmat : PMat F[X]) (hn : 2 ≤ pmat.rows) (hc : 0 < pmat.cols) (shift : NVec Int) (hg : Generic pmat.rows 17 (column pmat)) (r : PMat F[X] × NVec Int)
    (h : pmbasis ker rd mul fuel pmat (pmat.rows * 17) shift = .ok r) (i : Nat) (hi : i < pmat.rows) :
    ¬X ^ (pmat.rows * 17) ∣ ∑ j ∈ Finset.range pmat.rows, r.1.e (i, j) * column pmat j := by
  obtain ⟨-, -, -, -, h5⟩ := pmbasis_monic hk rd hmul fuel pmat _ shift r (by omega) hc h
  have hb : blocks pmat.rows fuel (pmat.rows * 17) = 16 := by
    cases fuel with
    | zero => omega
    | succ fuel =>
      have b1 : blocks pmat.rows fuel (pmat.rows * 17 / 2) = 8 := by
        unfold blocks
        rw [if_pos (by omega)]
        exact Nat.div_eq_of_lt_le (by omega) (by omega)
      have b2 : blocks pmat.rows fuel (pmat.rows * 17 - pmat.rows * 17 / 2) = 8 := by
        unfold blocks
        rw [if_pos (by omega)]
        exact Nat.div_eq_of_lt_le (by omega) (by omega)
      rw [blocks, if_neg (by omega)]
      show blocks _ _ _ + blocks _ _ _ = _
      rw [b1, b2]
  rw [hb] at h5
  exact h5.not_approximant (by decide) hg hi

/-- The result of a division into two halves. -/
theorem divide_step {n D : Nat} {P : Nat × Nat → F[X]} {f g : Nat → F[X]} (hn : 0 < n)
    (ha : ∀ i, i < n → X ^ (n * D) ∣ ∑ j ∈ Finset.range n, P (i, j) * f j)
    (hres : ∀ i, i < n → ∀ k, (g i).coeff k = if k ≤ n * D - 1 then (∑ j ∈ Finset.range n, P (i, j) * f j).coeff (n * D + k) else 0) (hD : 0 < D) :
    ∀ i, i < n → X ^ (n * (D + D)) ∣ ∑ j ∈ Finset.range n, P (i, j) * f j - X ^ (n * D) * g i := by
  intro i hi
  rw [X_pow_dvd_iff]
  intro t ht
  have hp : 0 < n * D := Nat.mul_pos hn hD
  rw [Nat.mul_add] at ht
  rw [coeff_sub, coeff_X_pow_mul']
  by_cases h : n * D ≤ t
  · rw [if_pos h, hres i hi, if_pos (by omega), show n * D + (t - n * D) = t by omega, sub_self]
  · rw [if_neg h, sub_zero]
    exact X_pow_dvd_iff.1 (ha i hi) t (by omega)

/-- **C106**, partial. At order `n * 2^k * D0` with `D0 ≤ 16`, for a generic column of `n` polynomials of degree less than the order, what
    `pmbasis_generic_onecolumn` returns is the approximant basis in Popov form, of degree `2^k * D0` for every row.  What is missing: it may stop with
    an error, or read out of bounds, when an entry of the input or of a residual has too few coefficients; other orders (`C106_degree_lost`). -/
theorem C106_pmbasis_partial {ker : PMat F → PMat F} (hk : KerTop ker) {rd : Rat → Rat} (hrd : Rounding rd) {mul : PMat F[X] → PMat F[X] → Option (PMat F[X])}
    (hmul : MulOk mul) (D0 : Nat) (hD0 : D0 ≤ 16) :
    ∀ (k fuel : Nat) (pmat : PMat F[X]) (shift : NVec Int), k ≤ fuel → 0 < pmat.rows → pmat.cols = 1 → pmat.rows ≤ shift.len → pmat.rows * (2 ^ k * D0) < 2 ^ 53 →
      (∀ i, i < pmat.rows → (column pmat i).degree < (pmat.rows * (2 ^ k * D0) : Nat)) → Generic pmat.rows (2 ^ k * D0) (column pmat) →
      (∃ P dv, pmbasis ker rd mul fuel pmat (pmat.rows * (2 ^ k * D0)) shift = .ok (⟨pmat.rows, pmat.rows, P⟩, ⟨pmat.rows, dv⟩) ∧
        (∀ i, i < pmat.rows → dv i = (2 ^ k * D0 : Nat)) ∧ MonicOf pmat.rows (2 ^ k * D0) P ∧
        PML.Approx.Spec.IsApproximantBasis (fun (i : Fin pmat.rows) (_ : Fin 1) => column pmat i) (pmat.rows * (2 ^ k * D0)) (fun i j : Fin pmat.rows => P (i, j))) ∨
      pmbasis ker rd mul fuel pmat (pmat.rows * (2 ^ k * D0)) shift = .ub ∨ pmbasis ker rd mul fuel pmat (pmat.rows * (2 ^ k * D0)) shift = .error := by
  have main : ∀ (k fuel : Nat) (pmat : PMat F[X]) (shift : NVec Int), k ≤ fuel → 0 < pmat.rows → pmat.cols = 1 → pmat.rows ≤ shift.len →
      pmat.rows * (2 ^ k * D0) < 2 ^ 53 →
      (∀ i, i < pmat.rows → (column pmat i).degree < (pmat.rows * (2 ^ k * D0) : Nat)) → Generic pmat.rows (2 ^ k * D0) (column pmat) →
      (∃ P dv, pmbasis ker rd mul fuel pmat (pmat.rows * (2 ^ k * D0)) shift = .ok (⟨pmat.rows, pmat.rows, P⟩, ⟨pmat.rows, dv⟩) ∧
        (∀ i, i < pmat.rows → dv i = (2 ^ k * D0 : Nat)) ∧ MonicOf pmat.rows (2 ^ k * D0) P ∧
        ∀ i, i < pmat.rows → X ^ (pmat.rows * (2 ^ k * D0)) ∣ ∑ j ∈ Finset.range pmat.rows, P (i, j) * column pmat j) ∨
      pmbasis ker rd mul fuel pmat (pmat.rows * (2 ^ k * D0)) shift = .ub ∨ pmbasis ker rd mul fuel pmat (pmat.rows * (2 ^ k * D0)) shift = .error := by
    intro k
    induction k with
    | zero =>
      intro fuel pmat shift _ hn hc hsl _ _ hg
      rw [pow_zero, Nat.one_mul] at hg ⊢
      rw [pmbasis_small _ _ _ _ _ _ _ (by rw [Nat.mul_comm 16]; exact Nat.mul_le_mul_left _ hD0)]
      have hq : pmat.rows * D0 / pmat.rows = D0 := Nat.mul_div_cancel_left _ hn
      by_cases hL : Long pmat (pmat.rows * (pmat.rows * D0 / pmat.rows))
      · obtain ⟨P, h1, h2, h3⟩ := mbasis_ok (order := pmat.rows * D0) hk hn (by omega) hL
        rw [hq] at h1 h2 h3
        exact .inl ⟨P, _, h1, fun _ _ => rfl, h2, h3 hg⟩
      · exact .inr (.inl (C106_short_entry_fails ker pmat _ hn (by omega) hL))
    | succ k ih =>
      intro fuel pmat shift hf hn hc hsl h53 hdeg hg
      by_cases hs : pmat.rows * (2 ^ (k + 1) * D0) ≤ 16 * pmat.rows
      · rw [pmbasis_small _ _ _ _ _ _ _ hs]
        have hq : pmat.rows * (2 ^ (k + 1) * D0) / pmat.rows = 2 ^ (k + 1) * D0 := Nat.mul_div_cancel_left _ hn
        by_cases hL : Long pmat (pmat.rows * (pmat.rows * (2 ^ (k + 1) * D0) / pmat.rows))
        · obtain ⟨P, h1, h2, h3⟩ := mbasis_ok (order := pmat.rows * (2 ^ (k + 1) * D0)) hk hn (by omega) hL
          rw [hq] at h1 h2 h3
          exact .inl ⟨P, _, h1, fun _ _ => rfl, h2, h3 hg⟩
        · exact .inr (.inl (C106_short_entry_fails ker pmat _ hn (by omega) hL))
      obtain ⟨fuel, rfl⟩ : ∃ m, fuel = m + 1 := ⟨fuel - 1, by omega⟩
      rw [pmbasis_large _ _ _ _ _ _ _ hs]
      generalize hE : 2 ^ k * D0 = E at ih
      have e2 : 2 ^ (k + 1) * D0 = E + E := by rw [← hE, pow_succ]; ring
      rw [e2] at h53 hdeg hg hs ⊢
      rw [Nat.mul_add] at h53 hs
      have hdeg : ∀ i, i < pmat.rows → (column pmat i).degree < (pmat.rows * E + pmat.rows * E : Nat) := fun i hi => by rw [← Nat.mul_add]; exact hdeg i hi
      have o1 : pmat.rows * (E + E) / 2 = pmat.rows * E := by rw [Nat.mul_add]; omega
      have o2 : pmat.rows * (E + E) - pmat.rows * E = pmat.rows * E := by rw [Nat.mul_add]; omega
      have hEp : 0 < E := by
        rcases Nat.eq_zero_or_pos E with h | h
        · rw [h, Nat.mul_zero] at hs; omega
        · exact h
      have hnE : 0 < pmat.rows * E := Nat.mul_pos hn hEp
      have hnE' : E ≤ pmat.rows * E := Nat.le_mul_of_pos_left E hn
      rw [o1, o2]
      obtain ⟨t1, t2, t3⟩ := trunc_dims pmat (pmat.rows * E)
      have hgt : Generic pmat.rows E (column (Utils.trunc false ⟨0, 0, fun _ => 0⟩ pmat (pmat.rows * E))) := hg.trunc (by omega) fun i hi => by
        show X ^ (pmat.rows * E) ∣ pmat.e (i, 0) - (Utils.trunc _ _ _ _).e (i, 0)
        rw [t3 i 0 hi (by omega), X_pow_dvd_iff]
        intro d hd
        rw [coeff_sub, ptrunc_coeff, if_pos hd, sub_self]
      have hdt : ∀ i, i < pmat.rows → (column (Utils.trunc false ⟨0, 0, fun _ => 0⟩ pmat (pmat.rows * E)) i).degree < (pmat.rows * E : Nat) := fun i hi => by
        show ((Utils.trunc _ _ _ _).e (i, 0)).degree < _
        rw [t3 i 0 hi (by omega), degree_lt_iff_coeff_zero]
        intro d hd
        rw [ptrunc_coeff, if_neg (by omega)]
      have ih1 := ih fuel (Utils.trunc false ⟨0, 0, fun _ => 0⟩ pmat (pmat.rows * E)) shift (by omega) (by rw [t1]; exact hn) (by rw [t2]; exact hc) (by rw [t1]; exact hsl)
        (by rw [t1]; omega) (by rw [t1]; exact hdt) (by rw [t1]; exact hgt)
      rw [t1] at ih1
      rcases ih1 with ⟨P, dv, e1, hdv, hP, ha⟩ | e1 | e1
      rotate_left
      · rw [e1]; exact .inr (.inl rfl)
      · rw [e1]; exact .inr (.inr rfl)
      rw [e1]
      show (∃ _, _) ∨ (if _ then _ else _) = _ ∨ (if _ then _ else _) = _
      dsimp only [andThen]
      rw [if_neg (by omega)]
      have ha' : ∀ i, i < pmat.rows → X ^ (pmat.rows * E) ∣ ∑ j ∈ Finset.range pmat.rows, P (i, j) * column pmat j := by
        intro i hi
        have e : ∑ j ∈ Finset.range pmat.rows, P (i, j) * column pmat j =
            ∑ j ∈ Finset.range pmat.rows, P (i, j) * column (Utils.trunc false ⟨0, 0, fun _ => 0⟩ pmat (pmat.rows * E)) j +
            ∑ j ∈ Finset.range pmat.rows, P (i, j) * (column pmat j - column (Utils.trunc false ⟨0, 0, fun _ => 0⟩ pmat (pmat.rows * E)) j) := by
          rw [← Finset.sum_add_distrib]
          exact Finset.sum_congr rfl fun j _ => by ring
        rw [e]
        refine dvd_add (ha i hi) (Finset.dvd_sum fun j hj => Dvd.dvd.mul_left ?_ _)
        show X ^ (pmat.rows * E) ∣ pmat.e (j, 0) - (Utils.trunc _ _ _ _).e (j, 0)
        rw [t3 j 0 (Finset.mem_range.1 hj) (by omega), X_pow_dvd_iff]
        intro d hd
        rw [coeff_sub, ptrunc_coeff, if_pos hd, sub_self]
      have hord : pmat.rows * (E + E) = pmat.rows * E + pmat.rows * E := Nat.mul_add _ _ _
      have hd0 : deg (⟨pmat.rows, pmat.rows, P⟩ : PMat F[X]) + ((pmat.rows * E - E : Nat) : Int) = (pmat.rows * E : Nat) := by
        rw [monic_deg hn hP]; omega
      have ht : ∀ j, j < pmat.cols → ((pmat.rows * E - E : Nat) : Int) ≤ (fun _ : Nat => ((pmat.rows * (E + E) : Nat) : Int) - 1) j ∧
          (fun _ : Nat => ((pmat.rows * (E + E) : Nat) : Int) - 1) j - ((pmat.rows * E - E : Nat) : Int) + 1 < 2 ^ 53 := fun j _ => by
        dsimp only
        rw [hord]
        omega
      have hcb : ColBound pmat fun _ => ((pmat.rows * (E + E) : Nat) : Int) - 1 := by
        intro i j hi hj d hd
        obtain rfl : j = 0 := by omega
        have hd' : ((pmat.rows * E + pmat.rows * E : Nat) : Int) - 1 < d := by rw [← hord]; exact hd
        exact coeff_eq_zero_of_degree_lt (lt_of_lt_of_le (hdeg i hi) (by exact_mod_cast (show pmat.rows * E + pmat.rows * E ≤ d by omega)))
      by_cases hns : NoShortEntry pmat (fun _ => pmat.cols * (pmat.rows * (E + E)) / (2 * pmat.rows))
          (fun j => max 0 ((fun _ : Nat => ((pmat.rows * (E + E) : Nat) : Int) - 1) j - ((pmat.rows * E - E : Nat) : Int))) (pmat.rows * E - E)
      swap
      · rw [C75_middle_fails hrd mul (fresh F) ⟨pmat.rows, pmat.rows, P⟩ pmat _ _ _ _ _ hd0 (fun j hj => (ht j hj).2) hns]
        exact .inr (.inr rfl)
      obtain ⟨y, ey, y1, y2, y3⟩ := C75_middle_partial hrd hmul (fresh F) ⟨pmat.rows, pmat.rows, P⟩ pmat _ _ (pmat.rows * E) (pmat.rows * E - 1) _ rfl hn hd0 ht hcb hns
        fun _ _ => rfl
      rw [ey]
      dsimp only at y1 y2 y3 ⊢
      have hres := divide_step (g := column (vals y)) hn ha' (fun i hi d => y3 i 0 hi (by omega) d) hEp
      have hgr : Generic pmat.rows E (column (vals y)) := hg.residual hP hres
      have hyr : (vals y).rows = pmat.rows := y1
      have hdy : ∀ i, i < pmat.rows → (column (vals y) i).degree < (pmat.rows * E : Nat) := fun i hi => by
        rw [degree_lt_iff_coeff_zero]
        intro d hd
        have := y3 i 0 hi (by omega) d
        rw [if_neg (by omega)] at this
        exact this
      have ih2 := ih fuel (vals y) ⟨pmat.rows, fun i => if i < pmat.rows then dv i + shift.e i else 0⟩ (by omega) (by rw [hyr]; exact hn)
        (by show y.cols = 1; rw [y2]; exact hc) (by rw [hyr]) (by rw [hyr]; omega) (by rw [hyr]; exact hdy) (by rw [hyr]; exact hgr)
      rw [hyr] at ih2
      rcases ih2 with ⟨Q, ev, e3, hev, hQ, hb⟩ | e3 | e3
      rotate_left
      · rw [e3]; exact .inr (.inl rfl)
      · rw [e3]; exact .inr (.inr rfl)
      rw [e3]
      obtain ⟨⟨cr, cc, ce⟩, hc1, hc2⟩ := hmul ⟨pmat.rows, pmat.rows, Q⟩ ⟨pmat.rows, pmat.rows, P⟩ rfl hn
      dsimp only
      rw [hc1]
      dsimp only [Bivar.ofOpt]
      rw [if_neg (by omega)]
      refine .inl ⟨ce, fun i => dv i + ev i, ?_, fun i hi => ?_, product_monic hP hQ hc2, fun i hi => ?_⟩
      · have h1 : cr = pmat.rows := hc2.1
        have h2 : cc = pmat.rows := hc2.2.1
        rw [h1, h2]
      · show dv i + ev i = _
        rw [hdv i hi, hev i hi]; push_cast; rfl
      · rw [Finset.sum_congr rfl fun j hj => by rw [show ce (i, j) = _ from hc2.2.2 i j hi (Finset.mem_range.1 hj)]]
        exact residual_dvd hres (le_refl _) (hb i hi)
  intro k fuel pmat shift h1 h2 h3 h4 h5 h6 h7
  rcases main k fuel pmat shift h1 h2 h3 h4 h5 h6 h7 with ⟨P, dv, e, hd, hm, ha⟩ | e
  · exact .inl ⟨P, dv, e, hd, hm, hm.basis h7 ha⟩
  · exact .inr e

/-! ### The hypotheses can be met -/

theorem ker_value (A : PMat F) : ∃ K : Nat × Nat → F, ∀ n, A.rows = 2 * n → A.cols = n →
    (∀ v : Nat → F, (∀ c, c < n → ∑ l ∈ Finset.range n, v l * A.e (l, c) = 0) → ∀ l, l < n → v l = 0) →
    ∀ i, i < n → ∀ c, c < n → ∑ l ∈ Finset.range n, K (i, l) * A.e (l, c) + A.e (n + i, c) = 0 := by
  by_cases hind : ∀ v : Nat → F, (∀ c, c < A.cols → ∑ l ∈ Finset.range A.cols, v l * A.e (l, c) = 0) → ∀ l, l < A.cols → v l = 0
  swap
  · exact ⟨fun _ => 0, fun n _ h2 h3 => absurd (by rw [h2]; exact h3) hind⟩
  let R : Matrix (Fin A.cols) (Fin A.cols) F := fun l c => A.e (l, c)
  have hR : IsUnit R := by
    rw [← Matrix.vecMul_injective_iff_isUnit]
    refine (injective_iff_map_eq_zero (Matrix.vecMulLinear R)).2 fun w hw => funext fun l => ?_
    have := hind (fun t => if ht : t < A.cols then w ⟨t, ht⟩ else 0) (fun c hc => by
      rw [Finset.sum_range]
      have := congrFun hw ⟨c, hc⟩
      refine Eq.trans (Finset.sum_congr rfl fun l _ => ?_) this
      rw [dif_pos l.2]) l l.2
    rw [dif_pos l.2] at this
    exact this
  refine ⟨fun il => if h : il.2 < A.cols then -∑ c : Fin A.cols, A.e (A.cols + il.1, c) * R⁻¹ c ⟨il.2, h⟩ else 0, fun n _ h2 _ i hi c hc => ?_⟩
  subst h2
  have e : ∑ l : Fin A.cols, (∑ c : Fin A.cols, A.e (A.cols + i, c) * R⁻¹ c l) * R l ⟨c, hc⟩ = A.e (A.cols + i, c) := by
    have h1 : (R⁻¹ * R) = 1 := Matrix.nonsing_inv_mul R ((Matrix.isUnit_iff_isUnit_det R).1 hR)
    rw [Finset.sum_congr rfl fun l _ => Finset.sum_mul _ _ _, Finset.sum_comm]
    have h2 : ∀ d : Fin A.cols, ∑ l : Fin A.cols, A.e (A.cols + i, d) * R⁻¹ d l * R l ⟨c, hc⟩ = if d = ⟨c, hc⟩ then A.e (A.cols + i, d) else 0 := by
      intro d
      have := congrFun (congrFun h1 d) ⟨c, hc⟩
      rw [Matrix.mul_apply, Matrix.one_apply] at this
      rw [Finset.sum_congr rfl fun l _ => mul_assoc _ _ _, ← Finset.mul_sum, this]
      split_ifs
      · rw [mul_one]
      · rw [mul_zero]
    rw [Finset.sum_congr rfl fun d _ => h2 d, Finset.sum_eq_single_of_mem (⟨c, hc⟩ : Fin A.cols) (Finset.mem_univ _) fun d _ hd => if_neg hd, if_pos rfl]
  rw [Finset.sum_range]
  refine Eq.trans (congrArg (· + A.e (A.cols + i, c)) (Eq.trans (Finset.sum_congr rfl fun l _ => ?_) (Finset.sum_neg_distrib _))) (neg_add_eq_zero.2 e)
  dsimp only
  rw [dif_pos l.2, neg_mul]

theorem kerTop_exists : ∃ ker : PMat F → PMat F, KerTop ker :=
  ⟨fun A => ⟨A.rows - A.cols, A.rows, Classical.choose (ker_value A)⟩, fun _ => rfl, fun _ => le_refl _, fun A n h1 h2 h3 => Classical.choose_spec (ker_value A) n h1 h2 h3⟩

/-- Solutions of `c = 1 + X c^2` modulo powers of `X`. -/
noncomputable def catalan : Nat → (ZMod 5)[X]
  | 0 => 1
  | N + 1 => 1 + X * catalan N ^ 2

theorem catalan_next (N : Nat) : X ^ (N + 1) ∣ catalan (N + 1) - catalan N := by
  induction N with
  | zero => exact ⟨1, by show (1 + X * 1 ^ 2 - 1 : (ZMod 5)[X]) = _; ring⟩
  | succ N ih =>
    obtain ⟨q, hq⟩ := ih
    exact ⟨q * (catalan (N + 1) + catalan N), by
      show (1 + X * catalan (N + 1) ^ 2) - (1 + X * catalan N ^ 2) = _
      rw [show (1 + X * catalan (N + 1) ^ 2) - (1 + X * catalan N ^ 2) = X * ((catalan (N + 1) - catalan N) * (catalan (N + 1) + catalan N)) by ring, hq]
      ring⟩

theorem low_factor {a b : (ZMod 5)[X]} {m : Nat} (h : X ^ (m + 1) ∣ a - X * b) : ∃ w, a = X * w ∧ X ^ m ∣ w - b := by
  have h0 : X ∣ a := by
    have h1 : X ∣ a - X * b := (Dvd.intro_left (X ^ m) (pow_succ X m).symm).trans h
    have := dvd_add h1 (dvd_mul_right X b)
    rwa [sub_add_cancel] at this
  obtain ⟨w, rfl⟩ := h0
  refine ⟨w, rfl, ?_⟩
  rw [← mul_sub, pow_succ, mul_comm] at h
  exact (mul_dvd_mul_iff_left X_ne_zero).1 h

theorem shift_deg {a w : (ZMod 5)[X]} {m : Nat} (h : a = X * w) (hd : a.degree < (m + 1 : Nat)) : w.degree < (m : Nat) := by
  rw [degree_lt_iff_coeff_zero] at hd ⊢
  intro d h'
  have := hd (d + 1) (by omega)
  rwa [h, coeff_X_mul] at this

/-- The columns `(c, 1)` are generic. -/
theorem catalan_generic (N D : Nat) (hD : 2 * D ≤ N + 1) : Generic 2 D fun i => if i = 0 then catalan N else 1 := by
  have key : ∀ k, 2 * k ≤ N + 1 → ∀ a b : (ZMod 5)[X], a.degree < (k : Nat) → b.degree < (k : Nat) → X ^ (2 * k) ∣ a * catalan N + b → a = 0 ∧ b = 0 := by
    intro k
    induction k with
    | zero => intro _ a b ha hb _; exact ⟨degree_eq_bot.1 (Nat.WithBot.lt_zero_iff.1 ha), degree_eq_bot.1 (Nat.WithBot.lt_zero_iff.1 hb)⟩
    | succ k ih =>
      intro hk a b ha hb hd
      have hc : ∀ m, m ≤ N + 1 → X ^ m ∣ 1 + X * catalan N ^ 2 - catalan N := fun m hm => (pow_dvd_pow X hm).trans (catalan_next N)
      -- multiply by `1 - X c`, which is the inverse of `c`
      have h1 : X ^ (2 * k + 1 + 1) ∣ (a + b) - X * (b * catalan N) := by
        have := dvd_add (Dvd.dvd.mul_left hd (1 - X * catalan N)) (Dvd.dvd.mul_left (hc (2 * (k + 1)) (by omega)) a)
        rw [show 2 * k + 1 + 1 = 2 * (k + 1) by omega]
        refine this.trans (dvd_of_eq ?_)
        ring
      obtain ⟨w, hw, h2⟩ := low_factor h1
      have h3 : X ^ (2 * k + 1) ∣ (w - b) - X * (w * catalan N) := by
        have := dvd_sub (Dvd.dvd.mul_left h2 (1 - X * catalan N)) (Dvd.dvd.mul_left (hc (2 * k + 1) (by omega)) b)
        refine this.trans (dvd_of_eq ?_)
        ring
      obtain ⟨u, hu, h4⟩ := low_factor h3
      have dw : w.degree < (k : Nat) := shift_deg hw (lt_of_le_of_lt (degree_add_le _ _) (max_lt ha hb))
      have du : u.degree < (k : Nat) := shift_deg hu (lt_of_le_of_lt (degree_sub_le _ _) (max_lt (dw.trans (by exact_mod_cast Nat.lt_succ_self k)) hb))
      obtain ⟨w0, u0⟩ := ih (by omega) (-w) u (by rwa [degree_neg]) du (h4.trans (dvd_of_eq (by ring)))
      rw [neg_eq_zero] at w0
      have b0 : b = 0 := by
        rw [w0, u0, mul_zero, zero_sub, neg_eq_zero] at hu
        exact hu
      refine ⟨?_, b0⟩
      rw [w0, mul_zero, b0, add_zero] at hw
      exact hw
  intro k hk v hv hd
  have hs : ∑ i ∈ Finset.range 2, v i * (fun i => if i = 0 then catalan N else 1) i = v 0 * catalan N + v 1 := by
    rw [Finset.sum_range_succ, Finset.sum_range_one]
    show v 0 * catalan N + v 1 * 1 = _
    rw [mul_one]
  rw [hs] at hd
  obtain ⟨h0, h1⟩ := key k (by omega) (v 0) (v 1) (hv 0 (by decide)) (hv 1 (by decide)) hd
  intro i hi
  rcases (by omega : i = 0 ∨ i = 1) with rfl | rfl
  · exact h0
  · exact h1

/-- The column `(c mod X^N, 1)`. -/
noncomputable def catCol (N : Nat) : PMat (ZMod 5)[X] := ⟨2, 1, fun ij => if ij.1 = 0 then ptrunc (catalan N) N else 1⟩

theorem catCol_generic (D : Nat) : Generic 2 D (column (catCol (2 * D))) :=
  (catalan_generic (2 * D) D (by omega)).trunc (le_refl _) fun i _ => by
    show X ^ (2 * D) ∣ (if i = 0 then catalan (2 * D) else 1) - if i = 0 then ptrunc (catalan (2 * D)) (2 * D) else 1
    by_cases h : i = 0
    · rw [if_pos h, if_pos h, X_pow_dvd_iff]
      intro d hd
      rw [coeff_sub, ptrunc_coeff, if_pos hd, sub_self]
    · rw [if_neg h, if_neg h, sub_self]; exact dvd_zero _

/-- Order 64 with two rows. -/
example {ker : PMat (ZMod 5) → PMat (ZMod 5)} (hk : KerTop ker) {mul : PMat (ZMod 5)[X] → PMat (ZMod 5)[X] → Option (PMat (ZMod 5)[X])} (hmul : MulOk mul) :=
  C106_pmbasis_partial hk rounding_id hmul 16 (le_refl _) 1 1 (catCol (2 * 32)) ⟨2, fun _ => 0⟩ (le_refl _) (Nat.succ_pos 1) rfl (le_refl _) (by show 2 * (2 ^ 1 * 16) < 2 ^ 53; decide)
    (fun i _ => by
      show (if i = 0 then ptrunc (catalan (2 * 32)) (2 * 32) else 1 : (ZMod 5)[X]).degree < (2 * (2 ^ 1 * 16) : Nat)
      by_cases h : i = 0
      · rw [if_pos h, degree_lt_iff_coeff_zero]
        intro d hd
        rw [ptrunc_coeff, if_neg (by omega)]
      · rw [if_neg h, degree_one]; exact_mod_cast (by decide : 0 < 2 * (2 ^ 1 * 16)))
    (catCol_generic 32)

/-- Order 34 with two rows. -/
example {ker : PMat (ZMod 5) → PMat (ZMod 5)} (hk : KerTop ker) (rd : Rat → Rat) {mul : PMat (ZMod 5)[X] → PMat (ZMod 5)[X] → Option (PMat (ZMod 5)[X])} (hmul : MulOk mul) :=
  C106_degree_lost hk rd hmul 1 Nat.one_pos (catCol (2 * 17)) (le_refl 2) Nat.one_pos ⟨2, fun _ => 0⟩ (catCol_generic 17)

/-- An entry equal to 1 has one coefficient. -/
example (ker : PMat (ZMod 5) → PMat (ZMod 5)) : mbasis ker (catCol 2) 2 = .ub :=
  C106_short_entry_fails ker (catCol 2) 2 (Nat.succ_pos 1) Nat.one_pos fun h => by
    have h1 := h 1 (Nat.lt_succ_self 1)
    have h2 : ((catCol 2).e (1, 0)) = 1 := rfl
    rw [h2, pdeg_ne _ one_ne_zero, natDegree_one] at h1
    have h3 : ((2 * (2 / 2) : Nat) : Int) ≤ ((0 : Nat) : Int) + 1 := h1
    omega

/-- The column `(1 + X, X)`. -/
noncomputable def twoCol : PMat (ZMod 5)[X] := ⟨2, 1, fun ij => if ij.1 = 0 then 1 + X else X⟩

theorem pdeg_one {f : (ZMod 5)[X]} (h : f.coeff 1 ≠ 0) : (1 : Int) ≤ pdeg f := by
  by_contra hc
  exact h (coeff_gt_pdeg f 1 (by push_cast; omega))

theorem twoCol_long : Long twoCol (twoCol.rows * (2 / twoCol.rows)) := by
  intro i _
  have : (1 : Int) ≤ pdeg (twoCol.e (i, 0)) := pdeg_one (by
    show (if i = 0 then 1 + X else X : (ZMod 5)[X]).coeff 1 ≠ 0
    split_ifs
    · rw [coeff_add, coeff_X_one, coeff_one, if_neg one_ne_zero, zero_add]; exact one_ne_zero
    · rw [coeff_X_one]; exact one_ne_zero)
  show ((2 * (2 / 2) : Nat) : Int) ≤ _
  omega

theorem twoCol_generic : Generic 2 1 (column twoCol) := by
  intro k hk v hv hd
  have hs : ∑ i ∈ Finset.range 2, v i * column twoCol i = v 0 * (1 + X) + v 1 * X := by
    rw [Finset.sum_range_succ, Finset.sum_range_one]; rfl
  rw [hs] at hd
  have hcst : ∀ i, i < 2 → v i = C ((v i).coeff 0) := fun i hi =>
    eq_C_of_natDegree_le_zero (natDegree_le_of_lt (lt_of_lt_of_le (hv i hi) (by exact_mod_cast hk)))
  by_cases h0 : k = 0
  · intro i hi
    have := hv i hi
    rw [h0] at this
    exact degree_eq_bot.1 (Nat.WithBot.lt_zero_iff.1 this)
  obtain rfl : k = 1 := by omega
  rw [hcst 0 (by decide), hcst 1 (by decide), X_pow_dvd_iff] at hd
  have a0 := hd 0 (by decide)
  have a1 := hd 1 (by decide)
  simp only [coeff_add, coeff_C_mul, coeff_one, coeff_X, if_true, one_ne_zero, if_false, mul_zero, mul_one, add_zero, zero_add] at a0 a1
  rw [a0, zero_add] at a1
  intro i hi
  rcases (by omega : i = 0 ∨ i = 1) with rfl | rfl
  · rw [hcst 0 (by decide), a0, C_0]
  · rw [hcst 1 (by decide), a1, C_0]

example {ker : PMat (ZMod 5) → PMat (ZMod 5)} (hk : KerTop ker) := C106_mbasis hk twoCol 2 (Nat.succ_pos 1) Nat.one_pos twoCol_long twoCol_generic

example {ker : PMat (ZMod 5) → PMat (ZMod 5)} (hk : KerTop ker) :=
  C106_small_order_wrong hk twoCol 1 Nat.one_pos (Nat.lt_succ_self 1) Nat.one_pos (by
    show (1 + X : (ZMod 5)[X]).coeff 0 ≠ 0
    rw [coeff_add, coeff_X_zero, coeff_one_zero, add_zero]; exact one_ne_zero)

example (ker : PMat (ZMod 5) → PMat (ZMod 5)) : mbasis ker ⟨0, 1, fun _ => 0⟩ 3 = .ub := C106_no_row_fails ker _ 3 rfl

end PML.Ntl.OneCol
