import Verif.Ntl.NewtonXLemmas

/-! # Inversion of the Sylvester matrices over `K[X]`: one step of the iteration -/

namespace PML.Ntl.NewtonX

open Polynomial PML.Ntl.Utils PML.Ntl.Inv PML.Ntl.Solve PML.Ntl.Bivar PML.Ntl.FftPoints PML.Ntl.StructX PML.Ntl.SylvX
open PML.Ntl.Struct (loopOut)

variable {p : Nat} [Fact p.Prime]

/-! ### Products that return -/

theorem andThen_mono {α β : Type} {x : Out α} {f f' : α → Out β} {w : β} (h : andThen x f = .ok w) (hf : ∀ y, f y = .ok w → f' y = .ok w) :
    andThen x f' = .ok w := by
  obtain ⟨y, rfl, e⟩ := andThen_eq h
  exact hf y e

theorem loopOut_mono {σ : Type} {F F' : Nat → σ → Out σ} (hF : ∀ i s t, F i s = .ok t → F' i s = .ok t) {s : σ} :
    ∀ {k : Nat} {t : σ}, loopOut k F s = .ok t → loopOut k F' s = .ok t
  | 0, _, h => h
  | k + 1, t, h => by
    obtain ⟨u, e1, e2⟩ := andThen_eq (show andThen (loopOut k F s) (F k) = .ok t from h)
    show andThen (loopOut k F' s) (F' k) = .ok t
    rw [loopOut_mono hF e1, Bivar.andThen_ok, hF _ _ _ e2]

theorem matRight_mono {g : Junk (ZMod p)} {m n : Nat} {f f' : PVec (ZMod p) → PVec (ZMod p) → Out (PVec (ZMod p))} {out inp w : PMat (ZMod p)[X]}
    (hf : ∀ r v t, f r v = .ok t → f' r v = .ok t) (h : matRight g m n f out inp = .ok w) : matRight g m n f' out inp = .ok w := by
  unfold matRight at h ⊢
  by_cases hr : inp.rows ≠ n
  · rw [if_pos hr] at h
    cases h
  · rw [if_neg hr] at h ⊢
    obtain ⟨s, e1, e2⟩ := andThen_eq h
    dsimp only
    rw [loopOut_mono (fun i s t hs => ?_) e1, Bivar.andThen_ok]
    · exact e2
    · refine andThen_mono hs fun v hv => ?_
      obtain ⟨u, u1, u2⟩ := andThen_eq hv
      rw [hf _ _ _ u1, Bivar.andThen_ok]
      exact u2

theorem matLeft_mono {g : Junk (ZMod p)} {m n : Nat} {f f' : PVec (ZMod p) → PVec (ZMod p) → Out (PVec (ZMod p))} {out inp w : PMat (ZMod p)[X]}
    (hf : ∀ r v t, f r v = .ok t → f' r v = .ok t) (h : matLeft g m n f out inp = .ok w) : matLeft g m n f' out inp = .ok w := by
  unfold matLeft at h ⊢
  by_cases hr : inp.cols ≠ m
  · rw [if_pos hr] at h
    cases h
  · rw [if_neg hr] at h ⊢
    obtain ⟨s, e1, e2⟩ := andThen_eq h
    dsimp only
    rw [loopOut_mono (fun i s t hs => ?_) e1, Bivar.andThen_ok]
    · exact e2
    · refine andThen_mono hs fun v hv => ?_
      obtain ⟨u, u1, u2⟩ := andThen_eq hv
      rw [hf _ _ _ u1, Bivar.andThen_ok]
      exact u2

/-- The call `f`, or a right answer if it does not return. -/
noncomputable def orTrue (f : PVec (ZMod p) → PVec (ZMod p) → Out (PVec (ZMod p))) (n : Nat) (T : Nat → (Nat → (ZMod p)[X]) → (ZMod p)[X])
    (r v : PVec (ZMod p)) : Out (PVec (ZMod p)) :=
  open Classical in if ∃ w, f r v = .ok w then f r v else .ok ⟨n, fun i => T i v.at'⟩

theorem orTrue_mono (f : PVec (ZMod p) → PVec (ZMod p) → Out (PVec (ZMod p))) (n : Nat) (T : Nat → (Nat → (ZMod p)[X]) → (ZMod p)[X])
    (r v t : PVec (ZMod p)) (h : f r v = .ok t) : orTrue f n T r v = .ok t := by
  unfold orTrue
  rw [if_pos ⟨t, h⟩, h]

theorem orTrue_spec {f : PVec (ZMod p) → PVec (ZMod p) → Out (PVec (ZMod p))} {n : Nat} {T : Nat → (Nat → (ZMod p)[X]) → (ZMod p)[X]} {r v : PVec (ZMod p)}
    (h : ∀ w, f r v = .ok w → w.len = n ∧ ∀ i, i < n → w.at' i = T i v.at') :
    ∃ w, orTrue f n T r v = .ok w ∧ w.len = n ∧ ∀ i, i < n → w.at' i = T i v.at' := by
  unfold orTrue
  by_cases hw : ∃ w, f r v = .ok w
  · rw [if_pos hw]
    obtain ⟨w, hw⟩ := hw
    exact ⟨w, hw, h w hw⟩
  · rw [if_neg hw]
    exact ⟨_, rfl, rfl, fun i _ => rfl⟩

theorem right_val {A B : PVec (ZMod p)} {o : Sylv (ZMod p)} (ho : Made A B o) {g : Junk (ZMod p)} {r v w : PVec (ZMod p)} {s : Nat} (hv : v.len = o.n)
    (h : o.mulRightTrunc g r v s = .ok w) :
    w.len = o.n ∧ ∀ i, i < o.n → w.at' i = (∑ j ∈ Finset.range o.n, sylvEntry A B i j * v.at' j) %ₘ X ^ s := by
  obtain ⟨h1, h2, -⟩ := C93_right_trunc ho g r v s
  by_cases hr : Room (truncV A s) (truncV (firstPart v (B.len - 1)) s) ∧ Room (truncV B s) (truncV (secondPart v (B.len - 1) (A.len - 1)) s)
  · obtain ⟨w', e, hw⟩ := h1 hv hr.1 hr.2
    rw [h] at e
    cases e
    exact hw
  · exact absurd h (h2 hv hr w)

theorem left_val {A B : PVec (ZMod p)} {o : Sylv (ZMod p)} (ho : Made A B o) {g : Junk (ZMod p)} {mp : (ZMod p)[X] → (ZMod p)[X] → Int → Int → Out (ZMod p)[X]}
    (hmp : MidOK mp) {r v w : PVec (ZMod p)} {s : Nat} (hv : v.len = o.n) (h : o.mulLeftTrunc g mp r v s = .ok w) :
    w.len = o.n ∧ ∀ j, j < o.n → w.at' j = (∑ i ∈ Finset.range o.n, v.at' i * sylvEntry A B i j) %ₘ X ^ s := by
  obtain ⟨h1, h2, -⟩ := C93_left_trunc ho g hmp r v s
  by_cases hr : Room (truncV (reversed A) s) (truncV v s) ∧ Room (truncV (reversed B) s) (truncV v s)
  · obtain ⟨w', e, hw⟩ := h1 hv hr.1 hr.2
    rw [h] at e
    cases e
    exact hw
  · exact absurd h (h2 hv hr w)

/-- A product of the Sylvester matrix by a matrix, if it returns. -/
theorem right_inv {A B : PVec (ZMod p)} {o : Sylv (ZMod p)} (ho : Made A B o) {c : Ctx p} {out G y : PMat (ZMod p)[X]} {s : Nat}
    (h : c.right o out G s = .ok y) : G.rows = o.n ∧ y.rows = o.n ∧ y.cols = G.cols ∧
      ∀ i j, i < o.n → j < G.cols → y.e (i, j) = (∑ l ∈ Finset.range o.n, sylvEntry A B i l * G.e (l, j)) %ₘ X ^ s := by
  have h' := matRight_mono (orTrue_mono _ o.n fun i v => (∑ j ∈ Finset.range o.n, sylvEntry A B i j * v j) %ₘ X ^ s) h
  obtain ⟨h1, h2⟩ := C92_mat_right_trunc (M := sylvEntry A B) (s := s) c.g (fun r v hv => orTrue_spec (f := fun r v => o.mulRightTrunc c.g r v s)
    (T := fun i v => (∑ j ∈ Finset.range o.n, sylvEntry A B i j * v j) %ₘ X ^ s) fun w hw => right_val ho hv hw) out G
  by_cases hr : G.rows = o.n
  · obtain ⟨w, e, hw⟩ := h1 hr
    rw [h'] at e
    cases e
    exact ⟨hr, hw⟩
  · rw [h2 hr] at h'
    cases h'

theorem left_inv {A B : PVec (ZMod p)} {o : Sylv (ZMod p)} (ho : Made A B o) {c : Ctx p} (hmp : MidOK c.mp) {out H z : PMat (ZMod p)[X]} {s : Nat}
    (h : c.left o out H s = .ok z) : H.cols = o.n ∧ z.rows = H.rows ∧ z.cols = o.n ∧
      ∀ i j, i < H.rows → j < o.n → z.e (i, j) = (∑ l ∈ Finset.range o.n, H.e (i, l) * sylvEntry A B l j) %ₘ X ^ s := by
  have h' := matLeft_mono (orTrue_mono _ o.n fun j v => (∑ i ∈ Finset.range o.n, v i * sylvEntry A B i j) %ₘ X ^ s) h
  obtain ⟨h1, h2⟩ := C92_mat_left_trunc (M := sylvEntry A B) (s := s) c.g (fun r v hv => orTrue_spec (f := fun r v => o.mulLeftTrunc c.g c.mp r v s)
    (T := fun j v => (∑ i ∈ Finset.range o.n, v i * sylvEntry A B i j) %ₘ X ^ s) fun w hw => left_val ho hmp hv hw) out H
  by_cases hr : H.cols = o.n
  · obtain ⟨w, e, hw⟩ := h1 hr
    rw [h'] at e
    cases e
    exact ⟨hr, hw⟩
  · rw [h2 hr] at h'
    cases h'

/-- A product by a matrix returns if the products by the columns return. -/
theorem right_returns {A B : PVec (ZMod p)} {o : Sylv (ZMod p)} (ho : Made A B o) {c : Ctx p} {out G : PMat (ZMod p)[X]} {s : Nat} (hr : G.rows = o.n)
    (hf : ∀ j, j < G.cols → ∀ res v, v.len = o.n → (∀ i, i < o.n → v.at' i = G.e (i, j)) → ∃ w, o.mulRightTrunc c.g res v s = .ok w) :
    ∃ y, c.right o out G s = .ok y := by
  unfold Ctx.right matRight
  rw [if_neg (not_not.2 hr)]
  dsimp only
  obtain ⟨s, s1, s2⟩ := mat_loop (m := o.n) (n := o.n) (c := G.cols) c.g (f := fun r v => o.mulRightTrunc c.g r v s)
    (fun i v => (∑ l ∈ Finset.range o.n, sylvEntry A B i l * v l) %ₘ X ^ s)
    (fun i v w hvw => congrArg (· %ₘ X ^ s) (Finset.sum_congr rfl fun l hl => by rw [hvw l (Finset.mem_range.1 hl)])) (mget G) (fun i j => G.e (i, j))
    (fun j hj r v hv hc => by
      obtain ⟨w, hw⟩ := hf j hj r v hv hc
      exact ⟨w, hw, right_val ho hv hw⟩)
    (fun i j hi hj => mget_ok (by omega) hj) (fun i j => (i, j)) (fun i j i' j' h => Prod.mk.inj h) (out.setDims o.n G.cols).e
  rw [s1, Bivar.andThen_ok]
  exact ⟨_, rfl⟩

theorem left_returns {A B : PVec (ZMod p)} {o : Sylv (ZMod p)} (ho : Made A B o) {c : Ctx p} (hmp : MidOK c.mp) {out H : PMat (ZMod p)[X]} {s : Nat}
    (hr : H.cols = o.n)
    (hf : ∀ i, i < H.rows → ∀ res v, v.len = o.n → (∀ j, j < o.n → v.at' j = H.e (i, j)) → ∃ w, o.mulLeftTrunc c.g c.mp res v s = .ok w) :
    ∃ y, c.left o out H s = .ok y := by
  unfold Ctx.left matLeft
  rw [if_neg (not_not.2 hr)]
  dsimp only
  obtain ⟨s, s1, s2⟩ := mat_loop (m := o.n) (n := o.n) (c := H.rows) c.g (f := fun r v => o.mulLeftTrunc c.g c.mp r v s)
    (fun j v => (∑ l ∈ Finset.range o.n, v l * sylvEntry A B l j) %ₘ X ^ s)
    (fun i v w hvw => congrArg (· %ₘ X ^ s) (Finset.sum_congr rfl fun l hl => by rw [hvw l (Finset.mem_range.1 hl)])) (fun i j => mget H j i)
    (fun i j => H.e (j, i))
    (fun j hj r v hv hc => by
      obtain ⟨w, hw⟩ := hf j hj r v hv hc
      exact ⟨w, hw, left_val ho hmp hv hw⟩)
    (fun i j hi hj => mget_ok hj (by omega)) (fun i j => (j, i)) (fun i j i' j' h => (Prod.mk.inj h).symm) (out.setDims H.rows o.n).e
  rw [s1, Bivar.andThen_ok]
  exact ⟨_, rfl⟩

/-! ### The arithmetic of one step -/

/-- If `f` is a multiple of `X^k`, the shift of its remainder modulo `X^(2k)` is exact. -/
theorem shift_exact {f : (ZMod p)[X]} {k : Nat} (h : X ^ k ∣ f) : X ^ (2 * k) ∣ f - X ^ k * (f %ₘ X ^ (2 * k) /ₘ X ^ k) := by
  have h2 : X ^ k ∣ f %ₘ X ^ (2 * k) := by
    have e := dvd_sub_mod f (2 * k)
    have := dvd_sub h (dvd_trans (pow_dvd_pow X (show k ≤ 2 * k by omega)) e)
    rwa [sub_sub_cancel] at this
  have e3 : X ^ k * (f %ₘ X ^ (2 * k) /ₘ X ^ k) = f %ₘ X ^ (2 * k) := by
    have := modByMonic_add_div (f %ₘ X ^ (2 * k)) (q := (X ^ k : (ZMod p)[X]))
    rwa [(modByMonic_eq_zero_iff_dvd (monic_X_pow k)).2 h2, zero_add] at this
  rw [e3]
  exact dvd_sub_mod f (2 * k)

theorem inv_apply {n k : Nat} {M N : Nat → Nat → (ZMod p)[X]}
    (hN : ∀ i j, i < n → j < n → X ^ k ∣ (∑ l ∈ Finset.range n, M i l * N l j) - if i = j then 1 else 0) {y z : Nat → (ZMod p)[X]}
    (hz : ∀ i, i < n → z i = (∑ l ∈ Finset.range n, N i l * y l) %ₘ X ^ k) {i : Nat} (hi : i < n) :
    X ^ k ∣ y i - ∑ l ∈ Finset.range n, M i l * z l := by
  have e1 : X ^ k ∣ (∑ l ∈ Finset.range n, M i l * ∑ q ∈ Finset.range n, N l q * y q) - ∑ l ∈ Finset.range n, M i l * z l := by
    rw [← Finset.sum_sub_distrib]
    refine Finset.dvd_sum fun l hl => ?_
    rw [← mul_sub, hz l (Finset.mem_range.1 hl)]
    exact dvd_mul_of_dvd_right (dvd_sub_mod _ _) _
  have e2 : X ^ k ∣ y i - ∑ l ∈ Finset.range n, M i l * ∑ q ∈ Finset.range n, N l q * y q := by
    have e3 : (∑ l ∈ Finset.range n, M i l * ∑ q ∈ Finset.range n, N l q * y q) = ∑ q ∈ Finset.range n, (∑ l ∈ Finset.range n, M i l * N l q) * y q := by
      simp only [Finset.mul_sum, Finset.sum_mul]
      rw [Finset.sum_comm]
      exact Finset.sum_congr rfl fun q _ => Finset.sum_congr rfl fun l _ => by ring
    have e4 : y i = ∑ q ∈ Finset.range n, (if i = q then 1 else 0) * y q := by
      rw [Finset.sum_eq_single i (fun q _ hq => by rw [if_neg (Ne.symm hq), zero_mul]) (fun h => absurd (Finset.mem_range.2 hi) h), if_pos rfl, one_mul]
    rw [e3]
    nth_rw 1 [e4]
    rw [← Finset.sum_sub_distrib]
    refine Finset.dvd_sum fun q hq => ?_
    rw [← sub_mul]
    refine dvd_mul_of_dvd_left ?_ _
    rw [dvd_sub_comm]
    exact hN i q hi (Finset.mem_range.1 hq)
  have := dvd_add e2 e1
  rwa [sub_add_sub_cancel] at this

theorem newton_right {n k : Nat} {M N : Nat → Nat → (ZMod p)[X]} {G U : Nat → (ZMod p)[X]}
    (hN : ∀ i j, i < n → j < n → X ^ k ∣ (∑ l ∈ Finset.range n, M i l * N l j) - if i = j then 1 else 0)
    (hG : ∀ i, i < n → X ^ k ∣ (∑ l ∈ Finset.range n, M i l * G l) + U i) {y z : Nat → (ZMod p)[X]}
    (hy : ∀ i, i < n → y i = ((∑ l ∈ Finset.range n, M i l * G l) %ₘ X ^ (2 * k) + U i %ₘ X ^ (2 * k)) /ₘ X ^ k)
    (hz : ∀ i, i < n → z i = (∑ l ∈ Finset.range n, N i l * y l) %ₘ X ^ k) {i : Nat} (hi : i < n) :
    X ^ (2 * k) ∣ (∑ l ∈ Finset.range n, M i l * (G l - z l * X ^ k)) + U i := by
  have h1 : X ^ (2 * k) ∣ ((∑ l ∈ Finset.range n, M i l * G l) + U i) - X ^ k * y i := by
    rw [hy i hi, ← mod_add_mod]
    exact shift_exact (hG i hi)
  have h2 : X ^ k ∣ y i - ∑ l ∈ Finset.range n, M i l * z l := inv_apply hN hz hi
  have e : (∑ l ∈ Finset.range n, M i l * (G l - z l * X ^ k)) + U i =
      (((∑ l ∈ Finset.range n, M i l * G l) + U i) - X ^ k * y i) + X ^ k * (y i - ∑ l ∈ Finset.range n, M i l * z l) := by
    simp only [mul_sub, Finset.sum_sub_distrib, Finset.mul_sum]
    have : ∀ l, M i l * (z l * X ^ k) = X ^ k * (M i l * z l) := fun l => by ring
    simp only [this]
    ring
  rw [e]
  refine dvd_add h1 ?_
  rw [two_mul, pow_add]
  exact mul_dvd_mul_left _ h2

theorem newton_left {n k : Nat} {M N : Nat → Nat → (ZMod p)[X]} {H V : Nat → (ZMod p)[X]}
    (hN : ∀ i j, i < n → j < n → X ^ k ∣ (∑ l ∈ Finset.range n, N i l * M l j) - if i = j then 1 else 0)
    (hH : ∀ j, j < n → X ^ k ∣ (∑ l ∈ Finset.range n, H l * M l j) - V j) {y z : Nat → (ZMod p)[X]}
    (hy : ∀ j, j < n → y j = ((∑ l ∈ Finset.range n, H l * M l j) %ₘ X ^ (2 * k) - V j %ₘ X ^ (2 * k)) /ₘ X ^ k)
    (hz : ∀ j, j < n → z j = (∑ l ∈ Finset.range n, y l * N l j) %ₘ X ^ k) {j : Nat} (hj : j < n) :
    X ^ (2 * k) ∣ (∑ l ∈ Finset.range n, (H l - z l * X ^ k) * M l j) - V j := by
  have := newton_right (M := fun i j => M j i) (N := fun i j => N j i) (G := H) (U := fun i => -V i) (n := n) (k := k) (y := y) (z := z)
    (fun i j hi hj => by
      have := hN j i hj hi
      simp only [mul_comm (N _ _)] at this
      by_cases h : i = j
      · rw [if_pos h.symm] at this
        rw [if_pos h]
        exact this
      · rw [if_neg (Ne.symm h)] at this
        rw [if_neg h]
        exact this)
    (fun i hi => by
      have := hH i hi
      simp only [mul_comm (H _)] at this
      rwa [← sub_eq_add_neg])
    (fun i hi => by
      rw [hy i hi, neg_modByMonic, ← sub_eq_add_neg]
      simp only [mul_comm (H _)])
    (fun i hi => by
      rw [hz i hi]
      simp only [mul_comm (y _)]) hj
  rw [← sub_eq_add_neg] at this
  simpa only [mul_comm (M _ _)] using this

/-! ### The sequence of degrees -/

/-- Two consecutive degrees. -/
def Next (x y : Nat) : Prop := x < y ∧ (y = 2 * x ∨ y + 1 = 2 * x)

theorem degLoop_spec (n : Nat) (acc : List Nat) (m : Nat) (hl : (n :: acc).getLast? = some m) (hc : List.IsChain Next (n :: acc)) :
    (degLoop n acc).getLast? = some m ∧ List.IsChain Next (degLoop n acc) ∧ ∃ x r, degLoop n acc = x :: r ∧ x = min n 1 := by
  induction n using Nat.strong_induction_on generalizing acc with
  | _ n ih =>
    rw [degLoop]
    by_cases h : 1 < n
    · rw [dif_pos h]
      obtain ⟨h1, h2, x, r, h3, h4⟩ := ih ((if n % 2 = 1 then n + 1 else n) / 2) (by split <;> omega) (n :: acc) (by simpa using hl)
        (by
          refine List.isChain_cons_cons.2 ⟨?_, hc⟩
          unfold Next
          split <;> omega)
      exact ⟨h1, h2, x, r, h3, by rw [h4]; split <;> omega⟩
    · rw [dif_neg h]
      exact ⟨hl, hc, n, acc, rfl, by omega⟩

theorem degrees_spec (m : Nat) : (degrees m).getLast? = some m ∧ List.IsChain Next (degrees m) ∧ ∃ r, degrees m = min m 1 :: r := by
  obtain ⟨h1, h2, x, r, h3, h4⟩ := degLoop_spec m [] m rfl (List.isChain_singleton m)
  exact ⟨h1, h2, r, by rw [← h4]; exact h3⟩

end PML.Ntl.NewtonX
