import Verif.Ntl.NewtonXMain

/-! # Inversion of the Sylvester matrices over `K[X]`: `high_precision_inv_trunc` (C94) -/

namespace PML.Ntl.NewtonX

open Polynomial PML.Ntl.Utils PML.Ntl.Inv PML.Ntl.Solve PML.Ntl.Bivar PML.Ntl.FftPoints PML.Ntl.StructX PML.Ntl.SylvX
open PML.Ntl.Struct (loopOut)

variable {p : Nat} [Fact p.Prime]

/-! ### Products without truncation -/

theorem full_right_val {A B : PVec (ZMod p)} {o : Sylv (ZMod p)} (ho : Made A B o) {g : Junk (ZMod p)} {r v w : PVec (ZMod p)} (hv : v.len = o.n)
    (h : o.mulRight g r v = .ok w) : w.len = o.n ∧ ∀ i, i < o.n → w.at' i = ∑ j ∈ Finset.range o.n, sylvEntry A B i j * v.at' j := by
  obtain ⟨h1, h2, -⟩ := C93_right ho g r v
  by_cases hr : Room A (firstPart v (B.len - 1)) ∧ Room B (secondPart v (B.len - 1) (A.len - 1))
  · obtain ⟨w', e, hw⟩ := h1 hv hr.1 hr.2
    rw [h] at e
    cases e
    exact hw
  · exact absurd h (h2 hv hr w)

theorem full_left_val {A B : PVec (ZMod p)} {o : Sylv (ZMod p)} (ho : Made A B o) {g : Junk (ZMod p)}
    {mp : (ZMod p)[X] → (ZMod p)[X] → Int → Int → Out (ZMod p)[X]} (hmp : MidOK mp) {r v w : PVec (ZMod p)} (hv : v.len = o.n)
    (h : o.mulLeft g mp r v = .ok w) : w.len = o.n ∧ ∀ j, j < o.n → w.at' j = ∑ i ∈ Finset.range o.n, v.at' i * sylvEntry A B i j := by
  obtain ⟨h1, h2, -⟩ := C93_left ho g hmp r v
  by_cases hr : Room (reversed A) v ∧ Room (reversed B) v
  · obtain ⟨w', e, hw⟩ := h1 hv hr.1 hr.2
    rw [h] at e
    cases e
    exact hw
  · exact absurd h (h2 hv hr w)

theorem full_right_inv {A B : PVec (ZMod p)} {o : Sylv (ZMod p)} (ho : Made A B o) {g : Junk (ZMod p)} {out G y : PMat (ZMod p)[X]}
    (h : matRight g o.n o.n (fun r v => o.mulRight g r v) out G = .ok y) : G.rows = o.n ∧ y.rows = o.n ∧ y.cols = G.cols ∧
      ∀ i j, i < o.n → j < G.cols → y.e (i, j) = ∑ l ∈ Finset.range o.n, sylvEntry A B i l * G.e (l, j) := by
  have h' := matRight_mono (orTrue_mono _ o.n fun i v => ∑ j ∈ Finset.range o.n, sylvEntry A B i j * v j) h
  obtain ⟨h1, h2⟩ := C92_mat_right (M := sylvEntry A B) g (fun r v hv => orTrue_spec (f := fun r v => o.mulRight g r v)
    (T := fun i v => ∑ j ∈ Finset.range o.n, sylvEntry A B i j * v j) fun w hw => full_right_val ho hv hw) out G
  by_cases hr : G.rows = o.n
  · obtain ⟨w, e, hw⟩ := h1 hr
    rw [h'] at e
    cases e
    exact ⟨hr, hw⟩
  · rw [h2 hr] at h'
    cases h'

theorem full_left_inv {A B : PVec (ZMod p)} {o : Sylv (ZMod p)} (ho : Made A B o) {g : Junk (ZMod p)}
    {mp : (ZMod p)[X] → (ZMod p)[X] → Int → Int → Out (ZMod p)[X]} (hmp : MidOK mp) {out H z : PMat (ZMod p)[X]}
    (h : matLeft g o.n o.n (fun r v => o.mulLeft g mp r v) out H = .ok z) : H.cols = o.n ∧ z.rows = H.rows ∧ z.cols = o.n ∧
      ∀ i j, i < H.rows → j < o.n → z.e (i, j) = ∑ l ∈ Finset.range o.n, H.e (i, l) * sylvEntry A B l j := by
  have h' := matLeft_mono (orTrue_mono _ o.n fun j v => ∑ i ∈ Finset.range o.n, v i * sylvEntry A B i j) h
  obtain ⟨h1, h2⟩ := C92_mat_left (M := sylvEntry A B) g (fun r v hv => orTrue_spec (f := fun r v => o.mulLeft g mp r v)
    (T := fun j v => ∑ i ∈ Finset.range o.n, v i * sylvEntry A B i j) fun w hw => full_left_val ho hmp hv hw) out H
  by_cases hr : H.cols = o.n
  · obtain ⟨w, e, hw⟩ := h1 hr
    rw [h'] at e
    cases e
    exact ⟨hr, hw⟩
  · rw [h2 hr] at h'
    cases h'

theorem full_right_returns {A B : PVec (ZMod p)} {o : Sylv (ZMod p)} (ho : Made A B o) {g : Junk (ZMod p)} {out G : PMat (ZMod p)[X]} (hr : G.rows = o.n)
    (hf : ∀ j, j < G.cols → ∀ res v, v.len = o.n → (∀ i, i < o.n → v.at' i = G.e (i, j)) → ∃ w, o.mulRight g res v = .ok w) :
    ∃ y, matRight g o.n o.n (fun r v => o.mulRight g r v) out G = .ok y := by
  unfold matRight
  rw [if_neg (not_not.2 hr)]
  dsimp only
  obtain ⟨s, s1, s2⟩ := mat_loop (m := o.n) (n := o.n) (c := G.cols) g (f := fun r v => o.mulRight g r v)
    (fun i v => ∑ l ∈ Finset.range o.n, sylvEntry A B i l * v l)
    (fun i v w hvw => Finset.sum_congr rfl fun l hl => by rw [hvw l (Finset.mem_range.1 hl)]) (mget G) (fun i j => G.e (i, j))
    (fun j hj r v hv hc => by
      obtain ⟨w, hw⟩ := hf j hj r v hv hc
      exact ⟨w, hw, full_right_val ho hv hw⟩)
    (fun i j hi hj => mget_ok (by omega) hj) (fun i j => (i, j)) (fun i j i' j' h => Prod.mk.inj h) (out.setDims o.n G.cols).e
  rw [s1, Bivar.andThen_ok]
  exact ⟨_, rfl⟩

theorem full_left_returns {A B : PVec (ZMod p)} {o : Sylv (ZMod p)} (ho : Made A B o) {g : Junk (ZMod p)}
    {mp : (ZMod p)[X] → (ZMod p)[X] → Int → Int → Out (ZMod p)[X]} (hmp : MidOK mp) {out H : PMat (ZMod p)[X]} (hr : H.cols = o.n)
    (hf : ∀ i, i < H.rows → ∀ res v, v.len = o.n → (∀ j, j < o.n → v.at' j = H.e (i, j)) → ∃ w, o.mulLeft g mp res v = .ok w) :
    ∃ y, matLeft g o.n o.n (fun r v => o.mulLeft g mp r v) out H = .ok y := by
  unfold matLeft
  rw [if_neg (not_not.2 hr)]
  dsimp only
  obtain ⟨s, s1, s2⟩ := mat_loop (m := o.n) (n := o.n) (c := H.rows) g (f := fun r v => o.mulLeft g mp r v)
    (fun j v => ∑ l ∈ Finset.range o.n, v l * sylvEntry A B l j)
    (fun i v w hvw => Finset.sum_congr rfl fun l hl => by rw [hvw l (Finset.mem_range.1 hl)]) (fun i j => mget H j i)
    (fun i j => H.e (j, i))
    (fun j hj r v hv hc => by
      obtain ⟨w, hw⟩ := hf j hj r v hv hc
      exact ⟨w, hw, full_left_val ho hmp hv hw⟩)
    (fun i j hi hj => mget_ok hj (by omega)) (fun i j => (j, i)) (fun i j i' j' h => (Prod.mk.inj h).symm) (out.setDims H.rows o.n).e
  rw [s1, Bivar.andThen_ok]
  exact ⟨_, rfl⟩

/-! ### The blocks -/

theorem setBlock_coeff (s x : (ZMod p)[X]) (dx sh t : Nat) :
    (setBlock s x dx sh).coeff t = if sh ≤ t ∧ t < sh + (dx + 1) then x.coeff (t - sh) else s.coeff t := by
  unfold setBlock
  generalize dx + 1 = d
  induction d with
  | zero => rw [if_neg (by omega)]; rfl
  | succ d ih =>
    show (Polynomial.update _ (d + sh) _).coeff t = _
    rw [coeff_update_apply]
    by_cases h : t = d + sh
    · rw [if_pos h, if_pos (by omega), h, Nat.add_sub_cancel]
    · rw [if_neg h, ih]
      by_cases h' : sh ≤ t ∧ t < sh + d
      · rw [if_pos h', if_pos (by omega)]
      · rw [if_neg h', if_neg (by omega)]

theorem setBlock_eq {s x : (ZMod p)[X]} {dx sh : Nat} (hs : s.degree < sh) (hx : x.degree < (dx + 1 : Nat)) : setBlock s x dx sh = s + x * X ^ sh := by
  ext t
  rw [setBlock_coeff, coeff_add, coeff_mul_X_pow']
  by_cases h : sh ≤ t
  · rw [coeff_eq_zero_of_degree_lt (lt_of_lt_of_le hs (by exact_mod_cast h)), zero_add, if_pos h]
    by_cases h' : t < sh + (dx + 1)
    · rw [if_pos ⟨h, h'⟩]
    · rw [if_neg (by omega), coeff_eq_zero_of_degree_lt (lt_of_lt_of_le hx (by exact_mod_cast (by omega : dx + 1 ≤ t - sh)))]
  · rw [if_neg (by omega), if_neg h, add_zero]

theorem copy_ok {n dx sh : Nat} {G H Gs Hs : PMat (ZMod p)[X]} (g1 : G.rows = n) (g2 : G.cols = 2) (h1 : H.rows = 2) (h2 : H.cols = n) (a1 : Gs.rows = n)
    (a2 : Gs.cols = 2) (b1 : Hs.rows = n) (b2 : Hs.cols = 2) :
    ∃ Gs' Hs', copyBlock n dx sh G H Gs Hs = .ok (Gs', Hs') ∧ Gs'.rows = n ∧ Gs'.cols = 2 ∧ Hs'.rows = n ∧ Hs'.cols = 2 ∧
      ∀ i j, i < n → j < 2 → Gs'.e (i, j) = setBlock (Gs.e (i, j)) (G.e (i, j)) dx sh ∧ Hs'.e (i, j) = setBlock (Hs.e (i, j)) (H.e (j, i)) dx sh := by
  unfold copyBlock
  obtain ⟨⟨Gs', Hs'⟩, e, q1, q2, q3, q4, q5⟩ := loopOut_inv (f := fun a s => loopOut 2 (fun c (s : PMat (ZMod p)[X] × PMat (ZMod p)[X]) =>
      andThen (mget G a c) fun x =>
      andThen (mupd s.1 a c fun s => setBlock s x dx sh) fun Gs =>
      andThen (mget H c a) fun x =>
      andThen (mupd s.2 a c fun s => setBlock s x dx sh) fun Hs => .ok (Gs, Hs)) s) (s := (Gs, Hs))
    (fun a (s : PMat (ZMod p)[X] × PMat (ZMod p)[X]) => s.1.rows = n ∧ s.1.cols = 2 ∧ s.2.rows = n ∧ s.2.cols = 2 ∧ ∀ i j, i < n → j < 2 →
      s.1.e (i, j) = (if i < a then setBlock (Gs.e (i, j)) (G.e (i, j)) dx sh else Gs.e (i, j)) ∧
      s.2.e (i, j) = if i < a then setBlock (Hs.e (i, j)) (H.e (j, i)) dx sh else Hs.e (i, j)) n
    ⟨a1, a2, b1, b2, fun i j _ _ => ⟨by rw [if_neg (by omega)], by rw [if_neg (by omega)]⟩⟩ (by
      rintro a ⟨Ga, Ha⟩ ha ⟨c1, c2, c3, c4, c5⟩
      dsimp only at c1 c2 c3 c4 c5
      obtain ⟨⟨Gb, Hb⟩, e, d1, d2, d3, d4, d5⟩ := loopOut_inv (f := fun c (s : PMat (ZMod p)[X] × PMat (ZMod p)[X]) =>
          andThen (mget G a c) fun x =>
          andThen (mupd s.1 a c fun s => setBlock s x dx sh) fun Gs =>
          andThen (mget H c a) fun x =>
          andThen (mupd s.2 a c fun s => setBlock s x dx sh) fun Hs => .ok (Gs, Hs)) (s := (Ga, Ha))
        (fun c (s : PMat (ZMod p)[X] × PMat (ZMod p)[X]) => s.1.rows = n ∧ s.1.cols = 2 ∧ s.2.rows = n ∧ s.2.cols = 2 ∧ ∀ i j, i < n → j < 2 →
          s.1.e (i, j) = (if i = a ∧ j < c then setBlock (Ga.e (i, j)) (G.e (i, j)) dx sh else Ga.e (i, j)) ∧
          s.2.e (i, j) = if i = a ∧ j < c then setBlock (Ha.e (i, j)) (H.e (j, i)) dx sh else Ha.e (i, j)) 2
        ⟨c1, c2, c3, c4, fun i j _ _ => ⟨by rw [if_neg (by omega)], by rw [if_neg (by omega)]⟩⟩ (by
          rintro c ⟨Gc, Hc⟩ hc ⟨f1, f2, f3, f4, f5⟩
          dsimp only at f1 f2 f3 f4 f5 ⊢
          obtain ⟨Gd, k1, k2, k3, k4⟩ := mupd_ok (M := Gc) (i := a) (j := c) (fun s => setBlock s (G.e (a, c)) dx sh) (by omega) (by omega)
          obtain ⟨Hd, l1, l2, l3, l4⟩ := mupd_ok (M := Hc) (i := a) (j := c) (fun s => setBlock s (H.e (c, a)) dx sh) (by omega) (by omega)
          rw [mget_ok (by omega) (by omega), Bivar.andThen_ok, k1, Bivar.andThen_ok, mget_ok (by omega) (by omega), Bivar.andThen_ok, l1, Bivar.andThen_ok]
          refine ⟨_, rfl, by dsimp only; omega, by dsimp only; omega, by dsimp only; omega, by dsimp only; omega, fun i j hi hj => ?_⟩
          dsimp only
          rw [k4, l4, (f5 i j hi hj).1, (f5 i j hi hj).2]
          by_cases hq : i = a ∧ j = c
          · have t1 : ¬(i = a ∧ j < c) := by omega
            have t2 : i = a ∧ j < c + 1 := by omega
            constructor <;> rw [if_pos hq, if_neg t1, if_pos t2, hq.1, hq.2]
          · by_cases hr : i = a ∧ j < c
            · have t2 : i = a ∧ j < c + 1 := by omega
              constructor <;> rw [if_neg hq, if_pos hr, if_pos t2]
            · have t2 : ¬(i = a ∧ j < c + 1) := by omega
              constructor <;> rw [if_neg hq, if_neg hr, if_neg t2])
      refine ⟨(Gb, Hb), e, d1, d2, d3, d4, fun i j hi hj => ?_⟩
      rw [(d5 i j hi hj).1, (d5 i j hi hj).2, (c5 i j hi hj).1, (c5 i j hi hj).2]
      by_cases hq : i = a
      · have t0 : i = a ∧ j < 2 := ⟨hq, hj⟩
        have t1 : ¬ i < a := by omega
        have t2 : i < a + 1 := by omega
        constructor <;> rw [if_pos t0, if_neg t1, if_pos t2]
      · have t0 : ¬(i = a ∧ j < 2) := by omega
        by_cases hr : i < a
        · have t2 : i < a + 1 := by omega
          constructor <;> rw [if_neg t0, if_pos hr, if_pos t2]
        · have t2 : ¬ i < a + 1 := by omega
          constructor <;> rw [if_neg t0, if_neg hr, if_neg t2])
  refine ⟨Gs', Hs', e, q1, q2, q3, q4, fun i j hi hj => ?_⟩
  have := q5 i j hi hj
  rwa [if_pos hi, if_pos hi] at this

/-! ### The arithmetic of one step -/

theorem degree_sum_lt {n d : Nat} {f : Nat → (ZMod p)[X]} (h : ∀ l, l < n → (f l).degree < d) : (∑ l ∈ Finset.range n, f l).degree < d := by
  rw [degree_lt_iff_coeff_zero]
  intro t ht
  rw [finset_sum_coeff]
  refine Finset.sum_eq_zero fun l hl => ?_
  exact (degree_lt_iff_coeff_zero _ _).1 (h l (Finset.mem_range.1 hl)) t ht

theorem degree_mul_lt {f g : (ZMod p)[X]} {d e : Nat} (hf : f.degree < d) (hg : g.degree < e) : (f * g).degree < ((d + e : Nat) : WithBot Nat) := by
  by_cases h0 : f = 0 ∨ g = 0
  · rw [show f * g = 0 by rcases h0 with h | h <;> simp [h], degree_zero]
    exact WithBot.bot_lt_coe _
  · push Not at h0
    rw [degree_eq_natDegree h0.1] at hf
    rw [degree_eq_natDegree h0.2] at hg
    have a : f.natDegree < d := by exact_mod_cast hf
    have b : g.natDegree < e := by exact_mod_cast hg
    rw [degree_mul, degree_eq_natDegree h0.1, degree_eq_natDegree h0.2]
    exact_mod_cast (by omega : f.natDegree + g.natDegree < d + e)

theorem div_coeff (f : (ZMod p)[X]) (k t : Nat) : (f /ₘ X ^ k).coeff t = f.coeff (t + k) := by
  have h := modByMonic_add_div f (q := (X ^ k : (ZMod p)[X]))
  have := congrArg (fun g => coeff g (t + k)) h
  rw [coeff_add, coeff_mod_X_pow, if_neg (by omega), zero_add, mul_comm, coeff_mul_X_pow] at this
  exact this

/-- The residual is read on the last block. -/
theorem high_div {P Q T : (ZMod p)[X]} {e d : Nat} (hT : T = P + Q * X ^ e) (hP : P.degree < (e + d : Nat)) (hd : X ^ (e + d) ∣ T) :
    T = X ^ (e + d) * (Q /ₘ X ^ d) := by
  obtain ⟨R, hR⟩ := hd
  rw [hR]
  congr 1
  ext t
  rw [div_coeff]
  have e1 : R.coeff t = T.coeff (t + (e + d)) := by rw [hR, mul_comm, coeff_mul_X_pow]
  rw [e1, hT, coeff_add, coeff_eq_zero_of_degree_lt (lt_of_lt_of_le hP (by exact_mod_cast (by omega : e + d ≤ t + (e + d)))), zero_add,
    show t + (e + d) = t + d + e by omega, coeff_mul_X_pow]

theorem high_right {n e d : Nat} {M N : Nat → Nat → (ZMod p)[X]} {S U : Nat → (ZMod p)[X]}
    (hN : ∀ i j, i < n → j < n → X ^ d ∣ (∑ l ∈ Finset.range n, M i l * N l j) - if i = j then 1 else 0)
    (hM : ∀ i j, i < n → j < n → (M i j).degree < d) (hU : ∀ i, i < n → (U i).degree < d)
    (hS : ∀ i, i < n → X ^ (e + d) ∣ (∑ l ∈ Finset.range n, M i l * S l) + U i) {y z : Nat → (ZMod p)[X]}
    (hy : ∀ i, i < n → y i = (∑ l ∈ Finset.range n, M i l * (S l /ₘ X ^ e)) /ₘ X ^ d)
    (hz : ∀ i, i < n → z i = (∑ l ∈ Finset.range n, N i l * y l) %ₘ X ^ d) {i : Nat} (hi : i < n) :
    X ^ (e + d + d) ∣ (∑ l ∈ Finset.range n, M i l * (S l - z l * X ^ (e + d))) + U i := by
  have h1 : (∑ l ∈ Finset.range n, M i l * S l) + U i = X ^ (e + d) * y i := by
    rw [hy i hi]
    refine high_div (P := (∑ l ∈ Finset.range n, M i l * (S l %ₘ X ^ e)) + U i) ?_ ?_ (hS i hi)
    · rw [Finset.sum_mul]
      have : ∀ l, M i l * S l = M i l * (S l %ₘ X ^ e) + M i l * (S l /ₘ X ^ e) * X ^ e := fun l => by
        have := modByMonic_add_div (S l) (q := (X ^ e : (ZMod p)[X]))
        nth_rw 1 [← this]
        ring
      rw [Finset.sum_congr rfl fun l _ => this l, Finset.sum_add_distrib]
      ring
    · refine lt_of_le_of_lt (degree_add_le _ _) (max_lt ?_ (lt_of_lt_of_le (hU i hi) (by exact_mod_cast (by omega : d ≤ e + d))))
      refine degree_sum_lt fun l hl => ?_
      rw [Nat.add_comm]
      exact degree_mul_lt (hM i l hi hl) (mod_degree _ _)
  have h2 : X ^ d ∣ y i - ∑ l ∈ Finset.range n, M i l * z l := inv_apply hN hz hi
  have e3 : (∑ l ∈ Finset.range n, M i l * (S l - z l * X ^ (e + d))) + U i = X ^ (e + d) * (y i - ∑ l ∈ Finset.range n, M i l * z l) := by
    rw [mul_sub, ← h1]
    simp only [mul_sub, Finset.sum_sub_distrib, Finset.mul_sum]
    have : ∀ l, M i l * (z l * X ^ (e + d)) = X ^ (e + d) * (M i l * z l) := fun l => by ring
    simp only [this]
    ring
  rw [e3, pow_add _ (e + d) d]
  exact mul_dvd_mul_left _ h2

theorem high_left {n e d : Nat} {M N : Nat → Nat → (ZMod p)[X]} {S V : Nat → (ZMod p)[X]}
    (hN : ∀ i j, i < n → j < n → X ^ d ∣ (∑ l ∈ Finset.range n, N i l * M l j) - if i = j then 1 else 0)
    (hM : ∀ i j, i < n → j < n → (M i j).degree < d) (hV : ∀ i, i < n → (V i).degree < d)
    (hS : ∀ j, j < n → X ^ (e + d) ∣ (∑ l ∈ Finset.range n, S l * M l j) - V j) {y z : Nat → (ZMod p)[X]}
    (hy : ∀ j, j < n → y j = (∑ l ∈ Finset.range n, (S l /ₘ X ^ e) * M l j) /ₘ X ^ d)
    (hz : ∀ j, j < n → z j = (∑ l ∈ Finset.range n, y l * N l j) %ₘ X ^ d) {j : Nat} (hj : j < n) :
    X ^ (e + d + d) ∣ (∑ l ∈ Finset.range n, (S l - z l * X ^ (e + d)) * M l j) - V j := by
  have := high_right (M := fun i j => M j i) (N := fun i j => N j i) (S := S) (U := fun i => -V i) (n := n) (e := e) (d := d) (y := y) (z := z)
    (fun i j hi hj => by
      have := hN j i hj hi
      simp only [mul_comm (N _ _)] at this
      by_cases h : i = j
      · rw [if_pos h.symm] at this
        rw [if_pos h]
        exact this
      · rw [if_neg (Ne.symm h)] at this
        rw [if_neg h]
        exact this)
    (fun i j hi hj => hM j i hj hi) (fun i hi => by rw [degree_neg]; exact hV i hi)
    (fun i hi => by
      have := hS i hi
      simp only [mul_comm (S _)] at this
      rwa [← sub_eq_add_neg])
    (fun i hi => by
      rw [hy i hi]
      simp only [mul_comm (_ /ₘ _)])
    (fun i hi => by
      rw [hz i hi]
      simp only [mul_comm (y _)]) hj
  rw [← sub_eq_add_neg] at this
  simpa only [mul_comm (M _ _)] using this

/-! ### The loop -/

/-- The state after `i` iterations: the solutions modulo `X^((i + 1) d)`, and their last blocks. -/
structure HState (n : Nat) (M : Nat → Nat → (ZMod p)[X]) (U V : PMat (ZMod p)[X]) (d i : Nat)
    (s : PMat (ZMod p)[X] × PMat (ZMod p)[X] × PMat (ZMod p)[X] × PMat (ZMod p)[X]) : Prop where
  gr : s.1.rows = n
  gc : s.1.cols = 2
  hr : s.2.1.rows = 2
  hc : s.2.1.cols = n
  sol : Sol n M U V ((i + 1) * d) s.2.2.1 (mT s.2.2.2)
  hG : ∀ a c, a < n → c < 2 → s.1.e (a, c) = s.2.2.1.e (a, c) /ₘ X ^ (i * d)
  hH : ∀ a c, a < n → c < 2 → s.2.1.e (c, a) = s.2.2.2.e (a, c) /ₘ X ^ (i * d)

theorem block_next {s z : (ZMod p)[X]} {e d : Nat} (hs : s.degree < e) (hz : z.degree < (d + 1 : Nat)) :
    setBlock s (-z) d e = s - z * X ^ e ∧ (s - z * X ^ e).degree < ((e + (d + 1) : Nat) : WithBot Nat) ∧ -z = (s - z * X ^ e) /ₘ X ^ e := by
  refine ⟨?_, ?_, ?_⟩
  · rw [setBlock_eq hs (by rwa [degree_neg])]
    ring
  · refine lt_of_le_of_lt (degree_sub_le _ _) (max_lt (lt_of_lt_of_le hs (by exact_mod_cast (by omega : e ≤ e + (d + 1)))) ?_)
    by_cases h0 : z = 0
    · rw [h0, zero_mul, degree_zero]
      exact WithBot.bot_lt_coe _
    · rw [degree_mul, degree_X_pow, degree_eq_natDegree h0]
      rw [degree_eq_natDegree h0] at hz
      have : z.natDegree < d + 1 := by exact_mod_cast hz
      exact_mod_cast (by omega : z.natDegree + e < e + (d + 1))
  · ext t
    rw [div_coeff, coeff_sub, coeff_mul_X_pow, coeff_eq_zero_of_degree_lt (lt_of_lt_of_le hs (by exact_mod_cast (by omega : e ≤ t + e))), zero_sub, coeff_neg]

/-- One iteration, if the two products by the Sylvester matrix return. -/
theorem high_step_ok {A B : PVec (ZMod p)} {o : Sylv (ZMod p)} (ho : Made A B o) {c : Ctx p} (hmp : MidOK c.mp) {U V : PMat (ZMod p)[X]} {dx : Nat}
    (hM : ∀ i j, (sylvEntry A B i j).degree < (dx + 1 : Nat)) (hU : ∀ i j, i < o.n → j < 2 → (U.e (i, j)).degree < (dx + 1 : Nat))
    (hV : ∀ i j, i < o.n → j < 2 → (V.e (i, j)).degree < (dx + 1 : Nat)) {iM : Like (ZMod p)} (im : iM.m = o.n) (inn : iM.n = o.n)
    {N : Nat → Nat → (ZMod p)[X]} (hN : IsInvMod (dx + 1) o.n (sylvEntry A B) N) (hR : Represents iM o.n N) {i : Nat}
    {s : PMat (ZMod p)[X] × PMat (ZMod p)[X] × PMat (ZMod p)[X] × PMat (ZMod p)[X]} (h : HState o.n (sylvEntry A B) U V (dx + 1) i s)
    {y z : PMat (ZMod p)[X]} (hy : matRight c.g o.n o.n (fun r v => o.mulRight c.g r v) newMat s.1 = .ok y)
    (hz : matLeft c.g o.n o.n (fun r v => o.mulLeft c.g c.mp r v) newMat s.2.1 = .ok z) :
    ∃ s', highStep c o iM dx i s = .ok s' ∧ HState o.n (sylvEntry A B) U V (dx + 1) (i + 1) s' := by
  obtain ⟨-, y1, y2, y3⟩ := full_right_inv ho hy
  obtain ⟨-, z1, z2, z3⟩ := full_left_inv ho hmp hz
  have gc := h.gc
  have hr := h.hr
  unfold highStep
  rw [hy, Bivar.andThen_ok, hz, Bivar.andThen_ok]
  obtain ⟨y', e1, r1, r2, r3⟩ := (C92_mat_right_trunc (m := iM.m) (n := iM.n) (s := dx + 1) c.g (f := fun r v => iM.mulRightTrunc c.g r v (dx + 1)) (M := N)
    (fun r v hv => by rw [im, inn]; exact hR.rightTrunc c.g r v (dx + 1) (by omega)) newMat (mShr y (dx + 1))).1 (by show y.rows = _; omega)
  obtain ⟨z', e2, s1, s2, s3⟩ := (C92_mat_left_trunc (m := iM.m) (n := iM.n) (s := dx + 1) c.g (f := fun r v => iM.mulLeftTrunc c.g r v (dx + 1)) (M := N)
    (fun r v hv => by rw [im, inn]; exact hR.leftTrunc c.g r v (dx + 1) (by omega)) newMat (mShr z (dx + 1))).1 (by show z.cols = _; omega)
  have r2 : y'.cols = y.cols := r2
  have s1 : z'.rows = z.rows := s1
  rw [im, inn, show (mShr y (dx + 1)).cols = 2 by show y.cols = 2; omega] at r3
  rw [im, inn, show (mShr z (dx + 1)).rows = 2 by show z.rows = 2; omega] at s3
  rw [show c.iright iM _ _ = .ok y' from e1, Bivar.andThen_ok, show c.ileft iM _ _ = .ok z' from e2, Bivar.andThen_ok]
  have gr := h.sol.gr
  have gc' := h.sol.gc
  have hr' : s.2.2.2.cols = 2 := h.sol.hr
  have hc' : s.2.2.2.rows = o.n := h.sol.hc
  obtain ⟨Gs, Hs, c1, c2, c3, c4, c5, c6⟩ := copy_ok (n := o.n) (dx := dx) (sh := (i + 1) * (dx + 1)) (G := mNeg y') (H := mNeg z') (Gs := s.2.2.1) (Hs := s.2.2.2)
    (by show y'.rows = _; omega) (by show y'.cols = _; omega) (by show z'.rows = _; omega) (by show z'.cols = _; omega) gr gc' hc' hr'
  rw [c1, Bivar.andThen_ok]
  have eG : ∀ a j, a < o.n → j < 2 → Gs.e (a, j) = s.2.2.1.e (a, j) - y'.e (a, j) * X ^ ((i + 1) * (dx + 1)) ∧
      (Gs.e (a, j)).degree < (((i + 1) * (dx + 1) + (dx + 1) : Nat) : WithBot Nat) ∧ -y'.e (a, j) = Gs.e (a, j) /ₘ X ^ ((i + 1) * (dx + 1)) := by
    intro a j ha hj
    have := block_next (h.sol.gd a j ha hj) (z := y'.e (a, j)) (d := dx) (by rw [r3 a j ha hj]; exact mod_degree _ _)
    rw [(c6 a j ha hj).1]
    show setBlock _ (-y'.e (a, j)) _ _ = _ ∧ (setBlock _ (-y'.e (a, j)) _ _).degree < _ ∧ _ = setBlock _ (-y'.e (a, j)) _ _ /ₘ _
    rw [this.1]
    exact ⟨rfl, this.2.1, this.2.2⟩
  have eH : ∀ a j, a < o.n → j < 2 → Hs.e (a, j) = s.2.2.2.e (a, j) - z'.e (j, a) * X ^ ((i + 1) * (dx + 1)) ∧
      (Hs.e (a, j)).degree < (((i + 1) * (dx + 1) + (dx + 1) : Nat) : WithBot Nat) ∧ -z'.e (j, a) = Hs.e (a, j) /ₘ X ^ ((i + 1) * (dx + 1)) := by
    intro a j ha hj
    have := block_next (s := s.2.2.2.e (a, j)) (h.sol.hd j a hj ha) (z := z'.e (j, a)) (d := dx) (by rw [s3 j a hj ha]; exact mod_degree _ _)
    rw [(c6 a j ha hj).2]
    show setBlock _ (-z'.e (j, a)) _ _ = _ ∧ (setBlock _ (-z'.e (j, a)) _ _).degree < _ ∧ _ = setBlock _ (-z'.e (j, a)) _ _ /ₘ _
    rw [this.1]
    exact ⟨rfl, this.2.1, this.2.2⟩
  have ed : (i + 1) * (dx + 1) + (dx + 1) = (i + 1 + 1) * (dx + 1) := by ring
  have ed' : i * (dx + 1) + (dx + 1) = (i + 1) * (dx + 1) := by ring
  refine ⟨_, rfl, ⟨by show y'.rows = _; omega, by show y'.cols = _; omega, by show z'.rows = _; omega, by show z'.cols = _; omega,
    ⟨c2, c3, c5, c4, fun a j ha hj => ?_, fun j a hj ha => ?_, fun a j ha hj => ?_, fun j a hj ha => ?_⟩, fun a j ha hj => (eG a j ha hj).2.2,
    fun a j ha hj => (eH a j ha hj).2.2⟩⟩
  · rw [← ed]
    exact (eG a j ha hj).2.1
  · rw [← ed]
    exact (eH a j ha hj).2.1
  · have := high_right (M := sylvEntry A B) (N := N) (S := fun l => s.2.2.1.e (l, j)) (U := fun l => U.e (l, j)) (e := i * (dx + 1)) (d := dx + 1)
      (y := fun l => y.e (l, j) /ₘ X ^ (dx + 1)) (z := fun l => y'.e (l, j)) hN.right (fun i j _ _ => hM i j) (fun i hi => hU i j hi hj)
      (fun i' hi => by rw [ed']; exact h.sol.hG i' j hi hj) (fun i' hi => by
        rw [y3 i' j hi (by omega)]
        congr 1
        exact Finset.sum_congr rfl fun l hl => by rw [h.hG l j (Finset.mem_range.1 hl) hj]) (fun i' hi => r3 i' j hi hj) ha
    rw [ed', ed] at this
    show X ^ ((i + 1 + 1) * (dx + 1)) ∣ (∑ l ∈ Finset.range o.n, sylvEntry A B a l * Gs.e (l, j)) + U.e (a, j)
    rw [Finset.sum_congr rfl fun l hl => by rw [(eG l j (Finset.mem_range.1 hl) hj).1]]
    exact this
  · have := high_left (M := sylvEntry A B) (N := N) (S := fun l => s.2.2.2.e (l, j)) (V := fun l => V.e (l, j)) (e := i * (dx + 1)) (d := dx + 1)
      (y := fun l => z.e (j, l) /ₘ X ^ (dx + 1)) (z := fun l => z'.e (j, l)) hN.left (fun i j _ _ => hM i j) (fun i hi => hV i j hi hj)
      (fun i' hi => by rw [ed']; exact h.sol.hH j i' hj hi) (fun i' hi => by
        rw [z3 j i' (by omega) hi]
        congr 1
        exact Finset.sum_congr rfl fun l hl => by rw [h.hH l j (Finset.mem_range.1 hl) hj]) (fun i' hi => s3 j i' hj hi) ha
    rw [ed', ed] at this
    show X ^ ((i + 1 + 1) * (dx + 1)) ∣ (∑ l ∈ Finset.range o.n, Hs.e (l, j) * sylvEntry A B l a) - V.e (a, j)
    rw [Finset.sum_congr rfl fun l hl => by rw [(eH l j (Finset.mem_range.1 hl) hj).1]]
    exact this

theorem high_step_inv {c : Ctx p} {o : Sylv (ZMod p)} {iM : Like (ZMod p)} {dx i : Nat}
    {s s' : PMat (ZMod p)[X] × PMat (ZMod p)[X] × PMat (ZMod p)[X] × PMat (ZMod p)[X]} (h : highStep c o iM dx i s = .ok s') :
    ∃ y z, matRight c.g o.n o.n (fun r v => o.mulRight c.g r v) newMat s.1 = .ok y ∧
      matLeft c.g o.n o.n (fun r v => o.mulLeft c.g c.mp r v) newMat s.2.1 = .ok z := by
  unfold highStep at h
  obtain ⟨y, hy, h⟩ := andThen_eq h
  obtain ⟨z, hz, h⟩ := andThen_eq h
  exact ⟨y, z, hy, hz⟩

theorem loopOut_back {σ : Type} (P : Nat → σ → Prop) {f : Nat → σ → Out σ} {s : σ} : ∀ {n : Nat} {t : σ}, P 0 s →
    (∀ k u v, k < n → P k u → f k u = .ok v → P (k + 1) v) → loopOut n f s = .ok t → P n t
  | 0, t, h0, _, h => by
    cases h
    exact h0
  | n + 1, t, h0, hf, h => by
    obtain ⟨u, e1, e2⟩ := andThen_eq (show andThen (loopOut n f s) (f n) = .ok t from h)
    exact hf n u t (by omega) (loopOut_back P h0 (fun k u v hk => hf k u v (by omega)) e1) e2

theorem pdeg_degree {f : (ZMod p)[X]} {d : Nat} (h : Bivar.pdeg f ≤ d) : f.degree < (d + 1 : Nat) := by
  unfold Bivar.pdeg at h
  by_cases h0 : f = 0
  · rw [h0, degree_zero]
    exact WithBot.bot_lt_coe _
  · rw [if_neg h0] at h
    rw [degree_eq_natDegree h0]
    exact_mod_cast (by omega : f.natDegree < d + 1)

/-- The degrees in `X` of the matrix and of its generators. -/
theorem entry_degrees {A B : PVec (ZMod p)} {o : Sylv (ZMod p)} (ho : Made A B o) (hb : 2 ≤ B.len) {U V : PMat (ZMod p)[X]} (hg : o.gens newMat newMat = .ok (U, V)) :
    (∀ i j, (sylvEntry A B i j).degree < ((max o.dAx o.dBx).toNat + 1 : Nat)) ∧
    (∀ i j, i < o.n → j < 2 → (U.e (i, j)).degree < ((max o.dAx o.dBx).toNat + 1 : Nat)) ∧
    ∀ i j, i < o.n → j < 2 → (V.e (i, j)).degree < ((max o.dAx o.dBx).toNat + 1 : Nat) := by
  have h := made_inv ho
  have la := h.la
  have lb := h.lb
  have hn := h.n
  generalize hdx : (max o.dAx o.dBx).toNat = dx
  have dA : ∀ i, i < A.len → (A.at' i).degree < (dx + 1 : Nat) := fun i hi => pdeg_degree (by
    have := degX_get A hi
    have := h.dA
    omega)
  have dB : ∀ i, i < B.len → (B.at' i).degree < (dx + 1 : Nat) := fun i hi => pdeg_degree (by
    have := degX_get B hi
    have := h.dB
    omega)
  have z : (0 : (ZMod p)[X]).degree < (dx + 1 : Nat) := by
    rw [degree_zero]
    exact WithBot.bot_lt_coe _
  have one : (1 : (ZMod p)[X]).degree < (dx + 1 : Nat) := by
    rw [degree_one]
    exact_mod_cast Nat.succ_pos dx
  have add : ∀ f g : (ZMod p)[X], f.degree < (dx + 1 : Nat) → g.degree < (dx + 1 : Nat) → (f + g).degree < (dx + 1 : Nat) := fun f g hf hg =>
    lt_of_le_of_lt (degree_add_le _ _) (max_lt hf hg)
  have sub : ∀ f g : (ZMod p)[X], f.degree < (dx + 1 : Nat) → g.degree < (dx + 1 : Nat) → (f - g).degree < (dx + 1 : Nat) := fun f g hf hg =>
    lt_of_le_of_lt (degree_sub_le _ _) (max_lt hf hg)
  have ite' : ∀ (q : Prop) [Decidable q] (f g : (ZMod p)[X]), (q → f.degree < (dx + 1 : Nat)) → g.degree < (dx + 1 : Nat) →
      (if q then f else g).degree < (dx + 1 : Nat) := fun q _ f g hf hg => by
    split
    · exact hf ‹_›
    · exact hg
  obtain ⟨U', V', e1, -, -, -, -, e6⟩ := gens_ok h (by omega) newMat newMat
  rw [hg] at e1
  cases e1
  refine ⟨fun i j => ?_, fun i j hi hj => ?_, fun i j hi hj => ?_⟩
  · unfold sylvEntry
    split
    · rw [shift_coeff]
      exact ite' _ _ _ (fun hq => dA _ hq.2) z
    · rw [shift_coeff]
      exact ite' _ _ _ (fun hq => dB _ hq.2) z
  · rcases (by omega : j = 0 ∨ j = 1) with rfl | rfl
    · rw [(e6 i hi).1]
      unfold g0
      exact sub _ _ (sub _ _ (add _ _ (ite' _ _ _ (fun _ => dA _ (by omega)) z) (ite' _ _ _ (fun _ => dA _ (by omega)) z)) (ite' _ _ _ (fun _ => dB _ (by omega)) z))
        (ite' _ _ _ (fun _ => dB _ (by omega)) z)
    · rw [(e6 i hi).2.1]
      unfold g1
      exact add _ _ (ite' _ _ _ (fun _ => dB _ (by omega)) z) (ite' _ _ _ (fun _ => dB _ (by omega)) z)
  · rw [(e6 i hi).2.2 j hj]
    unfold h01
    split
    · exact ite' _ _ _ (fun _ => one) z
    · exact ite' _ _ _ (fun _ => one) z

/-- The first block. -/
theorem high_start {n dx : Nat} {M : Nat → Nat → (ZMod p)[X]} {U V G H : PMat (ZMod p)[X]} (h : Sol n M U V (dx + 1) G H) :
    ∃ r, copyBlock n dx 0 G H ⟨n, 2, fun _ => 0⟩ ⟨n, 2, fun _ => 0⟩ = .ok r ∧ HState n M U V (dx + 1) 0 (G, H, r.1, r.2) := by
  obtain ⟨Gs, Hs, c1, c2, c3, c4, c5, c6⟩ := copy_ok (n := n) (dx := dx) (sh := 0) (G := G) (H := H) (Gs := ⟨n, 2, fun _ => 0⟩) (Hs := ⟨n, 2, fun _ => 0⟩)
    h.gr h.gc h.hr h.hc rfl rfl rfl rfl
  have z : (0 : (ZMod p)[X]).degree < (0 : Nat) := by
    rw [degree_zero]
    exact WithBot.bot_lt_coe _
  have eG : ∀ i j, i < n → j < 2 → Gs.e (i, j) = G.e (i, j) := fun i j hi hj => by
    rw [(c6 i j hi hj).1, setBlock_eq z (h.gd i j hi hj), zero_add, pow_zero, mul_one]
  have eH : ∀ i j, i < n → j < 2 → Hs.e (i, j) = H.e (j, i) := fun i j hi hj => by
    rw [(c6 i j hi hj).2, setBlock_eq z (h.hd j i hj hi), zero_add, pow_zero, mul_one]
  refine ⟨_, c1, ⟨h.gr, h.gc, h.hr, h.hc, ⟨c2, c3, c5, c4, fun i j hi hj => ?_, fun i j hi hj => ?_, fun i j hi hj => ?_, fun i j hi hj => ?_⟩,
    fun i j hi hj => ?_, fun i j hi hj => ?_⟩⟩
  · rw [Nat.zero_add, Nat.one_mul]
    show (Gs.e (i, j)).degree < _
    rw [eG i j hi hj]
    exact h.gd i j hi hj
  · rw [Nat.zero_add, Nat.one_mul]
    show (Hs.e (j, i)).degree < _
    rw [eH j i hj hi]
    exact h.hd i j hi hj
  · rw [Nat.zero_add, Nat.one_mul]
    show _ ∣ (∑ l ∈ Finset.range n, M i l * Gs.e (l, j)) + _
    rw [Finset.sum_congr rfl fun l hl => by rw [eG l j (Finset.mem_range.1 hl) hj]]
    exact h.hG i j hi hj
  · rw [Nat.zero_add, Nat.one_mul]
    show _ ∣ (∑ l ∈ Finset.range n, Hs.e (l, i) * M l j) - _
    rw [Finset.sum_congr rfl fun l hl => by rw [eH l i (Finset.mem_range.1 hl) hi]]
    exact h.hH i j hi hj
  · show G.e (i, j) = Gs.e (i, j) /ₘ X ^ (0 * (dx + 1))
    rw [eG i j hi hj, Nat.zero_mul, pow_zero, divByMonic_one]
  · show H.e (j, i) = Hs.e (i, j) /ₘ X ^ (0 * (dx + 1))
    rw [eH i j hi hj, Nat.zero_mul, pow_zero, divByMonic_one]

/-- The number of blocks. -/
def nBlocks (m d : Nat) : Nat := if m > m / d * d then m / d + 1 else m / d

theorem nBlocks_spec {m d : Nat} (hd : 0 < d) : m ≤ (nBlocks m d - 1 + 1) * d := by
  unfold nBlocks
  have h1 := Nat.div_add_mod m d
  have h2 := Nat.mod_lt m hd
  rw [Nat.mul_comm d] at h1
  generalize m / d = q at *
  split
  · rw [show q + 1 - 1 + 1 = q + 1 by omega, Nat.add_mul, Nat.one_mul]
    omega
  · have : q * d ≤ (q - 1 + 1) * d := Nat.mul_le_mul_right _ (by omega)
    omega

/-- The degrees in `Y` decrease at `x = 0` only if those in `X` are positive. -/
theorem no_drop {A B : PVec (ZMod p)} {o : Sylv (ZMod p)} (ho : Made A B o) :
    1 ≤ max o.dAx o.dBx ∨ (constPart A).natDegree = A.len - 1 ∧ (constPart B).natDegree = B.len - 1 := by
  have h := made_inv ho
  have key : ∀ (v : PVec (ZMod p)) n, v.len = n + 1 → v.at' n ≠ 0 → v.degX ≤ 0 → (constPart v).natDegree = v.len - 1 := by
    intro v n hl h0 hd
    rw [← atZero_eq]
    refine le_antisymm (atZero_degree v) (le_natDegree_of_ne_zero ?_)
    rw [atZero_coeff, if_pos (by omega), show v.len - 1 = n by omega]
    have hp : Bivar.pdeg (v.at' n) ≤ 0 := (degX_get v (by omega)).trans hd
    intro hc
    unfold Bivar.pdeg at hp
    rw [if_neg h0] at hp
    have := eq_C_of_natDegree_eq_zero (p := v.at' n) (by omega)
    rw [hc, C_0] at this
    exact h0 this
  by_cases hd : 1 ≤ max o.dAx o.dBx
  · exact .inl hd
  · have h1 := h.dA
    have h2 := h.dB
    exact .inr ⟨key A _ h.la h.na (by omega), key B _ h.lb h.nb (by omega)⟩

/-- The parts of a run that returns. -/
theorem high_run {A B : PVec (ZMod p)} {o : Sylv (ZMod p)} (ho : Made A B o) (c : Ctx p) (hx : Struct.XgcdOK c.xg) (hmp : MidOK c.mp)
    (hA : constPart A ≠ 0) (hB : constPart B ≠ 0) (hb : 2 ≤ B.len)
    (hd : 1 ≤ max o.dAx o.dBx ∨ (constPart A).natDegree = A.len - 1 ∧ (constPart B).natDegree = B.len - 1) {iM : Like (ZMod p)}
    (h : newtonInv c o ((max o.dAx o.dBx).toNat + 1) = .ok iM) :
    ∃ U V, o.gens newMat newMat = .ok (U, V) ∧ Setup o.n (sylvEntry A B) U V ∧
      (∃ r, copyBlock o.n (max o.dAx o.dBx).toNat 0 iM.G (mT iM.H) ⟨o.n, 2, fun _ => 0⟩ ⟨o.n, 2, fun _ => 0⟩ = .ok r ∧
        HState o.n (sylvEntry A B) U V ((max o.dAx o.dBx).toNat + 1) 0 (iM.G, mT iM.H, r.1, r.2)) ∧
      (∀ i s y z, HState o.n (sylvEntry A B) U V ((max o.dAx o.dBx).toNat + 1) i s →
        matRight c.g o.n o.n (fun r v => o.mulRight c.g r v) newMat s.1 = .ok y → matLeft c.g o.n o.n (fun r v => o.mulLeft c.g c.mp r v) newMat s.2.1 = .ok z →
        ∃ s', highStep c o iM (max o.dAx o.dBx).toNat i s = .ok s' ∧ HState o.n (sylvEntry A B) U V ((max o.dAx o.dBx).toNat + 1) (i + 1) s') := by
  obtain ⟨U, V, e1, hs, G, H, h1, h2⟩ := newton_sol ho c hx hmp hA hB (by omega) (hd.imp (fun h => by omega) id) h
  obtain ⟨im, inn, -, N, hN, hR⟩ := Sol.inv hs h1 h2
  obtain ⟨dM, dU, dV⟩ := entry_degrees ho hb e1
  obtain ⟨iM', f1, -, -, f2, f3⟩ := like_made c.g c.x c.y (G := G) (H := mT H) (by rw [h1.gr]; exact hs.pos) (by show 0 < H.cols; rw [h1.hc]; exact hs.pos)
    (by show G.cols ≤ H.rows; rw [h1.gc, h1.hr])
  rw [show Like.make c.g c.x c.y G (mT H) = .ok iM from h2] at f1
  cases f1
  refine ⟨U, V, e1, hs, ?_, fun i s y z hi hy hz => high_step_ok ho hmp dM dU dV im inn hN hR hi hy hz⟩
  rw [f2, f3]
  exact high_start h1

/-- **C94**. `high_precision_inv_trunc(iM, m)`, if it returns: the object represents a matrix `N` which is the inverse of the Sylvester matrix modulo `X^m`, and
    its generators have degrees less than `m`. -/
theorem C94_high {A B : PVec (ZMod p)} {o : Sylv (ZMod p)} (ho : Made A B o) (c : Ctx p) (hx : Struct.XgcdOK c.xg) (hmp : MidOK c.mp)
    (hA : constPart A ≠ 0) (hB : constPart B ≠ 0) {m : Nat} {iM : Like (ZMod p)} (h : highInv c o m = .ok iM) :
    Small iM m ∧ ∃ N, IsInvMod m o.n (sylvEntry A B) N ∧ Represents iM o.n N := by
  unfold highInv at h
  dsimp only at h
  obtain ⟨iM0, e0, h⟩ := andThen_eq h
  have hb : 2 ≤ B.len := by
    by_contra hc
    rw [(C94_newton_errors ho c hx _).2.2 (by omega)] at e0
    cases e0
  obtain ⟨U, V, -, hs, ⟨r, e1, h0⟩, hstep⟩ := high_run ho c hx hmp hA hB hb (no_drop ho) e0
  rw [e1, Bivar.andThen_ok] at h
  obtain ⟨s, e2, h⟩ := andThen_eq h
  have hS : HState o.n (sylvEntry A B) U V ((max o.dAx o.dBx).toNat + 1) (nBlocks m ((max o.dAx o.dBx).toNat + 1) - 1) s :=
    loopOut_back (fun i s => HState o.n (sylvEntry A B) U V ((max o.dAx o.dBx).toNat + 1) i s) h0 (fun k u v _ hu hv => by
      obtain ⟨y, z, hy, hz⟩ := high_step_inv hv
      obtain ⟨s', a, b⟩ := hstep k u y z hu hy hz
      rw [hv] at a
      cases a
      exact b) e2
  have sol := hS.sol
  exact (Sol.inv hs (sol.trunc (nBlocks_spec (by omega))) h).2.2

/-- **C94**. `high_precision_inv_trunc(iM, m)` returns, if `newton_inv_trunc` does for the precision `d = dx + 1` and if all the products that it computes, of the
    Sylvester matrix by the last blocks of the generators at the precisions `d, 2 d, ...`, return (see C93). -/
theorem C94_high_returns {A B : PVec (ZMod p)} {o : Sylv (ZMod p)} (ho : Made A B o) (c : Ctx p) (hx : Struct.XgcdOK c.xg) (hmp : MidOK c.mp)
    (hA : constPart A ≠ 0) (hB : constPart B ≠ 0) {m : Nat}
    (hN : ∃ iM, newtonInv c o ((max o.dAx o.dBx).toNat + 1) = .ok iM)
    (hprod : ∀ t d U V G H, d = (max o.dAx o.dBx).toNat + 1 → (t + 1) * d < m → o.gens newMat newMat = .ok (U, V) →
      Sol o.n (sylvEntry A B) U V ((t + 1) * d) G H → ∀ j, j < 2 → ∀ res v, v.len = o.n →
        ((∀ i, i < o.n → v.at' i = G.e (i, j) /ₘ X ^ (t * d)) → ∃ w, o.mulRight c.g res v = .ok w) ∧
        ((∀ i, i < o.n → v.at' i = H.e (j, i) /ₘ X ^ (t * d)) → ∃ w, o.mulLeft c.g c.mp res v = .ok w)) : ∃ iM, highInv c o m = .ok iM := by
  obtain ⟨iM0, e0⟩ := hN
  have hb : 2 ≤ B.len := by
    by_contra hc
    rw [(C94_newton_errors ho c hx _).2.2 (by omega)] at e0
    cases e0
  obtain ⟨U, V, eg, hs, ⟨r, e1, h0⟩, hstep⟩ := high_run ho c hx hmp hA hB hb (no_drop ho) e0
  unfold highInv
  dsimp only
  rw [e0, Bivar.andThen_ok, e1, Bivar.andThen_ok]
  obtain ⟨s, e2, hS⟩ := loopOut_inv (f := highStep c o iM0 (max o.dAx o.dBx).toNat) (s := (iM0.G, mT iM0.H, r.1, r.2))
    (fun i s => HState o.n (sylvEntry A B) U V ((max o.dAx o.dBx).toNat + 1) i s) (nBlocks m ((max o.dAx o.dBx).toNat + 1) - 1) h0 (by
      intro t s ht h
      have hlt : (t + 1) * ((max o.dAx o.dBx).toNat + 1) < m := by
        have a := Nat.div_add_mod m ((max o.dAx o.dBx).toNat + 1)
        rw [Nat.mul_comm] at a
        unfold nBlocks at ht
        split at ht
        · have : (t + 1) * ((max o.dAx o.dBx).toNat + 1) ≤ m / ((max o.dAx o.dBx).toNat + 1) * ((max o.dAx o.dBx).toNat + 1) := Nat.mul_le_mul_right _ (by omega)
          omega
        · have : (t + 2) * ((max o.dAx o.dBx).toNat + 1) ≤ m / ((max o.dAx o.dBx).toNat + 1) * ((max o.dAx o.dBx).toNat + 1) := Nat.mul_le_mul_right _ (by omega)
          have : (t + 2) * ((max o.dAx o.dBx).toNat + 1) = (t + 1) * ((max o.dAx o.dBx).toNat + 1) + ((max o.dAx o.dBx).toNat + 1) := by ring
          omega
      have hp := hprod t _ U V s.2.2.1 (mT s.2.2.2) rfl hlt eg h.sol
      obtain ⟨y, hy⟩ := full_right_returns ho (g := c.g) (out := newMat) h.gr fun j hj res v hv hq => by
        rw [h.gc] at hj
        exact (hp j hj res v hv).1 fun i hi => by rw [hq i hi, h.hG i j hi hj]
      obtain ⟨z, hz⟩ := full_left_returns ho hmp (g := c.g) (out := newMat) h.hc fun j hj res v hv hq => by
        rw [h.hr] at hj
        exact (hp j hj res v hv).2 fun i hi => by rw [hq i hi, h.hH i j hi hj]; rfl
      exact hstep t s y z h hy hz)
  have e2' := e2
  unfold nBlocks at e2'
  rw [e2', Bivar.andThen_ok]
  have sol := hS.sol
  have d1 : s.2.2.1.rows = o.n := sol.gr
  have d2 : s.2.2.1.cols = 2 := sol.gc
  have d3 : s.2.2.2.rows = o.n := sol.hc
  have d4 : s.2.2.2.cols = 2 := sol.hr
  have pos := hs.pos
  obtain ⟨iM, e, -⟩ := like_made c.g c.x c.y (G := mTrunc s.2.2.1 m) (H := mTrunc s.2.2.2 m) (by show 0 < s.2.2.1.rows; omega) (by show 0 < s.2.2.2.rows; omega)
    (by show s.2.2.1.cols ≤ s.2.2.2.cols; omega)
  exact ⟨iM, e⟩

end PML.Ntl.NewtonX
