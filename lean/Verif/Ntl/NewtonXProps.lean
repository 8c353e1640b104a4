import Verif.Ntl.NewtonXStep

/-! # Inversion of the Sylvester matrices over `K[X]`: the Newton iteration -/

namespace PML.Ntl.NewtonX

open Polynomial PML.Ntl.Utils PML.Ntl.Inv PML.Ntl.Solve PML.Ntl.Bivar PML.Ntl.FftPoints PML.Ntl.StructX PML.Ntl.SylvX
open PML.Ntl.Struct (loopOut)

variable {p : Nat} [Fact p.Prime]

/-- The matrix `M`, of displacement `Z_1 M - M Z_0 = U V^t`, is invertible at `X = 0`. -/
structure Setup (n : Nat) (M : Nat → Nat → (ZMod p)[X]) (U V : PMat (ZMod p)[X]) : Prop where
  pos : 0 < n
  ur : U.rows = n
  uc : U.cols = 2
  vr : V.rows = n
  vc : V.cols = 2
  disp : ∀ i j, i < n → j < n → disp 1 0 n n M i j = ∑ l ∈ Finset.range 2, U.e (i, l) * V.e (j, l)
  inv : ∃ Q : Nat → Nat → ZMod p, toX n n (fun i j => (M i j).coeff 0) * toX n n Q = 1

/-- What the constructor guarantees, with both generators. -/
theorem like_made {G H : PMat (ZMod p)[X]} (g : Junk (ZMod p)) (x y : Int) (hm : 0 < G.rows) (hn : 0 < H.rows) (hv : G.cols ≤ H.cols) :
    ∃ iM, Like.make g x y G H = .ok iM ∧ iM.m = G.rows ∧ iM.n = H.rows ∧ iM.G = G ∧ iM.H = H := by
  obtain ⟨o, e, h⟩ := Like.make_inv g x y G H hm hn hv
  refine ⟨o, e, h.m, h.n, h.G, ?_⟩
  unfold Like.make at e
  dsimp only at e
  rw [if_neg (by omega)] at e
  obtain ⟨s, -, e⟩ := andThen_eq e
  cases e
  rfl

theorem represents {n : Nat} {G H : PMat (ZMod p)[X]} {N : Nat → Nat → (ZMod p)[X]} (hn : 0 < n) (hg : G.rows = n) (hh : H.rows = n) (hc : G.cols ≤ H.cols)
    (hN : HasGens G H N) {g : Junk (ZMod p)} {x y : Int} {iM : Like (ZMod p)} (e : Like.make g x y G H = .ok iM) : Represents iM n N := by
  obtain ⟨iM', e', -, -, h3, h4⟩ := like_made g x y (by omega : 0 < G.rows) (by omega : 0 < H.rows) hc
  rw [e] at e'
  cases e'
  have a : 0 < G.rows := by omega
  have b : 0 < H.rows := by omega
  refine ⟨fun g r v hv => ?_, fun g r v hv => ?_, fun g r v s hv => ?_, fun g r v s hv => ?_, by rw [h3, h4]; exact ⟨hg, hh, hN⟩⟩
  · have := (C92_like_right hN a b hc e g r v).1 (by omega)
    rwa [hg, hh] at this
  · have := (C92_like_left hN a b hc e g r v).1 (by omega)
    rwa [hg, hh] at this
  · have := (C92_like_right_trunc hN a b hc e g r v s).1 (by omega)
    rwa [hg, hh] at this
  · have := (C92_like_left_trunc hN a b hc e g r v s).1 (by omega)
    rwa [hg, hh] at this

/-- The object built from the solutions modulo `X^k` represents an inverse modulo `X^k`. -/
theorem Sol.inv {n k : Nat} {M : Nat → Nat → (ZMod p)[X]} {U V G H : PMat (ZMod p)[X]} (hs : Setup n M U V) (h : Sol n M U V k G H) {g : Junk (ZMod p)}
    {x y : Int} {iM : Like (ZMod p)} (e : Like.make g x y G (mT H) = .ok iM) :
    iM.m = n ∧ iM.n = n ∧ Small iM k ∧ ∃ N, IsInvMod k n M N ∧ Represents iM n N := by
  obtain ⟨iM', e', h1, h2, h3, h4⟩ := like_made (G := G) (H := mT H) g x y (by rw [h.gr]; exact hs.pos) (by show 0 < H.cols; rw [h.hc]; exact hs.pos)
    (by show G.cols ≤ H.rows; rw [h.gc, h.hr])
  rw [e] at e'
  cases e'
  refine ⟨by rw [h1, h.gr], by rw [h2]; exact h.hc, ⟨by rw [h3, h.gc], by rw [h4]; exact h.hr, fun i j hi hj => ?_⟩, ?_⟩
  · rw [h3, h.gr] at hi
    rw [h3, h4]
    exact ⟨h.gd i j hi hj, h.hd j i hj hi⟩
  · obtain ⟨N, hN⟩ := (C92_unique G (mT H)).1
    obtain ⟨Q, hQ⟩ := hs.inv
    refine ⟨N, gens_inv (U := fun i j => U.e (i, j)) (V := fun i j => V.e (i, j)) (G := fun i j => G.e (i, j)) (H := fun i j => H.e (i, j)) hQ hs.disp
      (fun i j hi hj => ?_) h.hG h.hH, represents hs.pos h.gr h.hc (by show G.cols ≤ H.rows; rw [h.gc, h.hr]) hN e⟩
    have := hN i j (by rw [h.gr]; exact hi) (by show j < H.cols; rw [h.hc]; exact hj)
    rw [h.gr, h.gc, show (mT H).rows = n from h.hc] at this
    exact this

theorem degree_shift {f g : (ZMod p)[X]} {k : Nat} (hf : f.degree < k) (hg : g.degree < k) : (f - g * X ^ k).degree < ((2 * k : Nat) : WithBot Nat) := by
  refine lt_of_le_of_lt (degree_sub_le _ _) (max_lt (lt_of_lt_of_le hf (by exact_mod_cast (by omega : k ≤ 2 * k))) ?_)
  by_cases h0 : g = 0
  · rw [h0, zero_mul, degree_zero]
    exact WithBot.bot_lt_coe _
  · rw [degree_mul, degree_X_pow, degree_eq_natDegree h0]
    rw [degree_eq_natDegree h0] at hg
    have : g.natDegree < k := by exact_mod_cast hg
    exact_mod_cast (by omega : g.natDegree + k < 2 * k)

theorem mod_degree (f : (ZMod p)[X]) (k : Nat) : (f %ₘ X ^ k).degree < k := by
  have := degree_modByMonic_lt f (monic_X_pow (R := ZMod p) k)
  rwa [degree_X_pow] at this

theorem dvd_trunc {n : Nat} {M G : Nat → (ZMod p)[X]} {U : (ZMod p)[X]} {d k : Nat} (hd : d ≤ k) (h : X ^ k ∣ (∑ l ∈ Finset.range n, M l * G l) + U) :
    X ^ d ∣ (∑ l ∈ Finset.range n, M l * ptrunc (G l) d) + U := by
  have e : (∑ l ∈ Finset.range n, M l * ptrunc (G l) d) + U =
      ((∑ l ∈ Finset.range n, M l * G l) + U) - ∑ l ∈ Finset.range n, M l * (G l - ptrunc (G l) d) := by
    simp only [mul_sub, Finset.sum_sub_distrib]
    ring
  rw [e]
  refine dvd_sub (dvd_trans (pow_dvd_pow X hd) h) (Finset.dvd_sum fun l _ => ?_)
  rw [ptrunc_mod]
  exact dvd_mul_of_dvd_right (dvd_sub_mod _ _) _

theorem Sol.trunc {n k d : Nat} {M : Nat → Nat → (ZMod p)[X]} {U V G H : PMat (ZMod p)[X]} (h : Sol n M U V k G H) (hd : d ≤ k) :
    Sol n M U V d (mTrunc G d) (mTrunc H d) where
  gr := h.gr
  gc := h.gc
  hr := h.hr
  hc := h.hc
  gd i j _ _ := by
    show (ptrunc (G.e (i, j)) d).degree < d
    rw [ptrunc_mod]
    exact mod_degree _ _
  hd i j _ _ := by
    show (ptrunc (H.e (i, j)) d).degree < d
    rw [ptrunc_mod]
    exact mod_degree _ _
  hG i j hi hj := dvd_trunc (M := fun l => M i l) (G := fun l => G.e (l, j)) hd (h.hG i j hi hj)
  hH i j hi hj := by
    have := h.hH i j hi hj
    rw [sub_eq_add_neg] at this ⊢
    simp only [mul_comm _ (M _ _)] at this ⊢
    exact dvd_trunc (M := fun l => M l j) (G := fun l => H.e (i, l)) hd this

theorem mAdd_ok {a b : PMat (ZMod p)[X]} (hr : a.rows = b.rows) (hc : a.cols = b.cols) :
    mAdd a b = .ok ⟨a.rows, a.cols, fun ij => a.e ij + b.e ij⟩ := if_neg (by omega)

theorem mSub_ok {a b : PMat (ZMod p)[X]} (hr : a.rows = b.rows) (hc : a.cols = b.cols) :
    mSub a b = .ok ⟨a.rows, a.cols, fun ij => a.e ij - b.e ij⟩ := if_neg (by omega)

/-- One step, if the two products by the Sylvester matrix return. -/
theorem step_ok {A B : PVec (ZMod p)} {o : Sylv (ZMod p)} (ho : Made A B o) {c : Ctx p} (hmp : MidOK c.mp) {U V : PMat (ZMod p)[X]}
    (hs : Setup o.n (sylvEntry A B) U V) {k : Nat} {G H : PMat (ZMod p)[X]} (h : Sol o.n (sylvEntry A B) U V k G H) {iM : Like (ZMod p)}
    (hl : c.like G H = .ok iM) {degs : List Nat} {idx d : Nat} (hd : lget degs idx = .ok d) (hdk : d ≤ 2 * k) {y z : PMat (ZMod p)[X]}
    (hy : c.right o newMat G (2 * k) = .ok y) (hz : c.left o newMat H (2 * k) = .ok z) :
    ∃ s, newtonStep c o U V degs k idx G H iM = .ok s ∧ s.1 = d ∧ Sol o.n (sylvEntry A B) U V d s.2.1 s.2.2.1 ∧ c.like s.2.1 s.2.2.1 = .ok s.2.2.2 := by
  obtain ⟨-, y1, y2, y3⟩ := right_inv ho hy
  obtain ⟨-, z1, z2, z3⟩ := left_inv ho hmp hz
  obtain ⟨im, inn, -, N, hN, hR⟩ := Sol.inv hs h hl
  have gc := h.gc
  have hr := h.hr
  have gr := h.gr
  have hc := h.hc
  unfold newtonStep
  rw [hy, Bivar.andThen_ok, mAdd_ok (by show y.rows = U.rows; rw [y1, hs.ur]) (by show y.cols = U.cols; rw [y2, gc, hs.uc]), Bivar.andThen_ok]
  dsimp only
  rw [hz, Bivar.andThen_ok, mSub_ok (by show z.rows = V.cols; rw [z1, hr, hs.vc]) (by show z.cols = V.rows; rw [z2, hs.vr]), Bivar.andThen_ok]
  obtain ⟨y', e1, r1, r2, r3⟩ := (C92_mat_right_trunc (m := iM.m) (n := iM.n) (s := k) c.g (f := fun r v => iM.mulRightTrunc c.g r v k) (M := N)
    (fun r v hv => by rw [im, inn]; exact hR.rightTrunc c.g r v k (by omega)) newMat (mShr ⟨y.rows, y.cols, fun ij => y.e ij + (mTrunc U (2 * k)).e ij⟩ k)).1
    (by show y.rows = _; omega)
  obtain ⟨z', e2, s1, s2, s3⟩ := (C92_mat_left_trunc (m := iM.m) (n := iM.n) (s := k) c.g (f := fun r v => iM.mulLeftTrunc c.g r v k) (M := N)
    (fun r v hv => by rw [im, inn]; exact hR.leftTrunc c.g r v k (by omega)) newMat
    (mShr ⟨z.rows, z.cols, fun ij => z.e ij - (mT (mTrunc V (2 * k))).e ij⟩ k)).1
    (by show z.cols = _; omega)
  rw [show c.iright iM _ k = .ok y' from e1, Bivar.andThen_ok, show c.ileft iM _ k = .ok z' from e2, Bivar.andThen_ok,
    mSub_ok (a := G) (b := mShl y' k) (by show G.rows = y'.rows; omega) (by show G.cols = y'.cols; rw [r2]; exact y2.symm), Bivar.andThen_ok,
    mSub_ok (a := H) (b := mShl z' k) (by show H.rows = z'.rows; rw [s1]; exact z1.symm) (by show H.cols = z'.cols; omega), Bivar.andThen_ok,
    hd, Bivar.andThen_ok]
  have yc : (mShr ⟨y.rows, y.cols, fun ij => y.e ij + (mTrunc U (2 * k)).e ij⟩ k).cols = 2 := by show y.cols = 2; omega
  have zr : (mShr ⟨z.rows, z.cols, fun ij => z.e ij - (mT (mTrunc V (2 * k))).e ij⟩ k).rows = 2 := by show z.rows = 2; omega
  rw [yc, im, inn] at r3
  rw [zr, im, inn] at s3
  -- the solutions at twice the precision
  have key : Sol o.n (sylvEntry A B) U V (2 * k) ⟨G.rows, G.cols, fun ij => G.e ij - (mShl y' k).e ij⟩ ⟨H.rows, H.cols, fun ij => H.e ij - (mShl z' k).e ij⟩ := by
    refine ⟨gr, gc, hr, hc, fun i j hi hj => ?_, fun i j hi hj => ?_, fun i j hi hj => ?_, fun i j hi hj => ?_⟩
    · refine degree_shift (h.gd i j hi hj) ?_
      rw [r3 i j hi hj]
      exact mod_degree _ _
    · refine degree_shift (h.hd i j hi hj) ?_
      rw [s3 i j hi hj]
      exact mod_degree _ _
    · refine newton_right (N := N) (G := fun l => G.e (l, j)) (U := fun l => U.e (l, j)) (z := fun l => y'.e (l, j))
        (y := fun l => (y.e (l, j) + ptrunc (U.e (l, j)) (2 * k)) /ₘ X ^ k) hN.right (fun i hi => h.hG i j hi hj) (fun i hi => ?_) (fun i hi => r3 i j hi hj) hi
      rw [y3 i j hi (by omega), ptrunc_mod]
    · refine newton_left (N := N) (H := fun l => H.e (i, l)) (V := fun l => V.e (l, i)) (z := fun l => z'.e (i, l))
        (y := fun l => (z.e (i, l) - ptrunc (V.e (l, i)) (2 * k)) /ₘ X ^ k) hN.left (fun j hj => h.hH i j hi hj) (fun j hj => ?_) (fun j hj => s3 i j hi hj) hj
      rw [z3 i j (by omega) hj, ptrunc_mod]
  by_cases hq : 2 * k ≠ d
  · rw [if_pos hq, if_pos hq, if_pos hq]
    have key' := key.trunc hdk
    obtain ⟨iM', e', -⟩ := like_made c.g c.x c.y (G := mTrunc ⟨G.rows, G.cols, fun ij => G.e ij - (mShl y' k).e ij⟩ d)
      (H := mT (mTrunc ⟨H.rows, H.cols, fun ij => H.e ij - (mShl z' k).e ij⟩ d)) (by show 0 < G.rows; rw [gr]; exact hs.pos)
      (by show 0 < H.cols; rw [hc]; exact hs.pos) (by show G.cols ≤ H.rows; omega)
    rw [show c.like _ _ = .ok iM' from e', Bivar.andThen_ok]
    exact ⟨_, rfl, rfl, key', e'⟩
  · rw [if_neg hq, if_neg hq, if_neg hq]
    obtain ⟨iM', e', -⟩ := like_made c.g c.x c.y (G := ⟨G.rows, G.cols, fun ij => G.e ij - (mShl y' k).e ij⟩)
      (H := mT ⟨H.rows, H.cols, fun ij => H.e ij - (mShl z' k).e ij⟩) (by show 0 < G.rows; rw [gr]; exact hs.pos)
      (by show 0 < H.cols; rw [hc]; exact hs.pos) (by show G.cols ≤ H.rows; omega)
    rw [show c.like _ _ = .ok iM' from e', Bivar.andThen_ok]
    exact ⟨_, rfl, not_not.1 hq, by rw [← not_not.1 hq]; exact key, e'⟩

theorem step_inv {c : Ctx p} {o : Sylv (ZMod p)} {U V : PMat (ZMod p)[X]} {degs : List Nat} {k idx : Nat} {G H : PMat (ZMod p)[X]} {iM : Like (ZMod p)}
    {s : Nat × PMat (ZMod p)[X] × PMat (ZMod p)[X] × Like (ZMod p)} (h : newtonStep c o U V degs k idx G H iM = .ok s) :
    ∃ y z d, c.right o newMat G (2 * k) = .ok y ∧ c.left o newMat H (2 * k) = .ok z ∧ lget degs idx = .ok d := by
  unfold newtonStep at h
  obtain ⟨y, hy, h⟩ := andThen_eq h
  obtain ⟨y', -, h⟩ := andThen_eq h
  obtain ⟨z, hz, h⟩ := andThen_eq h
  obtain ⟨z', -, h⟩ := andThen_eq h
  obtain ⟨y'', -, h⟩ := andThen_eq h
  obtain ⟨z'', -, h⟩ := andThen_eq h
  obtain ⟨G', -, h⟩ := andThen_eq h
  obtain ⟨H', -, h⟩ := andThen_eq h
  obtain ⟨d, hd, h⟩ := andThen_eq h
  exact ⟨y, z, d, hy, hz, hd⟩

theorem lget_iff {l : List Nat} {i x : Nat} : lget l i = .ok x ↔ l[i]? = some x := by
  unfold lget
  cases l[i]? <;> simp

theorem next_degree {m i x y : Nat} (h1 : (degrees m)[i]? = some x) (h2 : (degrees m)[i + 1]? = some y) : Next x y := by
  have hc := (degrees_spec m).2.1
  rw [List.isChain_iff_getElem] at hc
  obtain ⟨a, rfl⟩ := List.getElem?_eq_some_iff.1 h1
  obtain ⟨b, rfl⟩ := List.getElem?_eq_some_iff.1 h2
  exact hc i b

theorem degree_le {m : Nat} : ∀ {t i x : Nat}, (degrees m).length = i + 1 + t → (degrees m)[i]? = some x → x ≤ m
  | 0, i, x, ht, h => by
    have := (degrees_spec m).1
    rw [List.getLast?_eq_getElem?, ht, Nat.add_zero, Nat.add_sub_cancel, h] at this
    cases this
    exact le_refl _
  | t + 1, i, x, ht, h => by
    obtain ⟨y, hy⟩ : ∃ y, (degrees m)[i + 1]? = some y := ⟨_, List.getElem?_eq_getElem (by omega)⟩
    have := (next_degree h hy).1
    have := degree_le (t := t) (i := i + 1) (by omega) hy
    omega

theorem has_next {m i x : Nat} (h : (degrees m)[i]? = some x) (hx : x < m) : ∃ y, (degrees m)[i + 1]? = some y ∧ y ≤ m := by
  by_cases hl : i + 1 < (degrees m).length
  · refine ⟨_, List.getElem?_eq_getElem hl, ?_⟩
    exact degree_le (t := (degrees m).length - (i + 2)) (i := i + 1) (by omega) (List.getElem?_eq_getElem hl)
  · exfalso
    have := (degrees_spec m).1
    obtain ⟨a, -⟩ := List.getElem?_eq_some_iff.1 h
    rw [List.getLast?_eq_getElem?, show (degrees m).length - 1 = i by omega, h] at this
    cases this
    omega

/-- The loop, if it returns. -/
theorem loop_inv {A B : PVec (ZMod p)} {o : Sylv (ZMod p)} (ho : Made A B o) {c : Ctx p} (hmp : MidOK c.mp) {U V : PMat (ZMod p)[X]}
    (hs : Setup o.n (sylvEntry A B) U V) {m : Nat} : ∀ {fuel k idx : Nat} {G H : PMat (ZMod p)[X]} {iM r : Like (ZMod p)},
    Sol o.n (sylvEntry A B) U V k G H → c.like G H = .ok iM → (degrees m)[idx]? = some k → k ≤ m →
    newtonLoop c o U V (degrees m) m fuel k (idx + 1) G H iM = .ok r → ∃ G H, Sol o.n (sylvEntry A B) U V m G H ∧ c.like G H = .ok r
  | 0, k, idx, G, H, iM, r, h, hl, hi, hk, e => by
    unfold newtonLoop at e
    by_cases hm : k < m
    · rw [if_pos hm] at e
      cases e
    · rw [if_neg hm] at e
      cases e
      have : k = m := by omega
      subst this
      exact ⟨G, H, h, hl⟩
  | fuel + 1, k, idx, G, H, iM, r, h, hl, hi, hk, e => by
    unfold newtonLoop at e
    by_cases hm : k < m
    · rw [if_pos hm] at e
      obtain ⟨s, e1, e2⟩ := andThen_eq e
      obtain ⟨y, z, d, hy, hz, hd⟩ := step_inv e1
      obtain ⟨d', hd', hdm⟩ := has_next hi hm
      have hdd : d = d' := by
        rw [lget_iff, hd'] at hd
        cases hd
        rfl
      subst hdd
      have hn := next_degree hi hd'
      obtain ⟨s', f1, f2, f3, f4⟩ := step_ok ho hmp hs h hl hd (by unfold Next at hn; omega) hy hz
      rw [e1] at f1
      cases f1
      rw [f2] at e2
      exact loop_inv ho hmp hs f3 f4 hd' hdm e2
    · rw [if_neg hm] at e
      cases e
      have : k = m := by omega
      subst this
      exact ⟨G, H, h, hl⟩

/-- The loop returns, if all the products return. -/
theorem loop_ok {A B : PVec (ZMod p)} {o : Sylv (ZMod p)} (ho : Made A B o) {c : Ctx p} (hmp : MidOK c.mp) {U V : PMat (ZMod p)[X]}
    (hs : Setup o.n (sylvEntry A B) U V) {m : Nat}
    (hprod : ∀ k G H, 1 ≤ k → k < m → k ∈ degrees m → Sol o.n (sylvEntry A B) U V k G H →
      (∃ y, c.right o newMat G (2 * k) = .ok y) ∧ ∃ z, c.left o newMat H (2 * k) = .ok z) :
    ∀ {fuel k idx : Nat} {G H : PMat (ZMod p)[X]} {iM : Like (ZMod p)},
    Sol o.n (sylvEntry A B) U V k G H → c.like G H = .ok iM → (degrees m)[idx]? = some k → (k < m → 1 ≤ k) → m ≤ fuel + k →
    ∃ r, newtonLoop c o U V (degrees m) m fuel k (idx + 1) G H iM = .ok r
  | 0, k, idx, G, H, iM, h, hl, hi, hk, hf => by
    unfold newtonLoop
    rw [if_neg (by omega)]
    exact ⟨_, rfl⟩
  | fuel + 1, k, idx, G, H, iM, h, hl, hi, hk, hf => by
    unfold newtonLoop
    by_cases hm : k < m
    · rw [if_pos hm]
      obtain ⟨d, hd, hdm⟩ := has_next hi hm
      have hn := next_degree hi hd
      unfold Next at hn
      obtain ⟨⟨y, hy⟩, z, hz⟩ := hprod k G H (hk hm) hm (List.mem_of_getElem? hi) h
      obtain ⟨s, f1, f2, f3, f4⟩ := step_ok ho hmp hs h hl (lget_iff.2 hd) (by omega) hy hz
      rw [f1, Bivar.andThen_ok, f2]
      exact loop_ok ho hmp hs hprod f3 f4 hd (by omega) (by omega)
    · rw [if_neg hm]
      exact ⟨_, rfl⟩

end PML.Ntl.NewtonX
