import Verif.Ntl.StructXTri

/-! # Circulant matrices over `K[X]` -/

namespace PML.Ntl.StructX

open Polynomial PML.Ntl.Utils PML.Ntl.Inv PML.Ntl.Solve PML.Ntl.Struct PML.Ntl.Bivar PML.Ntl.FftPoints

variable {F : Type} [Field F]

/-! ### Loops -/

theorem copyRows_ok {m n : Nat} (hm : 0 < m) (x : Nat → F[X]) : ∀ (fuel done left : Nat) (r : PVec F), left < fuel → done + left = n → m ≤ done → m ∣ done →
    r.len = n → (∀ k, k < done → r.at' k = x (k % m)) → ∃ w, copyRows m fuel done left r = .ok w ∧ w.len = n ∧ ∀ k, k < n → w.at' k = x (k % m)
  | 0, done, left, r, h, _, _, _, _, _ => absurd h (Nat.not_lt_zero _)
  | fuel + 1, done, left, r, h, hn, hmd, hdvd, hr, hx => by
    unfold copyRows
    dsimp only
    obtain ⟨w, w1, w2, w3⟩ := loopPut_ok (lo := done) (n := min left m) (f := fun i (r : PVec F) => r.get ((done + i : Nat) - (m : Int))) (r := r)
      (fun k => x (k % m)) (by omega) (fun i hi r' e1 e2 => by
        have hk : done + i - m < done := by omega
        rw [show ((done + i : Nat) : Int) - (m : Int) = ((done + i - m : Nat) : Int) by omega, get_ok' (by omega), e2, if_neg (by omega), hx _ hk,
          ← Nat.mod_eq_sub_mod (by omega)])
    rw [w1, Bivar.andThen_ok]
    have hw : ∀ k, k < done + min left m → w.at' k = x (k % m) := by
      intro k hk
      rw [w3]
      by_cases hc : done ≤ k
      · rw [if_pos ⟨hc, hk⟩]
      · rw [if_neg (by omega), hx k (by omega)]
    split
    · rename_i h1
      have hmin : min left m = m := by omega
      exact copyRows_ok hm x fuel (done + min left m) (left - min left m) w (by omega) (by omega) (by omega)
        (by rw [hmin]; exact Dvd.dvd.add hdvd (dvd_refl m)) (by omega) hw
    · exact ⟨w, rfl, by omega, fun k hk => hw k (by omega)⟩

theorem foldRows_ok {n m : Nat} (hm : 0 < m) {res c : PVec F} (hc : c.len = 2 * m) :
    ∃ w, foldRows n m res c = .ok w ∧ w.len = n ∧ ∀ i, i < n → w.at' i = c.at' (i % m) + c.at' (i % m + m) := by
  unfold foldRows
  obtain ⟨w, w1, w2, w3⟩ := loopPut_ok (lo := 0) (n := min n m)
    (f := fun i _ => andThen (c.get (i : Int)) fun x => andThen (c.get ((i + m : Nat) : Int)) fun y => .ok (x + y)) (r := { res with len := n })
    (fun i => c.at' i + c.at' (i + m)) (by dsimp only; omega) (fun i hi r' _ _ => by
      rw [get_ok' (by omega), Bivar.andThen_ok, get_ok' (by omega), Bivar.andThen_ok, Nat.zero_add])
  rw [w1, Bivar.andThen_ok]
  dsimp only at w2
  have hw : ∀ k, k < min n m → w.at' k = c.at' (k % m) + c.at' (k % m + m) := by
    intro k hk
    rw [w3, if_pos (by omega), Nat.mod_eq_of_lt (by omega)]
  split
  · exact copyRows_ok hm (fun k => c.at' k + c.at' (k + m)) (n + 1) m (n - m) w (by omega) (by omega) (le_refl _) (dvd_refl _) (by omega)
      (fun k hk => hw k (by omega))
  · exact ⟨w, rfl, w2, fun i hi => hw i (by omega)⟩

theorem foldLast_ok {m lo : Nat} (hlo : lo ≤ m) {res c : PVec F} (hr : res.len = m) (hc : c.len = m + lo) {Q : Nat → F[X]}
    (hQ : ∀ k, k < m + lo → c.at' k = Q k) (hz : ∀ k, m + lo ≤ k → Q k = 0) :
    ∃ w, foldLast m lo res c = .ok w ∧ w.len = m ∧ ∀ j, j < m → w.at' j = Q j + Q (j + m) := by
  unfold foldLast
  obtain ⟨u, u1, u2, u3⟩ := loopPut_ok (lo := 0) (n := lo)
    (f := fun i _ => andThen (c.get (i : Int)) fun x => andThen (c.get ((i + m : Nat) : Int)) fun y => .ok (x + y)) (r := res)
    (fun i => c.at' i + c.at' (i + m)) (by omega) (fun i hi r' _ _ => by
      rw [get_ok' (by omega), Bivar.andThen_ok, get_ok' (by omega), Bivar.andThen_ok, Nat.zero_add])
  rw [u1, Bivar.andThen_ok]
  obtain ⟨w, w1, w2, w3⟩ := loopPut_ok (lo := lo) (n := m - lo) (f := fun i _ => c.get ((lo + i : Nat) : Int)) (r := u)
    (fun i => c.at' i) (by omega) (fun i hi r' _ _ => get_ok' (by omega))
  refine ⟨w, w1, by omega, fun j hj => ?_⟩
  rw [w3]
  by_cases h : lo ≤ j
  · rw [if_pos (by omega), hQ _ (by omega), hz (j + m) (by omega), add_zero]
  · rw [if_neg (by omega), u3, if_pos (by omega), hQ _ (by omega), hQ _ (by omega)]

theorem foldMore_ok {m : Nat} {res c : PVec F} (hr : res.len = m) (hc : c.len = m + m) {Q : Nat → F[X]} (hQ : ∀ k, k < m + m → c.at' k = Q k) :
    ∃ w, foldMore m res c = .ok w ∧ w.len = m ∧ ∀ j, j < m → w.at' j = res.at' j + (Q j + Q (j + m)) := by
  unfold foldMore
  obtain ⟨w, w1, w2, w3⟩ := loopPut_ok (lo := 0) (n := m)
    (f := fun i (r : PVec F) => andThen (r.get (i : Int)) fun z => andThen (c.get (i : Int)) fun x => andThen (c.get ((i + m : Nat) : Int)) fun y =>
      .ok (z + (x + y))) (r := res)
    (fun i => res.at' i + (c.at' i + c.at' (i + m))) (by omega) (fun i hi r' e1 e2 => by
      rw [get_ok' (by omega), Bivar.andThen_ok, get_ok' (by omega), Bivar.andThen_ok, get_ok' (by omega), Bivar.andThen_ok, e2, if_neg (by omega), Nat.zero_add])
  refine ⟨w, w1, by omega, fun j hj => ?_⟩
  rw [w3, if_pos (by omega), hQ _ (by omega), hQ _ (by omega)]

/-! ### Cyclic convolution -/

/-- The entry `j` of the cyclic convolution of `u`, of length `m`, and of `w`. -/
noncomputable def cyc (m : Nat) (u : Nat → F[X]) (lo : Nat) (w : Nat → F[X]) (j : Nat) : F[X] :=
  ∑ i ∈ Finset.range lo, u ((j + (m - i)) % m) * w i

theorem cyc_fold {m : Nat} {u w : PVec F} (hu : u.len = m) (hw : w.len ≤ m) {j : Nat} (hj : j < m) :
    (u.poly * w.poly).coeff j + (u.poly * w.poly).coeff (j + m) = cyc m u.at' w.len w.at' j := by
  rw [mul_coeff, mul_coeff, ← Finset.sum_add_distrib]
  refine Finset.sum_congr rfl fun i hi => ?_
  rw [Finset.mem_range] at hi
  rw [← add_mul, hu]
  congr 1
  by_cases h : i ≤ j
  · rw [if_pos (by omega), if_neg (by omega), add_zero, show j + (m - i) = j - i + m by omega, Nat.add_mod_right, Nat.mod_eq_of_lt (by omega)]
  · rw [if_neg (by omega), if_pos (by omega), zero_add, show j + (m - i) = j + m - i by omega, Nat.mod_eq_of_lt (by omega)]

theorem sum_chunks (f : Nat → F[X]) (m lo : Nat) : ∀ nb, ∑ i ∈ Finset.range (nb * m + lo), f i =
    ∑ i ∈ Finset.range lo, f (i + nb * m) + ∑ r ∈ Finset.range nb, ∑ i ∈ Finset.range m, f (i + r * m) := by
  intro nb
  have h : ∀ nb, ∑ i ∈ Finset.range (nb * m), f i = ∑ r ∈ Finset.range nb, ∑ i ∈ Finset.range m, f (i + r * m) := by
    intro nb
    induction nb with
    | zero => simp
    | succ nb ih =>
      rw [Nat.add_mul, Nat.one_mul, Finset.sum_range_add, ih, Finset.sum_range_succ]
      congr 1
      exact Finset.sum_congr rfl fun i _ => by rw [Nat.add_comm]
  rw [Finset.sum_range_add, h, add_comm]
  congr 1
  exact Finset.sum_congr rfl fun i _ => by rw [Nat.add_comm]

/-- The end of the two functions for left multiplication: the folded products of the chunks are added. -/
theorem left_core {m lo nb : Nat} {res c : PVec F} {f : Nat → PVec F → Out (PVec F)} (T : F[X] → F[X]) (hT0 : T 0 = 0)
    (hT : ∀ a b, T (a + b) = T a + T b) (hlo : lo ≤ m) {rd input : PVec F} (hrd : rd.len = m) (hr : res.len = m)
    {l : PVec F} (hl : l.len = lo) (hl' : ∀ i, i < lo → l.at' i = input.at' (i + nb * m)) (hc : c.len = m + lo)
    (hc' : ∀ k, k < m + lo → c.at' k = T ((rd.poly * l.poly).coeff k))
    (hf : ∀ r, r < nb → ∀ res, ∃ l c : PVec F, f r res = foldMore m res c ∧ l.len = m ∧ (∀ i, i < m → l.at' i = input.at' (i + r * m)) ∧ c.len = m + m ∧
      ∀ k, k < m + m → c.at' k = T ((rd.poly * l.poly).coeff k)) :
    ∃ w, (andThen (foldLast m lo res c) fun res => loopOut nb f res) = .ok w ∧ w.len = m ∧
      ∀ j, j < m → w.at' j = T (∑ i ∈ Finset.range (nb * m + lo), rd.at' ((j + (m - i % m)) % m) * input.at' i) := by
  have part : ∀ (l : PVec F) (lo nb : Nat), lo ≤ m → l.len = lo → (∀ i, i < lo → l.at' i = input.at' (i + nb * m)) → ∀ j, j < m →
      T ((rd.poly * l.poly).coeff j) + T ((rd.poly * l.poly).coeff (j + m)) =
        T (∑ i ∈ Finset.range lo, rd.at' ((j + (m - (i + nb * m) % m)) % m) * input.at' (i + nb * m)) := by
    intro l lo nb hlo hl hl' j hj
    rw [← hT, cyc_fold hrd (by omega) hj]
    unfold cyc
    rw [hl]
    refine congrArg T (Finset.sum_congr rfl fun i hi => ?_)
    rw [Finset.mem_range] at hi
    rw [hl' i hi, Nat.add_mul_mod_self_right, Nat.mod_eq_of_lt (by omega : i < m)]
  obtain ⟨u, u1, u2, u3⟩ := foldLast_ok (res := res) hlo hr hc hc' (fun k hk => by
    rw [mul_coeff_high (a := m) (b := lo) (fun i _ _ => by omega) (fun i _ _ => by omega) (by omega), hT0])
  rw [u1, Bivar.andThen_ok]
  obtain ⟨w, w1, w2, w3⟩ := loopOut_inv (f := f) (s := u) (fun r (w : PVec F) => w.len = m ∧ ∀ j, j < m → w.at' j =
      T (∑ i ∈ Finset.range lo, rd.at' ((j + (m - (i + nb * m) % m)) % m) * input.at' (i + nb * m) +
        ∑ t ∈ Finset.range r, ∑ i ∈ Finset.range m, rd.at' ((j + (m - (i + t * m) % m)) % m) * input.at' (i + t * m))) nb
    ⟨u2, fun j hj => by rw [u3 j hj, Finset.sum_range_zero, add_zero, part l lo nb hlo hl hl' j hj]⟩
    (fun r w hr hw => by
      obtain ⟨l, c, e, h1, h2, h3, h4⟩ := hf r hr w
      obtain ⟨z, z1, z2, z3⟩ := foldMore_ok (res := w) (c := c) hw.1 h3 h4
      refine ⟨z, by rw [e, z1], z2, fun j hj => ?_⟩
      rw [z3 j hj, hw.2 j hj, part l m r (le_refl _) h1 h2 j hj, ← hT, Finset.sum_range_succ, add_assoc])
  exact ⟨w, w1, w2, fun j hj => by rw [w3 j hj, sum_chunks]⟩

/-! ### The object -/

theorem poly_congr {u v : PVec F} (h : u.len = v.len) (h' : ∀ i, i < u.len → u.at' i = v.at' i) : u.poly = v.poly := by
  ext1 k
  rw [poly_coeff, poly_coeff, ← h]
  split
  · rename_i hk; exact h' k hk
  · rfl

/-- `rd` is `v` in the reverse order. -/
def IsRev (v rd : PVec F) : Prop := rd.len = v.len ∧ ∀ i, i < v.len → rd.at' i = v.at' (v.len - 1 - i)

/-- The state of a circulant matrix with `n` rows, built from `v`. -/
structure CircInv (v : PVec F) (n : Nat) (o : Circ F) : Prop where
  pos : 0 < v.len
  n : o.n = n
  m : o.m = v.len
  data : o.data = v
  rlen : o.dataRev.len = v.len
  rat : ∀ k, k < v.len → o.dataRev.at' k = v.at' ((k + (v.len - 1)) % v.len)
  dX : o.dX = o.dataRev.degX
  dY : o.dY = (degs o.dataRev).2
  len0 : o.lhs = o.rhs
  len1 : o.fft.len = o.rhs.len
  len2 : o.fft2.len = o.rhs.len
  len3 : o.fft3.len = o.rhs.len
  nn : ∀ i, i < o.rhs.len → 0 ≤ o.rhs.e i
  rep1 : ∀ i, i < o.rhs.len → o.fft.e i = toR (np2 ((o.dY + o.m) * (o.dX + o.rhs.e i + 1)))
    (o.dataRev.poly.eval (X ^ ((o.dX + o.rhs.e i).toNat + 1)))
  rep2 : ∀ i, i < o.rhs.len → ∀ rd, IsRev v rd → o.fft2.e i = toR (np2 (((o.m : Int) + o.leftover - 1) * (o.dX + o.rhs.e i + 1)))
    (rd.poly.eval (X ^ ((o.dX + o.rhs.e i).toNat + 1)))
  rep3 : ∀ i, i < o.rhs.len → ∀ rd, IsRev v rd → o.fft3.e i = toR (np2 ((2 * (o.m : Int) - 1) * (o.dX + o.rhs.e i + 1)))
    (rd.poly.eval (X ^ ((o.dX + o.rhs.e i).toNat + 1)))

theorem CircInv.rev_deg {v : PVec F} {n : Nat} {o : Circ F} (h : CircInv v n o) {rd : PVec F} (hr : IsRev v rd) : rd.degX ≤ o.dX := by
  rw [h.dX]
  refine (degX_le _ _).2 ⟨degX_ge _, fun i hi => ?_⟩
  have hi' : i < v.len := by rw [← hr.1]; exact hi
  have hp := h.pos
  have e : rd.at' i = o.dataRev.at' ((v.len - i) % v.len) := by
    rw [hr.2 i hi', h.rat _ (Nat.mod_lt _ h.pos)]
    congr 1
    by_cases h0 : i = 0
    · subst h0
      rw [show v.len - 0 = v.len from rfl, Nat.mod_self, Nat.zero_add, Nat.mod_eq_of_lt (by omega)]
      rfl
    · rw [Nat.mod_eq_of_lt (by omega : v.len - i < v.len), show v.len - i + (v.len - 1) = (v.len - 1 - i) + v.len by omega, Nat.add_mod_right,
        Nat.mod_eq_of_lt (by omega)]
  rw [e]
  exact degX_get _ (by rw [h.rlen]; exact Nat.mod_lt _ h.pos)

theorem CircInv.at_rev {v : PVec F} {n : Nat} {o : Circ F} (h : CircInv v n o) {k : Nat} (hk : k < v.len) :
    v.at' k = o.dataRev.at' ((k + 1) % v.len) := by
  have hp := h.pos
  rw [h.rat _ (Nat.mod_lt _ h.pos)]
  congr 1
  by_cases h0 : k + 1 = v.len
  · rw [h0, Nat.mod_self, Nat.zero_add, Nat.mod_eq_of_lt (by omega)]
    omega
  · rw [Nat.mod_eq_of_lt (by omega : k + 1 < v.len), show k + 1 + (v.len - 1) = k + v.len by omega, Nat.add_mod_right, Nat.mod_eq_of_lt hk]

theorem Circ.make_inv (g : Junk F) (v : PVec F) (n : Nat) (hv : 0 < v.len) : ∃ o, Circ.make g v n = .ok o ∧ CircInv v n o := by
  unfold Circ.make
  dsimp only
  rw [show (v.len : Int) - 1 = ((v.len - 1 : Nat) : Int) by omega, get_ok' (by omega), Bivar.andThen_ok,
    show (0 : Int) = ((0 : Nat) : Int) by rfl, put_ok' _ (by exact hv), Bivar.andThen_ok]
  obtain ⟨w, w1, w2, w3⟩ := loopPut_ok (lo := 1) (n := v.len - 1) (f := fun i _ => v.get (i : Int))
    (r := ⟨v.len, write 0 (v.at' (v.len - 1)) g.old.at'⟩) (fun k => v.at' (k - 1)) (by dsimp only; omega)
    (fun i hi r' _ _ => by rw [get_ok' (by omega), show 1 + i - 1 = i by omega])
  rw [w1, Bivar.andThen_ok]
  refine ⟨_, rfl, hv, rfl, rfl, rfl, w2, fun k hk => ?_, (degs_spec w).1, rfl, rfl, rfl, rfl, rfl, ?_, ?_, ?_, ?_⟩
  · show w.at' k = _
    rw [w3]
    by_cases h0 : k = 0
    · subst h0
      rw [if_neg (by omega), Nat.zero_add, Nat.mod_eq_of_lt (by omega)]
      exact Bivar.write_self (0 : Nat) (v.at' (v.len - 1)) g.old.at'
    · rw [if_pos (by omega), show k + (v.len - 1) = k - 1 + v.len by omega, Nat.add_mod_right, Nat.mod_eq_of_lt (by omega)]
  all_goals exact fun i hi => absurd hi (Nat.not_lt_zero i)

theorem Circ.prepare_inv {v : PVec F} {n : Nat} {o : Circ F} (h : CircInv v n o) (g : Junk F) {d : Int} (hd : -1 ≤ d) :
    ∃ o', o.prepare g d = .ok o' ∧ CircInv v n o' := by
  unfold Circ.prepare
  split
  · exact ⟨o, rfl, h⟩
  rename_i h0
  split
  · exact ⟨o, rfl, h⟩
  have hx : 0 ≤ o.dX := by
    rw [h.dX]
    exact degX_of_dY (by rw [← h.dY]; tauto)
  have hD : o.dX + d = (((o.dX + d).toNat : Nat) : Int) := by omega
  have hk : toKron g.e0 o.dataRev (o.dX + d) = .ok (o.dataRev.poly.eval (X ^ ((o.dX + d).toNat + 1))) := by
    rw [hD, toKron_ok _ (by have := h.dX; omega), Int.toNat_natCast]
  obtain ⟨rd, r1, r2, r3⟩ := rev_ok (t := g.old) (v := v) (n := v.len) (le_refl _)
  have hrd : IsRev v rd := ⟨r2, r3⟩
  have hk2 : toKron g.e0 rd (o.dX + d) = .ok (rd.poly.eval (X ^ ((o.dX + d).toNat + 1))) := by
    rw [hD, toKron_ok _ (by have := h.rev_deg hrd; omega), Int.toNat_natCast]
  have hp := h.pos
  rw [hk, Bivar.andThen_ok, h.data, h.m, r1, Bivar.andThen_ok, hk2, Bivar.andThen_ok, if_neg (by omega), ← h.m]
  have cases : ∀ {α : Type} {l : Nat} {x : α} {e : Nat → α} {P : Nat → α → Prop} (i : Nat), i < l + 1 → P l x → (∀ i, i < l → P i (e i)) →
      P i (write l x e i) := by
    intro α l x e P i hi h1 h2
    by_cases he : i = l
    · rw [he, Bivar.write_self]; exact h1
    · rw [Bivar.write_ne _ _ he]; exact h2 i (by omega)
  have wself : ∀ {α : Type} (l : Nat) (x : α) (e : Nat → α), write l x e l = x := fun l x e => Bivar.write_self l x e
  have wne : ∀ {α : Type} {l i : Nat} (x : α) (e : Nat → α), i < l → write l x e i = e i := fun x e hi => Bivar.write_ne x e (by omega)
  refine ⟨_, rfl, h.pos, h.n, h.m, rfl, h.rlen, h.rat, h.dX, h.dY, ?_, ?_, ?_, ?_, ?_, ?_, ?_, ?_⟩
  · show app o.lhs d = app o.rhs d
    rw [h.len0]
  · show o.fft.len + 1 = o.rhs.len + 1
    rw [h.len1]
  · show o.fft2.len + 1 = o.rhs.len + 1
    rw [h.len2]
  · show o.fft3.len + 1 = o.rhs.len + 1
    rw [h.len3]
  · intro i hi
    exact cases (P := fun _ z => 0 ≤ z) i hi (by omega) h.nn
  · intro i hi
    show write o.fft.len _ o.fft.e i = toR (np2 ((o.dY + o.m) * (o.dX + write o.rhs.len d o.rhs.e i + 1)))
      (o.dataRev.poly.eval (X ^ ((o.dX + write o.rhs.len d o.rhs.e i).toNat + 1)))
    have hi : i < o.rhs.len + 1 := hi
    rw [h.len1]
    by_cases e : i = o.rhs.len
    · rw [e, wself, wself]
    · rw [wne _ _ (by omega), wne _ _ (by omega)]
      exact h.rep1 i (by omega)
  · intro i hi rd' hr'
    show write o.fft2.len _ o.fft2.e i = toR (np2 (((o.m : Int) + o.leftover - 1) * (o.dX + write o.rhs.len d o.rhs.e i + 1)))
      (rd'.poly.eval (X ^ ((o.dX + write o.rhs.len d o.rhs.e i).toNat + 1)))
    have hi : i < o.rhs.len + 1 := hi
    have hpoly : rd'.poly = rd.poly := poly_congr (by rw [hr'.1, r2]) fun i hi => by rw [hr'.2 i (by rw [← hr'.1]; exact hi), r3 i (by rw [← hr'.1]; exact hi)]
    rw [h.len2]
    by_cases e : i = o.rhs.len
    · rw [e, wself, wself, hpoly]
    · rw [wne _ _ (by omega), wne _ _ (by omega)]
      exact h.rep2 i (by omega) rd' hr'
  · intro i hi rd' hr'
    show write o.fft3.len _ o.fft3.e i = toR (np2 ((2 * (o.m : Int) - 1) * (o.dX + write o.rhs.len d o.rhs.e i + 1)))
      (rd'.poly.eval (X ^ ((o.dX + write o.rhs.len d o.rhs.e i).toNat + 1)))
    have hi : i < o.rhs.len + 1 := hi
    have hpoly : rd'.poly = rd.poly := poly_congr (by rw [hr'.1, r2]) fun i hi => by rw [hr'.2 i (by rw [← hr'.1]; exact hi), r3 i (by rw [← hr'.1]; exact hi)]
    rw [h.len3]
    by_cases e : i = o.rhs.len
    · rw [e, wself, wself, hpoly]
    · rw [wne _ _ (by omega), wne _ _ (by omega)]
      exact h.rep3 i (by omega) rd' hr'

end PML.Ntl.StructX
