import Verif.Ntl.BlockSeqLemmas

/-!
# C108: block Wiedemann sequences
-/

namespace PML.Ntl.BlockSeq

open Polynomial PML.Ntl.Utils PML.Ntl.Inv PML.Ntl.Solve PML.Ntl.MatEval PML.Ntl.MatMul
open PML.Ntl.Struct (loopOut NVec)

variable {F : Type} [Field F]

theorem ceilSqrt_sq (d : Nat) : d ≤ ceilSqrt d * ceilSqrt d := by
  unfold ceilSqrt
  by_cases h : d.sqrt * d.sqrt = d
  · rw [if_pos h]; exact h.ge
  · rw [if_neg h]; exact (Nat.lt_succ_sqrt d).le

theorem two_le_ceilSqrt {d : Nat} (h : 3 ≤ d) : 2 ≤ ceilSqrt d := by
  have := ceilSqrt_sq d
  by_contra hc
  have : ceilSqrt d * ceilSqrt d ≤ 1 * 1 := Nat.mul_le_mul (by omega) (by omega)
  omega

theorem trunc_mul_coeff {p p' q : F[X]} {N : Nat} (h : ∀ k, k < N → p.coeff k = p'.coeff k) (s : Nat) (hs : s < N) :
    (ptrunc (ptrunc p N * ptrunc q N) N).coeff s = (p' * q).coeff s := by
  rw [ptrunc_coeff, if_pos hs, coeff_mul, coeff_mul]
  refine Finset.sum_congr rfl fun x hx => ?_
  have hx := Finset.mem_antidiagonal.1 hx
  rw [ptrunc_coeff, ptrunc_coeff, if_pos (by omega), if_pos (by omega), h _ (by omega)]

/-- A product by `upper` gives the coefficients of the quotient. -/
theorem quo_window {g α A : F[X]} {n s : Nat} (hn : g.natDegree = n) (h2 : 2 ≤ n) (hα : α.natDegree < n) (hA : A.natDegree < n) (hs : s + 2 ≤ n) :
    (preverse α ((n : Int) - 1) * up g A).coeff (n - 2 - s) = (α * A / g).coeff s := by
  obtain ⟨e, rfl⟩ : ∃ e, n = e + 2 := ⟨n - 2, by omega⟩
  rw [quo_coeff hn (by omega) (by omega) s (by omega), ← preverse_reflect α (e + 1) (by omega)]
  congr 2
  · congr 1; push_cast; ring

theorem up_ne {g A : F[X]} {n : Nat} (hn : g.natDegree = n) (hA : A.natDegree < n) (hA1 : 1 ≤ A.natDegree) : ∃ k, k < n ∧ (up g A).coeff k ≠ 0 := by
  obtain ⟨e, rfl⟩ : ∃ e, n = e + 2 := ⟨n - 2, by omega⟩
  have hg : g ≠ 0 := fun h => by rw [h, natDegree_zero] at hn; omega
  by_contra hc
  have hz : ∀ k, k ≤ e → (up g A).coeff k = 0 := fun k hk => by
    by_contra h
    exact hc ⟨k, by omega, h⟩
  have hr0 : (reflect (e + 2) g).coeff 0 ≠ 0 := by
    rw [coeff_reflect, revAt_le (by omega), Nat.sub_zero, ← hn]
    exact leadingCoeff_ne_zero.2 hg
  have h1 : X ^ (e + 1) ∣ reflect (e + 1) A * invTrunc (reflect (e + 2) g) (e + 1) := by
    rw [X_pow_dvd_iff]
    intro k hk
    rw [← up_coeff hn (by omega) k (by omega), hz k (by omega)]
  have h2 := invTrunc_spec (reflect (e + 2) g) (e + 1) hr0
  have h3 : X ^ (e + 1) ∣ reflect (e + 1) A := by
    have : reflect (e + 1) A = reflect (e + 2) g * (reflect (e + 1) A * invTrunc (reflect (e + 2) g) (e + 1)) -
        reflect (e + 1) A * (reflect (e + 2) g * invTrunc (reflect (e + 2) g) (e + 1) - 1) := by ring
    rw [this]
    exact dvd_sub (dvd_mul_of_dvd_right h1 _) (dvd_mul_of_dvd_right h2 _)
  have h4 := X_pow_dvd_iff.1 h3 (e + 1 - A.natDegree) (by omega)
  rw [coeff_reflect, revAt_le (by omega), show e + 1 - (e + 1 - A.natDegree) = A.natDegree by omega] at h4
  have : A = 0 := leadingCoeff_eq_zero.1 h4
  rw [this, natDegree_zero] at hA1
  omega

/-- The powers of `a` with exponents `w v`, and the multiples of `t`. -/
theorem genRow_spec {inv : Nat → (Nat × Nat → F) → Option (Nat × Nat → F)} (hinv : InvOk inv) (cross : Nat) {t a g : F[X]} {m : Nat} (hm : 0 < m)
    (hn : 2 * m < g.natDegree) (ht : t.natDegree < g.natDegree) (ha : a.natDegree < g.natDegree)
    (hinj : ∀ r r' : Nat, r ≤ 4 * m - 2 → r' ≤ 4 * m - 2 → (r : F) = (r' : F) → r = r') (ht1 : 1 ≤ t.natDegree ∨ t = 1)
    (h2 : ∃ v, v < ceilSqrt (count g.natDegree m) ∧ cross < (a ^ (ceilSqrt (count g.natDegree m) * v) % g).natDegree) :
    ∃ res, genRow true cross inv t a g m = .ok res ∧ ∀ u v s, u < ceilSqrt (count g.natDegree m) → v < ceilSqrt (count g.natDegree m) → s < 2 * m →
      res u v s = if cross < (a ^ (ceilSqrt (count g.natDegree m) * v) % g).natDegree
        then (t * a ^ (u + ceilSqrt (count g.natDegree m) * v) % g).coeff s
        else ((t * a ^ u % g) * (a ^ (ceilSqrt (count g.natDegree m) * v) % g)).coeff s := by
  unfold genRow
  have hcount : 2 * ceilDiv g.natDegree m + 1 = count g.natDegree m := rfl
  dsimp only
  rw [hcount]
  have h3 : 3 ≤ count g.natDegree m := by
    unfold count
    have : 1 ≤ (g.natDegree + m - 1) / m := (Nat.one_le_div_iff hm).2 (by omega)
    omega
  have hw := two_le_ceilSqrt h3
  generalize ceilSqrt (count g.natDegree m) = w at *
  have hn0 : 0 < g.natDegree := by omega
  obtain ⟨p, e1, hp⟩ := genPows_false true cross ⟨0, fun _ => 0⟩ 1 hn0 ht ha (show 0 < w by omega)
  obtain ⟨p2, q, e2, hp2, hq⟩ := genPows_true true cross w hn0 (show (1 : F[X]).natDegree < g.natDegree by rw [natDegree_one]; omega) ha (show 0 < w by omega)
  have hA : ∀ v, v < w → p2 v = a ^ (w * v) % g := fun v hv => by rw [hp2 v hv, one_mul]
  have hα : ∀ u, u < w → p u = t * a ^ u % g := fun u hu => by rw [hp u hu, one_mul]
  have hU : ∀ v, v < w → q v = if cross < (a ^ (w * v) % g).natDegree then up g (a ^ (w * v) % g) else 0 := fun v hv => by
    rw [hq v hv, one_mul]
    unfold upv
    by_cases h : cross < (a ^ (w * v) % g).natDegree
    · rw [if_pos h, if_pos ⟨rfl, by rw [pdeg_pos (by omega)]; omega⟩]
    · rw [if_neg h, if_neg]
      rintro ⟨-, h'⟩
      refine h ?_
      rw [pdeg_ne _ (fun h0 => by rw [h0, pdeg_zero] at h'; omega)] at h'
      omega
  rw [e1]
  simp only [andThen]
  rw [e2]
  simp only [andThen]
  obtain ⟨v0, hv0, hc0⟩ := h2
  have ha1 : 1 ≤ a.natDegree := by
    by_contra hcon
    have h5 : (a ^ (w * v0)).natDegree = 0 := by rw [natDegree_pow, show a.natDegree = 0 by omega, mul_zero]
    rw [mod_small (by omega), h5] at hc0
    omega
  have hA1 : ∃ u k, u < w ∧ 0 < k ∧ k < g.natDegree ∧ (p u).coeff k ≠ 0 := by
    have key : ∀ f : F[X], 1 ≤ f.natDegree → f.coeff f.natDegree ≠ 0 := fun f hf => leadingCoeff_ne_zero.2 fun h0 => by
      rw [h0, natDegree_zero] at hf; omega
    rcases ht1 with h | h
    · exact ⟨0, t.natDegree, by omega, by omega, ht, by rw [hα 0 (by omega), pow_zero, mul_one, mod_small ht]; exact key t h⟩
    · exact ⟨1, a.natDegree, by omega, by omega, ha, by rw [hα 1 (by omega), h, one_mul, pow_one, mod_small ha]; exact key a ha1⟩
  have hU1 : ∃ v k, v < w ∧ k < g.natDegree ∧ (q v).coeff k ≠ 0 := by
    obtain ⟨k, hk, hne⟩ := up_ne rfl (natDegree_mod hn0 (a ^ (w * v0))) (by omega)
    exact ⟨v0, k, hv0, hk, by rw [hU v0 hv0, if_pos hc0]; exact hne⟩
  obtain ⟨quos, e3, hquos⟩ := getQuos_spec hinv hm hn rfl p q hA1 hU1 hinj
  rw [e3]
  refine ⟨_, rfl, fun u v s hu hv hs => ?_⟩
  have hdα : (t * a ^ u % g).natDegree < g.natDegree := natDegree_mod hn0 _
  have hdA : (a ^ (w * v) % g).natDegree < g.natDegree := natDegree_mod hn0 _
  rw [coeff_sub, trunc_mul_coeff (fun _ _ => rfl) s hs, hα u hu, hA v hv]
  by_cases h : cross < (a ^ (w * v) % g).natDegree
  · rw [if_pos h, trunc_mul_coeff (p' := (t * a ^ u % g) * (a ^ (w * v) % g) / g) (fun k hk => ?_) s hs]
    · have hmod : t * a ^ (u + w * v) % g = (t * a ^ u % g) * (a ^ (w * v) % g) % g := by
        rw [← Polynomial.mul_mod, mul_assoc, ← pow_add]
      rw [hmod]
      generalize (t * a ^ u % g) * (a ^ (w * v) % g) = f
      rw [EuclideanDomain.mod_eq_sub_mul_div, coeff_sub, mul_comm g]
    · rw [hquos u v k hu hv hk, hα u hu, hU v hv, if_pos h, quo_window rfl (by omega) hdα hdA (by omega)]
  · rw [if_neg h, trunc_mul_coeff (p' := 0) (fun k hk => ?_) s hs]
    · rw [zero_mul, coeff_zero, sub_zero]
    · rw [hquos u v k hu hv hk, hU v hv, if_neg h, mul_zero, coeff_zero, coeff_zero]

/-! ### Rows -/

theorem mul_mod_right (p q g : F[X]) (hn : 0 < g.natDegree) : p * (q % g) % g = p * q % g := by
  rw [Polynomial.mul_mod p (q % g), mod_small (natDegree_mod hn q), ← Polynomial.mul_mod]

/-- Division by `x` modulo `g`. -/
theorem div_x {g h : F[X]} (hh : h.natDegree < g.natDegree) (g0 : g.coeff 0 ≠ 0) (j : Nat) :
    h.coeff j = (X * h % g).coeff (j + 1) + g.coeff (j + 1) * (-(1 / g.coeff 0) * (X * h % g).coeff 0) := by
  have hg : g ≠ 0 := fun h' => g0 (by rw [h', coeff_zero])
  have hd : (X * h).natDegree ≤ g.natDegree := (natDegree_mul_le).trans (by rw [natDegree_X]; omega)
  have hdiv : g * (X * h / g) + X * h % g = X * h := EuclideanDomain.div_add_mod _ _
  have hq : (X * h / g).natDegree = 0 := by
    by_contra hc
    have hq0 : X * h / g ≠ 0 := fun h' => hc (by rw [h', natDegree_zero])
    have h1 : (g * (X * h / g)).natDegree = g.natDegree + (X * h / g).natDegree := natDegree_mul hg hq0
    have h3 := natDegree_mod_lt (X * h) (q := g) (by omega)
    have h4 : (g * (X * h / g)).natDegree ≤ max (X * h).natDegree (X * h % g).natDegree := by
      rw [show g * (X * h / g) = X * h - X * h % g from eq_sub_of_add_eq hdiv]
      exact natDegree_sub_le _ _
    omega
  obtain ⟨c, hc⟩ : ∃ c, X * h / g = C c := ⟨_, eq_C_of_natDegree_eq_zero hq⟩
  have hf : X * h % g = X * h - g * C c := by rw [EuclideanDomain.mod_eq_sub_mul_div, hc]
  rw [hf, coeff_sub, coeff_sub, coeff_X_mul, coeff_mul_C, coeff_mul_C, coeff_X_mul_zero]
  field_simp
  ring

theorem nextRows_spec {g : F[X]} {m : Nat} (hn : 0 < g.natDegree) (g0 : g.coeff 0 ≠ 0) (row0 : Nat → Nat → Nat → F) (P : F[X]) (u v : Nat)
    (h0 : ∀ s, s < 2 * m → row0 u v s = (X ^ (m - 1) * P % g).coeff s) (i : Nat) (hi : i < m) (j : Nat) (hj : j < 2 * m - i) :
    nextRows g row0 i u v j = (X ^ (m - 1 - i) * P % g).coeff j := by
  induction i generalizing j with
  | zero => exact h0 j (by omega)
  | succ i ih =>
    have hx : X ^ (m - 1 - i) * P % g = X * (X ^ (m - 1 - (i + 1)) * P % g) % g := by
      rw [mul_mod_right _ _ _ hn, ← mul_assoc, ← pow_succ', show m - 1 - (i + 1) + 1 = m - 1 - i by omega]
    change nextRows g row0 i u v (j + 1) + g.coeff (j + 1) * (-(1 / g.coeff 0) * nextRows g row0 i u v 0) = _
    rw [ih (by omega) (j + 1) (by omega), ih (by omega) 0 (by omega), hx, ← div_x (natDegree_mod hn _) g0 j]

/-! ### The format of the result -/

theorem forN_hit {σ : Type} (Q : σ → Prop) (n : Nat) (f : Nat → σ → σ) (s : σ) (hp : ∀ k x, k < n → Q x → Q (f k x)) (k0 : Nat) (hk0 : k0 < n)
    (h0 : ∀ x, Q (f k0 x)) : Q (forN n f s) := by
  induction n with
  | zero => omega
  | succ n ih =>
    show Q (f n (forN n f s))
    by_cases h : k0 = n
    · subst h; exact h0 _
    · exact hp n _ (by omega) (ih (fun k x hk => hp k x (by omega)) (by omega))

theorem forN_keep {σ : Type} (Q : σ → Prop) (n : Nat) (f : Nat → σ → σ) (s : σ) (hp : ∀ k x, k < n → Q x → Q (f k x)) (h0 : Q s) : Q (forN n f s) := by
  induction n with
  | zero => exact h0
  | succ n ih => exact hp n _ (by omega) (ih fun k x hk => hp k x (by omega))

theorem format_spec (coeffs : Nat → Nat → Nat → Nat → F) (d m : Nat) (k : Nat) (M : PMat F) (h : (format coeffs d m)[k]? = some M) :
    M.rows = m ∧ M.cols = m ∧ k < d ∧ ∀ i j, i < m → j < m →
      M.e (i, j) = coeffs (m - 1 - i) ((d - 1 - k) % ceilSqrt d) ((d - 1 - k) / ceilSqrt d) j := by
  unfold format at h
  dsimp only at h
  rw [List.getElem?_map] at h
  obtain ⟨k', hk', rfl⟩ := Option.map_eq_some_iff.1 h
  rw [List.getElem?_eq_some_iff] at hk'
  obtain ⟨hk, hkk⟩ := hk'
  rw [List.length_range] at hk
  rw [List.getElem_range] at hkk
  subst hkk
  refine ⟨rfl, rfl, hk, fun i j hi hj => ?_⟩
  have hsq := ceilSqrt_sq d
  dsimp only
  generalize ceilSqrt d = w at *
  have hw : 0 < w := Nat.pos_of_ne_zero fun h => by rw [h] at hsq; omega
  -- every write at this position writes the same value
  have keep : ∀ i' u v j' (x : Nat × Nat × Nat → F), i' < m → u < w →
      x (k, i, j) = coeffs (m - 1 - i) ((d - 1 - k) % w) ((d - 1 - k) / w) j →
      (if w * v + u < d then write (d - (w * v + u) - 1, m - i' - 1, j') (coeffs i' u v j') x else x) (k, i, j) =
        coeffs (m - 1 - i) ((d - 1 - k) % w) ((d - 1 - k) / w) j := by
    intro i' u v j' x hi' hu hx
    by_cases hpow : w * v + u < d
    · rw [if_pos hpow, write_at]
      by_cases heq : (k, i, j) = (d - (w * v + u) - 1, m - i' - 1, j')
      · rw [if_pos heq]
        simp only [Prod.mk.injEq] at heq
        obtain ⟨q1, q2, q3⟩ := heq
        have e1 : d - 1 - k = w * v + u := by omega
        have e2 : m - 1 - i = i' := by omega
        rw [e1, e2, q3, Nat.mul_add_mod, Nat.mod_eq_of_lt hu, Nat.mul_add_div hw, Nat.div_eq_of_lt hu, Nat.add_zero]
      · rw [if_neg heq]; exact hx
    · rw [if_neg hpow]; exact hx
  have hu0 : (d - 1 - k) % w < w := Nat.mod_lt _ hw
  have hv0 : (d - 1 - k) / w < w := Nat.div_lt_of_lt_mul (by omega)
  have hdm := Nat.div_add_mod (d - 1 - k) w
  refine forN_hit (fun x : Nat × Nat × Nat → F => x (k, i, j) = coeffs (m - 1 - i) ((d - 1 - k) % w) ((d - 1 - k) / w) j) m _ _ ?_ (m - 1 - i) (by omega) ?_
  · exact fun i' x hi' hx => forN_keep _ w _ _ (fun u x hu hx => forN_keep _ w _ _ (fun v x _ hx => forN_keep _ m _ _
      (fun j' x _ hx => keep i' u v j' x hi' hu hx) hx) hx) hx
  · intro x
    refine forN_hit _ w _ _ (fun u x hu hx => forN_keep _ w _ _ (fun v x _ hx => forN_keep _ m _ _
      (fun j' x _ hx => keep (m - 1 - i) u v j' x (by omega) hu hx) hx) hx) ((d - 1 - k) % w) hu0 fun x => ?_
    refine forN_hit _ w _ _ (fun v x _ hx => forN_keep _ m _ _ (fun j' x _ hx => keep (m - 1 - i) _ v j' x (by omega) hu0 hx) hx)
      ((d - 1 - k) / w) hv0 fun x => ?_
    refine forN_hit _ m _ _ (fun j' x _ hx => keep (m - 1 - i) _ _ j' x (by omega) hu0 hx) j hj fun x => ?_
    rw [hdm, if_pos (by omega), write_at, if_pos (by rw [show d - (d - 1 - k) - 1 = k by omega, show m - (m - 1 - i) - 1 = i by omega])]

theorem format_length (coeffs : Nat → Nat → Nat → Nat → F) (d m : Nat) : (format coeffs d m).length = d := by
  unfold format
  simp

/-! ### The theorems -/

/-- The lists of `gen_pows` hold `t a^(s i) mod g`, whether or not the upper products are asked for, and the upper products are the ones
    from which quotients by `g` are read off. -/
theorem C108_pows (fft : Bool) (cross : Nat) {t a g : F[X]} (s : Nat) {l : Nat} (need : Bool) (ht : t.natDegree < g.natDegree)
    (ha : a.natDegree < g.natDegree) (hl : 0 < l) :
    ∃ r, genPows fft cross ⟨0, fun _ => 0⟩ t a s g l need = .ok r ∧ r.1.len = l ∧ ∀ i, i < l → r.1.e i = t * a ^ (s * i) % g := by
  have hn : 0 < g.natDegree := by omega
  cases need with
  | false =>
    obtain ⟨p, e, h⟩ := genPows_false fft cross ⟨0, fun _ => 0⟩ s hn ht ha hl
    exact ⟨_, e, rfl, h⟩
  | true =>
    obtain ⟨p, q, e, h, -⟩ := genPows_true fft cross s hn ht ha hl
    exact ⟨_, e, rfl, h⟩

/-- The sequence is right when the FFT is used for products modulo `g`, `deg(g) > 2 m`, `g(0) ≠ 0`, the points `0, ..., 4 m - 2` are
    distinct, and each power `a^(w v) mod g` is either of degree above the crossover or so small that its products by the
    `x^(m-1) a^u mod g` need no reduction, the first alternative holding at least once.  (`w` is the ceiling of the square root of the number
    of matrices.)  The full property has none of these conditions except `deg(a) < deg(g)`, `m ≤ deg(g)` and `g(0) ≠ 0`; see
    `C108_small_fails` and `C108_short_modulus`. -/
theorem C108_sequence_partial {inv : Nat → (Nat × Nat → F) → Option (Nat × Nat → F)} (hinv : InvOk inv) (cross : Nat) {a g : F[X]} {m : Nat} (hm : 0 < m)
    (hn : 2 * m < g.natDegree) (ha : a.natDegree < g.natDegree) (g0 : g.coeff 0 ≠ 0)
    (hinj : ∀ r r' : Nat, r ≤ 4 * m - 2 → r' ≤ 4 * m - 2 → (r : F) = (r' : F) → r = r')
    (w : Nat) (hw : w = ceilSqrt (count g.natDegree m))
    (h1 : ∀ v, v < w → cross < (a ^ (w * v) % g).natDegree ∨
      ∀ u, u < w → ((X ^ (m - 1) * a ^ u % g) * (a ^ (w * v) % g)).natDegree < g.natDegree)
    (h2 : ∃ v, v < w ∧ cross < (a ^ (w * v) % g).natDegree) :
    ∃ mats, genSequence true cross inv a g m = .ok mats ∧ IsSequence a g m mats := by
  subst hw
  have hn0 : 0 < g.natDegree := by omega
  have ht1 : 1 ≤ (X ^ (m - 1) : F[X]).natDegree ∨ (X ^ (m - 1) : F[X]) = 1 := by
    rw [natDegree_X_pow]
    by_cases h : m = 1
    · right; rw [h]; rfl
    · left; omega
  obtain ⟨res, e, hres⟩ := genRow_spec hinv cross hm hn (show (X ^ (m - 1) : F[X]).natDegree < g.natDegree by rw [natDegree_X_pow]; omega) ha hinj ht1 h2
  unfold genSequence
  dsimp only
  rw [e]
  simp only [andThen]
  rw [if_neg g0]
  refine ⟨_, rfl, format_length _ _ _, fun k M hM => ?_⟩
  obtain ⟨f1, f2, hk, f3⟩ := format_spec _ _ _ _ _ hM
  refine ⟨f1, f2, fun i j hi hj => ?_⟩
  rw [f3 i j hi hj]
  have hcount : 2 * ceilDiv g.natDegree m + 1 = count g.natDegree m := rfl
  rw [hcount] at hk ⊢
  have hsq := ceilSqrt_sq (count g.natDegree m)
  generalize count g.natDegree m = d at *
  generalize ceilSqrt d = w at *
  have hw : 0 < w := Nat.pos_of_ne_zero fun h => by rw [h] at hsq; omega
  have hu0 : (d - 1 - k) % w < w := Nat.mod_lt _ hw
  have hv0 : (d - 1 - k) / w < w := Nat.div_lt_of_lt_mul (by omega)
  have hdm : (d - 1 - k) % w + w * ((d - 1 - k) / w) = d - 1 - k := Nat.mod_add_div _ _
  rw [nextRows_spec (m := m) hn0 g0 res (a ^ (d - 1 - k)) _ _ (fun s hs => ?_) (m - 1 - i) (by omega) j (by omega), show m - 1 - (m - 1 - i) = i by omega]
  rw [hres _ _ s hu0 hv0 hs, hdm]
  by_cases hc : cross < (a ^ (w * ((d - 1 - k) / w)) % g).natDegree
  · rw [if_pos hc]
  · rw [if_neg hc]
    have hsmall := (h1 _ hv0).resolve_left hc _ hu0
    rw [← mod_small hsmall, ← Polynomial.mul_mod, mul_assoc, ← pow_add, hdm]

theorem mulSpecial_zero (inv : Nat → (Nat × Nat → F) → Option (Nat × Nat → F)) (A B : PMat F[X]) (h : deg A < 0 ∨ deg B < 0) (r) :
    mulSpecial inv A B ≠ .ok r := by
  unfold mulSpecial
  dsimp only
  by_cases h' : deg A < 0 ∧ deg B < 0
  · rw [if_pos h']; exact fun h => by cases h
  · rw [if_neg h', if_pos h]; exact fun h => by cases h

theorem genSequence_fails (fft : Bool) (cross : Nat) (inv : Nat → (Nat × Nat → F) → Option (Nat × Nat → F)) {a g : F[X]} {m : Nat}
    (hm : 0 < m) (hmn : m ≤ g.natDegree) (ha : a.natDegree < g.natDegree)
    (h : ∀ p q, (∀ v, v < ceilSqrt (count g.natDegree m) → q v = upv fft cross g (a ^ (ceilSqrt (count g.natDegree m) * v) % g)) →
      ∀ r, getQuos inv ⟨ceilSqrt (count g.natDegree m), p⟩ ⟨ceilSqrt (count g.natDegree m), q⟩ g m ≠ .ok r) (mats) :
    genSequence fft cross inv a g m ≠ .ok mats := by
  have h3 : 3 ≤ count g.natDegree m := by
    unfold count
    have : 1 ≤ (g.natDegree + m - 1) / m := (Nat.one_le_div_iff hm).2 (by omega)
    omega
  have hw := two_le_ceilSqrt h3
  have hcount : 2 * ceilDiv g.natDegree m + 1 = count g.natDegree m := rfl
  have hn0 : 0 < g.natDegree := by omega
  unfold genSequence genRow
  dsimp only
  rw [hcount]
  generalize ceilSqrt (count g.natDegree m) = w at *
  obtain ⟨p, e1, -⟩ := genPows_false fft cross ⟨0, fun _ => 0⟩ 1 hn0 (show (X ^ (m - 1) : F[X]).natDegree < g.natDegree by rw [natDegree_X_pow]; omega) ha
    (show 0 < w by omega)
  obtain ⟨p2, q, e2, -, hq⟩ := genPows_true fft cross w hn0 (show (1 : F[X]).natDegree < g.natDegree by rw [natDegree_one]; omega) ha (show 0 < w by omega)
  rw [e1]
  simp only [andThen]
  rw [e2]
  simp only [andThen]
  have hno := h p q fun v hv => by rw [hq v hv, one_mul]
  cases hg : getQuos inv ⟨w, p⟩ ⟨w, q⟩ g m with
  | ok r => exact absurd hg (hno r)
  | error => exact fun h => by cases h
  | ub => exact fun h => by cases h
  | loops => exact fun h => by cases h

/-- If none of the powers `a^(w v) mod g` goes through the FFT, there is never a result: in particular for `deg(g)` or `deg(a^w mod g)`
    below the crossover of NTL, where `MulMod_local` sets `upper` to zero ("todo: do this case"). -/
theorem C108_small_fails (fft : Bool) (cross : Nat) (inv : Nat → (Nat × Nat → F) → Option (Nat × Nat → F)) {a g : F[X]} {m : Nat}
    (hm : 0 < m) (hmn : m ≤ g.natDegree) (ha : a.natDegree < g.natDegree)
    (h : ∀ v, v < ceilSqrt (count g.natDegree m) → fft = false ∨ (a ^ (ceilSqrt (count g.natDegree m) * v) % g).natDegree ≤ cross) (mats) :
    genSequence fft cross inv a g m ≠ .ok mats := by
  refine genSequence_fails fft cross inv hm hmn ha (fun p q hq r => ?_) mats
  have hz : ∀ v, v < ceilSqrt (count g.natDegree m) → q v = 0 := fun v hv => by
    rw [hq v hv]
    unfold upv
    rw [if_neg]
    rintro ⟨h1, h2⟩
    rcases h v hv with h | h
    · rw [h] at h1; cases h1
    · rw [pdeg_ne _ (fun h0 => by rw [h0, pdeg_zero] at h2; omega)] at h2
      omega
  unfold getQuos
  dsimp only
  intro hr
  refine match hms : mulSpecial inv _ _, hr with
    | .ok r', _ => mulSpecial_zero inv _ _ (Or.inr ?_) r' hms
  refine (deg_lt_iff _ 0).2 fun i j hi hj k _ => ?_
  dsimp only at hi hj ⊢
  rw [hz j hj]
  have := colBlocks_spec (ceilDiv g.natDegree (2 * m)) m (0 : F[X]) (ceilDiv g.natDegree (2 * m) - 1 - i) (by omega) k
  rw [show ceilDiv g.natDegree (2 * m) - 1 - (ceilDiv g.natDegree (2 * m) - 1 - i) = i by omega] at this
  rw [this, coeff_zero, ite_self]

/-- If `deg(g) ≤ 2 m`, there is never a result: the remainder in the padding is negative, and the padding exceeds the block. -/
theorem C108_short_modulus (fft : Bool) (cross : Nat) (inv : Nat → (Nat × Nat → F) → Option (Nat × Nat → F)) {a g : F[X]} {m : Nat}
    (hm : 0 < m) (hmn : m ≤ g.natDegree) (hn : g.natDegree ≤ 2 * m) (ha : a.natDegree < g.natDegree) (mats) :
    genSequence fft cross inv a g m ≠ .ok mats := by
  refine genSequence_fails fft cross inv hm hmn ha (fun p q _ r => ?_) mats
  have hlen : ceilDiv g.natDegree (2 * m) = 1 := by
    unfold ceilDiv
    exact Nat.div_eq_of_lt_le (by omega) (by omega)
  have hpad : (2 * (m : Int)) ≤ 2 * m - ((g.natDegree : Int) - 2 * m - 1).tmod (2 * m) := by
    rw [show (g.natDegree : Int) - 2 * m - 1 = -((2 * m + 1 - g.natDegree : Nat) : Int) by omega, Int.neg_tmod]
    have := Int.tmod_nonneg (2 * (m : Int)) (show (0 : Int) ≤ ((2 * m + 1 - g.natDegree : Nat) : Int) by omega)
    omega
  unfold getQuos
  dsimp only
  rw [hlen]
  generalize (2 * (m : Int) - ((g.natDegree : Int) - 2 * m - 1).tmod (2 * m)) = pad at hpad
  intro hr
  refine match hms : mulSpecial inv _ _, hr with
    | .ok r', _ => mulSpecial_zero inv _ _ (Or.inl ?_) r' hms
  refine (deg_lt_iff _ 0).2 fun i j hi hj k _ => ?_
  dsimp only at hi hj ⊢
  unfold rowBlock coeffZ
  rw [ofCoeffs_coeff]
  by_cases hk : k < 2 * m
  · rw [if_pos hk, if_pos]
    rw [show j = 0 by omega, Nat.mul_zero, Nat.zero_add]
    omega
  · rw [if_neg hk]

/-- `gen_sequence_naive` gives the coefficients of `x^(m-1-i) a^(u + v w) mod g`, for all reduced `a` and `m ≤ deg(g)`, and an error otherwise. -/
theorem C108_naive (a g : F[X]) (m : Nat) (hm : 0 < m) :
    if a.natDegree < g.natDegree ∧ m ≤ g.natDegree
    then ∃ r, genNaive a g m = .ok r ∧
      ∀ i u v t, i < m → r i u v t = (X ^ (m - 1 - i) * a ^ (u + v * ceilSqrt (count g.natDegree m)) % g).coeff t
    else genNaive a g m = .error := by
  unfold genNaive
  dsimp only
  by_cases h : a.natDegree < g.natDegree ∧ m ≤ g.natDegree
  · rw [if_pos h]
    have hn : 0 < g.natDegree := by omega
    have hp := pdeg_pos hn
    have hlt := (pdeg_lt_pdeg (a := a) hn).2 h.1
    rw [if_neg (show ¬pdeg g ≤ 0 by omega), if_neg (show ¬pdeg g ≤ pdeg a by omega), if_neg (show ¬pdeg g ≤ (m : Int) - 1 by omega)]
    refine ⟨_, rfl, fun i u v t hi => ?_⟩
    rw [mul_comm, mul_mod_right _ _ _ hn, show m - i - 1 = m - 1 - i by omega]
    rfl
  · rw [if_neg h]
    by_cases h1 : pdeg g ≤ 0
    · rw [if_pos h1]
    · have hg : g ≠ 0 := fun h0 => h1 (by rw [h0, pdeg_zero]; omega)
      have hn : 0 < g.natDegree := by rw [pdeg_ne _ hg] at h1; omega
      have hp := pdeg_pos hn
      rw [if_neg h1]
      by_cases h2 : pdeg g ≤ pdeg a
      · rw [if_pos h2]
      · have ha := (pdeg_lt_pdeg (a := a) hn).1 (by omega)
        rw [if_neg h2, if_pos (show pdeg g ≤ (m : Int) - 1 by omega)]

end PML.Ntl.BlockSeq
