import Verif.Ntl.SylvXProps

/-! # Properties of the Sylvester matrices over `K[X]`: entries and generators (C93) -/

namespace PML.Ntl.SylvX

open Polynomial PML.Ntl.Utils PML.Ntl.Inv PML.Ntl.Solve PML.Ntl.Struct PML.Ntl.Bivar PML.Ntl.FftPoints PML.Ntl.StructX

variable {F : Type} [Field F]

theorem mupd_ok {M : PMat F[X]} {i j : Nat} (f : F[X] → F[X]) (hi : i < M.rows) (hj : j < M.cols) :
    ∃ M', mupd M (i : Int) (j : Int) f = .ok M' ∧ M'.rows = M.rows ∧ M'.cols = M.cols ∧
      ∀ x y, M'.e (x, y) = if x = i ∧ y = j then f (M.e (x, y)) else M.e (x, y) := by
  have hc : (0 : Int) ≤ i ∧ (i : Int) < M.rows ∧ (0 : Int) ≤ j ∧ (j : Int) < M.cols := by omega
  refine ⟨_, if_pos hc, rfl, rfl, fun x y => ?_⟩
  show Function.update M.e _ _ (x, y) = _
  simp only [Int.toNat_natCast]
  by_cases h : x = i ∧ y = j
  · obtain ⟨rfl, rfl⟩ := h
    simp
  · rw [if_neg h, Function.update_of_ne (by simpa using h)]

/-- A doubly nested loop which fills a matrix. -/
theorem zero_loop (n m : Nat) {M : PMat F[X]} (hr : M.rows = n) (hc : M.cols = m) :
    ∃ M', loopOut n (fun i M => loopOut m (fun j M => mupd M (i : Int) (j : Int) fun _ => 0) M) M = .ok M' ∧ M'.rows = n ∧ M'.cols = m ∧
      ∀ x y, x < n → y < m → M'.e (x, y) = 0 := by
  obtain ⟨M', h, h1, h2, h3⟩ := loopOut_inv (f := fun i M => loopOut m (fun j M => mupd M (i : Int) (j : Int) fun _ => 0) M) (s := M)
    (fun k (N : PMat F[X]) => N.rows = n ∧ N.cols = m ∧ ∀ x y, x < k → y < m → N.e (x, y) = 0) n ⟨hr, hc, fun _ _ h => absurd h (by omega)⟩ (by
      rintro k N hk ⟨n1, n2, n3⟩
      obtain ⟨N', h, h1, h2, h3⟩ := loopOut_inv (f := fun j M => mupd M (k : Int) (j : Int) fun _ => (0 : F[X])) (s := N)
        (fun l (N : PMat F[X]) => N.rows = n ∧ N.cols = m ∧ ∀ x y, x < k ∧ y < m ∨ x = k ∧ y < l → N.e (x, y) = 0) m
        ⟨n1, n2, fun x y h => n3 x y (by omega) (by omega)⟩ (by
          rintro l N hl ⟨n1, n2, n3⟩
          obtain ⟨N', e1, e2, e3, e4⟩ := mupd_ok (M := N) (i := k) (j := l) (fun _ => 0) (by omega) (by omega)
          refine ⟨N', e1, by omega, by omega, fun x y h => ?_⟩
          rw [e4]
          split
          · rfl
          · exact n3 x y (by omega))
      exact ⟨N', h, h1, h2, fun x y hx hy => h3 x y (by omega)⟩)
  exact ⟨M', h, h1, h2, h3⟩

/-- The loops which put the coefficients of `c` on the columns `off, ..., off + k - 1`. -/
theorem band_loop (n off k d : Nat) {c : PVec F} (hl : c.len = d + 1) (h1 : d + k ≤ n) (h2 : off + k ≤ n) {M : PMat F[X]} (hr : M.rows = n) (hc : M.cols = n)
    (hz : ∀ x y, x < n → off ≤ y → y < n → M.e (x, y) = 0) :
    ∃ M', loopOut k (fun i M => loopOut (d + 1) (fun j M => andThen (c.get (j : Int)) fun z =>
        mupd M ((i + j : Nat) : Int) ((i + off : Nat) : Int) fun _ => z) M) M = .ok M' ∧ M'.rows = n ∧ M'.cols = n ∧
      ∀ x y, x < n → y < n → M'.e (x, y) = if off ≤ y ∧ y < off + k then (c.poly * X ^ (y - off)).coeff x else M.e (x, y) := by
  refine loopOut_inv (f := fun i M => loopOut (d + 1) (fun j M => andThen (c.get (j : Int)) fun z =>
        mupd M ((i + j : Nat) : Int) ((i + off : Nat) : Int) fun _ => z) M) (s := M)
    (fun i (N : PMat F[X]) => N.rows = n ∧ N.cols = n ∧
      ∀ x y, x < n → y < n → N.e (x, y) = if off ≤ y ∧ y < off + i then (c.poly * X ^ (y - off)).coeff x else M.e (x, y)) k
    ⟨hr, hc, fun x y _ _ => by rw [if_neg (by omega)]⟩ ?_
  rintro i N hi ⟨n1, n2, n3⟩
  obtain ⟨N', h, m1, m2, m3⟩ := loopOut_inv (f := fun j M => andThen (c.get (j : Int)) fun z =>
        mupd M ((i + j : Nat) : Int) ((i + off : Nat) : Int) fun _ => z) (s := N)
    (fun j (N' : PMat F[X]) => N'.rows = n ∧ N'.cols = n ∧
      ∀ x y, x < n → y < n → N'.e (x, y) = if y = i + off ∧ i ≤ x ∧ x < i + j then c.at' (x - i) else N.e (x, y)) (d + 1)
    ⟨n1, n2, fun x y _ _ => by rw [if_neg (by omega)]⟩ (by
      rintro j N' hj ⟨m1, m2, m3⟩
      rw [get_ok' (by omega), Bivar.andThen_ok]
      obtain ⟨N'', e1, e2, e3, e4⟩ := mupd_ok (M := N') (i := i + j) (j := i + off) (fun _ => c.at' j) (by omega) (by omega)
      refine ⟨N'', e1, by omega, by omega, fun x y hx hy => ?_⟩
      rw [e4, m3 x y hx hy]
      by_cases h : x = i + j ∧ y = i + off
      · rw [if_pos h, if_pos (by omega)]
        congr 1
        omega
      · rw [if_neg h]
        by_cases h' : y = i + off ∧ i ≤ x ∧ x < i + j
        · rw [if_pos h', if_pos (by omega)]
        · rw [if_neg h', if_neg (by omega)])
  refine ⟨N', h, m1, m2, fun x y hx hy => ?_⟩
  rw [m3 x y hx hy]
  by_cases h' : y = i + off
  · rw [if_pos (show off ≤ y ∧ y < off + (i + 1) by omega), shift_coeff, show y - off = i by omega]
    by_cases h'' : i ≤ x ∧ x - i < c.len
    · rw [if_pos h'', if_pos (by omega)]
    · rw [if_neg h'', if_neg (by omega), n3 x y hx hy, if_neg (by omega), hz x y hx (by omega) hy]
  · rw [if_neg (by omega), n3 x y hx hy]
    by_cases h'' : off ≤ y ∧ y < off + i
    · rw [if_pos h'', if_pos (by omega)]
    · rw [if_neg h'', if_neg (by omega)]

/-- **C93**. `to_dense` gives the Sylvester matrix. -/
theorem C93_dense {A B : PVec F} {o : Sylv F} (ho : Made A B o) (x : PMat F[X]) : IsMat (o.toDense x) o.n o.n (sylvEntry A B) := by
  have h := made_inv ho
  unfold Sylv.toDense
  rw [h.a, h.b, h.n]
  obtain ⟨M0, e1, e2, e3, e4⟩ := zero_loop (o.dAy + o.dBy) (o.dAy + o.dBy) (M := x.setDims (o.dAy + o.dBy) (o.dAy + o.dBy)) rfl rfl
  rw [e1, Bivar.andThen_ok]
  obtain ⟨M1, f1, f2, f3, f4⟩ := band_loop (o.dAy + o.dBy) 0 o.dBy o.dAy h.la (by omega) (by omega) e2 e3 (fun x y hx _ hy => e4 x y hx hy)
  simp only [Nat.add_zero] at f1
  rw [f1, Bivar.andThen_ok]
  obtain ⟨M2, g1, g2, g3, g4⟩ := band_loop (o.dAy + o.dBy) o.dBy o.dAy o.dBy h.lb (by omega) (by omega) f2 f3 (fun x y hx h1 hy => by
    rw [f4 x y hx hy, if_neg (by omega), e4 x y hx hy])
  refine ⟨M2, g1, g2, g3, fun i j hi hj => ?_⟩
  have hb := h.lb
  rw [g4 i j hi hj, f4 i j hi hj, sylvEntry, show B.len - 1 = o.dBy by omega]
  by_cases hc : j < o.dBy
  · rw [if_neg (by omega), if_pos (by omega), if_pos hc, Nat.sub_zero]
  · rw [if_pos (by omega), if_neg hc]

/-! ### Generators -/

/-- The first column of the generator `G`. -/
noncomputable def g0 (A B : PVec F) (a b : Nat) (i : Nat) : F[X] :=
  (if b ≤ i then A.at' (i - b) else 0) + (if i = 0 then A.at' a else 0) - (if i < b then B.at' i else 0) - (if i = b % (a + b) then B.at' b else 0)

/-- The second column of the generator `G`. -/
noncomputable def g1 (B : PVec F) (a b : Nat) (i : Nat) : F[X] := (if a ≤ i then B.at' (i - a) else 0) + (if i = 0 then B.at' b else 0)

/-- The `H` generator. -/
noncomputable def h01 (a b : Nat) (j k : Nat) : F[X] := if k = 0 then (if j = b - 1 then 1 else 0) else if j = a + b - 1 then 1 else 0

theorem gens_zero (n : Nat) {G H : PMat F[X]} (hG : G.rows = n ∧ G.cols = 2) (hH : H.rows = n ∧ H.cols = 2) :
    ∃ G' H', loopOut n (fun i (s : PMat F[X] × PMat F[X]) =>
      andThen (mupd s.2 (i : Int) 0 fun _ => 0) fun H =>
      andThen (mupd H (i : Int) 1 fun _ => 0) fun H =>
      andThen (mupd s.1 (i : Int) 0 fun _ => 0) fun G =>
      andThen (mupd G (i : Int) 1 fun _ => 0) fun G => .ok (G, H)) (G, H) = .ok (G', H') ∧ (G'.rows = n ∧ G'.cols = 2) ∧ (H'.rows = n ∧ H'.cols = 2) ∧
      ∀ x y, x < n → y < 2 → G'.e (x, y) = 0 ∧ H'.e (x, y) = 0 := by
  obtain ⟨⟨G', H'⟩, h, h1, h2, h3⟩ := loopOut_inv (f := fun i (s : PMat F[X] × PMat F[X]) =>
      andThen (mupd s.2 (i : Int) 0 fun _ => 0) fun H =>
      andThen (mupd H (i : Int) 1 fun _ => 0) fun H =>
      andThen (mupd s.1 (i : Int) 0 fun _ => 0) fun G =>
      andThen (mupd G (i : Int) 1 fun _ => 0) fun G => .ok (G, H)) (s := (G, H))
    (fun k s => (s.1.rows = n ∧ s.1.cols = 2) ∧ (s.2.rows = n ∧ s.2.cols = 2) ∧ ∀ x y, x < k → y < 2 → s.1.e (x, y) = 0 ∧ s.2.e (x, y) = 0) n
    ⟨hG, hH, fun x y h => absurd h (by omega)⟩ (by
      rintro k ⟨G, H⟩ hk ⟨hG, hH, hz⟩
      dsimp only at hG hH hz ⊢
      obtain ⟨H1, a1, a2, a3, a4⟩ := mupd_ok (M := H) (i := k) (j := 0) (fun _ => 0) (by omega) (by omega)
      obtain ⟨H2, b1, b2, b3, b4⟩ := mupd_ok (M := H1) (i := k) (j := 1) (fun _ => 0) (by omega) (by omega)
      obtain ⟨G1, c1, c2, c3, c4⟩ := mupd_ok (M := G) (i := k) (j := 0) (fun _ => 0) (by omega) (by omega)
      obtain ⟨G2, d1, d2, d3, d4⟩ := mupd_ok (M := G1) (i := k) (j := 1) (fun _ => 0) (by omega) (by omega)
      push_cast at a1 b1 c1 d1
      rw [a1, Bivar.andThen_ok, b1, Bivar.andThen_ok, c1, Bivar.andThen_ok, d1, Bivar.andThen_ok]
      refine ⟨_, rfl, ⟨by dsimp only; omega, by dsimp only; omega⟩, ⟨by dsimp only; omega, by dsimp only; omega⟩, fun x y hx hy => ?_⟩
      dsimp only
      rw [d4, c4, b4, a4]
      by_cases hxk : x = k
      · have hy' : y = 0 ∨ y = 1 := by omega
        rcases hy' with rfl | rfl <;> simp [hxk]
      · rw [if_neg (by omega), if_neg (by omega), if_neg (by omega), if_neg (by omega)]
        exact hz x y (by omega) hy)
  exact ⟨G', H', h, h1, h2, h3⟩

/-- What `phi_plus_generators` computes. -/
theorem gens_ok {A B : PVec F} {o : Sylv F} (h : Inv A B o) (hb : 0 < o.dBy) (G H : PMat F[X]) :
    ∃ G' H', o.gens G H = .ok (G', H') ∧ G'.rows = o.n ∧ G'.cols = 2 ∧ H'.rows = o.n ∧ H'.cols = 2 ∧
      ∀ i, i < o.n → G'.e (i, 0) = g0 A B o.dAy o.dBy i ∧ G'.e (i, 1) = g1 B o.dAy o.dBy i ∧
        ∀ k, k < 2 → H'.e (i, k) = h01 o.dAy o.dBy i k := by
  unfold Sylv.gens
  have la := h.la
  have lb := h.lb
  rw [h.a, h.b, h.n]
  generalize o.dAy = a at *
  generalize o.dBy = b at *
  obtain ⟨G0, H0, z1, zG, zH, z2⟩ := gens_zero (a + b) (G := G.setDims (a + b) 2) (H := H.setDims (a + b) 2) ⟨rfl, rfl⟩ ⟨rfl, rfl⟩
  rw [z1, Bivar.andThen_ok]
  dsimp only
  obtain ⟨H1, a1, a2, a3, a4⟩ := mupd_ok (M := H0) (i := b - 1) (j := 0) (fun _ => 1) (by omega) (by omega)
  obtain ⟨H2, b1, b2, b3, b4⟩ := mupd_ok (M := H1) (i := a + b - 1) (j := 1) (fun _ => 1) (by omega) (by omega)
  rw [show (b : Int) - 1 = ((b - 1 : Nat) : Int) by omega, show (0 : Int) = ((0 : Nat) : Int) from rfl, a1, Bivar.andThen_ok,
    show (a : Int) + b - 1 = ((a + b - 1 : Nat) : Int) by omega, show (1 : Int) = ((1 : Nat) : Int) from rfl, b1, Bivar.andThen_ok]
  obtain ⟨G1, c1, c2, c3, c4⟩ := loopOut_inv (f := fun i G => andThen (A.get (i : Int)) fun z => mupd G ((i + b : Nat) : Int) ((0 : Nat) : Int) (· + z)) (s := G0)
    (fun k (G : PMat F[X]) => G.rows = a + b ∧ G.cols = 2 ∧
      ∀ x y, x < a + b → y < 2 → G.e (x, y) = if y = 0 ∧ b ≤ x ∧ x < b + k then A.at' (x - b) else 0) a
    ⟨zG.1, zG.2, fun x y hx hy => by rw [if_neg (by omega), (z2 x y hx hy).1]⟩ (by
      rintro k G hk ⟨n1, n2, n3⟩
      rw [get_ok' (by omega), Bivar.andThen_ok]
      obtain ⟨G', e1, e2, e3, e4⟩ := mupd_ok (M := G) (i := k + b) (j := 0) (· + A.at' k) (by omega) (by omega)
      refine ⟨G', e1, by omega, by omega, fun x y hx hy => ?_⟩
      rw [e4, n3 x y hx hy]
      by_cases hc : x = k + b ∧ y = 0
      · rw [if_pos hc, if_neg (by omega), if_pos (by omega), zero_add]
        congr 1
        omega
      · rw [if_neg hc]
        by_cases h' : y = 0 ∧ b ≤ x ∧ x < b + k
        · rw [if_pos h', if_pos (by omega)]
        · rw [if_neg h', if_neg (by omega)])
  rw [c1, Bivar.andThen_ok, get_ok' (by omega), Bivar.andThen_ok]
  obtain ⟨G2, d1, d2, d3, d4⟩ := mupd_ok (M := G1) (i := 0) (j := 0) (· + A.at' a) (by omega) (by omega)
  rw [d1, Bivar.andThen_ok]
  obtain ⟨G3, e1, e2, e3, e4⟩ := loopOut_inv (f := fun i G => andThen (B.get (i : Int)) fun z =>
      andThen (mupd G (i : Int) ((0 : Nat) : Int) (· - z)) fun G => mupd G ((i + a : Nat) : Int) ((1 : Nat) : Int) (· + z)) (s := G2)
    (fun k (G : PMat F[X]) => G.rows = a + b ∧ G.cols = 2 ∧
      ∀ x, x < a + b → G.e (x, 0) = (if b ≤ x then A.at' (x - b) else 0) + (if x = 0 then A.at' a else 0) - (if x < k then B.at' x else 0) ∧
        G.e (x, 1) = if a ≤ x ∧ x < a + k then B.at' (x - a) else 0) b
    ⟨by omega, by omega, fun x hx => ⟨by
      rw [d4, c4 x 0 hx (by omega)]
      by_cases hx0 : x = 0
      · subst hx0
        simp [show ¬ b ≤ 0 by omega]
      · rw [if_neg (by omega), if_neg hx0, if_neg (show ¬ x < 0 by omega), add_zero, sub_zero]
        by_cases hbx : b ≤ x
        · rw [if_pos hbx, if_pos (by omega)]
        · rw [if_neg hbx, if_neg (by omega)], by
      rw [d4, c4 x 1 hx (by omega), if_neg (by omega), if_neg (by omega), if_neg (by omega)]⟩⟩ (by
      rintro k G hk ⟨n1, n2, n3⟩
      rw [get_ok' (by omega), Bivar.andThen_ok]
      obtain ⟨G', p1, p2, p3, p4⟩ := mupd_ok (M := G) (i := k) (j := 0) (· - B.at' k) (by omega) (by omega)
      rw [p1, Bivar.andThen_ok]
      obtain ⟨G'', q1, q2, q3, q4⟩ := mupd_ok (M := G') (i := k + a) (j := 1) (· + B.at' k) (by omega) (by omega)
      refine ⟨G'', q1, by omega, by omega, fun x hx => ⟨?_, ?_⟩⟩
      · rw [q4, if_neg (by omega), p4, (n3 x hx).1]
        by_cases hc : x = k
        · subst hc
          rw [if_pos ⟨rfl, rfl⟩, if_neg (show ¬ x < x by omega), if_pos (show x < x + 1 by omega), sub_zero]
        · rw [if_neg (fun h => hc h.1)]
          congr 1
          by_cases hxk : x < k
          · rw [if_pos hxk, if_pos (by omega)]
          · rw [if_neg hxk, if_neg (by omega)]
      · rw [q4, p4, if_neg (show ¬ (x = k ∧ (1 : Nat) = 0) by omega), (n3 x hx).2]
        by_cases hc : x = k + a
        · rw [if_pos ⟨hc, rfl⟩, if_neg (by omega), if_pos (by omega), zero_add]
          congr 1
          omega
        · rw [if_neg (fun h => hc h.1)]
          by_cases hxk : a ≤ x ∧ x < a + k
          · rw [if_pos hxk, if_pos (by omega)]
          · rw [if_neg hxk, if_neg (by omega)])
  rw [e1, Bivar.andThen_ok, get_ok' (by omega), Bivar.andThen_ok, if_neg (by omega)]
  have hm : b % (a + b) < a + b := Nat.mod_lt _ (by omega)
  obtain ⟨G4, f1, f2, f3, f4⟩ := mupd_ok (M := G3) (i := b % (a + b)) (j := 0) (· - B.at' b) (by omega) (by omega)
  rw [f1, Bivar.andThen_ok]
  obtain ⟨G5, g1', g2, g3, g4⟩ := mupd_ok (M := G4) (i := 0) (j := 1) (· + B.at' b) (by omega) (by omega)
  rw [g1', Bivar.andThen_ok]
  refine ⟨G5, H2, rfl, by omega, by omega, by omega, by omega, fun i hi => ⟨?_, ?_, fun k hk => ?_⟩⟩
  · rw [g4, if_neg (by omega), f4, (e4 i hi).1, g0]
    by_cases hc : i = b % (a + b)
    · rw [if_pos ⟨hc, rfl⟩, if_pos hc]
    · rw [if_neg (fun h => hc h.1), if_neg hc, sub_zero]
  · rw [g4, f4, if_neg (show ¬ (i = b % (a + b) ∧ (1 : Nat) = 0) by omega), (e4 i hi).2, g1]
    have e : (if a ≤ i ∧ i < a + b then B.at' (i - a) else 0) = if a ≤ i then B.at' (i - a) else 0 := by
      by_cases hc : a ≤ i
      · rw [if_pos hc, if_pos ⟨hc, hi⟩]
      · rw [if_neg hc, if_neg (fun h => hc h.1)]
    rw [e]
    by_cases hc : i = 0
    · rw [if_pos ⟨hc, rfl⟩, if_pos hc]
    · rw [if_neg (fun h => hc h.1), if_neg hc, add_zero]
  · rw [b4, a4, h01, (z2 i k hi hk).2]
    have hk' : k = 0 ∨ k = 1 := by omega
    rcases hk' with rfl | rfl
    · simp
    · simp

theorem disp_plus (m n : Nat) (M : Nat → Nat → F[X]) (i j : Nat) (hi : i < m) (hj : j < n) :
    disp 1 0 m n M i j = M (if i = 0 then m - 1 else i - 1) j - (if j + 1 = n then 0 else M i (j + 1)) := by
  unfold disp
  rw [z_left m 1 (fun l => M l j) i hi, z_right n 0 (M i) j hj, one_mul, mul_zero]
  by_cases h : i = 0
  · rw [if_pos h, if_pos h]
  · rw [if_neg h, if_neg h]

theorem sylv_disp {A B : PVec F} {a b : Nat} (ha : A.len = a + 1) (hb : B.len = b + 1) (hb0 : 0 < b) {i j : Nat} (hi : i < a + b) (hj : j < a + b) :
    disp 1 0 (a + b) (a + b) (sylvEntry A B) i j = g0 A B a b i * h01 a b j 0 + g1 B a b i * h01 a b j 1 := by
  rw [disp_plus _ _ _ _ _ hi hj]
  unfold sylvEntry h01 g0 g1
  simp only [shift_coeff, ha, hb, Nat.add_sub_cancel]
  rcases Nat.eq_zero_or_pos a with rfl | ha0
  · -- the identity times a constant
    have hm : b % (0 + b) = 0 := by rw [Nat.zero_add, Nat.mod_self]
    rw [hm]
    by_cases hl : j + 1 = 0 + b
    · rw [if_pos hl, if_pos (show j < b by omega), if_pos (show j = b - 1 by omega), if_pos (show j = 0 + b - 1 by omega), if_pos trivial,
        if_neg (show ¬ (1 : Nat) = 0 by omega), if_neg (show ¬ b ≤ i by omega), if_pos (show i < b by omega), if_pos (show 0 ≤ i by omega)]
      by_cases h0 : i = 0
      · subst h0
        rw [if_pos rfl, if_pos (show j ≤ 0 + b - 1 ∧ 0 + b - 1 - j < 0 + 1 by omega), if_pos rfl, if_pos rfl,
          show 0 + b - 1 - j = 0 by omega]
        simp only [Nat.sub_zero]
        ring
      · rw [if_neg h0, if_neg (show ¬ (j ≤ i - 1 ∧ i - 1 - j < 0 + 1) by omega), if_neg h0, if_neg h0, Nat.sub_zero]
        ring
    · rw [if_neg hl, if_pos (show j < b by omega), if_pos (show j + 1 < b by omega), if_neg (show ¬ j = b - 1 by omega),
        if_neg (show ¬ j = 0 + b - 1 by omega)]
      simp only [ite_self, mul_zero, add_zero]
      by_cases h0 : i = 0
      · subst h0
        rw [if_pos rfl, if_neg (show ¬ (j ≤ 0 + b - 1 ∧ 0 + b - 1 - j < 0 + 1) by omega), if_neg (show ¬ (j + 1 ≤ 0 ∧ 0 - (j + 1) < 0 + 1) by omega),
          sub_zero]
      · rw [if_neg h0, show i - 1 - j = i - (j + 1) by omega]
        by_cases h1 : j + 1 ≤ i ∧ i - (j + 1) < 0 + 1
        · rw [if_pos h1, if_pos (by omega), sub_self]
        · rw [if_neg h1, if_neg (by omega), sub_self]
  have hm : b % (a + b) = b := Nat.mod_eq_of_lt (by omega)
  rw [hm]
  rcases Nat.lt_trichotomy (j + 1) b with h | h | h
  · rw [if_neg (show ¬ j + 1 = a + b by omega), if_pos (show j < b by omega), if_pos h, if_neg (show ¬ j = b - 1 by omega),
      if_neg (show ¬ j = a + b - 1 by omega)]
    simp only [ite_self, mul_zero, add_zero]
    by_cases h0 : i = 0
    · subst h0
      rw [if_pos rfl, if_neg (show ¬ (j ≤ a + b - 1 ∧ a + b - 1 - j < a + 1) by omega), if_neg (show ¬ (j + 1 ≤ 0 ∧ 0 - (j + 1) < a + 1) by omega),
        sub_zero]
    · rw [if_neg h0, show i - 1 - j = i - (j + 1) by omega]
      by_cases h1 : j + 1 ≤ i ∧ i - (j + 1) < a + 1
      · rw [if_pos h1, if_pos (by omega), sub_self]
      · rw [if_neg h1, if_neg (by omega), sub_self]
  · -- the last column of the first part
    rw [if_neg (show ¬ j + 1 = a + b by omega), if_pos (show j < b by omega), if_neg (show ¬ j + 1 < b by omega), if_pos (show j = b - 1 by omega),
      if_neg (show ¬ j = a + b - 1 by omega), show j + 1 - b = 0 by omega]
    simp only [if_true, one_ne_zero, if_false, mul_zero, add_zero, mul_one, Nat.sub_zero, zero_le, true_and]
    by_cases h0 : i = 0
    · subst h0
      rw [if_pos rfl, if_pos (show j ≤ a + b - 1 ∧ a + b - 1 - j < a + 1 by omega), if_pos (show 0 < b + 1 by omega), if_neg (show ¬ b ≤ 0 by omega),
        if_pos rfl, if_pos hb0, if_neg (show ¬ 0 = b by omega), show a + b - 1 - j = a by omega]
      ring
    · rw [if_neg h0, if_neg h0, show i - 1 - j = i - b by omega, add_zero]
      rcases Nat.lt_trichotomy i b with h1 | h1 | h1
      · rw [if_neg (show ¬ (j ≤ i - 1 ∧ i - b < a + 1) by omega), if_pos (show i < b + 1 by omega), if_neg (show ¬ b ≤ i by omega), if_pos h1,
          if_neg (show ¬ i = b by omega)]
        ring
      · rw [if_pos (show j ≤ i - 1 ∧ i - b < a + 1 by omega), if_pos (show i < b + 1 by omega), if_pos (show b ≤ i by omega),
          if_neg (show ¬ i < b by omega), if_pos h1, h1]
        ring
      · rw [if_pos (show j ≤ i - 1 ∧ i - b < a + 1 by omega), if_neg (show ¬ i < b + 1 by omega), if_pos (show b ≤ i by omega),
          if_neg (show ¬ i < b by omega), if_neg (show ¬ i = b by omega)]
        ring
  · -- the second part
    rw [if_neg (show ¬ j < b by omega), if_neg (show ¬ j + 1 < b by omega), if_neg (show ¬ j = b - 1 by omega)]
    simp only [one_ne_zero, if_false, if_true, mul_zero, zero_add]
    by_cases hl : j + 1 = a + b
    · rw [if_pos hl, if_pos (show j = a + b - 1 by omega), mul_one, sub_zero]
      by_cases h0 : i = 0
      · subst h0
        rw [if_pos rfl, if_pos (show j - b ≤ a + b - 1 ∧ a + b - 1 - (j - b) < b + 1 by omega), if_neg (show ¬ a ≤ 0 by omega), if_pos rfl, zero_add]
        congr 1
        omega
      · rw [if_neg h0, if_neg h0, add_zero]
        by_cases h1 : a ≤ i
        · rw [if_pos h1, if_pos (show j - b ≤ i - 1 ∧ i - 1 - (j - b) < b + 1 by omega)]
          congr 1
          omega
        · rw [if_neg h1, if_neg (by omega)]
    · rw [if_neg hl, if_neg (show ¬ j = a + b - 1 by omega), mul_zero]
      by_cases h0 : i = 0
      · subst h0
        rw [if_pos rfl, if_neg (show ¬ (j - b ≤ a + b - 1 ∧ a + b - 1 - (j - b) < b + 1) by omega),
          if_neg (show ¬ (j + 1 - b ≤ 0 ∧ 0 - (j + 1 - b) < b + 1) by omega), sub_zero]
      · rw [if_neg h0, show i - 1 - (j - b) = i - (j + 1 - b) by omega]
        by_cases h1 : j + 1 - b ≤ i ∧ i - (j + 1 - b) < b + 1
        · rw [if_pos h1, if_pos (by omega), sub_self]
        · rw [if_neg h1, if_neg (by omega), sub_self]

/-- **C93**. `phi_plus_generators` gives two matrices with two columns such that `Z_1 M - M Z_0 = G H^t`, when the degree of `B` in `Y` is positive; when it is
    zero the entry `-1` of a vector is written. -/
theorem C93_gens {A B : PVec F} {o : Sylv F} (ho : Made A B o) (G H : PMat F[X]) :
    (2 ≤ B.len → ∃ G' H', o.gens G H = .ok (G', H') ∧ G'.rows = o.n ∧ G'.cols = 2 ∧ H'.rows = o.n ∧ H'.cols = 2 ∧
      ∀ i j, i < o.n → j < o.n → disp 1 0 o.n o.n (sylvEntry A B) i j = ∑ k ∈ Finset.range 2, G'.e (i, k) * H'.e (j, k)) ∧
    (B.len < 2 → o.gens G H = .ub) := by
  have h := made_inv ho
  have la := h.la
  have lb := h.lb
  refine ⟨fun hb => ?_, fun hb => ?_⟩
  · obtain ⟨G', H', e1, e2, e3, e4, e5, e6⟩ := gens_ok h (by omega) G H
    refine ⟨G', H', e1, e2, e3, e4, e5, fun i j hi hj => ?_⟩
    rw [Finset.sum_range_succ, Finset.sum_range_one, (e6 i hi).1, (e6 i hi).2.1, (e6 j hj).2.2 0 (by omega), (e6 j hj).2.2 1 (by omega), h.n,
      sylv_disp la lb (by omega) (by rw [← h.n]; exact hi) (by rw [← h.n]; exact hj)]
  · unfold Sylv.gens
    obtain ⟨G0, H0, z1, zG, zH, z2⟩ := gens_zero o.n (G := G.setDims o.n 2) (H := H.setDims o.n 2) ⟨rfl, rfl⟩ ⟨rfl, rfl⟩
    rw [z1, Bivar.andThen_ok]
    have : mupd H0 ((o.dBy : Int) - 1) 0 (fun _ => 1) = .ub := if_neg (by omega)
    dsimp only
    rw [this]
    rfl

end PML.Ntl.SylvX
