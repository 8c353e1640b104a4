import Verif.Ntl.StructXCircProps

/-! # Toeplitz-like matrices over `K[X]` -/

namespace PML.Ntl.StructX

open Polynomial PML.Ntl.Utils PML.Ntl.Inv PML.Ntl.Solve PML.Ntl.Struct PML.Ntl.Bivar PML.Ntl.FftPoints

variable {F : Type} [Field F]

theorem loopOut_stop {σ : Type} {f : Nat → σ → Out σ} {s t : σ} {k : Nat} : ∀ {n : Nat}, k < n → loopOut k f s = .ok t →
    (f k t = .ub → loopOut n f s = .ub) ∧ (f k t = .error → loopOut n f s = .error)
  | 0, h, _ => absurd h (by omega)
  | n + 1, h, e => by
    rw [show loopOut (n + 1) f s = andThen (loopOut n f s) (f n) from rfl]
    by_cases hk : k = n
    · subst hk
      rw [e, Bivar.andThen_ok]
      exact ⟨id, id⟩
    · obtain ⟨h1, h2⟩ := loopOut_stop (n := n) (by omega) e
      exact ⟨fun h => by rw [h1 h]; rfl, fun h => by rw [h2 h]; rfl⟩

/-! ### The displacement -/

theorem z_left (m : Nat) (c : F[X]) (f : Nat → F[X]) (i : Nat) (hi : i < m) :
    ∑ l ∈ Finset.range m, zEntry m c i l * f l = if i = 0 then c * f (m - 1) else f (i - 1) := by
  by_cases h : i = 0
  · rw [if_pos h, Finset.sum_eq_single (m - 1)]
    · unfold zEntry
      rw [if_neg (by omega), if_pos (by omega)]
    · intro b hb hb'
      rw [Finset.mem_range] at hb
      unfold zEntry
      rw [if_neg (by omega), if_neg (by omega), zero_mul]
    · intro hc
      exact absurd (Finset.mem_range.2 (by omega)) hc
  · rw [if_neg h, Finset.sum_eq_single (i - 1)]
    · unfold zEntry
      rw [if_pos (by omega), one_mul]
    · intro b hb hb'
      unfold zEntry
      rw [if_neg (by omega), if_neg (by omega), zero_mul]
    · intro hc
      exact absurd (Finset.mem_range.2 (by omega)) hc

theorem z_right (n : Nat) (c : F[X]) (f : Nat → F[X]) (j : Nat) (hj : j < n) :
    ∑ l ∈ Finset.range n, f l * zEntry n c l j = if j + 1 = n then f 0 * c else f (j + 1) := by
  by_cases h : j + 1 = n
  · rw [if_pos h, Finset.sum_eq_single 0]
    · unfold zEntry
      rw [if_neg (by omega), if_pos ⟨rfl, h⟩]
    · intro b hb hb'
      rw [Finset.mem_range] at hb
      unfold zEntry
      rw [if_neg (by omega), if_neg (by omega), mul_zero]
    · intro hc
      exact absurd (Finset.mem_range.2 (by omega)) hc
  · rw [if_neg h, Finset.sum_eq_single (j + 1)]
    · unfold zEntry
      rw [if_pos rfl, mul_one]
    · intro b hb hb'
      unfold zEntry
      rw [if_neg (by omega), if_neg (by omega), mul_zero]
    · intro hc
      exact absurd (Finset.mem_range.2 (by omega)) hc

theorem disp_minus (m n : Nat) (M : Nat → Nat → F[X]) (i j : Nat) (hi : i < m) (hj : j < n) :
    disp 0 1 m n M i j = (if i = 0 then 0 else M (i - 1) j) - M i (if j + 1 = n then 0 else j + 1) := by
  unfold disp
  rw [z_left m 0 (fun l => M l j) i hi, z_right n 1 (M i) j hj, zero_mul, mul_one]
  by_cases h : j + 1 = n
  · rw [if_pos h, if_pos h]
  · rw [if_neg h, if_neg h]

theorem disp_congr (c d : F[X]) {m n : Nat} {M N : Nat → Nat → F[X]} (h : ∀ i j, i < m → j < n → M i j = N i j) {i j : Nat} (hi : i < m) (hj : j < n) :
    disp c d m n M i j = disp c d m n N i j := by
  unfold disp
  refine congrArg₂ (· - ·) (Finset.sum_congr rfl fun l hl => ?_) (Finset.sum_congr rfl fun l hl => ?_)
  · rw [h l j (Finset.mem_range.1 hl) hj]
  · rw [h i l hi (Finset.mem_range.1 hl)]

/-- One term of the formula `M = sum_k L(-g_k) circ(rev h_k)`. -/
noncomputable def term (m n : Nat) (g h : Nat → F[X]) (i j : Nat) : F[X] :=
  ∑ l ∈ Finset.range m, triEntry (fun t => -g t) i l * circEntry n (fun t => h ((2 * n - 2 - t) % n)) l j

theorem circ_step {n : Nat} (h : Nat → F[X]) {j : Nat} (hj : j < n) :
    circEntry n (fun t => h ((2 * n - 2 - t) % n)) 0 (if j + 1 = n then 0 else j + 1) = h j ∧
    ∀ l, circEntry n (fun t => h ((2 * n - 2 - t) % n)) (l + 1) (if j + 1 = n then 0 else j + 1) = circEntry n (fun t => h ((2 * n - 2 - t) % n)) l j := by
  unfold circEntry
  dsimp only
  by_cases hc : j + 1 = n
  · rw [if_pos hc]
    refine ⟨?_, fun l => ?_⟩
    · rw [Nat.mod_eq_of_lt (a := 0 + (n - 1 - 0)) (by omega), Nat.mod_eq_of_lt (by omega)]
      congr 1
      omega
    · rw [show l + 1 + (n - 1 - 0) = l + (n - 1 - j) + n by omega, Nat.add_mod_right]
  · rw [if_neg hc]
    refine ⟨?_, fun l => ?_⟩
    · rw [Nat.mod_eq_of_lt (a := 0 + (n - 1 - (j + 1))) (by omega), show 2 * n - 2 - (0 + (n - 1 - (j + 1))) = j + n by omega, Nat.add_mod_right,
        Nat.mod_eq_of_lt hj]
    · rw [show l + 1 + (n - 1 - (j + 1)) = l + (n - 1 - j) by omega]

theorem term_disp (m n : Nat) (g h : Nat → F[X]) {i j : Nat} (hi : i < m) (hj : j < n) :
    (if i = 0 then 0 else term m n g h (i - 1) j) - term m n g h i (if j + 1 = n then 0 else j + 1) = g i * h j := by
  obtain ⟨c0, c1⟩ := circ_step h hj
  obtain ⟨k, rfl⟩ : ∃ k, m = k + 1 := ⟨m - 1, by omega⟩
  have e2 : term (k + 1) n g h i (if j + 1 = n then 0 else j + 1) = -(g i * h j) + if i = 0 then 0 else term (k + 1) n g h (i - 1) j := by
    unfold term
    rw [Finset.sum_range_succ', c0]
    have t0 : triEntry (fun t => -g t) i 0 = -g i := by unfold triEntry; rw [if_pos (by omega), Nat.sub_zero]
    rw [t0, add_comm, neg_mul]
    congr 1
    by_cases hz : i = 0
    · rw [if_pos hz]
      refine Finset.sum_eq_zero fun l _ => ?_
      unfold triEntry
      rw [if_neg (by omega), zero_mul]
    · rw [if_neg hz, Finset.sum_range_succ]
      have tz : triEntry (fun t => -g t) (i - 1) k = 0 := by unfold triEntry; rw [if_neg (by omega)]
      rw [tz, zero_mul, add_zero]
      refine Finset.sum_congr rfl fun l _ => ?_
      rw [c1 l]
      congr 1
      unfold triEntry
      by_cases hl : l + 1 ≤ i
      · rw [if_pos hl, if_pos (by omega), show i - (l + 1) = i - 1 - l by omega]
      · rw [if_neg hl, if_neg (by omega)]
  rw [e2]
  ring

/-- The matrix of the generators. -/
noncomputable def genEntry (U V : PMat F[X]) (i j : Nat) : F[X] :=
  ∑ k ∈ Finset.range U.cols, term U.rows V.rows (fun t => U.e (t, k)) (fun t => V.e (t, k)) i j

theorem genEntry_gens (U V : PMat F[X]) : HasGens U V (genEntry U V) := by
  intro i j hi hj
  rw [disp_minus _ _ _ _ _ hi hj]
  have e : ∀ k, U.e (i, k) * V.e (j, k) = _ := fun k => (term_disp U.rows V.rows (fun t => U.e (t, k)) (fun t => V.e (t, k)) hi hj).symm
  rw [Finset.sum_congr rfl fun k _ => e k, Finset.sum_sub_distrib]
  congr 1
  by_cases h : i = 0
  · simp only [if_pos h, Finset.sum_const_zero]
  · simp only [if_neg h]
    rfl

/-- **C92**. For all generators there is exactly one matrix `M` such that `Z_0 M - M Z_1 = U V^t`. -/
theorem C92_unique (U V : PMat F[X]) : (∃ M, HasGens U V M) ∧
    ∀ M N, HasGens U V M → HasGens U V N → ∀ i j, i < U.rows → j < V.rows → M i j = N i j := by
  refine ⟨⟨_, genEntry_gens U V⟩, fun M N hM hN i => ?_⟩
  have down : ∀ j, j < V.rows → ∃ j', j' < V.rows ∧ (if j' + 1 = V.rows then 0 else j' + 1) = j := by
    intro j hj
    by_cases h : j = 0
    · exact ⟨V.rows - 1, by omega, by rw [if_pos (by omega)]; omega⟩
    · exact ⟨j - 1, by omega, by rw [if_neg (by omega)]; omega⟩
  induction i with
  | zero =>
    intro j hi hj
    obtain ⟨j', hj', e⟩ := down j hj
    have h1 := hM 0 j' hi hj'
    have h2 := hN 0 j' hi hj'
    rw [disp_minus _ _ _ _ _ hi hj', e, if_pos rfl] at h1 h2
    linear_combination h2 - h1
  | succ i ih =>
    intro j hi hj
    obtain ⟨j', hj', e⟩ := down j hj
    have h1 := hM (i + 1) j' hi hj'
    have h2 := hN (i + 1) j' hi hj'
    rw [disp_minus _ _ _ _ _ hi hj', e, if_neg (by omega), Nat.add_sub_cancel] at h1 h2
    rw [ih j' (by omega) hj'] at h1
    linear_combination h2 - h1

/-! ### The constructor -/

theorem mget_ok {M : PMat F[X]} {i j : Nat} (hi : i < M.rows) (hj : j < M.cols) : mget M i j = .ok (M.e (i, j)) := if_pos ⟨hi, hj⟩

theorem mget_ub {M : PMat F[X]} {i j : Nat} (hj : M.cols ≤ j) : mget M i j = .ub := if_neg (by omega)

/-- What the constructor guarantees. -/
structure LikeInv (U V : PMat F[X]) (o : Like F) : Prop where
  m : o.m = U.rows
  n : o.n = V.rows
  G : o.G = U
  gens : ∀ k, k < U.cols → ∃ vg vh : PVec F, Tri.Reach vg (o.toepl k) ∧ Circ.Reach vh U.rows (o.circ k) ∧ vg.len = U.rows ∧ vh.len = V.rows ∧
    (∀ i, i < U.rows → vg.at' i = -U.e (i, k)) ∧ ∀ j, j < V.rows → vh.at' j = V.e ((2 * V.rows - 2 - j) % V.rows, k)

theorem vecG_ok (g : Junk F) (U : PMat F[X]) {k : Nat} (hk : k < U.cols) :
    ∃ w, loopPut 0 U.rows (fun j _ => andThen (mget U j k) fun z => .ok (-z)) { g.old with len := U.rows } = .ok w ∧ w.len = U.rows ∧
      ∀ i, i < U.rows → w.at' i = -U.e (i, k) := by
  obtain ⟨w, h1, h2, h3⟩ := loopPut_ok (lo := 0) (n := U.rows) (f := fun j _ => andThen (mget U j k) fun z => .ok (-z)) (r := { g.old with len := U.rows })
    (fun i => -U.e (i, k)) (by simp) (fun i hi _ _ _ => by rw [mget_ok hi hk, Bivar.andThen_ok, Nat.zero_add])
  exact ⟨w, h1, h2, fun i hi => by rw [h3, if_pos (by omega)]⟩

theorem idx_step {n j : Nat} (hj : j < n) :
    (if (2 * n - 2 - j) % n = 0 then n - 1 else (2 * n - 2 - j) % n - 1) = if j + 1 = n then (2 * n - 2 - j) % n - 1 else (2 * n - 2 - (j + 1)) % n := by
  by_cases h : j + 1 = n
  · rw [if_pos h, Nat.mod_eq_of_lt (by omega)]
    by_cases h1 : 2 * n - 2 - j = 0
    · rw [if_pos h1]
      omega
    · rw [if_neg h1]
  · rw [if_neg h, show 2 * n - 2 - j = (n - 2 - j) + n by omega, Nat.add_mod_right, Nat.mod_eq_of_lt (by omega)]
    by_cases h2 : n - 2 - j = 0
    · rw [if_pos h2, Nat.mod_eq_of_lt (by omega)]
      omega
    · rw [if_neg h2, show 2 * n - 2 - (j + 1) = (n - 2 - j - 1) + n by omega, Nat.add_mod_right, Nat.mod_eq_of_lt (by omega)]

theorem vecH_ok (g : Junk F) (V : PMat F[X]) {k : Nat} (hn : 0 < V.rows) (hk : k < V.cols) :
    ∃ s, loopOut V.rows (fun j (s : Nat × PVec F) =>
        andThen (mget V s.1 k) fun z =>
        andThen (s.2.put (j : Int) z) fun v => .ok (if s.1 = 0 then V.rows - 1 else s.1 - 1, v))
        (if V.rows < 2 then V.rows + V.rows - 2 else V.rows - 2, { g.old with len := V.rows }) = .ok s ∧ s.2.len = V.rows ∧
      ∀ j, j < V.rows → s.2.at' j = V.e ((2 * V.rows - 2 - j) % V.rows, k) := by
  obtain ⟨s, h1, -, h2, h3⟩ := loopOut_inv (f := fun j (s : Nat × PVec F) =>
        andThen (mget V s.1 k) fun z =>
        andThen (s.2.put (j : Int) z) fun v => .ok (if s.1 = 0 then V.rows - 1 else s.1 - 1, v))
      (s := (if V.rows < 2 then V.rows + V.rows - 2 else V.rows - 2, { g.old with len := V.rows }))
      (fun i (s : Nat × PVec F) => (i < V.rows → s.1 = (2 * V.rows - 2 - i) % V.rows) ∧ s.2.len = V.rows ∧
        ∀ j, j < i → s.2.at' j = V.e ((2 * V.rows - 2 - j) % V.rows, k)) V.rows
    (by
      refine ⟨fun _ => ?_, rfl, fun j hj => absurd hj (by omega)⟩
      dsimp only
      by_cases h : V.rows < 2
      · rw [if_pos h, Nat.mod_eq_of_lt (by omega)]
        omega
      · rw [if_neg h, show 2 * V.rows - 2 - 0 = (V.rows - 2) + V.rows by omega, Nat.add_mod_right, Nat.mod_eq_of_lt (by omega)])
    (by
      rintro i ⟨x, v⟩ hi ⟨e1, e2, e3⟩
      dsimp only at e1 e2 e3 ⊢
      have hx := e1 hi
      have hlt : x < V.rows := by rw [hx]; exact Nat.mod_lt _ (by omega)
      rw [mget_ok hlt hk, Bivar.andThen_ok, put_ok' _ (by omega), Bivar.andThen_ok]
      refine ⟨_, rfl, fun hi' => ?_, e2, fun j hj => ?_⟩
      · dsimp only
        rw [hx, idx_step hi, if_neg (by omega)]
      · dsimp only
        by_cases hc : j = i
        · rw [hc, Bivar.write_self, hx]
        · rw [Bivar.write_ne _ _ hc, e3 j (by omega)])
  exact ⟨s, h1, h2, h3⟩

theorem make_loop (g : Junk F) (x y : Int) (U V : PMat F[X]) (hm : 0 < U.rows) (hn : 0 < V.rows) (a : Nat) (ha : a ≤ U.cols) (hv : a ≤ V.cols) :
    ∃ s : (Nat → Tri F) × (Nat → Circ F), loopOut a (fun i (s : (Nat → Tri F) × (Nat → Circ F)) =>
      andThen (loopPut 0 U.rows (fun j _ => andThen (mget U j i) fun z => .ok (-z)) { g.old with len := U.rows }) fun vecG =>
      andThen (loopOut V.rows (fun j (s : Nat × PVec F) =>
        andThen (mget V s.1 i) fun z =>
        andThen (s.2.put (j : Int) z) fun v => .ok (if s.1 = 0 then V.rows - 1 else s.1 - 1, v))
        (if V.rows < 2 then V.rows + V.rows - 2 else V.rows - 2, { g.old with len := V.rows })) fun s2 =>
      andThen (Circ.make g s2.2 U.rows) fun c =>
      .ok (write i (Tri.make vecG) s.1, write i c s.2)) (fun _ => Tri.default x y, fun _ => Circ.default x y) = .ok s ∧
      ∀ k, k < a → ∃ vg vh : PVec F, Tri.Reach vg (s.1 k) ∧ Circ.Reach vh U.rows (s.2 k) ∧ vg.len = U.rows ∧ vh.len = V.rows ∧
        (∀ i, i < U.rows → vg.at' i = -U.e (i, k)) ∧ ∀ j, j < V.rows → vh.at' j = V.e ((2 * V.rows - 2 - j) % V.rows, k) := by
  refine loopOut_inv (fun a (s : (Nat → Tri F) × (Nat → Circ F)) => ∀ k, k < a → ∃ vg vh : PVec F, Tri.Reach vg (s.1 k) ∧ Circ.Reach vh U.rows (s.2 k) ∧
    vg.len = U.rows ∧ vh.len = V.rows ∧ (∀ i, i < U.rows → vg.at' i = -U.e (i, k)) ∧ ∀ j, j < V.rows → vh.at' j = V.e ((2 * V.rows - 2 - j) % V.rows, k)) a
    (fun k hk => absurd hk (by omega)) ?_
  intro i s hi hs
  obtain ⟨vg, g1, g2, g3⟩ := vecG_ok g U (k := i) (by omega)
  obtain ⟨s2, v1, v2, v3⟩ := vecH_ok g V (k := i) hn (by omega)
  obtain ⟨c, c1, c2⟩ := (C92_circ_make g s2.2 U.rows).1 (by omega)
  rw [g1, Bivar.andThen_ok, v1, Bivar.andThen_ok, c1, Bivar.andThen_ok]
  refine ⟨_, rfl, fun k hk => ?_⟩
  dsimp only
  by_cases hc : k = i
  · subst hc
    rw [Bivar.write_self, Bivar.write_self]
    exact ⟨vg, s2.2, .make, c2, g2, v2, g3, v3⟩
  · rw [Bivar.write_ne _ _ hc, Bivar.write_ne _ _ hc]
    exact hs k (by omega)

theorem Like.make_inv (g : Junk F) (x y : Int) (U V : PMat F[X]) (hm : 0 < U.rows) (hn : 0 < V.rows) (hv : U.cols ≤ V.cols) :
    ∃ o, Like.make g x y U V = .ok o ∧ LikeInv U V o := by
  obtain ⟨s, e, hs⟩ := make_loop g x y U V hm hn U.cols (le_refl _) hv
  unfold Like.make
  dsimp only
  rw [if_neg (by omega), e, Bivar.andThen_ok]
  exact ⟨_, rfl, rfl, rfl, rfl, hs⟩

/-- **C92**. The constructor of Toeplitz-like matrices succeeds if the second generator has at least as many columns as the first one; when it has
    fewer, and the matrix is not empty, the constructor reads outside the second generator. -/
theorem C92_like_make (g : Junk F) (x y : Int) (U V : PMat F[X]) (hm : 0 < U.rows) (hn : 0 < V.rows) :
    (U.cols ≤ V.cols → ∃ o, Like.make g x y U V = .ok o) ∧ (V.cols < U.cols → Like.make g x y U V = .ub) := by
  refine ⟨fun hv => ?_, fun hv => ?_⟩
  · obtain ⟨o, e, -⟩ := Like.make_inv g x y U V hm hn hv
    exact ⟨o, e⟩
  · obtain ⟨s, e, -⟩ := make_loop g x y U V hm hn V.cols (by omega) (le_refl _)
    unfold Like.make
    dsimp only
    rw [if_neg (by omega), (loopOut_stop hv e).1]
    · rfl
    · obtain ⟨vg, g1, g2, g3⟩ := vecG_ok g U (k := V.cols) hv
      rw [g1, Bivar.andThen_ok]
      have h2 : ∀ s0 : Nat × PVec F, loopOut V.rows (fun j (s : Nat × PVec F) =>
        andThen (mget V s.1 V.cols) fun z =>
        andThen (s.2.put (j : Int) z) fun v => .ok (if s.1 = 0 then V.rows - 1 else s.1 - 1, v)) s0 = .ub := fun s0 =>
        (loopOut_stop (k := 0) (t := s0) hn rfl).1 (by rw [mget_ub (le_refl _)]; rfl)
      rw [h2]
      rfl

/-! ### Products by a vector -/

theorem accum_ok {m : Nat} {r t : PVec F} (hr : r.len = m) (ht : t.len = m) :
    ∃ w, accum m r t = .ok w ∧ w.len = m ∧ ∀ j, j < m → w.at' j = r.at' j + t.at' j := by
  obtain ⟨w, h1, h2, h3⟩ := loopPut_ok (lo := 0) (n := m)
    (f := fun j r => andThen (r.get (j : Int)) fun z => andThen (t.get (j : Int)) fun x => .ok (z + x)) (r := r)
    (fun j => r.at' j + t.at' j) (by omega) (fun i hi r' e1 e2 => by
      rw [get_ok' (by omega), Bivar.andThen_ok, get_ok' (by omega), Bivar.andThen_ok, Nat.zero_add, e2, if_neg (by omega)])
  exact ⟨w, h1, by omega, fun i hi => by rw [h3, if_pos (by omega)]⟩

theorem accum_loop {m k : Nat} (res : PVec F) {f : Nat → PVec F → Out (PVec F)} (val : Nat → Nat → F[X])
    (hf : ∀ i, i < k → ∀ r, ∃ t, f i r = accum m r t ∧ t.len = m ∧ ∀ j, j < m → t.at' j = val i j) :
    ∃ w, andThen (zeros res m) (fun r => loopOut k f r) = .ok w ∧ w.len = m ∧ ∀ j, j < m → w.at' j = ∑ i ∈ Finset.range k, val i j := by
  obtain ⟨z, z1, z2, z3⟩ := zeros_ok res m
  rw [z1, Bivar.andThen_ok]
  refine loopOut_inv (fun i (r : PVec F) => r.len = m ∧ ∀ j, j < m → r.at' j = ∑ i ∈ Finset.range i, val i j) k ⟨z2, fun j hj => ?_⟩ ?_
  · rw [z3 j hj, Finset.range_zero, Finset.sum_empty]
  · rintro i r hi ⟨h1, h2⟩
    obtain ⟨t, t1, t2, t3⟩ := hf i hi r
    obtain ⟨w, w1, w2, w3⟩ := accum_ok h1 t2
    exact ⟨w, by rw [t1, w1], w2, fun j hj => by rw [w3 j hj, h2 j hj, t3 j hj, Finset.sum_range_succ]⟩

theorem loop_error {k m : Nat} (res : PVec F) {f : Nat → PVec F → Out (PVec F)} (hk : 0 < k) (hf : ∀ r, f 0 r = .error) :
    andThen (zeros res m) (fun r => loopOut k f r) = .error := by
  obtain ⟨z, z1, -, -⟩ := zeros_ok res m
  rw [z1, Bivar.andThen_ok]
  exact (loopOut_stop hk rfl).2 (hf z)

theorem tri_at {m : Nat} {vg : PVec F} {a : Nat → F[X]} (h : ∀ i, i < m → vg.at' i = a i) {i : Nat} (hi : i < m) (l : Nat) :
    triEntry vg.at' i l = triEntry a i l := by
  unfold triEntry
  by_cases hl : l ≤ i
  · rw [if_pos hl, if_pos hl, h _ (by omega)]
  · rw [if_neg hl, if_neg hl]

theorem circ_at {n : Nat} {vh : PVec F} {a : Nat → F[X]} (h : ∀ i, i < n → vh.at' i = a i) (i : Nat) {j : Nat} (hj : j < n) :
    circEntry n vh.at' i j = circEntry n a i j := h _ (Nat.mod_lt _ (by omega))

/-- The product of a row by the product of two matrices. -/
theorem assoc_right {m n : Nat} (A B : Nat → Nat → F[X]) (v : Nat → F[X]) (i : Nat) :
    ∑ l ∈ Finset.range m, A i l * ∑ j ∈ Finset.range n, B l j * v j = ∑ j ∈ Finset.range n, (∑ l ∈ Finset.range m, A i l * B l j) * v j := by
  simp only [Finset.mul_sum, Finset.sum_mul]
  rw [Finset.sum_comm]
  exact Finset.sum_congr rfl fun _ _ => Finset.sum_congr rfl fun _ _ => by ring

theorem assoc_left {m : Nat} (A B : Nat → Nat → F[X]) (v : Nat → F[X]) (j : Nat) :
    ∑ l ∈ Finset.range m, (∑ i ∈ Finset.range m, v i * A i l) * B l j = ∑ i ∈ Finset.range m, v i * ∑ l ∈ Finset.range m, A i l * B l j := by
  simp only [Finset.mul_sum, Finset.sum_mul]
  rw [Finset.sum_comm]
  exact Finset.sum_congr rfl fun _ _ => Finset.sum_congr rfl fun _ _ => by ring

theorem mod_right (s : Nat) {k : Nat} (a b : Nat → F[X]) :
    (∑ l ∈ Finset.range k, a l * (b l %ₘ X ^ s)) %ₘ X ^ s = (∑ l ∈ Finset.range k, a l * b l) %ₘ X ^ s := by
  refine (mod_congr ?_).symm
  rw [← Finset.sum_sub_distrib]
  refine Finset.dvd_sum fun j _ => ?_
  rw [← mul_sub]
  exact (dvd_sub_mod _ _).mul_left _

theorem mod_left (s : Nat) {k : Nat} (a b : Nat → F[X]) :
    (∑ l ∈ Finset.range k, (b l %ₘ X ^ s) * a l) %ₘ X ^ s = (∑ l ∈ Finset.range k, b l * a l) %ₘ X ^ s := by
  simp only [mul_comm _ (a _)]
  exact mod_right s a b

theorem mod_sum (s : Nat) {k : Nat} (a : Nat → F[X]) :
    ∑ l ∈ Finset.range k, (a l %ₘ X ^ s) = (∑ l ∈ Finset.range k, a l) %ₘ X ^ s := by
  induction k with
  | zero => simp
  | succ k ih => rw [Finset.sum_range_succ, Finset.sum_range_succ, ih, ← mod_add_mod]

theorem gens_sum {U V : PMat F[X]} {M : Nat → Nat → F[X]} (hM : HasGens U V M) {i j : Nat} (hi : i < U.rows) (hj : j < V.rows) :
    M i j = genEntry U V i j := (C92_unique U V).2 M _ hM (genEntry_gens U V) i j hi hj

/-- The factors, for the generator `k`. -/
noncomputable abbrev lo (U : PMat F[X]) (k : Nat) : Nat → Nat → F[X] := triEntry (fun t => -U.e (t, k))

/-- The factors, for the generator `k`. -/
noncomputable abbrev ci (V : PMat F[X]) (k : Nat) : Nat → Nat → F[X] := circEntry V.rows (fun t => V.e ((2 * V.rows - 2 - t) % V.rows, k))

theorem right_total {U V : PMat F[X]} {M : Nat → Nat → F[X]} (hM : HasGens U V M) (v : Nat → F[X]) {i : Nat} (hi : i < U.rows) :
    ∑ k ∈ Finset.range U.cols, ∑ l ∈ Finset.range U.rows, lo U k i l * ∑ j ∈ Finset.range V.rows, ci V k l j * v j =
      ∑ j ∈ Finset.range V.rows, M i j * v j := by
  rw [Finset.sum_congr rfl fun k _ => assoc_right (lo U k) (ci V k) v i, Finset.sum_comm]
  refine Finset.sum_congr rfl fun j hj => ?_
  rw [gens_sum hM hi (Finset.mem_range.1 hj), ← Finset.sum_mul]
  rfl

theorem left_total {U V : PMat F[X]} {M : Nat → Nat → F[X]} (hM : HasGens U V M) (v : Nat → F[X]) {j : Nat} (hj : j < V.rows) :
    ∑ k ∈ Finset.range U.cols, ∑ l ∈ Finset.range U.rows, (∑ i ∈ Finset.range U.rows, v i * lo U k i l) * ci V k l j =
      ∑ i ∈ Finset.range U.rows, v i * M i j := by
  rw [Finset.sum_congr rfl fun k _ => assoc_left (lo U k) (ci V k) v j, Finset.sum_comm]
  refine Finset.sum_congr rfl fun i hi => ?_
  rw [gens_sum hM (Finset.mem_range.1 hi) hj, ← Finset.mul_sum]
  rfl

/-- **C92**. `mul_right` of the matrix `M` such that `Z_0 M - M Z_1 = U V^t`. -/
theorem C92_like_right {U V : PMat F[X]} {M : Nat → Nat → F[X]} (hM : HasGens U V M) (hm : 0 < U.rows) (hn : 0 < V.rows) (hv : U.cols ≤ V.cols)
    {g : Junk F} {x y : Int} {o : Like F} (ho : Like.make g x y U V = .ok o) (g' : Junk F) (res input : PVec F) :
    (input.len = V.rows → IsRight (o.mulRight g' res input) U.rows V.rows M input.at') ∧
    (input.len ≠ V.rows → 0 < U.cols → o.mulRight g' res input = .error) := by
  obtain ⟨o', e, h⟩ := Like.make_inv g x y U V hm hn hv
  rw [ho] at e
  cases e
  unfold Like.mulRight
  rw [h.m, h.G]
  refine ⟨fun hl => ?_, fun hl hc => loop_error res hc fun r => ?_⟩
  · obtain ⟨w, w1, w2, w3⟩ := accum_loop (m := U.rows) (k := U.cols) res
      (f := fun i r =>
        andThen ((o.circ i).mulRight g' g'.old input) fun t1 =>
        andThen ((o.toepl i).mulRight g' g'.old t1) fun t2 => accum U.rows r t2)
      (fun k i => ∑ l ∈ Finset.range U.rows, lo U k i l * ∑ j ∈ Finset.range V.rows, ci V k l j * input.at' j) (fun k hk r => by
      obtain ⟨vg, vh, a1, a2, a3, a4, a5, a6⟩ := h.gens k hk
      obtain ⟨t1, b1, b2, b3⟩ := (C92_circ_right a2 g' g'.old input).1 (by omega)
      obtain ⟨t2, c1, c2, c3⟩ := (C92_tri_right a1 g' g'.old t1).1 (by omega)
      rw [b1, Bivar.andThen_ok, c1, Bivar.andThen_ok]
      refine ⟨t2, rfl, by omega, fun i hi => ?_⟩
      rw [c3 i (by omega), a3]
      refine Finset.sum_congr rfl fun l hl => ?_
      rw [tri_at a5 hi, b3 l (by rw [Finset.mem_range] at hl; omega), a4]
      exact congrArg _ (Finset.sum_congr rfl fun j hj => by rw [circ_at a6 _ (Finset.mem_range.1 hj)]))
    exact ⟨w, w1, w2, fun i hi => by rw [w3 i hi, right_total hM _ hi]⟩
  · obtain ⟨vg, vh, a1, a2, a3, a4, a5, a6⟩ := h.gens 0 hc
    rw [(C92_circ_right a2 g' g'.old input).2 (by omega)]
    rfl

/-- **C92**. `mul_left` of the matrix `M` such that `Z_0 M - M Z_1 = U V^t`. -/
theorem C92_like_left {U V : PMat F[X]} {M : Nat → Nat → F[X]} (hM : HasGens U V M) (hm : 0 < U.rows) (hn : 0 < V.rows) (hv : U.cols ≤ V.cols)
    {g : Junk F} {x y : Int} {o : Like F} (ho : Like.make g x y U V = .ok o) (g' : Junk F) (res input : PVec F) :
    (input.len = U.rows → IsLeft (o.mulLeft g' res input) U.rows V.rows M input.at') ∧
    (input.len ≠ U.rows → 0 < U.cols → o.mulLeft g' res input = .error) := by
  obtain ⟨o', e, h⟩ := Like.make_inv g x y U V hm hn hv
  rw [ho] at e
  cases e
  unfold Like.mulLeft
  rw [h.n, h.G]
  refine ⟨fun hl => ?_, fun hl hc => loop_error res hc fun r => ?_⟩
  · obtain ⟨w, w1, w2, w3⟩ := accum_loop (m := V.rows) (k := U.cols) res
      (f := fun i r =>
        andThen ((o.toepl i).mulLeft g' g'.old input) fun t1 =>
        andThen ((o.circ i).mulLeft g' g'.old t1) fun t2 => accum V.rows r t2)
      (fun k j => ∑ l ∈ Finset.range U.rows, (∑ i ∈ Finset.range U.rows, input.at' i * lo U k i l) * ci V k l j) (fun k hk r => by
      obtain ⟨vg, vh, a1, a2, a3, a4, a5, a6⟩ := h.gens k hk
      obtain ⟨t1, b1, b2, b3⟩ := (C92_tri_left a1 g' g'.old input).1 (by omega)
      obtain ⟨t2, c1, c2, c3⟩ := (C92_circ_left a2 g' g'.old t1).1 (by omega)
      rw [b1, Bivar.andThen_ok, c1, Bivar.andThen_ok]
      refine ⟨t2, rfl, by omega, fun j hj => ?_⟩
      rw [c3 j (by omega)]
      refine Finset.sum_congr rfl fun l hl => ?_
      rw [a4, circ_at a6 _ hj, b3 l (by rw [Finset.mem_range] at hl; omega), a3]
      exact congrArg (· * _) (Finset.sum_congr rfl fun i hi => by rw [tri_at a5 (Finset.mem_range.1 hi)]))
    exact ⟨w, w1, w2, fun i hi => by rw [w3 i hi, left_total hM _ hi]⟩
  · obtain ⟨vg, vh, a1, a2, a3, a4, a5, a6⟩ := h.gens 0 hc
    rw [(C92_tri_left a1 g' g'.old input).2 (by omega)]
    rfl

/-- **C92**. `mul_right_trunc` of the matrix `M` such that `Z_0 M - M Z_1 = U V^t`. -/
theorem C92_like_right_trunc {U V : PMat F[X]} {M : Nat → Nat → F[X]} (hM : HasGens U V M) (hm : 0 < U.rows) (hn : 0 < V.rows) (hv : U.cols ≤ V.cols)
    {g : Junk F} {x y : Int} {o : Like F} (ho : Like.make g x y U V = .ok o) (g' : Junk F) (res input : PVec F) (s : Nat) :
    (input.len = V.rows → IsRightMod s (o.mulRightTrunc g' res input s) U.rows V.rows M input.at') ∧
    (input.len ≠ V.rows → 0 < U.cols → o.mulRightTrunc g' res input s = .error) := by
  obtain ⟨o', e, h⟩ := Like.make_inv g x y U V hm hn hv
  rw [ho] at e
  cases e
  unfold Like.mulRightTrunc
  rw [h.m, h.G]
  refine ⟨fun hl => ?_, fun hl hc => loop_error res hc fun r => ?_⟩
  · obtain ⟨w, w1, w2, w3⟩ := accum_loop (m := U.rows) (k := U.cols) res
      (f := fun i r =>
        andThen ((o.circ i).mulRightTrunc g' g'.old input s) fun t1 =>
        andThen ((o.toepl i).mulRightTrunc g' g'.old t1 s) fun t2 => accum U.rows r t2)
      (fun k i => (∑ l ∈ Finset.range U.rows, lo U k i l * ∑ j ∈ Finset.range V.rows, ci V k l j * input.at' j) %ₘ X ^ s) (fun k hk r => by
      obtain ⟨vg, vh, a1, a2, a3, a4, a5, a6⟩ := h.gens k hk
      obtain ⟨t1, b1, b2, b3⟩ := (C92_circ_right_trunc a2 g' g'.old input s).1 (by omega)
      obtain ⟨t2, c1, c2, c3⟩ := (C92_tri_right_trunc a1 g' g'.old t1 s).1 (by omega)
      rw [b1, Bivar.andThen_ok, c1, Bivar.andThen_ok]
      refine ⟨t2, rfl, by omega, fun i hi => ?_⟩
      rw [c3 i (by omega), a3, ← mod_right s (lo U k i)]
      refine congrArg (· %ₘ X ^ s) (Finset.sum_congr rfl fun l hl => ?_)
      rw [tri_at a5 hi, b3 l (by rw [Finset.mem_range] at hl; omega), a4]
      exact congrArg (fun z => _ * (z %ₘ X ^ s)) (Finset.sum_congr rfl fun j hj => by rw [circ_at a6 _ (Finset.mem_range.1 hj)]))
    exact ⟨w, w1, w2, fun i hi => by rw [w3 i hi, mod_sum, right_total hM _ hi]⟩
  · obtain ⟨vg, vh, a1, a2, a3, a4, a5, a6⟩ := h.gens 0 hc
    rw [(C92_circ_right_trunc a2 g' g'.old input s).2 (by omega)]
    rfl

/-- **C92**. `mul_left_trunc` of the matrix `M` such that `Z_0 M - M Z_1 = U V^t`. -/
theorem C92_like_left_trunc {U V : PMat F[X]} {M : Nat → Nat → F[X]} (hM : HasGens U V M) (hm : 0 < U.rows) (hn : 0 < V.rows) (hv : U.cols ≤ V.cols)
    {g : Junk F} {x y : Int} {o : Like F} (ho : Like.make g x y U V = .ok o) (g' : Junk F) (res input : PVec F) (s : Nat) :
    (input.len = U.rows → IsLeftMod s (o.mulLeftTrunc g' res input s) U.rows V.rows M input.at') ∧
    (input.len ≠ U.rows → 0 < U.cols → o.mulLeftTrunc g' res input s = .error) := by
  obtain ⟨o', e, h⟩ := Like.make_inv g x y U V hm hn hv
  rw [ho] at e
  cases e
  unfold Like.mulLeftTrunc
  rw [h.n, h.G]
  refine ⟨fun hl => ?_, fun hl hc => loop_error res hc fun r => ?_⟩
  · obtain ⟨w, w1, w2, w3⟩ := accum_loop (m := V.rows) (k := U.cols) res
      (f := fun i r =>
        andThen ((o.toepl i).mulLeftTrunc g' g'.old input s) fun t1 =>
        andThen ((o.circ i).mulLeftTrunc g' g'.old t1 s) fun t2 => accum V.rows r t2)
      (fun k j => (∑ l ∈ Finset.range U.rows, (∑ i ∈ Finset.range U.rows, input.at' i * lo U k i l) * ci V k l j) %ₘ X ^ s) (fun k hk r => by
      obtain ⟨vg, vh, a1, a2, a3, a4, a5, a6⟩ := h.gens k hk
      obtain ⟨t1, b1, b2, b3⟩ := (C92_tri_left_trunc a1 g' g'.old input s).1 (by omega)
      obtain ⟨t2, c1, c2, c3⟩ := (C92_circ_left_trunc a2 g' g'.old t1 s).1 (by omega)
      rw [b1, Bivar.andThen_ok, c1, Bivar.andThen_ok]
      refine ⟨t2, rfl, by omega, fun j hj => ?_⟩
      rw [c3 j (by omega), ← mod_left s (fun l => ci V k l j)]
      refine congrArg (· %ₘ X ^ s) (Finset.sum_congr rfl fun l hl => ?_)
      rw [a4, circ_at a6 _ hj, b3 l (by rw [Finset.mem_range] at hl; omega), a3]
      exact congrArg (fun z => (z %ₘ X ^ s) * _) (Finset.sum_congr rfl fun i hi => by rw [tri_at a5 (Finset.mem_range.1 hi)]))
    exact ⟨w, w1, w2, fun i hi => by rw [w3 i hi, mod_sum, left_total hM _ hi]⟩
  · obtain ⟨vg, vh, a1, a2, a3, a4, a5, a6⟩ := h.gens 0 hc
    rw [(C92_tri_left_trunc a1 g' g'.old input s).2 (by omega)]
    rfl

/-- The dense matrix is added to the earlier content of the output. -/
theorem like_dense_add {U V : PMat F[X]} {M : Nat → Nat → F[X]} (hM : HasGens U V M) (hm : 0 < U.rows) (hn : 0 < V.rows) (hv : U.cols ≤ V.cols)
    {g : Junk F} {x y : Int} {o : Like F} (ho : Like.make g x y U V = .ok o) (D : PMat F[X]) :
    IsMat (o.toDense D) U.rows V.rows (fun i j => (if D.cols = V.rows then D.e (i, j) else 0) + M i j) := by
  obtain ⟨o', e, h⟩ := Like.make_inv g x y U V hm hn hv
  rw [ho] at e
  cases e
  unfold Like.toDense
  rw [h.m, h.n, h.G]
  obtain ⟨w, w1, w2, w3, w4⟩ := loopOut_inv
    (f := fun i y => andThen (mmul ((o.toepl i).toDense newMat) ((o.circ i).toDense newMat)) fun z => madd y z) (s := D.setDims U.rows V.rows)
    (fun k (w : PMat F[X]) => w.rows = U.rows ∧ w.cols = V.rows ∧ ∀ i j, i < U.rows → j < V.rows → w.e (i, j) =
      (if D.cols = V.rows then D.e (i, j) else 0) + ∑ k ∈ Finset.range k, term U.rows V.rows (fun t => U.e (t, k)) (fun t => V.e (t, k)) i j) U.cols
    (by
      refine ⟨rfl, rfl, fun i j hi hj => ?_⟩
      rw [Finset.range_zero, Finset.sum_empty, add_zero]
      unfold PMat.setDims
      dsimp only
      split <;> rfl)
    (by
      rintro k w hk ⟨e1, e2, e3⟩
      obtain ⟨vg, vh, a1, a2, a3, a4, a5, a6⟩ := h.gens k hk
      obtain ⟨A, b1, b2, b3, b4⟩ := C92_tri_dense_partial a1 newMat (.inl (by rw [a3]; show 0 ≠ _; omega))
      obtain ⟨B, c1, c2, c3, c4⟩ := C92_circ_dense a2 newMat
      cases b1
      cases c1
      have hmul : mmul ((o.toepl k).toDense newMat) ((o.circ k).toDense newMat) = .ok _ := if_neg (by omega)
      rw [hmul, Bivar.andThen_ok]
      refine ⟨_, if_neg ?_, e1, e2, fun i j hi hj => ?_⟩
      · dsimp only
        omega
      · dsimp only
        rw [e3 i j hi hj, Finset.sum_range_succ, ← add_assoc]
        congr 1
        unfold term
        rw [b3, a3]
        refine Finset.sum_congr rfl fun l hl => ?_
        rw [Finset.mem_range] at hl
        rw [b4 i l (by omega) (by omega), c4 l j (by omega) (by omega), tri_at a5 hi, a4, circ_at a6 _ hj])
  refine ⟨w, w1, w2, w3, fun i j hi hj => ?_⟩
  dsimp only
  rw [w4 i j hi hj, gens_sum hM hi hj]
  rfl

/-- **C92**. `to_dense` gives the matrix, if the output has another number of columns before the call, or is zero.

    What is missing: an output of the same size holding another matrix; see `C92_like_dense_stale`. -/
theorem C92_like_dense_partial {U V : PMat F[X]} {M : Nat → Nat → F[X]} (hM : HasGens U V M) (hm : 0 < U.rows) (hn : 0 < V.rows) (hv : U.cols ≤ V.cols)
    {g : Junk F} {x y : Int} {o : Like F} (ho : Like.make g x y U V = .ok o) (D : PMat F[X])
    (hD : D.cols ≠ V.rows ∨ ∀ i j, i < U.rows → j < V.rows → D.e (i, j) = 0) : IsMat (o.toDense D) U.rows V.rows M := by
  obtain ⟨w, w1, w2, w3, w4⟩ := like_dense_add hM hm hn hv ho D
  refine ⟨w, w1, w2, w3, fun i j hi hj => ?_⟩
  rw [w4 i j hi hj]
  dsimp only
  split
  · rcases hD with hD | hD
    · contradiction
    · rw [hD i j hi hj, zero_add]
  · rw [zero_add]

/-- **C92**, finding. `to_dense` adds the matrix to the earlier content of an output with the right number of columns. -/
theorem C92_like_dense_stale {U V : PMat F[X]} {M : Nat → Nat → F[X]} (hM : HasGens U V M) (hm : 0 < U.rows) (hn : 0 < V.rows) (hv : U.cols ≤ V.cols)
    {g : Junk F} {x y : Int} {o : Like F} (ho : Like.make g x y U V = .ok o) (D : PMat F[X]) (hD : D.cols = V.rows) :
    IsMat (o.toDense D) U.rows V.rows (fun i j => D.e (i, j) + M i j) := by
  obtain ⟨w, w1, w2, w3, w4⟩ := like_dense_add hM hm hn hv ho D
  exact ⟨w, w1, w2, w3, fun i j hi hj => by rw [w4 i j hi hj]; dsimp only; rw [if_pos hD]⟩

/-- **C92**, finding. Empty matrices: a product by a matrix without rows is refused, and a product by a matrix without columns reads outside a vector. -/
theorem C92_like_empty (g g' : Junk F) (x y : Int) (U V : PMat F[X]) (hc : 0 < U.cols) (hmn : U.rows = 0 ∨ V.rows = 0) :
    ∃ o, Like.make g x y U V = .ok o ∧
      (U.rows = 0 → ∀ res input, 0 < V.rows → input.len = V.rows → o.mulRight g' res input = .error) ∧
      (V.rows = 0 → ∀ res input, 0 < U.rows → input.len = 0 → o.mulRight g' res input = .ub) := by
  refine ⟨⟨U.rows, V.rows, U, V, fun _ => Tri.default x y, fun _ => Circ.default x y⟩, ?_, ?_, ?_⟩
  · unfold Like.make
    dsimp only
    rw [if_pos hmn]
  · intro _ res input hp hl
    unfold Like.mulRight
    refine loop_error res hc fun r => ?_
    dsimp only
    rw [show (Circ.default x y).mulRight g' g'.old input = .error from if_pos (by rw [hl]; show V.rows ≠ 0; omega)]
    rfl
  · intro _ res input hp hl
    unfold Like.mulRight
    dsimp only
    obtain ⟨z, z1, z2, -⟩ := zeros_ok res U.rows
    rw [z1, Bivar.andThen_ok]
    refine (loopOut_stop hc rfl).1 ?_
    have hd : (degs input).1 = -1 := by
      unfold degs
      rw [hl]
      rfl
    obtain ⟨a, a1, a2, -⟩ := zeros_ok g'.old 0
    have e1 : (Circ.default x y).mulRight g' g'.old input = .ok a := by
      unfold Circ.mulRight
      rw [if_neg (not_not.2 (show input.len = (Circ.default x y : Circ F).m from hl))]
      dsimp only
      rw [hd, if_pos (.inl rfl)]
      exact a1
    have hd2 : (degs a).1 = -1 := by
      unfold degs
      rw [a2]
      rfl
    have e2 : (Tri.default x y).mulRight g' g'.old a = .ok a := by
      unfold Tri.mulRight
      rw [if_neg (not_not.2 (show a.len = (Tri.default x y : Tri F).n from a2))]
      dsimp only
      rw [hd2, if_pos (.inl rfl)]
      exact a1
    rw [e1, Bivar.andThen_ok, e2, Bivar.andThen_ok]
    unfold accum loopPut
    refine (loopOut_stop (k := 0) hp rfl).1 ?_
    dsimp only
    rw [get_ok' (by omega), Bivar.andThen_ok, show a.get ((0 : Nat) : Int) = .ub from if_neg (by omega)]
    rfl

/-! ### The displacement operators -/

theorem zMat_spec (n : Nat) (hn : 0 < n) (c : F) : ∃ z, zMat n c = .ok z ∧ ∀ i j, i < n → j < n → C (z.e (i, j)) = zEntry n (C c) i j := by
  obtain ⟨e, he, rfl⟩ := loopOut_inv (fun k e => e = forN k (fun i => write (i + 1, i + 1 - 1) (1 : F)) fun _ => 0)
    (f := fun i e => if i + 1 < n ∧ i + 1 - 1 < n then .ok (write (i + 1, i + 1 - 1) (1 : F) e) else .ub) (s := fun _ => 0) (n - 1) rfl
    (fun k t hk ht => ⟨_, if_pos (by omega), by rw [ht]; rfl⟩)
  refine ⟨_, (if_neg (by omega)).trans (by rw [he, Bivar.andThen_ok]), fun i j hi hj => ?_⟩
  have sub : ∀ k, forN k (fun i => write (i + 1, i + 1 - 1) (1 : F)) (fun _ => 0) (i, j) = if i = j + 1 ∧ j < k then 1 else 0 := by
    intro k
    induction k with
    | zero => rw [if_neg (by omega)]; rfl
    | succ k ih =>
      show write (k + 1, k + 1 - 1) (1 : F) (forN k (fun i => write (i + 1, i + 1 - 1) (1 : F)) (fun _ => 0)) (i, j) = _
      by_cases h : (i, j) = (k + 1, k + 1 - 1)
      · obtain ⟨h1, h2⟩ := Prod.mk.inj h
        rw [h, Utils.write_self, if_pos (by omega)]
      · have h' : ¬(i = k + 1 ∧ j = k) := fun hc => h (by rw [hc.1, hc.2, Nat.add_sub_cancel])
        rw [show write (k + 1, k + 1 - 1) (1 : F) (forN k (fun i => write (i + 1, i + 1 - 1) (1 : F)) (fun _ => 0)) (i, j) =
          forN k (fun i => write (i + 1, i + 1 - 1) (1 : F)) (fun _ => 0) (i, j) from Function.update_of_ne h _ _, ih]
        by_cases hc : i = j + 1 ∧ j < k
        · rw [if_pos hc, if_pos (by omega)]
        · rw [if_neg hc, if_neg (by omega)]
  dsimp only
  unfold zEntry
  by_cases h : (i, j) = (0, n - 1)
  · obtain ⟨rfl, rfl⟩ := Prod.mk.inj h
    rw [Utils.write_self, if_neg (by omega), if_pos (by omega)]
  · have h' : ¬(i = 0 ∧ j + 1 = n) := fun hc => h (by rw [hc.1, show j = n - 1 by omega])
    rw [show ∀ e : Nat × Nat → F, write (0, n - 1) c e (i, j) = e (i, j) from fun e => Function.update_of_ne h _ _, sub, if_neg h']
    by_cases hc : i = j + 1
    · rw [if_pos (by omega), if_pos hc, C_1]
    · rw [if_neg (by omega), if_neg hc, C_0]

/-- **C92**. The functions `toeplitz_lzz_pX_phi_minus` and `toeplitz_lzz_pX_phi_plus` compute the displacements `Z_0 A - A Z_1` and `Z_1 A - A Z_0`, and
    have undefined behaviour for an empty matrix. -/
theorem C92_phi (c d : F) (A : PMat F[X]) :
    (0 < A.rows → 0 < A.cols → IsMat (phi c d A) A.rows A.cols (disp (C c) (C d) A.rows A.cols fun i j => A.e (i, j))) ∧
    (A.rows = 0 ∨ A.cols = 0 → phi c d A = .ub) := by
  unfold phi
  refine ⟨fun hm hn => ?_, fun h => ?_⟩
  · obtain ⟨z, e, hz⟩ := zMat_spec A.rows hm c
    obtain ⟨y, e', hy⟩ := zMat_spec A.cols hn d
    rw [e, Bivar.andThen_ok, e', Bivar.andThen_ok]
    refine ⟨_, rfl, rfl, rfl, fun i j hi hj => ?_⟩
    dsimp only
    unfold disp
    refine congrArg₂ (· - ·) (Finset.sum_congr rfl fun l hl => ?_) (Finset.sum_congr rfl fun l hl => ?_)
    · rw [hz i l hi (Finset.mem_range.1 hl)]
    · rw [hy l j (Finset.mem_range.1 hl) hj]
  · by_cases h0 : A.rows = 0
    · rw [show zMat A.rows c = .ub from if_pos h0]
      rfl
    · obtain ⟨z, e, hz⟩ := zMat_spec A.rows (by omega) c
      rw [e, Bivar.andThen_ok, show zMat A.cols d = .ub from if_pos (by omega)]
      rfl

/-- **C92**. The displacement of the dense matrix is the product of the generators. -/
theorem C92_round_trip (U V : PMat F[X]) (hm : 0 < U.rows) (hn : 0 < V.rows) (hv : U.cols ≤ V.cols) (g : Junk F) (x y : Int) :
    ∃ o D R, Like.make g x y U V = .ok o ∧ o.toDense newMat = .ok D ∧ phi 0 1 D = .ok R ∧ R.rows = U.rows ∧ R.cols = V.rows ∧
      ∀ i j, i < U.rows → j < V.rows → R.e (i, j) = ∑ k ∈ Finset.range U.cols, U.e (i, k) * V.e (j, k) := by
  obtain ⟨o, e, -⟩ := Like.make_inv g x y U V hm hn hv
  obtain ⟨M, hM⟩ := (C92_unique U V).1
  obtain ⟨D, d1, d2, d3, d4⟩ := C92_like_dense_partial hM hm hn hv e newMat (.inl (by show 0 ≠ _; omega))
  obtain ⟨R, r1, r2, r3, r4⟩ := (C92_phi (0 : F) 1 D).1 (by omega) (by omega)
  refine ⟨o, D, R, e, d1, r1, by omega, by omega, fun i j hi hj => ?_⟩
  rw [r4 i j (by omega) (by omega), C_0, C_1, d2, d3, disp_congr 0 1 d4 hi hj, hM i j hi hj]

/-! ### Products by a matrix -/

theorem mat_loop {m n c : Nat} (g : Junk F) {f : PVec F → PVec F → Out (PVec F)} (T : Nat → (Nat → F[X]) → F[X])
    (hT : ∀ i v w, (∀ j, j < n → v j = w j) → T i v = T i w)
    (rd : Nat → Nat → Out F[X]) (val : Nat → Nat → F[X])
    (hf : ∀ j, j < c → ∀ res v, v.len = n → (∀ i, i < n → v.at' i = val i j) → ∃ w, f res v = .ok w ∧ w.len = m ∧ ∀ i, i < m → w.at' i = T i v.at')
    (hrd : ∀ i j, i < n → j < c → rd i j = .ok (val i j)) (pos : Nat → Nat → Nat × Nat)
    (hpos : ∀ i j i' j', pos i j = pos i' j' → i = i' ∧ j = j') (e0 : Nat × Nat → F[X]) :
    ∃ s, loopOut c (fun j (s : PVec F × PVec F × (Nat × Nat → F[X])) =>
      andThen (loopPut 0 n (fun i _ => rd i j) s.1) fun vin =>
      andThen (f s.2.1 vin) fun vout =>
      andThen (loopOut m (fun i e => andThen (vout.get (i : Int)) fun x => .ok (write (pos i j) x e)) s.2.2) fun e =>
      .ok (vin, vout, e)) ({ g.old with len := n }, g.old, e0) = .ok s ∧
      ∀ i j, i < m → j < c → s.2.2 (pos i j) = T i (fun l => val l j) := by
  obtain ⟨s, s1, -, s2⟩ := loopOut_inv (f := fun j (s : PVec F × PVec F × (Nat × Nat → F[X])) =>
      andThen (loopPut 0 n (fun i _ => rd i j) s.1) fun vin =>
      andThen (f s.2.1 vin) fun vout =>
      andThen (loopOut m (fun i e => andThen (vout.get (i : Int)) fun x => .ok (write (pos i j) x e)) s.2.2) fun e =>
      .ok (vin, vout, e)) (s := ({ g.old with len := n }, g.old, e0))
    (fun k (s : PVec F × PVec F × (Nat × Nat → F[X])) => s.1.len = n ∧ ∀ i j, i < m → j < k → s.2.2 (pos i j) = T i (fun l => val l j)) c
    ⟨rfl, fun i j _ hj => absurd hj (by omega)⟩ (by
      rintro j ⟨vin, vout, e⟩ hj ⟨h1, h2⟩
      dsimp only at h1 h2 ⊢
      obtain ⟨v, v1, v2, v3⟩ := loopPut_ok (lo := 0) (n := n) (f := fun i _ => rd i j) (r := vin) (fun i => val i j) (by omega)
        (fun i hi _ _ _ => by rw [hrd i j hi hj, Nat.zero_add])
      obtain ⟨w, w1, w2, w3⟩ := hf j hj vout v (by omega) fun i hi => by rw [v3, if_pos (by omega)]
      rw [v1, Bivar.andThen_ok, w1, Bivar.andThen_ok]
      obtain ⟨e', e1, e2⟩ := loopOut_inv (f := fun i e => andThen (w.get (i : Int)) fun x => .ok (write (pos i j) x e)) (s := e)
        (fun k (e' : Nat × Nat → F[X]) => ∀ i l, i < m → l < j + 1 → e' (pos i l) = if l = j ∧ i < k then T i (fun l => val l j) else e (pos i l)) m
        (fun i l hi _ => by rw [if_neg (by omega)]) (by
          intro k e' hk he'
          rw [get_ok' (by omega), Bivar.andThen_ok]
          refine ⟨_, rfl, fun i l hi hl => ?_⟩
          by_cases hc : pos i l = pos k j
          · obtain ⟨rfl, rfl⟩ := hpos _ _ _ _ hc
            rw [Utils.write_self, if_pos (by omega), w3 i hi]
            exact hT _ _ _ fun t ht => by rw [v3, if_pos (by omega)]
          · have hc' : ¬(i = k ∧ l = j) := fun h => hc (by rw [h.1, h.2])
            rw [show ∀ x, write (pos k j) x e' (pos i l) = e' (pos i l) from fun x => Function.update_of_ne hc _ _, he' i l hi hl]
            by_cases hq : l = j ∧ i < k
            · rw [if_pos hq, if_pos (by omega)]
            · rw [if_neg hq, if_neg (by omega)])
      rw [e1, Bivar.andThen_ok]
      refine ⟨_, rfl, by dsimp only; omega, fun i l hi hl => ?_⟩
      dsimp only
      rw [e2 i l hi hl]
      by_cases hq : l = j
      · rw [if_pos ⟨hq, hi⟩, hq]
      · rw [if_neg (by omega), h2 i l hi (by omega)])
  exact ⟨s, s1, s2⟩

/-- **C92**. The product of a structured matrix by a matrix, from the product by a vector. -/
theorem C92_mat_right (g : Junk F) {m n : Nat} {M : Nat → Nat → F[X]} {f : PVec F → PVec F → Out (PVec F)}
    (hf : ∀ res v, v.len = n → IsRight (f res v) m n M v.at') (out inp : PMat F[X]) :
    (inp.rows = n → IsMat (matRight g m n f out inp) m inp.cols fun i j => ∑ l ∈ Finset.range n, M i l * inp.e (l, j)) ∧
    (inp.rows ≠ n → matRight g m n f out inp = .error) := by
  unfold matRight
  refine ⟨fun h => ?_, fun h => if_pos h⟩
  rw [if_neg (not_not.2 h)]
  dsimp only
  obtain ⟨s, s1, s2⟩ := mat_loop (m := m) (n := n) (c := inp.cols) g (f := f) (fun i v => ∑ l ∈ Finset.range n, M i l * v l)
    (fun i v w hvw => Finset.sum_congr rfl fun l hl => by rw [hvw l (Finset.mem_range.1 hl)]) (mget inp) (fun i j => inp.e (i, j))
    (fun _ _ res v h _ => hf res v h)
    (fun i j hi hj => mget_ok (by omega) hj) (fun i j => (i, j)) (fun i j i' j' h => Prod.mk.inj h) (out.setDims m inp.cols).e
  rw [s1, Bivar.andThen_ok]
  exact ⟨_, rfl, rfl, rfl, s2⟩

/-- **C92**. The truncated product of a structured matrix by a matrix. -/
theorem C92_mat_right_trunc (g : Junk F) {m n s : Nat} {M : Nat → Nat → F[X]} {f : PVec F → PVec F → Out (PVec F)}
    (hf : ∀ res v, v.len = n → IsRightMod s (f res v) m n M v.at') (out inp : PMat F[X]) :
    (inp.rows = n → IsMat (matRight g m n f out inp) m inp.cols fun i j => (∑ l ∈ Finset.range n, M i l * inp.e (l, j)) %ₘ X ^ s) ∧
    (inp.rows ≠ n → matRight g m n f out inp = .error) := by
  unfold matRight
  refine ⟨fun h => ?_, fun h => if_pos h⟩
  rw [if_neg (not_not.2 h)]
  dsimp only
  obtain ⟨s, s1, s2⟩ := mat_loop (m := m) (n := n) (c := inp.cols) g (f := f) (fun i v => (∑ l ∈ Finset.range n, M i l * v l) %ₘ X ^ s)
    (fun i v w hvw => congrArg (· %ₘ X ^ s) (Finset.sum_congr rfl fun l hl => by rw [hvw l (Finset.mem_range.1 hl)])) (mget inp) (fun i j => inp.e (i, j))
    (fun _ _ res v h _ => hf res v h)
    (fun i j hi hj => mget_ok (by omega) hj) (fun i j => (i, j)) (fun i j i' j' h => Prod.mk.inj h) (out.setDims m inp.cols).e
  rw [s1, Bivar.andThen_ok]
  exact ⟨_, rfl, rfl, rfl, s2⟩

/-- **C92**. The product of a matrix by a structured matrix, from the product of a row vector. -/
theorem C92_mat_left (g : Junk F) {m n : Nat} {M : Nat → Nat → F[X]} {f : PVec F → PVec F → Out (PVec F)}
    (hf : ∀ res v, v.len = m → IsLeft (f res v) m n M v.at') (out inp : PMat F[X]) :
    (inp.cols = m → IsMat (matLeft g m n f out inp) inp.rows n fun i j => ∑ l ∈ Finset.range m, inp.e (i, l) * M l j) ∧
    (inp.cols ≠ m → matLeft g m n f out inp = .error) := by
  unfold matLeft
  refine ⟨fun h => ?_, fun h => if_pos h⟩
  rw [if_neg (not_not.2 h)]
  dsimp only
  obtain ⟨s, s1, s2⟩ := mat_loop (m := n) (n := m) (c := inp.rows) g (f := f) (fun j v => ∑ l ∈ Finset.range m, v l * M l j)
    (fun i v w hvw => Finset.sum_congr rfl fun l hl => by rw [hvw l (Finset.mem_range.1 hl)]) (fun i j => mget inp j i) (fun i j => inp.e (j, i))
    (fun _ _ res v h _ => hf res v h)
    (fun i j hi hj => mget_ok hj (by omega)) (fun i j => (j, i)) (fun i j i' j' h => (Prod.mk.inj h).symm) (out.setDims inp.rows n).e
  rw [s1, Bivar.andThen_ok]
  exact ⟨_, rfl, rfl, rfl, fun i j hi hj => s2 j i hj hi⟩

/-- **C92**. The truncated product of a matrix by a structured matrix. -/
theorem C92_mat_left_trunc (g : Junk F) {m n s : Nat} {M : Nat → Nat → F[X]} {f : PVec F → PVec F → Out (PVec F)}
    (hf : ∀ res v, v.len = m → IsLeftMod s (f res v) m n M v.at') (out inp : PMat F[X]) :
    (inp.cols = m → IsMat (matLeft g m n f out inp) inp.rows n fun i j => (∑ l ∈ Finset.range m, inp.e (i, l) * M l j) %ₘ X ^ s) ∧
    (inp.cols ≠ m → matLeft g m n f out inp = .error) := by
  unfold matLeft
  refine ⟨fun h => ?_, fun h => if_pos h⟩
  rw [if_neg (not_not.2 h)]
  dsimp only
  obtain ⟨s, s1, s2⟩ := mat_loop (m := n) (n := m) (c := inp.rows) g (f := f) (fun j v => (∑ l ∈ Finset.range m, v l * M l j) %ₘ X ^ s)
    (fun i v w hvw => congrArg (· %ₘ X ^ s) (Finset.sum_congr rfl fun l hl => by rw [hvw l (Finset.mem_range.1 hl)])) (fun i j => mget inp j i)
    (fun i j => inp.e (j, i))
    (fun _ _ res v h _ => hf res v h) (fun i j hi hj => mget_ok hj (by omega)) (fun i j => (j, i)) (fun i j i' j' h => (Prod.mk.inj h).symm)
    (out.setDims inp.rows n).e
  rw [s1, Bivar.andThen_ok]
  exact ⟨_, rfl, rfl, rfl, fun i j hi hj => s2 j i hj hi⟩

end PML.Ntl.StructX
