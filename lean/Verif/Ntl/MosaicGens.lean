import Verif.Ntl.MosaicMul
import Verif.Ntl.LikeProps

/-!
# Mosaic matrices: rows, columns and displacement generators (C103)
-/

namespace PML.Ntl.Mosaic

open PML.Ntl.Utils PML.Ntl.Inv PML.Ntl.Solve PML.Ntl.Middle PML.Ntl.Struct PML.Ntl.CLike

variable {p : Nat} [Fact p.Prime] {k : Kind} {g : Grid p} {nb mb : Nat} {R C : Nat → Nat} {A : Nat → Nat → NVec (ZMod p)} {M : Mosaic p}
  {E : Nat → Nat → ZMod p}

/-! ### Rows and columns of blocks -/

/-- The loops `res[ind++] = …`. -/
theorem scan {n : Nat} {S : Nat → Nat} {val : Nat → ZMod p} {f : Nat → Nat × (Nat → ZMod p) → Out (Nat × (Nat → ZMod p))}
    (gg : Nat → Nat → Nat × (Nat → ZMod p) → Out (Nat × (Nat → ZMod p)))
    (hf : ∀ r s, r < n → f r s = loopOut (S r) (gg r) s)
    (hg : ∀ r j s, r < n → j < S r → gg r j s = .ok (s.1 + 1, write s.1 (val (off S r + j)) s.2)) (z : Nat → ZMod p) :
    ∃ s, loopOut n f (0, z) = .ok s ∧ ∀ x, x < off S n → s.2 x = val x := by
  obtain ⟨s, e, -, h2⟩ := loopOut_inv (k := n) (fun c (s : Nat × (Nat → ZMod p)) => s.1 = off S c ∧ ∀ x, x < off S c → s.2 x = val x)
    (f := f) (s := (0, z)) ⟨(off_zero S).symm, fun x hx => by rw [off_zero] at hx; omega⟩ (by
      intro c s hc ⟨h1, h2⟩
      rw [hf c s hc]
      obtain ⟨t, et, h3, h4⟩ := loopOut_inv (k := S c) (fun d (t : Nat × (Nat → ZMod p)) => t.1 = off S c + d ∧ ∀ x, x < off S c + d → t.2 x = val x)
        (f := gg c) (s := s) ⟨h1, h2⟩ (by
          intro d t hd ⟨h3, h4⟩
          rw [hg c d t hc hd]
          refine ⟨_, rfl, by dsimp only; omega, fun x hx => ?_⟩
          dsimp only
          unfold write
          by_cases hx' : x = t.1
          · rw [hx', Function.update_self, h3]
          · rw [Function.update_of_ne hx', h4 x (by omega)])
      exact ⟨t, et, by rw [h3, off_succ], fun x hx => h4 x (by rw [off_succ] at hx; exact hx)⟩)
  exact ⟨s, e, h2⟩

theorem colAt_spec (hB : Built M nb mb R C A) (hE : IsMosaic k nb mb R C A E) {b c : Nat} (hb : b < mb) (hc : c < C b) :
    ∃ v, M.colAt k b c = .ok v ∧ ∀ x, x < off R nb → v x = E x (off C b + c) := by
  unfold Mosaic.colAt
  obtain ⟨s, e, hs⟩ := scan (n := M.nb) (S := R) (val := fun x => E x (off C b + c))
    (f := fun r (s : Nat × (Nat → ZMod p)) => andThen (M.rowsOf r) fun nr => loopOut nr (fun j s => andThen (M.data.get r b) fun t =>
      andThen (k.at t j c) fun a => .ok (s.1 + 1, write s.1 a s.2)) s)
    (fun r j s => andThen (M.data.get r b) fun t => andThen (k.at t j c) fun a => .ok (s.1 + 1, write s.1 a s.2))
    (by intro r s hr; rw [hB.rowsOf (by rwa [hB.nb] at hr), andThen_ok'])
    (by
      intro r j s hr hj
      rw [hB.nb] at hr
      rw [(hB.tiled.get hr hb).1, andThen_ok', Kind.at_made (hB.tiled.block r b hr hb) hj hc, andThen_ok', hE r b j c hr hb hj hc])
    (fun _ => 0)
  rw [e, andThen_ok']
  exact ⟨_, rfl, fun x hx => hs x (by rw [hB.nb]; exact hx)⟩

theorem rowAt_spec (hB : Built M nb mb R C A) (hE : IsMosaic k nb mb R C A E) {a c : Nat} (ha : a < nb) (hc : c < R a) :
    ∃ v, M.rowAt k a c = .ok v ∧ ∀ x, x < off C mb → v x = E (off R a + c) x := by
  unfold Mosaic.rowAt
  obtain ⟨s, e, hs⟩ := scan (n := M.mb) (S := C) (val := fun x => E (off R a + c) x)
    (f := fun r (s : Nat × (Nat → ZMod p)) => andThen (M.colsOf r) fun nr => loopOut nr (fun j s => andThen (M.data.get a r) fun t =>
      andThen (k.at t c j) fun a => .ok (s.1 + 1, write s.1 a s.2)) s)
    (fun r j s => andThen (M.data.get a r) fun t => andThen (k.at t c j) fun a => .ok (s.1 + 1, write s.1 a s.2))
    (by intro r s hr; rw [hB.colsOf (by rwa [hB.mb] at hr), andThen_ok'])
    (by
      intro r j s hr hj
      rw [hB.mb] at hr
      rw [(hB.tiled.get ha hr).1, andThen_ok', Kind.at_made (hB.tiled.block a r ha hr) hc hj, andThen_ok', hE a r c j ha hr hc hj])
    (fun _ => 0)
  rw [e, andThen_ok']
  exact ⟨_, rfl, fun x hx => hs x (by rw [hB.mb]; exact hx)⟩

theorem firstCol_spec (hB : Built M nb mb R C A) (hE : IsMosaic k nb mb R C A E) {b : Nat} (hb : b < mb) (hc : 0 < C b) :
    ∃ v, M.firstCol k b = .ok v ∧ ∀ x, x < off R nb → v x = E x (off C b) := colAt_spec hB hE hb hc

theorem lastCol_spec (hB : Built M nb mb R C A) (hE : IsMosaic k nb mb R C A E) {b : Nat} (hb : b < mb) (hc : 0 < C b) :
    ∃ v, M.lastCol k b = .ok v ∧ ∀ x, x < off R nb → v x = E x (off C (b + 1) - 1) := by
  unfold Mosaic.lastCol
  rw [hB.colsOf hb, andThen_ok', if_neg (by omega)]
  obtain ⟨v, e, hv⟩ := colAt_spec hB hE hb (show C b - 1 < C b by omega)
  refine ⟨v, e, fun x hx => ?_⟩
  rw [hv x hx, off_succ]
  congr 1; omega

theorem firstRow_spec (hB : Built M nb mb R C A) (hE : IsMosaic k nb mb R C A E) {a : Nat} (ha : a < nb) (hc : 0 < R a) :
    ∃ v, M.firstRow k a = .ok v ∧ ∀ x, x < off C mb → v x = E (off R a) x := rowAt_spec hB hE ha hc

theorem lastRow_spec (hB : Built M nb mb R C A) (hE : IsMosaic k nb mb R C A E) {a : Nat} (ha : a < nb) (hc : 0 < R a) :
    ∃ v, M.lastRow k a = .ok v ∧ ∀ x, x < off C mb → v x = E (off R (a + 1) - 1) x := by
  unfold Mosaic.lastRow
  rw [hB.rowsOf ha, andThen_ok', if_neg (by omega)]
  obtain ⟨v, e, hv⟩ := rowAt_spec hB hE ha (show R a - 1 < R a by omega)
  refine ⟨v, e, fun x hx => ?_⟩
  rw [hv x hx, off_succ]
  congr 1; omega

/-- **C103**. The functions which return the first and last rows and columns of the blocks return them: the column `j` of the matrix is
    the first, or last, one of the block `b`, and similarly for rows. -/
theorem C103_rows_columns (h : Tiled g nb mb R C A) (hM : Mosaic.make g = .ok M) (k : Kind) (hE : IsMosaic k nb mb R C A E) :
    (∀ b, b < mb → 0 < C b → (∃ v, M.firstCol k b = .ok v ∧ ∀ x, x < off R nb → v x = E x (off C b)) ∧
      ∃ v, M.lastCol k b = .ok v ∧ ∀ x, x < off R nb → v x = E x (off C (b + 1) - 1)) ∧
    ∀ a, a < nb → 0 < R a → (∃ v, M.firstRow k a = .ok v ∧ ∀ x, x < off C mb → v x = E (off R a) x) ∧
      ∃ v, M.lastRow k a = .ok v ∧ ∀ x, x < off C mb → v x = E (off R (a + 1) - 1) x :=
  have hB := built_of_make h hM
  ⟨fun _ hb hc => ⟨firstCol_spec hB hE hb hc, lastCol_spec hB hE hb hc⟩, fun _ ha hc => ⟨firstRow_spec hB hE ha hc, lastRow_spec hB hE ha hc⟩⟩

/-! ### Loops over a column -/

theorem col_fill {n c : Nat} {f : Nat → ZMod p} {G : Nat × Nat → ZMod p} (i j : Nat) :
    forN n (fun j => write (j, c) (f j)) G (i, j) = if i < n ∧ j = c then f i else G (i, j) := by
  have := forN_inv (n := n) (P := fun n (H : Nat × Nat → ZMod p) => ∀ i j, H (i, j) = if i < n ∧ j = c then f i else G (i, j)) (s := G)
    (f := fun j => write (j, c) (f j)) (fun i j => by rw [if_neg (by omega)]) (by
      intro l H hl hP i j
      unfold write
      by_cases h : i = l ∧ j = c
      · rw [h.1, h.2, Function.update_self, if_pos ⟨by omega, rfl⟩]
      · rw [Function.update_of_ne (fun e => h ⟨congrArg Prod.fst e, congrArg Prod.snd e⟩), hP]
        by_cases h2 : i < l ∧ j = c
        · rw [if_pos h2, if_pos (by omega)]
        · rw [if_neg h2, if_neg (by omega)])
  exact this i j

/-- With a shift of the rows. -/
theorem col_fill' {n c : Nat} {f : Nat → ZMod p} {G : Nat × Nat → ZMod p} (i j : Nat) :
    forN n (fun j => write (j + 1, c) (f j)) G (i, j) = if 0 < i ∧ i < n + 1 ∧ j = c then f (i - 1) else G (i, j) := by
  have := forN_inv (n := n) (P := fun n (H : Nat × Nat → ZMod p) => ∀ i j, H (i, j) = if 0 < i ∧ i < n + 1 ∧ j = c then f (i - 1) else G (i, j)) (s := G)
    (f := fun j => write (j + 1, c) (f j)) (fun i j => by rw [if_neg (by omega)]) (by
      intro l H hl hP i j
      unfold write
      by_cases h : i = l + 1 ∧ j = c
      · rw [h.1, h.2, Function.update_self, if_pos ⟨by omega, by omega, rfl⟩, Nat.add_sub_cancel]
      · rw [Function.update_of_ne (fun e => h ⟨congrArg Prod.fst e, congrArg Prod.snd e⟩), hP]
        by_cases h2 : 0 < i ∧ i < l + 1 ∧ j = c
        · rw [if_pos h2, if_pos (by omega)]
        · rw [if_neg h2, if_neg (by omega)])
  exact this i j

theorem col_sub {n c : Nat} {f : Nat → ZMod p} {G : Nat × Nat → ZMod p} (i j : Nat) :
    forN n (fun j G => write (j, c) (G (j, c) - f j) G) G (i, j) = if i < n ∧ j = c then G (i, j) - f i else G (i, j) := by
  have := forN_inv (n := n) (P := fun n (H : Nat × Nat → ZMod p) => ∀ i j, H (i, j) = if i < n ∧ j = c then G (i, j) - f i else G (i, j)) (s := G)
    (f := fun j G => write (j, c) (G (j, c) - f j) G) (fun i j => by rw [if_neg (by omega)]) (by
      intro l H hl hP i j
      unfold write
      by_cases h : i = l ∧ j = c
      · rw [h.1, h.2, Function.update_self, if_pos ⟨by omega, rfl⟩, hP, if_neg (by omega)]
      · rw [Function.update_of_ne (fun e => h ⟨congrArg Prod.fst e, congrArg Prod.snd e⟩), hP]
        by_cases h2 : i < l ∧ j = c
        · rw [if_pos h2, if_pos (by omega)]
        · rw [if_neg h2, if_neg (by omega)])
  exact this i j

theorem col_sub' {n c : Nat} {f : Nat → ZMod p} {G : Nat × Nat → ZMod p} (i j : Nat) :
    forN n (fun j G => write (j + 1, c) (G (j + 1, c) - f j) G) G (i, j) =
      if 0 < i ∧ i < n + 1 ∧ j = c then G (i, j) - f (i - 1) else G (i, j) := by
  have := forN_inv (n := n) (P := fun n (H : Nat × Nat → ZMod p) => ∀ i j, H (i, j) = if 0 < i ∧ i < n + 1 ∧ j = c then G (i, j) - f (i - 1) else G (i, j))
    (s := G) (f := fun j G => write (j + 1, c) (G (j + 1, c) - f j) G) (fun i j => by rw [if_neg (by omega)]) (by
      intro l H hl hP i j
      unfold write
      by_cases h : i = l + 1 ∧ j = c
      · rw [h.1, h.2, Function.update_self, if_pos ⟨by omega, by omega, rfl⟩, hP, if_neg (by omega), Nat.add_sub_cancel]
      · rw [Function.update_of_ne (fun e => h ⟨congrArg Prod.fst e, congrArg Prod.snd e⟩), hP]
        by_cases h2 : 0 < i ∧ i < l + 1 ∧ j = c
        · rw [if_pos h2, if_pos (by omega)]
        · rw [if_neg h2, if_neg (by omega)])
  exact this i j

/-! ### The displacement -/

/-- The displacement operator: `Z_1 M - M Z_0^t` or `Z_1 M - M Z_0`. -/
def Kind.disp (k : Kind) : Nat → Nat → (Nat → Nat → ZMod p) → Nat → Nat → ZMod p :=
  match k with
  | .hankel => dispHP
  | .toeplitz => dispTP

/-- The column of the entry 1 for the block `b`. -/
def Kind.pos (k : Kind) (C : Nat → Nat) (b : Nat) : Nat :=
  match k with
  | .hankel => off C b
  | .toeplitz => off C (b + 1) - 1

/-- The displacement, entry by entry. -/
def Kind.dd (k : Kind) (n m : Nat) (E : Nat → Nat → ZMod p) (i j : Nat) : ZMod p :=
  E (if i = 0 then n - 1 else i - 1) j - match k with
    | .hankel => if j = 0 then 0 else E i (j - 1)
    | .toeplitz => if j + 1 = m then 0 else E i (j + 1)

theorem disp_eq (n m : Nat) (i j : Nat) (hi : i < n) (hj : j < m) : k.disp n m E i j = k.dd n m E i j := by
  cases k
  · exact dispHP_eq n m E i j hi hj
  · exact dispTP_eq n m E i j hi hj

/-- All blocks have rows and columns. -/
def Full (nb mb : Nat) (R C : Nat → Nat) : Prop := (∀ a, a < nb → 0 < R a) ∧ ∀ b, b < mb → 0 < C b

theorem Full.n_pos (hF : Full nb mb R C) (h : 0 < nb) : 0 < off R nb := by
  have := off_lt (s := R) (a := 0) (n := nb) (i := 0) h (hF.1 0 h); omega

theorem Full.m_pos (hF : Full nb mb R C) (h : 0 < mb) : 0 < off C mb := by
  have := off_lt (s := C) (a := 0) (n := mb) (i := 0) h (hF.2 0 h); omega

theorem pos_lt (hF : Full nb mb R C) {b : Nat} (hb : b < mb) : k.pos C b < off C mb := by
  cases k
  · show off C b < _
    have := off_lt (s := C) (i := 0) hb (hF.2 b hb); omega
  · show off C (b + 1) - 1 < _
    have := off_mono C (show b + 1 ≤ mb by omega)
    have := hF.2 b hb
    have := off_succ C b
    omega

theorem pos_inj (hF : Full nb mb R C) {a b : Nat} (ha : a < mb) (hb : b < mb) (h : k.pos C a = k.pos C b) : a = b := by
  have h1 := hF.2 a ha
  have h2 := hF.2 b hb
  cases k
  · exact (off_inj (s := C) (i := 0) (j := 0) h1 h2 h).1
  · replace h : off C (a + 1) - 1 = off C (b + 1) - 1 := h
    rw [off_succ, off_succ] at h
    exact (off_inj (s := C) (a := a) (b := b) (i := C a - 1) (j := C b - 1) (by omega) (by omega) (by omega)).1

/-- Inside of the blocks, the displacement is zero. -/
theorem dd_zero (hF : Full nb mb R C) (hE : IsMosaic k nb mb R C A E) {i j : Nat} (hi : i < off R nb) (hj : j < off C mb)
    (h1 : ∀ a, a < nb → i ≠ off R a) (h2 : ∀ b, b < mb → j ≠ k.pos C b) : k.dd (off R nb) (off C mb) E i j = 0 := by
  obtain ⟨a, x, ha, hx, rfl⟩ := off_find R nb i hi
  obtain ⟨b, y, hb, hy, rfl⟩ := off_find C mb j hj
  have hx0 : x ≠ 0 := fun e => h1 a ha (by omega)
  have e1 : (if off R a + x = 0 then off R nb - 1 else off R a + x - 1) = off R a + (x - 1) := by rw [if_neg (by omega)]; omega
  unfold Kind.dd
  rw [e1, hE a b (x - 1) y ha hb (by omega) hy]
  cases k
  · have hy0 : y ≠ 0 := fun e => h2 b hb (by show off C b + y = off C b; omega)
    show _ - (if off C b + y = 0 then 0 else E (off R a + x) (off C b + y - 1)) = 0
    rw [if_neg (by omega), show off C b + y - 1 = off C b + (y - 1) by omega, hE a b x (y - 1) ha hb hx (by omega)]
    show hankelEntry _ _ _ _ _ - hankelEntry _ _ _ _ _ = 0
    unfold hankelEntry
    rw [show x - 1 + y = x + (y - 1) by omega, sub_self]
  · have hy0 : y + 1 ≠ C b := fun e => h2 b hb (by show off C b + y = off C (b + 1) - 1; rw [off_succ]; omega)
    have h3 := off_lt (s := C) hb (show y + 1 < C b by omega)
    show _ - (if off C b + y + 1 = off C mb then 0 else E (off R a + x) (off C b + y + 1)) = 0
    rw [if_neg (by omega), show off C b + y + 1 = off C b + (y + 1) by omega, hE a b x (y + 1) ha hb hx (by omega)]
    show toeplitzEntry _ _ _ _ - toeplitzEntry _ _ _ _ = 0
    unfold toeplitzEntry
    rw [show C b - 1 + (x - 1) - y = C b - 1 + x - (y + 1) by omega, sub_self]

theorem mark_spec (hB : Built M nb mb R C A) (hF : Full nb mb R C) {b : Nat} (hb : b < mb) :
    M.mark k b (off C b) = .ok (k.pos C b, off C (b + 1)) := by
  have h1 := hF.2 b hb
  have h2 := off_lt (s := C) hb (show C b - 1 < C b by omega)
  have h3 := off_succ C b
  have hm := hB.m
  unfold Mosaic.mark
  rw [hB.colsOf hb, andThen_ok']
  cases k
  · show (if M.m ≤ off C b then _ else _) = Out.ok (off C b, _)
    rw [if_neg (by omega), h3]
  · show (if off C b + C b = 0 ∨ M.m ≤ off C b + C b - 1 then _ else _) = Out.ok (off C (b + 1) - 1, _)
    rw [if_neg (by omega), h3]

theorem genG1_spec (hB : Built M nb mb R C A) (hF : Full nb mb R C) (hE : IsMosaic k nb mb R C A E) (G : Nat × Nat → ZMod p) :
    ∃ G', M.genG1 k G = .ok G' ∧ ∀ i b, i < off R nb → b < mb → G' (i, b) = k.dd (off R nb) (off C mb) E i (k.pos C b) := by
  have hn := hF.n_pos hB.tiled.nb_pos
  have hBn := hB.n
  unfold Mosaic.genG1
  obtain ⟨u, e, hu⟩ := loopOut_inv (k := M.mb) (fun c (G : Nat × Nat → ZMod p) => ∀ i b, i < off R nb → b < c →
      G (i, b) = k.dd (off R nb) (off C mb) E i (k.pos C b)) (f := fun i G =>
    andThen (match (generalizing := false) k with | .hankel => M.firstCol k i | .toeplitz => M.lastCol k i) fun c =>
    if M.n = 0 then Out.ub
    else
      let G := write (0, i) (c (M.n - 1)) G
      let G := forN (M.n - 1) (fun j => write (j + 1, i) (c j)) G
      match (generalizing := false) k with
      | .hankel =>
        if 0 < i then andThen (M.lastCol k (i - 1)) fun c => .ok (forN M.n (fun j G => write (j, i) (G (j, i) - c j) G) G)
        else .ok G
      | .toeplitz =>
        if i + 1 < M.mb then andThen (M.firstCol k (i + 1)) fun c => .ok (forN M.n (fun j G => write (j, i) (G (j, i) - c j) G) G)
        else .ok G) (s := G) (fun i b _ hb => absurd hb (by omega)) (by
      intro c G hc hP
      rw [hB.mb] at hc
      have hC := hF.2 c hc
      have hfirst : ∀ v : Nat → ZMod p, ∀ i b, i < off R nb →
          (forN (M.n - 1) (fun j => write (j + 1, c) (v j)) (write (0, c) (v (M.n - 1)) G)) (i, b) =
            if b = c then v (if i = 0 then off R nb - 1 else i - 1) else G (i, b) := by
        intro v i b hi
        rw [col_fill', hBn]
        unfold write
        by_cases hbc : b = c
        · rw [if_pos hbc, hbc]
          by_cases hi0 : i = 0
          · rw [if_neg (by omega), if_pos hi0, hi0, Function.update_self]
          · rw [if_pos ⟨by omega, by omega, rfl⟩, if_neg hi0]
        · rw [if_neg (by omega), if_neg hbc, Function.update_of_ne (fun e => hbc (congrArg Prod.snd e))]
      cases k
      · obtain ⟨v, ev, hv⟩ := firstCol_spec hB hE hc hC
        dsimp only
        rw [ev, andThen_ok', if_neg (by omega)]
        by_cases h0 : 0 < c
        · rw [if_pos h0]
          obtain ⟨w, ew, hw⟩ := lastCol_spec hB hE (show c - 1 < mb by omega) (hF.2 _ (by omega))
          rw [ew, andThen_ok']
          refine ⟨_, rfl, fun i b hi hb => ?_⟩
          rw [col_sub, hfirst v i b hi]
          by_cases hbc : b = c
          · subst hbc
            rw [if_pos ⟨by omega, rfl⟩, if_pos rfl, hv _ (by split <;> omega), hw i hi]
            unfold Kind.dd
            show _ = _ - if off C b = 0 then 0 else E i (off C b - 1)
            have h4 := off_lt (s := C) (i := 0) h0 (hF.2 0 (by omega))
            have hz : (if off C b = 0 then (0 : ZMod p) else E i (off C b - 1)) = E i (off C b - 1) := if_neg (by omega)
            rw [hz, show b - 1 + 1 = b by omega]
            rfl
          · rw [if_neg (by omega), if_neg hbc, hP i b hi (by omega)]
        · rw [if_neg h0]
          refine ⟨_, rfl, fun i b hi hb => ?_⟩
          rw [hfirst v i b hi]
          obtain rfl : b = c := by omega
          rw [if_pos rfl, hv _ (by split <;> omega)]
          unfold Kind.dd
          show _ = _ - if off C b = 0 then 0 else E i (off C b - 1)
          have hz : (if off C b = 0 then (0 : ZMod p) else E i (off C b - 1)) = 0 := if_pos (by rw [show b = 0 by omega]; exact off_zero C)
          rw [hz, sub_zero]
          rfl
      · obtain ⟨v, ev, hv⟩ := lastCol_spec hB hE hc hC
        have h3 := off_succ C c
        dsimp only
        rw [ev, andThen_ok', if_neg (by omega)]
        by_cases h0 : c + 1 < M.mb
        · rw [if_pos h0]
          rw [hB.mb] at h0
          obtain ⟨w, ew, hw⟩ := firstCol_spec hB hE h0 (hF.2 _ h0)
          rw [ew, andThen_ok']
          refine ⟨_, rfl, fun i b hi hb => ?_⟩
          rw [col_sub, hfirst v i b hi]
          by_cases hbc : b = c
          · subst hbc
            rw [if_pos ⟨by omega, rfl⟩, if_pos rfl, hv _ (by split <;> omega), hw i hi]
            unfold Kind.dd
            show _ = _ - if off C (b + 1) - 1 + 1 = off C mb then 0 else E i (off C (b + 1) - 1 + 1)
            have h4 := off_lt (s := C) (i := 0) h0 (hF.2 _ h0)
            have hz : (if off C (b + 1) - 1 + 1 = off C mb then (0 : ZMod p) else E i (off C (b + 1) - 1 + 1)) = E i (off C (b + 1)) := by
              rw [if_neg (by omega), show off C (b + 1) - 1 + 1 = off C (b + 1) by omega]
            rw [hz]
            rfl
          · rw [if_neg (by omega), if_neg hbc, hP i b hi (by omega)]
        · rw [if_neg h0]
          rw [hB.mb] at h0
          refine ⟨_, rfl, fun i b hi hb => ?_⟩
          rw [hfirst v i b hi]
          by_cases hbc : b = c
          · subst hbc
            rw [if_pos rfl, hv _ (by split <;> omega)]
            unfold Kind.dd
            show _ = _ - if off C (b + 1) - 1 + 1 = off C mb then 0 else E i (off C (b + 1) - 1 + 1)
            have hz : (if off C (b + 1) - 1 + 1 = off C mb then (0 : ZMod p) else E i (off C (b + 1) - 1 + 1)) = 0 :=
              if_pos (by rw [show mb = b + 1 by omega]; omega)
            rw [hz, sub_zero]
            rfl
          · rw [if_neg hbc, hP i b hi (by omega)])
  exact ⟨u, e, fun i b hi hb => hu i b hi (by rw [hB.mb]; exact hb)⟩

theorem genG2_spec (hB : Built M nb mb R C A) (hF : Full nb mb R C) (G : Nat × Nat → ZMod p) :
    ∃ G', M.genG2 G = .ok G' ∧ (∀ i b, b < mb → G' (i, b) = G (i, b)) ∧
      ∀ i a, i < off R nb → a < nb → G' (i, a + mb) = if i = off R a then 1 else 0 := by
  have hBn := hB.n
  have hBm := hB.mb
  unfold Mosaic.genG2
  obtain ⟨u, e, h1, h2, h3⟩ := loopOut_inv (k := M.nb) (fun c (s : Nat × (Nat × Nat → ZMod p)) => s.1 = off R c ∧
      (∀ i b, b < mb → s.2 (i, b) = G (i, b)) ∧ ∀ i a, i < off R nb → a < c → s.2 (i, a + mb) = if i = off R a then 1 else 0)
    (f := fun i (s : Nat × (Nat × Nat → ZMod p)) =>
      let G := forN M.n (fun j => write (j, i + M.mb) 0) s.2
      if M.n ≤ s.1 then .ub
      else
        let G := write (s.1, i + M.mb) 1 G
        andThen (M.rowsOf i) fun w => .ok (s.1 + w, G)) (s := (0, G))
    ⟨(off_zero R).symm, fun _ _ _ => rfl, fun i a _ ha => absurd ha (by omega)⟩ (by
      intro c s hc ⟨h1, h2, h3⟩
      rw [hB.nb] at hc
      dsimp only
      have h4 := off_lt (s := R) (i := 0) hc (hF.1 c hc)
      rw [if_neg (by omega), hB.rowsOf hc, andThen_ok']
      refine ⟨_, rfl, by dsimp only; rw [h1, off_succ], fun i b hb => ?_, fun i a hi ha => ?_⟩
      · dsimp only
        unfold write
        rw [Function.update_of_ne (fun e => by have := congrArg Prod.snd e; dsimp only at this; omega)]
        have := col_fill (n := M.n) (c := c + M.mb) (f := fun _ => 0) (G := s.2) i b
        unfold write at this
        rw [this, if_neg (by omega), h2 i b hb]
      · dsimp only
        have := col_fill (n := M.n) (c := c + M.mb) (f := fun _ => 0) (G := s.2) i (a + mb)
        by_cases hac : a = c
        · subst hac
          by_cases hi' : i = s.1
          · unfold write
            rw [hi', hBm, Function.update_self, if_pos h1]
          · rw [if_neg (by omega)]
            unfold write
            rw [Function.update_of_ne (fun e => hi' (congrArg Prod.fst e))]
            unfold write at this
            rw [this, if_pos ⟨by omega, by omega⟩]
        · unfold write
          rw [Function.update_of_ne (fun e => by have := congrArg Prod.snd e; dsimp only at this; omega)]
          unfold write at this
          rw [this, if_neg (by omega), h3 i a hi (by omega)])
  rw [e, andThen_ok']
  exact ⟨_, rfl, h2, fun i a hi ha => h3 i a hi (by rw [hB.nb]; exact ha)⟩

theorem genH1_spec (hB : Built M nb mb R C A) (hF : Full nb mb R C) (H : Nat × Nat → ZMod p) :
    ∃ H', M.genH1 k H = .ok H' ∧ ∀ j b, j < off C mb → b < mb → H' (j, b) = if j = k.pos C b then 1 else 0 := by
  have hBm := hB.m
  unfold Mosaic.genH1
  obtain ⟨u, e, h1, h3⟩ := loopOut_inv (k := M.mb) (fun c (s : Nat × (Nat × Nat → ZMod p)) => s.1 = off C c ∧
      ∀ i a, i < off C mb → a < c → s.2 (i, a) = if i = k.pos C a then 1 else 0)
    (f := fun i (s : Nat × (Nat × Nat → ZMod p)) =>
      andThen (M.mark k i s.1) fun t =>
      let H := forN M.m (fun j => write (j, i) 0) s.2
      .ok (t.2, write (t.1, i) 1 H)) (s := (0, H))
    ⟨(off_zero C).symm, fun i a _ ha => absurd ha (by omega)⟩ (by
      intro c s hc ⟨h1, h3⟩
      rw [hB.mb] at hc
      rw [h1, mark_spec hB hF hc, andThen_ok']
      refine ⟨_, rfl, rfl, fun i a hi ha => ?_⟩
      dsimp only
      have := col_fill (n := M.m) (c := c) (f := fun _ => 0) (G := s.2) i a
      by_cases hac : a = c
      · subst hac
        by_cases hi' : i = k.pos C a
        · unfold write
          rw [hi', Function.update_self, if_pos rfl]
        · rw [if_neg hi']
          unfold write
          rw [Function.update_of_ne (fun e => hi' (congrArg Prod.fst e))]
          unfold write at this
          rw [this, if_pos ⟨by omega, by omega⟩]
      · unfold write
        rw [Function.update_of_ne (fun e => by have := congrArg Prod.snd e; dsimp only at this; omega)]
        unfold write at this
        rw [this, if_neg (by omega), h3 i a hi (by omega)])
  rw [e, andThen_ok']
  exact ⟨_, rfl, fun i a hi ha => h3 i a hi (by rw [hB.mb]; exact ha)⟩

/-- The zeros written at the end of `genH2`. -/
theorem zeros_spec (hB : Built M nb mb R C A) (hF : Full nb mb R C) (H : Nat × Nat → ZMod p) (c : Nat) :
    ∃ s, loopOut M.mb (fun j (s : Nat × (Nat × Nat → ZMod p)) => andThen (M.mark k j s.1) fun t => .ok (t.2, write (t.1, c) 0 s.2)) (0, H) = .ok s ∧
      (∀ i j, j ≠ c → s.2 (i, j) = H (i, j)) ∧ (∀ b, b < mb → s.2 (k.pos C b, c) = 0) ∧
      ∀ i, (∀ b, b < mb → i ≠ k.pos C b) → s.2 (i, c) = H (i, c) := by
  obtain ⟨u, e, h1, h2, h3, h4⟩ := loopOut_inv (k := M.mb) (fun d (s : Nat × (Nat × Nat → ZMod p)) => s.1 = off C d ∧
      (∀ i j, j ≠ c → s.2 (i, j) = H (i, j)) ∧ (∀ b, b < d → s.2 (k.pos C b, c) = 0) ∧
      ∀ i, (∀ b, b < mb → i ≠ k.pos C b) → s.2 (i, c) = H (i, c))
    (f := fun j (s : Nat × (Nat × Nat → ZMod p)) => andThen (M.mark k j s.1) fun t => .ok (t.2, write (t.1, c) 0 s.2)) (s := (0, H))
    ⟨(off_zero C).symm, fun _ _ _ => rfl, fun b hb => absurd hb (by omega), fun _ _ => rfl⟩ (by
      intro d s hd ⟨h1, h2, h3, h4⟩
      rw [hB.mb] at hd
      rw [h1, mark_spec hB hF hd, andThen_ok']
      refine ⟨_, rfl, rfl, fun i j hj => ?_, fun b hb => ?_, fun i hi => ?_⟩
      · dsimp only
        unfold write
        rw [Function.update_of_ne (fun e => hj (congrArg Prod.snd e)), h2 i j hj]
      · dsimp only
        unfold write
        by_cases hbd : b = d
        · rw [hbd, Function.update_self]
        · rw [Function.update_of_ne (fun e => hbd (pos_inj hF (by omega) hd (congrArg Prod.fst e))), h3 b (by omega)]
      · dsimp only
        unfold write
        rw [Function.update_of_ne (fun e => hi d hd (congrArg Prod.fst e)), h4 i hi])
  exact ⟨u, e, h2, fun b hb => h3 b (by rw [hB.mb]; exact hb), h4⟩

theorem genH2_spec (hB : Built M nb mb R C A) (hF : Full nb mb R C) (hE : IsMosaic k nb mb R C A E) (H : Nat × Nat → ZMod p) :
    ∃ H', M.genH2 k H = .ok H' ∧ (∀ j b, b < mb → H' (j, b) = H (j, b)) ∧
      (∀ a b, a < nb → b < mb → H' (k.pos C b, a + mb) = 0) ∧
      ∀ j a, j < off C mb → a < nb → (∀ b, b < mb → j ≠ k.pos C b) → H' (j, a + mb) = k.dd (off R nb) (off C mb) E (off R a) j := by
  have hBm := hB.m
  have hBb := hB.mb
  have hBr := hB.nb
  have hnb := hB.tiled.nb_pos
  have hmb := hB.tiled.mb_pos
  unfold Mosaic.genH2
  obtain ⟨u, e, h1, h2, h3⟩ := loopOut_inv (k := M.nb) (fun c (H' : Nat × Nat → ZMod p) => (∀ j b, b < mb → H' (j, b) = H (j, b)) ∧
      (∀ a b, a < c → b < mb → H' (k.pos C b, a + mb) = 0) ∧
      ∀ j a, j < off C mb → a < c → (∀ b, b < mb → j ≠ k.pos C b) → H' (j, a + mb) = k.dd (off R nb) (off C mb) E (off R a) j)
    (f := fun i H =>
      andThen (if i = 0 then M.lastRow k (M.nb - 1) else M.lastRow k (i - 1)) fun l =>
      let H := match (generalizing := false) k with
        | .hankel => forN (M.m - 1) (fun j => write (j + 1, i + M.mb) (l (j + 1))) H
        | .toeplitz => forN M.m (fun j => write (j, i + M.mb) (l j)) H
      andThen (M.firstRow k i) fun f =>
      let H := match (generalizing := false) k with
        | .hankel => forN (M.m - 1) (fun j H => write (j + 1, i + M.mb) (H (j + 1, i + M.mb) - f j) H) H
        | .toeplitz => forN (M.m - 1) (fun j H => write (j, i + M.mb) (H (j, i + M.mb) - f (j + 1)) H) H
      andThen (loopOut M.mb (fun j (s : Nat × (Nat × Nat → ZMod p)) =>
        andThen (M.mark k j s.1) fun t => .ok (t.2, write (t.1, i + M.mb) 0 s.2)) (0, H)) fun s => .ok s.2) (s := H)
    ⟨fun _ _ _ => rfl, fun a b ha => absurd ha (by omega), fun j a _ ha => absurd ha (by omega)⟩ (by
      intro c H' hc ⟨h1, h2, h3⟩
      rw [hB.nb] at hc
      have hl : ∃ l, (if c = 0 then M.lastRow k (M.nb - 1) else M.lastRow k (c - 1)) = .ok l ∧
          ∀ x, x < off C mb → l x = E (if off R c = 0 then off R nb - 1 else off R c - 1) x := by
        by_cases h0 : c = 0
        · rw [if_pos h0, hBr]
          obtain ⟨l, el, hl⟩ := lastRow_spec hB hE (show nb - 1 < nb by omega) (hF.1 _ (by omega))
          refine ⟨l, el, fun x hx => ?_⟩
          rw [hl x hx, h0, off_zero, if_pos rfl, show nb - 1 + 1 = nb by omega]
        · rw [if_neg h0]
          obtain ⟨l, el, hl⟩ := lastRow_spec hB hE (show c - 1 < nb by omega) (hF.1 _ (by omega))
          refine ⟨l, el, fun x hx => ?_⟩
          have h4 := off_lt (s := R) (a := 0) (n := c) (i := 0) (by omega) (hF.1 0 (by omega))
          rw [hl x hx, if_neg (by omega), show c - 1 + 1 = c by omega]
      obtain ⟨l, el, hl⟩ := hl
      obtain ⟨f, ef, hf⟩ := firstRow_spec hB hE hc (hF.1 c hc)
      rw [el, andThen_ok']
      dsimp only
      rw [ef, andThen_ok']
      -- the column before the zeros are written
      have hcol : ∃ H2 : Nat × Nat → ZMod p, (match (generalizing := false) k with
        | .hankel => forN (M.m - 1) (fun j H => write (j + 1, c + M.mb) (H (j + 1, c + M.mb) - f j) H)
            (match (generalizing := false) k with
              | .hankel => forN (M.m - 1) (fun j => write (j + 1, c + M.mb) (l (j + 1))) H'
              | .toeplitz => forN M.m (fun j => write (j, c + M.mb) (l j)) H')
        | .toeplitz => forN (M.m - 1) (fun j H => write (j, c + M.mb) (H (j, c + M.mb) - f (j + 1)) H)
            (match (generalizing := false) k with
              | .hankel => forN (M.m - 1) (fun j => write (j + 1, c + M.mb) (l (j + 1))) H'
              | .toeplitz => forN M.m (fun j => write (j, c + M.mb) (l j)) H')) = H2 ∧
          (∀ i j, j ≠ c + mb → H2 (i, j) = H' (i, j)) ∧
          ∀ j, j < off C mb → (∀ b, b < mb → j ≠ k.pos C b) → H2 (j, c + mb) = k.dd (off R nb) (off C mb) E (off R c) j := by
        refine ⟨_, rfl, fun i j hj => ?_, fun j hj hne => ?_⟩
        · cases k
          · dsimp only
            rw [col_sub', if_neg (by omega), col_fill' (f := fun j => l (j + 1)), if_neg (by omega)]
          · dsimp only
            rw [col_sub (f := fun j => f (j + 1)), if_neg (by omega), col_fill, if_neg (by omega)]
        · cases k
          · dsimp only
            have hj0 : j ≠ 0 := by have := hne 0 hmb; rwa [show Kind.pos .hankel C 0 = 0 from off_zero C] at this
            rw [col_sub', if_pos ⟨by omega, by omega, by omega⟩, col_fill' (f := fun j => l (j + 1)), if_pos ⟨by omega, by omega, by omega⟩,
              show j - 1 + 1 = j by omega, hl j hj, hf (j - 1) (by omega)]
            unfold Kind.dd
            show _ = _ - if j = 0 then 0 else E (off R c) (j - 1)
            have hz : (if j = 0 then (0 : ZMod p) else E (off R c) (j - 1)) = E (off R c) (j - 1) := if_neg hj0
            rw [hz]
          · dsimp only
            have hj0 : j + 1 ≠ off C mb := by
              have := hne (mb - 1) (by omega)
              rw [show Kind.pos .toeplitz C (mb - 1) = off C mb - 1 by show off C (mb - 1 + 1) - 1 = _; rw [show mb - 1 + 1 = mb by omega]] at this
              omega
            rw [col_sub (f := fun j => f (j + 1)), if_pos ⟨by omega, by omega⟩, col_fill, if_pos ⟨by omega, by omega⟩, hl j hj, hf (j + 1) (by omega)]
            unfold Kind.dd
            show _ = _ - if j + 1 = off C mb then 0 else E (off R c) (j + 1)
            have hz : (if j + 1 = off C mb then (0 : ZMod p) else E (off R c) (j + 1)) = E (off R c) (j + 1) := if_neg hj0
            rw [hz]
      obtain ⟨H2, eH, hH1, hH2⟩ := hcol
      rw [eH]
      obtain ⟨s, es, hs1, hs2, hs3⟩ := zeros_spec (k := k) hB hF H2 (c + M.mb)
      rw [es, andThen_ok']
      refine ⟨_, rfl, fun j b hb => ?_, fun a b ha hb => ?_, fun j a hj ha hne => ?_⟩
      · rw [hs1 _ _ (by omega), hH1 _ _ (by omega), h1 j b hb]
      · by_cases hac : a = c
        · rw [hac, ← hBb]; exact hs2 b hb
        · rw [hs1 _ _ (by omega), hH1 _ _ (by omega), h2 a b (by omega) hb]
      · by_cases hac : a = c
        · have := hs3 j hne
          rw [hBb] at this
          rw [hac, this, hH2 j hj hne]
        · rw [hs1 _ _ (by omega), hH1 _ _ (by omega), h3 j a hj (by omega) hne])
  exact ⟨u, e, h1, fun a b ha hb => h2 a b (by rw [hBr]; exact ha) hb, fun j a hj ha hne => h3 j a hj (by rw [hBr]; exact ha) hne⟩

/-- The generators, with all their entries. -/
theorem gens_spec (hB : Built M nb mb R C A) (hF : Full nb mb R C) (hE : IsMosaic k nb mb R C A E) (x y : PMat (ZMod p)) :
    ∃ G H, M.gens k x y = .ok (G, H) ∧ G.rows = off R nb ∧ H.rows = off C mb ∧ G.cols = nb + mb ∧ H.cols = nb + mb ∧
      ∀ i j, i < off R nb → j < off C mb → ∑ t ∈ Finset.range (nb + mb), G.e (i, t) * H.e (j, t) = k.dd (off R nb) (off C mb) E i j := by
  unfold Mosaic.gens
  dsimp only
  obtain ⟨g1, e1, hg1⟩ := genG1_spec hB hF hE (x.setDims M.n (M.nb + M.mb)).e
  obtain ⟨g2, e2, hg2, hg3⟩ := genG2_spec hB hF g1
  obtain ⟨h1, e3, hh1⟩ := genH1_spec (k := k) hB hF (y.setDims M.m (M.nb + M.mb)).e
  obtain ⟨h2, e4, hh2, hh3, hh4⟩ := genH2_spec hB hF hE h1
  rw [e1, andThen_ok', e2, andThen_ok', e3, andThen_ok', e4, andThen_ok']
  refine ⟨_, _, rfl, hB.n, hB.m, by show M.nb + M.mb = _; rw [hB.nb, hB.mb], by show M.nb + M.mb = _; rw [hB.nb, hB.mb], fun i j hi hj => ?_⟩
  dsimp only
  rw [Nat.add_comm nb mb, Finset.sum_range_add]
  by_cases hc : ∃ b, b < mb ∧ j = k.pos C b
  · obtain ⟨b, hb, rfl⟩ := hc
    rw [Finset.sum_eq_single_of_mem b (Finset.mem_range.2 hb), Finset.sum_eq_zero]
    · rw [hg2 i b hb, hg1 i b hi hb, hh2 _ b hb, hh1 _ b hj hb, if_pos rfl, mul_one, add_zero]
    · intro a ha
      rw [Nat.add_comm mb a, hh3 a b (Finset.mem_range.1 ha) hb, mul_zero]
    · intro t ht htb
      rw [hh2 _ t (Finset.mem_range.1 ht), hh1 _ t hj (Finset.mem_range.1 ht),
        if_neg (fun e => htb (pos_inj hF hb (Finset.mem_range.1 ht) e).symm), mul_zero]
  · have hne : ∀ b, b < mb → j ≠ k.pos C b := fun b hb e => hc ⟨b, hb, e⟩
    rw [Finset.sum_eq_zero, zero_add]
    · by_cases hr : ∃ a, a < nb ∧ i = off R a
      · obtain ⟨a, ha, rfl⟩ := hr
        rw [Finset.sum_eq_single_of_mem a (Finset.mem_range.2 ha)]
        · rw [Nat.add_comm mb a, hg3 _ a hi ha, if_pos rfl, one_mul, hh4 j a hj ha hne]
        · intro t ht hta
          have hat : off R a ≠ off R t := fun e =>
            hta (off_inj (s := R) (i := 0) (j := 0) (hF.1 a ha) (hF.1 t (Finset.mem_range.1 ht)) e).1.symm
          rw [Nat.add_comm mb t, hg3 _ t hi (Finset.mem_range.1 ht), if_neg hat, zero_mul]
      · rw [Finset.sum_eq_zero, dd_zero hF hE hi hj (fun a ha e => hr ⟨a, ha, e⟩) hne]
        intro t ht
        rw [Nat.add_comm mb t, hg3 _ t hi (Finset.mem_range.1 ht), if_neg (fun e => hr ⟨t, Finset.mem_range.1 ht, e⟩), zero_mul]
    · intro t ht
      rw [hh2 _ t (Finset.mem_range.1 ht), hh1 _ t hj (Finset.mem_range.1 ht), if_neg (hne t (Finset.mem_range.1 ht)), mul_zero]

/-- **C103**. `phi_plus_generators` returns generators of the displacement `Z_1 M - M Z_0^t` of a mosaic Hankel matrix, and of the
    displacement `Z_1 M - M Z_0` of a mosaic Toeplitz matrix, if all blocks have rows and columns. -/
theorem C103_generators (h : Tiled g nb mb R C A) (hM : Mosaic.make g = .ok M) (hF : Full nb mb R C) (x y : PMat (ZMod p)) :
    (∀ E, IsMosaic .hankel nb mb R C A E → ∃ G H, M.gens .hankel x y = .ok (G, H) ∧ G.rows = off R nb ∧ H.rows = off C mb ∧
      G.cols = nb + mb ∧ H.cols = nb + mb ∧ HasGens dispHP G H E) ∧
    ∀ E, IsMosaic .toeplitz nb mb R C A E → ∃ G H, M.gens .toeplitz x y = .ok (G, H) ∧ G.rows = off R nb ∧ H.rows = off C mb ∧
      G.cols = nb + mb ∧ H.cols = nb + mb ∧ HasGens dispTP G H E := by
  have hB := built_of_make h hM
  constructor
  · intro E hE
    obtain ⟨G, H, e, h1, h2, h3, h4, h5⟩ := gens_spec hB hF hE x y
    refine ⟨G, H, e, h1, h2, h3, h4, fun i j hi hj => ?_⟩
    rw [h1] at hi; rw [h2] at hj
    rw [h3, h5 i j hi hj, h1, h2]
    exact disp_eq (k := .hankel) _ _ i j hi hj
  · intro E hE
    obtain ⟨G, H, e, h1, h2, h3, h4, h5⟩ := gens_spec hB hF hE x y
    refine ⟨G, H, e, h1, h2, h3, h4, fun i j hi hj => ?_⟩
    rw [h1] at hi; rw [h2] at hj
    rw [h3, h5 i j hi hj, h1, h2]
    exact disp_eq (k := .toeplitz) _ _ i j hi hj

end PML.Ntl.Mosaic
