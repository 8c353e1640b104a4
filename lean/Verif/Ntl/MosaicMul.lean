import Verif.Ntl.MosaicSpec
import Verif.Ntl.StructProps
import Verif.Ntl.CLikeProps

/-!
# Mosaic matrices: access, dense form, products (C102)
-/

namespace PML.Ntl.Mosaic

open PML.Ntl.Utils PML.Ntl.Inv PML.Ntl.Solve PML.Ntl.Middle PML.Ntl.Struct PML.Ntl.CLike

variable {p : Nat} [Fact p.Prime] {k : Kind} {g : Grid p} {nb mb : Nat} {R C : Nat → Nat} {A : Nat → Nat → NVec (ZMod p)}

/-! ### Offsets -/

theorem off_zero (s : Nat → Nat) : off s 0 = 0 := by unfold off; rw [Finset.range_zero, Finset.sum_empty]

theorem off_succ (s : Nat → Nat) (k : Nat) : off s (k + 1) = off s k + s k := by unfold off; rw [Finset.sum_range_succ]

theorem off_mono (s : Nat → Nat) {a b : Nat} (h : a ≤ b) : off s a ≤ off s b := by
  induction b with
  | zero => obtain rfl : a = 0 := by omega
            exact le_rfl
  | succ b ih =>
    by_cases hb : a = b + 1
    · rw [hb]
    · rw [off_succ]; have := ih (by omega); omega

theorem off_lt {s : Nat → Nat} {a n i : Nat} (ha : a < n) (hi : i < s a) : off s a + i < off s n := by
  have := off_mono s (show a + 1 ≤ n by omega)
  rw [off_succ] at this
  omega

/-- Every index is in a block. -/
theorem off_find (s : Nat → Nat) (n : Nat) (x : Nat) (hx : x < off s n) : ∃ a i, a < n ∧ i < s a ∧ x = off s a + i := by
  induction n with
  | zero => rw [off_zero] at hx; omega
  | succ n ih =>
    by_cases h : x < off s n
    · obtain ⟨a, i, ha, hi, e⟩ := ih h
      exact ⟨a, i, by omega, hi, e⟩
    · rw [off_succ] at hx
      exact ⟨n, x - off s n, by omega, by omega, by omega⟩

theorem off_inj {s : Nat → Nat} {a b i j : Nat} (hi : i < s a) (hj : j < s b) (h : off s a + i = off s b + j) : a = b ∧ i = j := by
  rcases Nat.lt_trichotomy a b with hab | hab | hab
  · have := off_lt hab hi; omega
  · subst hab; exact ⟨rfl, by omega⟩
  · have := off_lt hab hj; omega

theorem sum_off (s : Nat → Nat) (n : Nat) (f : Nat → ZMod p) :
    ∑ x ∈ Finset.range (off s n), f x = ∑ a ∈ Finset.range n, ∑ i ∈ Finset.range (s a), f (off s a + i) := by
  induction n with
  | zero => rw [off_zero, Finset.range_zero, Finset.sum_empty, Finset.sum_empty]
  | succ n ih => rw [off_succ, Finset.sum_range_add, ih, Finset.sum_range_succ]

/-! ### The constructor -/

theorem Tiled.get (h : Tiled g nb mb R C A) {a b : Nat} (ha : a < nb) (hb : b < mb) :
    g.get a b = .ok (g.b a b) ∧ (g.b a b).n = R a ∧ (g.b a b).m = C b := by
  obtain ⟨h1, h2, -⟩ := made_of_make (h.block a b ha hb)
  refine ⟨?_, h1, h2⟩
  unfold Grid.get
  rw [if_pos ⟨by rw [h.nb_eq]; exact ha, by rw [h.len a ha]; exact hb⟩]

theorem sum_loop_ok {n : Nat} {f : Nat → Out Nat} {s : Nat → Nat} (h : ∀ i, i < n → f i = .ok (s i)) :
    loopOut n (fun i t => andThen (f i) fun x => .ok (t + x)) 0 = .ok (off s n) := by
  induction n with
  | zero => rw [off_zero]; rfl
  | succ n ih =>
    show andThen (loopOut n _ 0) _ = _
    rw [ih fun i hi => h i (by omega), andThen_ok']
    dsimp only
    rw [h n (by omega), andThen_ok', off_succ]

/-- **C102**. The constructor adds the sizes of the blocks. -/
theorem C102_constructor (h : Tiled g nb mb R C A) :
    ∃ M, Mosaic.make g = .ok M ∧ M.n = off R nb ∧ M.m = off C mb ∧ M.nb = nb ∧ M.mb = mb ∧ M.data = g := by
  unfold Mosaic.make
  rw [if_neg (by rw [h.nb_eq]; have := h.nb_pos; omega)]
  dsimp only
  have e1 : loopOut g.nb (fun i n => andThen (g.get i 0) fun t => .ok (n + t.n)) 0 = .ok (off R nb) := by
    have := sum_loop_ok (n := g.nb) (f := fun i => andThen (g.get i 0) fun t => .ok t.n) (s := R) (fun i hi => by
      obtain ⟨e, e', -⟩ := h.get (a := i) (b := 0) (by rw [← h.nb_eq]; exact hi) h.mb_pos
      rw [e, andThen_ok', e'])
    rw [h.nb_eq] at this ⊢
    rw [← this]
    congr 1
    funext i n
    cases g.get i 0 <;> rfl
  have e2 : loopOut (g.len 0) (fun j m => andThen (g.get 0 j) fun t => .ok (m + t.m)) 0 = .ok (off C mb) := by
    have := sum_loop_ok (n := mb) (f := fun j => andThen (g.get 0 j) fun t => .ok t.m) (s := C) (fun j hj => by
      obtain ⟨e, -, e'⟩ := h.get (a := 0) (b := j) h.nb_pos hj
      rw [e, andThen_ok', e'])
    rw [h.len 0 h.nb_pos, ← this]
    congr 1
    funext i n
    cases g.get 0 i <;> rfl
  rw [e1, andThen_ok', e2, andThen_ok']
  exact ⟨_, rfl, rfl, rfl, h.nb_eq, h.len 0 h.nb_pos, rfl⟩

/-- **C102**, finding. Without blocks, or when the first row of blocks, or another one, is empty, the constructor reads outside of the vectors. -/
theorem C102_constructor_empty (g : Grid p) (h : g.nb = 0 ∨ ∃ i, i < g.nb ∧ g.len i = 0) : Mosaic.make g = .ub := by
  unfold Mosaic.make
  by_cases h0 : g.nb = 0
  · rw [if_pos h0]
  · rw [if_neg h0]
    dsimp only
    obtain ⟨i, hi, hl⟩ := h.resolve_left h0
    have key : ∀ n, (∃ t, loopOut n (fun i n => andThen (g.get i 0) fun t => .ok (n + t.n)) 0 = .ok t ∧ ¬ i < n) ∨
        loopOut n (fun i n => andThen (g.get i 0) fun t => .ok (n + t.n)) 0 = .ub := by
      intro n
      induction n with
      | zero => exact .inl ⟨0, rfl, by omega⟩
      | succ n ih =>
        show (∃ t, andThen (loopOut n _ 0) _ = .ok t ∧ _) ∨ andThen (loopOut n _ 0) _ = .ub
        rcases ih with ⟨t, e, hn⟩ | e
        · rw [e, andThen_ok']
          dsimp only
          by_cases hg : n < g.nb ∧ 0 < g.len n
          · have : g.get n 0 = .ok (g.b n 0) := by unfold Grid.get; rw [if_pos hg]
            rw [this, andThen_ok']
            refine .inl ⟨_, rfl, ?_⟩
            have : i ≠ n := by rintro rfl; omega
            omega
          · have : g.get n 0 = .ub := by unfold Grid.get; rw [if_neg hg]
            rw [this]
            exact .inr rfl
        · rw [e]; exact .inr rfl
    rcases key g.nb with ⟨t, -, hn⟩ | e
    · exact absurd hi hn
    · rw [e]; rfl

/-- The members of an object built from a tiling. -/
structure Built (M : Mosaic p) (nb mb : Nat) (R C : Nat → Nat) (A : Nat → Nat → NVec (ZMod p)) : Prop where
  tiled : Tiled M.data nb mb R C A
  n : M.n = off R nb
  m : M.m = off C mb
  nb : M.nb = nb
  mb : M.mb = mb

theorem built_of_make (h : Tiled g nb mb R C A) {M : Mosaic p} (hM : Mosaic.make g = .ok M) : Built M nb mb R C A := by
  obtain ⟨M', e, h1, h2, h3, h4, h5⟩ := C102_constructor h
  rw [hM] at e
  obtain rfl := Out.ok.inj e
  exact ⟨by rw [h5]; exact h, h1, h2, h3, h4⟩

variable {M : Mosaic p}

theorem Built.rowsOf (h : Built M nb mb R C A) {a : Nat} (ha : a < nb) : M.rowsOf a = .ok (R a) := by
  obtain ⟨e, e', -⟩ := h.tiled.get (a := a) (b := 0) ha h.tiled.mb_pos
  unfold Mosaic.rowsOf
  rw [e, andThen_ok', e']

theorem Built.colsOf (h : Built M nb mb R C A) {b : Nat} (hb : b < mb) : M.colsOf b = .ok (C b) := by
  obtain ⟨e, -, e'⟩ := h.tiled.get (a := 0) (b := b) h.tiled.nb_pos hb
  unfold Mosaic.colsOf
  rw [e, andThen_ok', e']

theorem Kind.at_made {t : Band p} {input : NVec (ZMod p)} {n m : Nat} (h : Band.make input n m = .ok t) {i j : Nat} (hi : i < n) (hj : j < m) :
    k.at t i j = .ok (k.entry input.e n m i j) := by
  obtain ⟨h1, h2, ht⟩ := made_of_make h
  have hl := ht.len
  rw [h1, h2] at hl
  cases k
  · show (if _ then _ else _) = Out.ok (hankelEntry input.e n m i j)
    rw [if_neg (by omega), ht.data _ (by omega)]
    unfold hankelEntry
    congr 2; omega
  · show (if _ then _ else _) = Out.ok (toeplitzEntry input.e m i j)
    rw [if_neg (by omega), ht.data _ (by omega)]
    unfold toeplitzEntry
    congr 2; omega

theorem locate_spec {size : Nat → Out Nat} {s : Nat → Nat} {n : Nat} (hs : ∀ a, a < n → size a = .ok (s a)) {a i : Nat} (ha : a < n) (hi : i < s a) :
    ∀ fuel a0, a0 ≤ a → a - a0 < fuel → locate size fuel (off s a + i - off s a0) a0 = .ok (a, i)
  | 0, a0, h0, hf => by omega
  | fuel + 1, a0, h0, hf => by
    unfold locate
    rw [hs a0 (by omega), andThen_ok']
    by_cases h : a0 = a
    · subst h
      rw [if_neg (by omega), Nat.add_sub_cancel_left]
    · have h1 := off_mono s (show a0 + 1 ≤ a by omega)
      have h2 := off_succ s a0
      rw [if_pos (by omega)]
      have := locate_spec hs ha hi fuel (a0 + 1) (by omega) (by omega)
      rw [← this]
      congr 1
      omega

/-- `operator()`. -/
theorem at_spec (h : Built M nb mb R C A) {a b i j : Nat} (ha : a < nb) (hb : b < mb) (hi : i < R a) (hj : j < C b) :
    M.at k (off R a + i) (off C b + j) = .ok (k.entry (A a b).e (R a) (C b) i j) := by
  have h1 := off_lt (s := R) ha hi
  have h2 := off_lt (s := C) hb hj
  unfold Mosaic.at
  rw [if_neg (by rw [h.n, h.m]; omega)]
  have e1 := locate_spec (size := M.rowsOf) (s := R) (n := nb) (fun a ha => h.rowsOf ha) ha hi (M.nb + 1) 0 (by omega) (by rw [h.nb]; omega)
  have e2 := locate_spec (size := M.colsOf) (s := C) (n := mb) (fun b hb => h.colsOf hb) hb hj (M.mb + 1) 0 (by omega) (by rw [h.mb]; omega)
  rw [off_zero, Nat.sub_zero] at e1 e2
  rw [e1, andThen_ok', e2, andThen_ok']
  dsimp only
  rw [(h.tiled.get ha hb).1, andThen_ok']
  exact Kind.at_made (h.tiled.block a b ha hb) hi hj

/-- **C102**. `operator()(i, j)` is the entry, and an error outside of the matrix. -/
theorem C102_access (h : Tiled g nb mb R C A) {M : Mosaic p} (hM : Mosaic.make g = .ok M) (k : Kind) {E : Nat → Nat → ZMod p}
    (hE : IsMosaic k nb mb R C A E) (i j : Nat) :
    (i < off R nb ∧ j < off C mb → M.at k i j = .ok (E i j)) ∧ (off R nb ≤ i ∨ off C mb ≤ j → M.at k i j = .error) := by
  have hB := built_of_make h hM
  constructor
  · rintro ⟨hi, hj⟩
    obtain ⟨a, x, ha, hx, rfl⟩ := off_find R nb i hi
    obtain ⟨b, y, hb, hy, rfl⟩ := off_find C mb j hj
    rw [at_spec hB ha hb hx hy, hE a b x y ha hb hx hy]
  · intro hc
    unfold Mosaic.at
    rw [if_pos (by rw [hB.n, hB.m]; exact hc)]

/-- There is such a matrix. -/
theorem exists_mosaic (h : Tiled g nb mb R C A) (k : Kind) : ∃ E, IsMosaic k nb mb R C A E := by
  obtain ⟨M, hM, -⟩ := C102_constructor h
  have hB := built_of_make h hM
  refine ⟨fun i j => match M.at k i j with | .ok a => a | _ => 0, fun a b i j ha hb hi hj => ?_⟩
  dsimp only
  rw [at_spec hB ha hb hi hj]

theorem dense_spec (hB : Built M nb mb R C A) (k : Kind) {E : Nat → Nat → ZMod p} (hE : IsMosaic k nb mb R C A E) (x : PMat (ZMod p)) :
    IsMat (M.dense k x) (off R nb) (off C mb) E := by
  have hat : ∀ i j, i < M.n → j < M.m → M.at k i j = .ok (E i j) := by
    intro i j hi hj
    rw [hB.n] at hi; rw [hB.m] at hj
    obtain ⟨a, x, ha, hx, rfl⟩ := off_find R nb i hi
    obtain ⟨b, y, hb, hy, rfl⟩ := off_find C mb j hj
    rw [at_spec hB ha hb hx hy, hE a b x y ha hb hx hy]
  unfold Mosaic.dense
  dsimp only
  obtain ⟨e, he, hP⟩ := loopOut_inv (k := M.n) (fun n (e : Nat × Nat → ZMod p) => ∀ i j, i < n → j < M.m → e (i, j) = E i j)
    (f := fun i e => loopOut M.m (fun j e => andThen (M.at k i j) fun a => .ok (write (i, j) a e)) e)
    (s := (x.setDims M.n M.m).e) (fun i j hi => absurd hi (by omega)) (by
      intro i e hi hP
      obtain ⟨u, eu, hu⟩ := loopOut_inv (k := M.m) (fun m (e : Nat × Nat → ZMod p) => (∀ i' j, i' < i → j < M.m → e (i', j) = E i' j) ∧
          ∀ j, j < m → e (i, j) = E i j) (f := fun j e => andThen (M.at k i j) fun a => .ok (write (i, j) a e)) (s := e)
        ⟨hP, fun j hj => absurd hj (by omega)⟩ (by
          intro j t hj ⟨h1, h2⟩
          rw [hat i j hi hj, andThen_ok']
          refine ⟨_, rfl, fun i' j' hi' hj' => ?_, fun j' hj' => ?_⟩
          · unfold write
            rw [Function.update_of_ne (by rintro e; have := congrArg Prod.fst e; dsimp only at this; omega)]
            exact h1 i' j' hi' hj'
          · unfold write
            by_cases hjj : j' = j
            · rw [hjj, Function.update_self]
            · rw [Function.update_of_ne (by rintro e; exact hjj (congrArg Prod.snd e))]
              exact h2 j' (by omega))
      refine ⟨u, eu, fun i' j hi' hj => ?_⟩
      by_cases hii : i' = i
      · rw [hii]; exact hu.2 j hj
      · exact hu.1 i' j (by omega) hj)
  rw [he, andThen_ok']
  refine ⟨_, rfl, hB.n, hB.m, fun i j hi hj => hP i j (by rw [hB.n]; exact hi) (by rw [hB.m]; exact hj)⟩

/-- **C102**. The dense form. -/
theorem C102_dense (h : Tiled g nb mb R C A) {M : Mosaic p} (hM : Mosaic.make g = .ok M) (k : Kind) {E : Nat → Nat → ZMod p}
    (hE : IsMosaic k nb mb R C A E) (x : PMat (ZMod p)) : IsMat (M.dense k x) (off R nb) (off C mb) E :=
  dense_spec (built_of_make h hM) k hE x

/-! ### Products -/

/-- The loop `for (ell) res[idx + ell] += out[ell]`. -/
theorem add_block (idx w : Nat) (out res : Nat → ZMod p) (x : Nat) :
    forN w (fun l e => write (idx + l) (e (idx + l) + out l) e) res x = if idx ≤ x ∧ x < idx + w then res x + out (x - idx) else res x := by
  have := forN_inv (n := w) (P := fun n (e : Nat → ZMod p) => ∀ x, e x = if idx ≤ x ∧ x < idx + n then res x + out (x - idx) else res x)
    (s := res) (f := fun l e => write (idx + l) (e (idx + l) + out l) e) (fun x => by rw [if_neg (by omega)]) (by
      intro l e hl hP x
      unfold write
      by_cases hx : x = idx + l
      · subst hx
        rw [Function.update_self, hP, if_neg (by omega), if_pos (by omega), Nat.add_sub_cancel_left]
      · rw [Function.update_of_ne hx, hP x]
        by_cases hc : idx ≤ x ∧ x < idx + l
        · rw [if_pos hc, if_pos (by omega)]
        · rw [if_neg hc, if_neg (by omega)])
  exact this x

theorem right_block {t : Band p} {input : NVec (ZMod p)} {n m : Nat} {red : Nat → ZMod p} (hred : RedOK red) (h : Band.make input n m = .ok t)
    (cross : Nat) (v : Nat → ZMod p) (hno : NoOverflow p cross n m m) :
    IsRight (k.right t red cross ⟨m, v⟩) n m (k.entry input.e n m) v := by
  haveI : Fact (1 < p) := ⟨(Fact.out : p.Prime).one_lt⟩
  cases k
  · exact C83_hankel_right_partial hred h cross ⟨m, v⟩ rfl hno
  · exact C83_toeplitz_right_partial hred h cross ⟨m, v⟩ rfl hno

theorem left_block {t : Band p} {input : NVec (ZMod p)} {n m : Nat} {red : Nat → ZMod p} (hred : RedOK red) (h : Band.make input n m = .ok t)
    (cross : Nat) (v : Nat → ZMod p) (hno : NoOverflow p cross n m n) :
    IsLeft (k.left t red cross ⟨n, v⟩) n m (k.entry input.e n m) v := by
  haveI : Fact (1 < p) := ⟨(Fact.out : p.Prime).one_lt⟩
  cases k
  · exact C83_hankel_left_partial hred h cross ⟨n, v⟩ rfl hno
  · exact C83_toeplitz_left_partial hred h cross ⟨n, v⟩ rfl hno

/-- One column of blocks: `step a` is the product by the block `a`. -/
theorem inner_acc {n lim : Nat} {S : Nat → Nat} {size : Nat → Out Nat} (hsize : ∀ a, a < n → size a = .ok (S a)) (hlim : lim = off S n)
    {step : Nat → Out (NVec (ZMod p))} {val : Nat → Nat → ZMod p}
    (hstep : ∀ a, a < n → ∃ w, step a = .ok w ∧ w.len = S a ∧ ∀ i, i < S a → w.e i = val a i) (res : Nat → ZMod p) :
    ∃ r, loopOut n (fun i (r : Nat × (Nat → ZMod p)) => andThen (size i) fun nrows => andThen (step i) fun out =>
        if out.len < nrows ∨ lim < r.1 + nrows then .ub
        else .ok (r.1 + nrows, forN nrows (fun l e => write (r.1 + l) (e (r.1 + l) + out.e l) e) r.2)) (0, res) = .ok r ∧
      ∀ a i, a < n → i < S a → r.2 (off S a + i) = res (off S a + i) + val a i := by
  obtain ⟨r, e, h1, h2⟩ := loopOut_inv (k := n) (fun c (r : Nat × (Nat → ZMod p)) => r.1 = off S c ∧
      ∀ a i, a < n → i < S a → r.2 (off S a + i) = if a < c then res (off S a + i) + val a i else res (off S a + i))
    (f := fun i (r : Nat × (Nat → ZMod p)) => andThen (size i) fun nrows => andThen (step i) fun out =>
        if out.len < nrows ∨ lim < r.1 + nrows then Out.ub
        else .ok (r.1 + nrows, forN nrows (fun l e => write (r.1 + l) (e (r.1 + l) + out.e l) e) r.2)) (s := (0, res))
    ⟨(off_zero S).symm, fun a i _ _ => by rw [if_neg (by omega)]⟩ (by
      intro c r hc ⟨h1, h2⟩
      obtain ⟨w, ew, hw1, hw2⟩ := hstep c hc
      rw [hsize c hc, andThen_ok', ew, andThen_ok']
      have hle := off_mono S (show c + 1 ≤ n by omega)
      rw [off_succ] at hle
      rw [if_neg (by rw [h1, hw1, hlim]; omega)]
      refine ⟨_, rfl, by dsimp only; rw [h1, off_succ], fun a i ha hi => ?_⟩
      dsimp only
      rw [add_block, h1, h2 a i ha hi]
      by_cases hac : a = c
      · subst hac
        rw [if_pos (by omega), if_neg (by omega), if_pos (by omega), Nat.add_sub_cancel_left, hw2 i hi]
      · have hne : ¬(off S c ≤ off S a + i ∧ off S a + i < off S c + S c) := by
          rintro ⟨h3, h4⟩
          exact hac (off_inj (s := S) (a := a) (b := c) (i := i) (j := off S a + i - off S c) hi (by omega) (by omega)).1
        rw [if_neg hne]
        by_cases hlt : a < c
        · rw [if_pos hlt, if_pos (by omega)]
        · rw [if_neg hlt, if_neg (by omega)])
  refine ⟨r, e, fun a i ha hi => ?_⟩
  rw [h2 a i ha hi, if_pos ha]

theorem accRight_spec {red : Nat → ZMod p} (hred : RedOK red) (hB : Built M nb mb R C A) (k : Kind) {E : Nat → Nat → ZMod p}
    (hE : IsMosaic k nb mb R C A E) (cross len : Nat) (hlen : len = off C mb) (inp res : Nat → ZMod p)
    (hno : ∀ a b, a < nb → b < mb → NoOverflow p cross (R a) (C b) (C b)) :
    ∃ r, M.accRight k red cross len inp res = .ok r ∧
      ∀ i, i < off R nb → r i = res i + ∑ j ∈ Finset.range (off C mb), E i j * inp j := by
  obtain ⟨s, e, h1, h2⟩ := loopOut_inv (k := M.mb) (fun c (s : Nat × (Nat → ZMod p)) => s.1 = off C c ∧
      ∀ a i, a < nb → i < R a → s.2 (off R a + i) = res (off R a + i) + ∑ j ∈ Finset.range (off C c), E (off R a + i) j * inp j)
    (f := fun j (s : Nat × (Nat → ZMod p)) =>
      andThen (M.colsOf j) fun ncols =>
      if len < s.1 + ncols then Out.ub
      else
        let tmpIn := fun l => inp (s.1 + l)
        andThen (loopOut M.nb (fun i (r : Nat × (Nat → ZMod p)) =>
          andThen (M.rowsOf i) fun nrows =>
          andThen (M.data.get i j) fun t =>
          andThen (k.right t red cross ⟨ncols, tmpIn⟩) fun out =>
          if out.len < nrows ∨ M.n < r.1 + nrows then .ub
          else .ok (r.1 + nrows, forN nrows (fun l e => write (r.1 + l) (e (r.1 + l) + out.e l) e) r.2)) (0, s.2)) fun r =>
        .ok (s.1 + ncols, r.2)) (s := (0, res))
    ⟨(off_zero C).symm, fun a i _ _ => by rw [off_zero, Finset.range_zero, Finset.sum_empty, add_zero]⟩ (by
      intro c s hc ⟨h1, h2⟩
      rw [hB.mb] at hc
      rw [hB.colsOf hc, andThen_ok']
      have hle := off_mono C (show c + 1 ≤ mb by omega)
      rw [off_succ] at hle
      rw [if_neg (by rw [h1, hlen]; omega)]
      dsimp only
      obtain ⟨r, er, hr⟩ := inner_acc (n := M.nb) (lim := M.n) (S := R) (size := M.rowsOf) (fun a ha => hB.rowsOf (by rwa [hB.nb] at ha))
        (by rw [hB.n, hB.nb]) (step := fun i => andThen (M.data.get i c) fun t => k.right t red cross ⟨C c, fun l => inp (s.1 + l)⟩)
        (val := fun a i => ∑ l ∈ Finset.range (C c), E (off R a + i) (off C c + l) * inp (off C c + l)) (by
          intro a ha
          rw [hB.nb] at ha
          rw [(hB.tiled.get ha hc).1, andThen_ok']
          obtain ⟨w, ew, hw1, hw2⟩ := right_block (k := k) hred (hB.tiled.block a c ha hc) cross (fun l => inp (s.1 + l)) (hno a c ha hc)
          refine ⟨w, ew, hw1, fun i hi => ?_⟩
          rw [hw2 i hi]
          refine Finset.sum_congr rfl fun l hl => ?_
          rw [hE a c i l ha hc hi (Finset.mem_range.1 hl), h1]) s.2
      have eq : (fun i (r : Nat × (Nat → ZMod p)) =>
          andThen (M.rowsOf i) fun nrows =>
          andThen (M.data.get i c) fun t =>
          andThen (k.right t red cross ⟨C c, fun l => inp (s.1 + l)⟩) fun out =>
          if out.len < nrows ∨ M.n < r.1 + nrows then Out.ub
          else .ok (r.1 + nrows, forN nrows (fun l e => write (r.1 + l) (e (r.1 + l) + out.e l) e) r.2)) =
          fun i (r : Nat × (Nat → ZMod p)) => andThen (M.rowsOf i) fun nrows =>
            andThen (andThen (M.data.get i c) fun t => k.right t red cross ⟨C c, fun l => inp (s.1 + l)⟩) fun out =>
            if out.len < nrows ∨ M.n < r.1 + nrows then .ub
            else .ok (r.1 + nrows, forN nrows (fun l e => write (r.1 + l) (e (r.1 + l) + out.e l) e) r.2) := by
        funext i r
        cases M.rowsOf i <;> [skip; rfl; rfl; rfl]
        cases M.data.get i c <;> rfl
      rw [eq, er, andThen_ok']
      refine ⟨_, rfl, by dsimp only; rw [h1, off_succ], fun a i ha hi => ?_⟩
      dsimp only
      rw [hr a i (by rw [hB.nb]; exact ha) hi, h2 a i ha hi, off_succ, Finset.sum_range_add, add_assoc])
  unfold Mosaic.accRight
  rw [e, andThen_ok']
  refine ⟨_, rfl, fun i hi => ?_⟩
  obtain ⟨a, x, ha, hx, rfl⟩ := off_find R nb i hi
  rw [h2 a x ha hx, hB.mb]

theorem accLeft_spec {red : Nat → ZMod p} (hred : RedOK red) (hB : Built M nb mb R C A) (k : Kind) {E : Nat → Nat → ZMod p}
    (hE : IsMosaic k nb mb R C A E) (cross len : Nat) (hlen : len = off R nb) (inp res : Nat → ZMod p)
    (hno : ∀ a b, a < nb → b < mb → NoOverflow p cross (R a) (C b) (R a)) :
    ∃ r, M.accLeft k red cross len inp res = .ok r ∧
      ∀ j, j < off C mb → r j = res j + ∑ i ∈ Finset.range (off R nb), inp i * E i j := by
  obtain ⟨s, e, h1, h2⟩ := loopOut_inv (k := M.nb) (fun c (s : Nat × (Nat → ZMod p)) => s.1 = off R c ∧
      ∀ b j, b < mb → j < C b → s.2 (off C b + j) = res (off C b + j) + ∑ i ∈ Finset.range (off R c), inp i * E i (off C b + j))
    (f := fun i (s : Nat × (Nat → ZMod p)) =>
      andThen (M.rowsOf i) fun nrows =>
      if len < s.1 + nrows then Out.ub
      else
        let tmpIn := fun l => inp (s.1 + l)
        andThen (loopOut M.mb (fun j (r : Nat × (Nat → ZMod p)) =>
          andThen (M.colsOf j) fun ncols =>
          andThen (M.data.get i j) fun t =>
          andThen (k.left t red cross ⟨nrows, tmpIn⟩) fun out =>
          if out.len < ncols ∨ M.m < r.1 + ncols then .ub
          else .ok (r.1 + ncols, forN ncols (fun l e => write (r.1 + l) (e (r.1 + l) + out.e l) e) r.2)) (0, s.2)) fun r =>
        .ok (s.1 + nrows, r.2)) (s := (0, res))
    ⟨(off_zero R).symm, fun a i _ _ => by rw [off_zero, Finset.range_zero, Finset.sum_empty, add_zero]⟩ (by
      intro c s hc ⟨h1, h2⟩
      rw [hB.nb] at hc
      rw [hB.rowsOf hc, andThen_ok']
      have hle := off_mono R (show c + 1 ≤ nb by omega)
      rw [off_succ] at hle
      rw [if_neg (by rw [h1, hlen]; omega)]
      dsimp only
      obtain ⟨r, er, hr⟩ := inner_acc (n := M.mb) (lim := M.m) (S := C) (size := M.colsOf) (fun a ha => hB.colsOf (by rwa [hB.mb] at ha))
        (by rw [hB.m, hB.mb]) (step := fun j => andThen (M.data.get c j) fun t => k.left t red cross ⟨R c, fun l => inp (s.1 + l)⟩)
        (val := fun b j => ∑ l ∈ Finset.range (R c), inp (off R c + l) * E (off R c + l) (off C b + j)) (by
          intro b hb
          rw [hB.mb] at hb
          rw [(hB.tiled.get hc hb).1, andThen_ok']
          obtain ⟨w, ew, hw1, hw2⟩ := left_block (k := k) hred (hB.tiled.block c b hc hb) cross (fun l => inp (s.1 + l)) (hno c b hc hb)
          refine ⟨w, ew, hw1, fun j hj => ?_⟩
          rw [hw2 j hj]
          refine Finset.sum_congr rfl fun l hl => ?_
          rw [hE c b l j hc hb (Finset.mem_range.1 hl) hj, h1]) s.2
      have eq : (fun j (r : Nat × (Nat → ZMod p)) =>
          andThen (M.colsOf j) fun ncols =>
          andThen (M.data.get c j) fun t =>
          andThen (k.left t red cross ⟨R c, fun l => inp (s.1 + l)⟩) fun out =>
          if out.len < ncols ∨ M.m < r.1 + ncols then Out.ub
          else .ok (r.1 + ncols, forN ncols (fun l e => write (r.1 + l) (e (r.1 + l) + out.e l) e) r.2)) =
          fun j (r : Nat × (Nat → ZMod p)) => andThen (M.colsOf j) fun ncols =>
            andThen (andThen (M.data.get c j) fun t => k.left t red cross ⟨R c, fun l => inp (s.1 + l)⟩) fun out =>
            if out.len < ncols ∨ M.m < r.1 + ncols then .ub
            else .ok (r.1 + ncols, forN ncols (fun l e => write (r.1 + l) (e (r.1 + l) + out.e l) e) r.2) := by
        funext j r
        cases M.colsOf j <;> [skip; rfl; rfl; rfl]
        cases M.data.get c j <;> rfl
      rw [eq, er, andThen_ok']
      refine ⟨_, rfl, by dsimp only; rw [h1, off_succ], fun b j hb hj => ?_⟩
      dsimp only
      rw [hr b j (by rw [hB.mb]; exact hb) hj, h2 b j hb hj, off_succ, Finset.sum_range_add, add_assoc])
  unfold Mosaic.accLeft
  rw [e, andThen_ok']
  refine ⟨_, rfl, fun i hi => ?_⟩
  obtain ⟨a, x, ha, hx, rfl⟩ := off_find C mb i hi
  rw [h2 a x ha hx, hB.nb]

/-- **C102 (partial)**. Product on the right by a vector.  Missing: the case where the sums of the products by a block overflow (see C83). -/
theorem C102_right_partial {red : Nat → ZMod p} (hred : RedOK red) (h : Tiled g nb mb R C A) {M : Mosaic p} (hM : Mosaic.make g = .ok M)
    (k : Kind) {E : Nat → Nat → ZMod p} (hE : IsMosaic k nb mb R C A E) (cross : Nat) (v : NVec (ZMod p))
    (hno : ∀ a b, a < nb → b < mb → NoOverflow p cross (R a) (C b) (C b)) :
    (v.len = off C mb → IsRight (M.right k red cross v) (off R nb) (off C mb) E v.e) ∧ (v.len ≠ off C mb → M.right k red cross v = .error) := by
  have hB := built_of_make h hM
  unfold Mosaic.right
  constructor
  · intro hv
    rw [if_neg (by rw [hB.m]; omega)]
    obtain ⟨r, e, hr⟩ := accRight_spec hred hB k hE cross v.len hv v.e (forN M.n (fun i => write i 0) fun _ => 0) hno
    rw [e, andThen_ok']
    refine ⟨_, rfl, hB.n, fun i hi => ?_⟩
    dsimp only
    rw [hr i hi, fill_loop, if_pos (by rw [hB.n]; exact hi), zero_add]
  · intro hv
    rw [if_pos (by rw [hB.m]; exact hv)]

/-- **C102 (partial)**. Product on the left by a vector.  Missing: as in `C102_right_partial`. -/
theorem C102_left_partial {red : Nat → ZMod p} (hred : RedOK red) (h : Tiled g nb mb R C A) {M : Mosaic p} (hM : Mosaic.make g = .ok M)
    (k : Kind) {E : Nat → Nat → ZMod p} (hE : IsMosaic k nb mb R C A E) (cross : Nat) (v : NVec (ZMod p))
    (hno : ∀ a b, a < nb → b < mb → NoOverflow p cross (R a) (C b) (R a)) :
    (v.len = off R nb → IsLeft (M.left k red cross v) (off R nb) (off C mb) E v.e) ∧ (v.len ≠ off R nb → M.left k red cross v = .error) := by
  have hB := built_of_make h hM
  unfold Mosaic.left
  constructor
  · intro hv
    rw [if_neg (by rw [hB.n]; omega)]
    obtain ⟨r, e, hr⟩ := accLeft_spec hred hB k hE cross v.len hv v.e (forN M.m (fun i => write i 0) fun _ => 0) hno
    rw [e, andThen_ok']
    refine ⟨_, rfl, hB.m, fun i hi => ?_⟩
    dsimp only
    rw [hr i hi, fill_loop, if_pos (by rw [hB.m]; exact hi), zero_add]
  · intro hv
    rw [if_pos (by rw [hB.n]; exact hv)]

/-- **C102 (partial)**. Product on the right by a matrix.  Missing: as in `C102_right_partial`. -/
theorem C102_right_matrix_partial {red : Nat → ZMod p} (hred : RedOK red) (h : Tiled g nb mb R C A) {M : Mosaic p} (hM : Mosaic.make g = .ok M)
    (k : Kind) {E : Nat → Nat → ZMod p} (hE : IsMosaic k nb mb R C A E) (cross lim : Nat) (x V : PMat (ZMod p))
    (hno : ∀ a b, a < nb → b < mb → NoOverflow p cross (R a) (C b) (C b)) :
    (V.rows = off C mb → IsMat (M.rightMat k red cross lim x V) (off R nb) V.cols fun i j => ∑ l ∈ Finset.range (off C mb), E i l * V.e (l, j)) ∧
    (V.rows ≠ off C mb → M.rightMat k red cross lim x V = .error) := by
  have hB := built_of_make h hM
  unfold Mosaic.rightMat
  constructor
  · intro hV
    rw [if_neg (by rw [hB.m]; omega)]
    by_cases hD : M.useDense lim V.cols
    · rw [if_pos hD]
      exact dense_right (dense_spec hB k hE newMat) V hV
    · rw [if_neg hD]
      dsimp only
      obtain ⟨e, he, h1, h2⟩ := loopOut_inv (k := V.cols) (fun c (e : Nat × Nat → ZMod p) =>
          (∀ i j, i < off R nb → j < c → e (i, j) = ∑ l ∈ Finset.range (off C mb), E i l * V.e (l, j)) ∧
          ∀ i j, i < off R nb → c ≤ j → j < V.cols → e (i, j) = 0)
        (f := fun r e => andThen (M.accRight k red cross V.rows (fun i => V.e (i, r)) fun i => e (i, r)) fun v =>
          .ok fun ij => if ij.2 = r then v ij.1 else e ij)
        (s := loop2 M.n V.cols (fun _ _ _ => 0) (x.setDims M.n V.cols).e)
        ⟨fun i j _ hj => absurd hj (by omega), fun i j hi _ hj => loop2_at _ _ _ _ _ _ (by rw [hB.n]; exact hi) hj⟩ (by
          intro c e hc ⟨h1, h2⟩
          obtain ⟨r, er, hr⟩ := accRight_spec hred hB k hE cross V.rows hV (fun i => V.e (i, c)) (fun i => e (i, c)) hno
          rw [er, andThen_ok']
          refine ⟨_, rfl, fun i j hi hj => ?_, fun i j hi hj hj' => ?_⟩
          · dsimp only
            by_cases hjc : j = c
            · subst hjc
              rw [if_pos rfl, hr i hi, h2 i j hi le_rfl hc, zero_add]
            · rw [if_neg hjc, h1 i j hi (by omega)]
          · dsimp only
            rw [if_neg (by omega), h2 i j hi (by omega) hj'])
      rw [he, andThen_ok']
      exact ⟨_, rfl, hB.n, rfl, fun i j hi hj => h1 i j hi hj⟩
  · intro hV
    rw [if_pos (by rw [hB.m]; exact hV)]

/-- **C102 (partial)**. Product on the left by a matrix.  Missing: as in `C102_right_partial`. -/
theorem C102_left_matrix_partial {red : Nat → ZMod p} (hred : RedOK red) (h : Tiled g nb mb R C A) {M : Mosaic p} (hM : Mosaic.make g = .ok M)
    (k : Kind) {E : Nat → Nat → ZMod p} (hE : IsMosaic k nb mb R C A E) (cross lim : Nat) (x V : PMat (ZMod p))
    (hno : ∀ a b, a < nb → b < mb → NoOverflow p cross (R a) (C b) (R a)) :
    (V.cols = off R nb → IsMat (M.leftMat k red cross lim x V) V.rows (off C mb) fun i j => ∑ l ∈ Finset.range (off R nb), V.e (i, l) * E l j) ∧
    (V.cols ≠ off R nb → M.leftMat k red cross lim x V = .error) := by
  have hB := built_of_make h hM
  unfold Mosaic.leftMat
  constructor
  · intro hV
    rw [if_neg (by rw [hB.n]; omega)]
    by_cases hD : M.useDense lim V.rows
    · rw [if_pos hD]
      exact dense_left (dense_spec hB k hE newMat) V hV
    · rw [if_neg hD]
      dsimp only
      obtain ⟨e, he, h1, h2⟩ := loopOut_inv (k := V.rows) (fun c (e : Nat × Nat → ZMod p) =>
          (∀ i j, i < c → j < off C mb → e (i, j) = ∑ l ∈ Finset.range (off R nb), V.e (i, l) * E l j) ∧
          ∀ i j, c ≤ i → i < V.rows → j < off C mb → e (i, j) = 0)
        (f := fun r e => andThen (M.accLeft k red cross V.cols (fun i => V.e (r, i)) fun i => e (r, i)) fun v =>
          .ok fun ij => if ij.1 = r then v ij.2 else e ij)
        (s := loop2 V.rows M.m (fun _ _ _ => 0) (x.setDims V.rows M.m).e)
        ⟨fun i j hi => absurd hi (by omega), fun i j _ hi hj => loop2_at _ _ _ _ _ _ hi (by rw [hB.m]; exact hj)⟩ (by
          intro c e hc ⟨h1, h2⟩
          obtain ⟨r, er, hr⟩ := accLeft_spec hred hB k hE cross V.cols hV (fun i => V.e (c, i)) (fun i => e (c, i)) hno
          rw [er, andThen_ok']
          refine ⟨_, rfl, fun i j hi hj => ?_, fun i j hi hi' hj => ?_⟩
          · dsimp only
            by_cases hic : i = c
            · subst hic
              rw [if_pos rfl, hr j hj, h2 i j le_rfl hc hj, zero_add]
            · rw [if_neg hic, h1 i j (by omega) hj]
          · dsimp only
            rw [if_neg (by omega), h2 i j (by omega) hi' hj])
      rw [he, andThen_ok']
      exact ⟨_, rfl, rfl, hB.m, fun i j hi hj => h1 i j hi hj⟩
  · intro hV
    rw [if_pos (by rw [hB.n]; exact hV)]

end PML.Ntl.Mosaic
