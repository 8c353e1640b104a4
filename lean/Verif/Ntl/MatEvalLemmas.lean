import Verif.Ntl.MatEvalSpec
import Verif.Ntl.MatMulLemmas

/-!
# Lemmas for products of polynomial matrices by FFT
-/

namespace PML.Ntl.MatEval

open Polynomial PML.Ntl.Utils PML.Ntl.MatMul

variable {F : Type} [Field F]

set_option linter.unusedSectionVars false

/-- Interpolation gives back the polynomial. -/
theorem fromEval_eq (pt : Nat → F) (len lo cnt : Nat) (hinj : ∀ r r', r < len → r' < len → pt r = pt r' → r = r')
    (v : Nat → F) (Q : F[X]) (hQ : ∀ k, len ≤ k → Q.coeff k = 0) (hv : ∀ r, r < len → v r = Q.eval (pt r)) :
    fromEval pt len lo cnt v = slice Q lo cnt := by
  unfold fromEval
  rw [← Lagrange.eq_interpolate_of_eval_eq v (s := Finset.range len) (v := pt)]
  · intro x hx y hy h
    exact hinj x y (by simpa using hx) (by simpa using hy) h
  · rw [Finset.card_range, degree_lt_iff_coeff_zero]
    exact hQ
  · intro i hi
    exact (hv i (Finset.mem_range.1 hi)).symm

/-- The output is interpolated from the values of the product at the points. -/
def EvalProd (pt : Nat → F) (len lo cnt : Nat) (a b c : PMat F[X]) : Prop :=
  c.rows = a.rows ∧ c.cols = b.cols ∧ ∀ i j, i < a.rows → j < b.cols → ∃ v : Nat → F,
    (∀ r, r < len → v r = ∑ k ∈ Finset.range a.cols, (a.e (i, k)).eval (pt r) * (b.e (k, j)).eval (pt r)) ∧
    c.e (i, j) = fromEval pt len lo cnt v

theorem repDot_eq (n : Nat) (hn : 0 < n) (x y : Nat → Nat → F) (r : Nat) :
    repDot n x y r = ∑ j ∈ Finset.range n, x j r * y j r := by
  obtain ⟨n, rfl⟩ : ∃ m, n = m + 1 := ⟨n - 1, by omega⟩
  unfold repDot
  rw [Nat.add_sub_cancel]
  refine forN_inv (P := fun (n : Nat) (t : Nat → F) => t r = ∑ j ∈ Finset.range (n + 1), x j r * y j r) (by simp) ?_
  intro i t _ h
  rw [Finset.sum_range_succ, ← h]

theorem fftDirect_spec (pt : Nat → F) (len lo cnt : Nat) (a b : PMat F[X]) (hab : a.cols = b.rows) (h0 : 0 < a.cols) :
    ∃ c, fftDirect pt len lo cnt a b = some c ∧ EvalProd pt len lo cnt a b c := by
  unfold fftDirect
  dsimp only
  rw [if_neg (by omega)]
  refine ⟨_, rfl, rfl, rfl, fun i j hi hj => ?_⟩
  dsimp only
  rw [loop2_at _ _ (fun i k => fromEval pt len lo cnt (repDot a.cols (fun j r => (a.e (i, j)).eval (pt r))
    fun j r => (b.e (j, k)).eval (pt r))) _ i j hi hj]
  exact ⟨_, fun r _ => repDot_eq _ h0 _ _ r, rfl⟩

/-! ### Flat arrays -/

theorem flat2_lt {s t i k : Nat} (hi : i < s) (hk : k < t) : i * t + k < s * t := by
  have := Nat.mul_le_mul_right t (show i + 1 ≤ s by omega)
  rw [Nat.succ_mul] at this
  omega

theorem flat2 {t i k : Nat} (hk : k < t) : (i * t + k) / t = i ∧ (i * t + k) % t = k := by
  constructor
  · rw [Nat.mul_comm, Nat.mul_add_div (by omega), Nat.div_eq_of_lt hk, Nat.add_zero]
  · rw [Nat.mul_comm, Nat.mul_add_mod, Nat.mod_eq_of_lt hk]

theorem flat3 {s t r i k : Nat} (hi : i < s) (hk : k < t) : (r * (s * t) + i * t + k) / (s * t) = r ∧
    (r * (s * t) + i * t + k) % (s * t) / t = i ∧ (r * (s * t) + i * t + k) % (s * t) % t = k := by
  have h1 := flat2_lt hi hk
  obtain ⟨h2, h3⟩ := flat2 (i := r) h1
  rw [← Nat.add_assoc] at h2 h3
  obtain ⟨h4, h5⟩ := flat2 (i := i) hk
  refine ⟨h2, ?_, ?_⟩ <;> rw [h3] <;> assumption

theorem flat_fill (b : Nat) (hb : 0 < b) (len s t : Nat) (w : Nat → Nat → Nat → F) (x : Nat → F) (r i k : Nat) (hr : r < len)
    (hi : i < s) (hk : k < t) :
    forN s (fun i => forStep b t fun k => forN len fun r => forN (min b (t - k)) fun kk =>
      write (r * (s * t) + i * t + k + kk) (w r i (k + kk))) x (r * (s * t) + i * t + k) = w r i k := by
  have key := Fills.forN (n := s) (v := fun x => w (x / (s * t)) (x % (s * t) / t) (x % (s * t) % t)) fun i hi =>
    Fills.forStep (n := t) hb fun k hk => Fills.forN (n := len) fun r _ => Fills.forN (n := min b (t - k)) fun kk hkk =>
      Fills.write (r * (s * t) + i * t + k + kk) (w r i (k + kk)) (by
        obtain ⟨h1, h2, h3⟩ := flat3 (r := r) hi (show k + kk < t by omega)
        rw [← Nat.add_assoc] at h1 h2 h3
        rw [h1, h2, h3])
  refine ((key x _).1 ?_).trans ?_
  · obtain ⟨q, kk, hq, hkk, rfl⟩ := block_cover hb hk
    refine ⟨i, hi, q, hq, r, hr, kk, hkk, ?_⟩
    rw [Set.mem_singleton_iff]
    omega
  · dsimp only
    obtain ⟨h1, h2, h3⟩ := flat3 (r := r) hi hk
    rw [h1, h2, h3]

theorem blockC_fill (cl bs : Nat) (hcl : 0 < cl) (hbs : 0 < bs) (len s u : Nat) (g : Nat → Nat → Nat → F)
    (w : Nat → Nat → Nat × Nat → F) (hw : ∀ j jj i k, jj < min cl (len - j) → i < s → k < u → w j jj (i, k) = g (j + jj) i k)
    (x : Nat × Nat → F) (r i k : Nat) (hr : r < len) (hi : i < s) (hk : k < u) :
    forStep cl len (fun j => forN s fun i => forStep bs u fun k => forN (min cl (len - j)) fun jj =>
      forN (min bs (u - k)) fun kk => write (i * u + k + kk, j + jj) (w j jj (i, k + kk))) x (i * u + k, r) = g r i k := by
  have key := Fills.forStep (n := len) (v := fun x : Nat × Nat => g x.2 (x.1 / u) (x.1 % u)) hcl fun j _ =>
    Fills.forN (n := s) fun i hi =>
    Fills.forStep (n := u) hbs fun k hk => Fills.forN (n := min cl (len - j)) fun jj hjj =>
      Fills.forN (n := min bs (u - k)) fun kk hkk =>
      Fills.write (i * u + k + kk, j + jj) (w j jj (i, k + kk)) (by
        dsimp only
        obtain ⟨h1, h2⟩ := flat2 (i := i) (show k + kk < u by omega)
        rw [← Nat.add_assoc] at h1 h2
        rw [h1, h2, hw j jj i _ hjj hi (by omega)])
  refine ((key x _).1 ?_).trans ?_
  · obtain ⟨q, kk, hq, hkk, rfl⟩ := block_cover hbs hk
    obtain ⟨q', jj, hq', hjj, rfl⟩ := block_cover hcl hr
    refine ⟨q', hq', i, hi, q, hq, jj, hjj, kk, hkk, ?_⟩
    rw [Set.mem_singleton_iff, Nat.add_assoc]
  · dsimp only
    obtain ⟨h1, h2⟩ := flat2 (i := i) hk
    rw [h1, h2]

theorem blockC_fill' (cl bs : Nat) (hcl : 0 < cl) (hbs : 0 < bs) (len s u : Nat) (g : Nat → Nat → Nat → F)
    (w : Nat → Nat → Nat × Nat → F) (hw : ∀ j jj i k, jj < min cl (len - j) → i < s → k < u → w j jj (i, k) = g (j + jj) i k)
    (x : Nat × Nat → F) (r i k : Nat) (hr : r < len) (hi : i < s) (hk : k < u) :
    forStep cl len (fun j => forN s fun i => forStep bs u fun k => forN (min bs (u - k)) fun kk =>
      forN (min cl (len - j)) fun jj => write (i * u + k + kk, j + jj) (w j jj (i, k + kk))) x (i * u + k, r) = g r i k := by
  have key := Fills.forStep (n := len) (v := fun x : Nat × Nat => g x.2 (x.1 / u) (x.1 % u)) hcl fun j _ =>
    Fills.forN (n := s) fun i hi =>
    Fills.forStep (n := u) hbs fun k hk => Fills.forN (n := min bs (u - k)) fun kk hkk =>
      Fills.forN (n := min cl (len - j)) fun jj hjj =>
      Fills.write (i * u + k + kk, j + jj) (w j jj (i, k + kk)) (by
        dsimp only
        obtain ⟨h1, h2⟩ := flat2 (i := i) (show k + kk < u by omega)
        rw [← Nat.add_assoc] at h1 h2
        rw [h1, h2, hw j jj i _ hjj hi (by omega)])
  refine ((key x _).1 ?_).trans ?_
  · obtain ⟨q, kk, hq, hkk, rfl⟩ := block_cover hbs hk
    obtain ⟨q', jj, hq', hjj, rfl⟩ := block_cover hcl hr
    refine ⟨q', hq', i, hi, q, hq, kk, hkk, jj, hjj, ?_⟩
    rw [Set.mem_singleton_iff, Nat.add_assoc]
  · dsimp only
    obtain ⟨h1, h2⟩ := flat2 (i := i) hk
    rw [h1, h2]

theorem fftMatmul1_spec (pt : Nat → F) (len lo cnt : Nat) (a b : PMat F[X]) (hab : a.cols = b.rows) :
    ∃ c, fftMatmul1 pt len lo cnt a b = some c ∧ EvalProd pt len lo cnt a b c := by
  unfold fftMatmul1
  dsimp only
  rw [if_neg (by omega)]
  refine ⟨_, rfl, rfl, rfl, fun i j hi hj => ?_⟩
  dsimp only
  have hA := flat_fill cacheLine (by decide) len a.rows a.cols (fun r i k => (a.e (i, k)).eval (pt r)) (fun _ => 0)
  have hB := flat_fill cacheLine (by decide) len a.cols b.cols (fun r i k => (b.e (i, k)).eval (pt r)) (fun _ => 0)
  generalize forN a.rows _ (fun _ : Nat => (0 : F)) = valA at hA ⊢
  generalize forN a.cols _ (fun _ : Nat => (0 : F)) = valB at hB ⊢
  refine ⟨_, fun r hr => ?_, loop2_at _ _ _ _ i j hi hj⟩
  refine (blockC_fill cacheLine blockSize (by decide) (by decide) len a.rows b.cols (fun r i j => cmul a.cols
    (fun x => valA (r * (a.rows * a.cols) + x.1 * a.cols + x.2)) (fun x => valB (r * (a.cols * b.cols) + x.1 * b.cols + x.2)) (i, j))
    (fun j jj => cmul a.cols
    (fun x => valA ((j + jj) * (a.rows * a.cols) + x.1 * a.cols + x.2))
      (fun x => valB ((j + jj) * (a.cols * b.cols) + x.1 * b.cols + x.2))) (fun _ _ _ _ _ _ _ => rfl) _ r i j hr hi hj).trans ?_
  unfold cmul
  refine Finset.sum_congr rfl fun k hk => ?_
  dsimp only
  rw [hA r i k hr hi (Finset.mem_range.1 hk), hB r k j hr (Finset.mem_range.1 hk) hj]

theorem blockV_fill (bs : Nat) (hbs : 0 < bs) (jb s t : Nat) (g : Nat → Nat → Nat → F) (w : Nat → Nat → Nat → Nat → F)
    (hw : ∀ i k kk jj, i < s → k + kk < t → jj < jb → w i k kk jj = g jj i (k + kk)) (x : Nat × Nat × Nat → F) (jj i k : Nat) (hjj : jj < jb)
    (hi : i < s) (hk : k < t) :
    forN s (fun i => forStep bs t fun k => forN jb fun jj => forN (min bs (t - k)) fun kk =>
      write (jj, i, k + kk) (w i k kk jj)) x (jj, i, k) = g jj i k := by
  have key := Fills.forN (n := s) (v := fun x : Nat × Nat × Nat => g x.1 x.2.1 x.2.2) fun i hi =>
    Fills.forStep (n := t) hbs fun k hk => Fills.forN (n := jb) fun jj hjj =>
      Fills.forN (n := min bs (t - k)) fun kk hkk =>
      Fills.write (jj, i, k + kk) (w i k kk jj) (hw i k kk jj hi (by omega) hjj).symm
  refine (key x _).1 ?_
  obtain ⟨q, kk, hq, hkk, rfl⟩ := block_cover hbs hk
  exact ⟨i, hi, q, hq, jj, hjj, kk, hkk, rfl⟩

theorem entry_fill {α : Type} (s t : Nat) (w : Nat → Nat → α) (x : Nat → α) (i k : Nat) (hi : i < s) (hk : k < t) :
    forN s (fun i => forN t fun k => write (i * t + k) (w i k)) x (i * t + k) = w i k := by
  have key := Fills.forN (n := s) (v := fun x : Nat => w (x / t) (x % t)) fun i _ =>
    Fills.forN (n := t) fun k hk => Fills.write (i * t + k) (w i k) (by
      obtain ⟨h1, h2⟩ := flat2 (i := i) hk
      rw [h1, h2])
  refine ((key x _).1 ⟨i, hi, k, hk, rfl⟩).trans ?_
  dsimp only
  obtain ⟨h1, h2⟩ := flat2 (i := i) hk
  rw [h1, h2]

theorem fftMatmul2_spec (pt : Nat → F) (len lo cnt : Nat) (a b : PMat F[X]) (hab : a.cols = b.rows) :
    ∃ c, fftMatmul2 pt len lo cnt a b = some c ∧ EvalProd pt len lo cnt a b c := by
  unfold fftMatmul2
  dsimp only
  rw [if_neg (by omega)]
  refine ⟨_, rfl, rfl, rfl, fun i j hi hj => ?_⟩
  dsimp only
  have hA := entry_fill a.rows a.cols (fun i k r => (a.e (i, k)).eval (pt r)) (fun _ _ => 0)
  have hB := entry_fill a.cols b.cols (fun i k r => (b.e (i, k)).eval (pt r)) (fun _ _ => 0)
  generalize forN a.rows _ (fun (_ _ : Nat) => (0 : F)) = valA at hA ⊢
  generalize forN a.cols _ (fun (_ _ : Nat) => (0 : F)) = valB at hB ⊢
  refine ⟨_, fun r hr => ?_, loop2_at _ _ _ _ i j hi hj⟩
  refine (blockC_fill' cacheLine blockSize (by decide) (by decide) len a.rows b.cols
    (fun r i j => ∑ k ∈ Finset.range a.cols, (a.e (i, k)).eval (pt r) * (b.e (k, j)).eval (pt r)) _ ?_ _ r i j hr hi hj)
  intro j jj i k hjj hi hk
  unfold cmul
  refine Finset.sum_congr rfl fun l hl => ?_
  have hl := Finset.mem_range.1 hl
  dsimp only
  congr 1
  · exact blockV_fill blockSize (by decide) (min cacheLine (len - j)) a.rows a.cols
      (fun jj i k => (a.e (i, k)).eval (pt (j + jj))) (fun i k kk jj => valA (i * a.cols + k + kk) (j + jj))
      (fun i k kk jj hi hk _ => by rw [Nat.add_assoc, hA i (k + kk) hi hk]) _ jj i l hjj hi hl
  · exact blockV_fill blockSize (by decide) (min cacheLine (len - j)) a.cols b.cols
      (fun jj i k => (b.e (i, k)).eval (pt (j + jj))) (fun i k kk jj => valB (i * b.cols + k + kk) (j + jj))
      (fun i k kk jj hi hk _ => by rw [Nat.add_assoc, hB i (k + kk) hi hk]) _ jj l k hjj hl hk

/-! ### matmul3 -/

theorem forStep_inv {σ : Type} (b n : Nat) (hb : 0 < b) (P : Nat → σ → Prop) {f : Nat → σ → σ} {s : σ} (h0 : P 0 s)
    (hstep : ∀ q t, q * b < n → P q t → P (q + 1) (f (q * b) t)) : P ((n + b - 1) / b) (forStep b n f s) := by
  unfold forStep
  refine forN_inv (P := P) h0 fun q t hq h => hstep q t ?_ h
  rw [← Nat.succ_le_iff, Nat.le_div_iff_mul_le hb, Nat.succ_mul] at hq
  omega

theorem blocks_le (b n : Nat) (hb : 0 < b) : n ≤ (n + b - 1) / b * b := by
  have := Nat.div_add_mod (n + b - 1) b
  have := Nat.mod_lt (n + b - 1) hb
  rw [Nat.mul_comm]
  omega

theorem m3Loads_spec (v : Nat → Nat → F) (kb : Nat) (s : M3 F) :
    (forN kb (fun kk => m3Load (v kk) kk) s).ok = s.ok ∧
    (∀ kk, (forN kb (fun kk => m3Load (v kk) kk) s).rr kk = if kk < kb then some (v kk) else s.rr kk) ∧
    (forN kb (fun kk => m3Load (v kk) kk) s).tbl = if kb = 0 then s.tbl else s.rr (kb - 1) := by
  refine forN_inv (P := fun (n : Nat) (t : M3 F) => t.ok = s.ok ∧ (∀ kk, t.rr kk = if kk < n then some (v kk) else s.rr kk) ∧
    t.tbl = if n = 0 then s.tbl else s.rr (n - 1)) ⟨rfl, fun kk => by rw [if_neg (by omega)], rfl⟩ ?_
  rintro i t _ ⟨h1, h2, h3⟩
  refine ⟨h1, fun kk => ?_, ?_⟩
  · unfold m3Load write
    dsimp only
    by_cases hk : kk = i
    · subst hk
      rw [Function.update_self, if_pos (by omega)]
    · rw [Function.update_of_ne hk, h2]
      by_cases hk' : kk < i
      · rw [if_pos hk', if_pos (by omega)]
      · rw [if_neg hk', if_neg (by omega)]
  · show t.rr i = _
    rw [h2, if_neg (by omega), if_neg (by omega), Nat.add_sub_cancel]

/-- What evaluation leaves in the buffers and in the array of values. -/
theorem m3Eval_spec (pt : Nat → F) (len : Nat) (a : Nat × Nat → F[X]) (m n : Nat) (s0 : M3 F) (v0 : Nat × Nat × Nat → F)
    (hok : s0.ok = true) :
    (m3Eval pt len a m n (s0, v0)).1.ok = true ∧
    (∀ r i k, r < len → i < m → k < n → (m3Eval pt len a m n (s0, v0)).2 (r, i, k) = (a (i, k)).eval (pt r)) ∧
    (0 < m → ∀ kk, kk < min blockSize n → ((m3Eval pt len a m n (s0, v0)).1.rr kk).isSome) ∧
    (2 ≤ m → 0 < n → (m3Eval pt len a m n (s0, v0)).1.tbl.isSome) := by
  have hbs : 0 < blockSize := by decide
  refine forN_inv (P := fun (m : Nat) (t : M3 F × (Nat × Nat × Nat → F)) => t.1.ok = true ∧
    (∀ r i k, r < len → i < m → k < n → t.2 (r, i, k) = (a (i, k)).eval (pt r)) ∧
    (0 < m → ∀ kk, kk < min blockSize n → (t.1.rr kk).isSome) ∧ (2 ≤ m → 0 < n → t.1.tbl.isSome))
    ⟨hok, fun r i k _ hi => absurd hi (by omega), fun h => absurd h (by omega), fun h => absurd h (by omega)⟩ ?_
  rintro i ⟨s1, v1⟩ _ ⟨h1, h2, h3, h4⟩
  dsimp only at h1 h2 h3 h4
  have key := forStep_inv blockSize n hbs (P := fun (q : Nat) (t : M3 F × (Nat × Nat × Nat → F)) => t.1.ok = true ∧
    (∀ r i' k, r < len → (i' < i ∨ i' = i ∧ k < q * blockSize) → k < n → t.2 (r, i', k) = (a (i', k)).eval (pt r)) ∧
    (0 < i ∨ 0 < q → ∀ kk, kk < min blockSize n → (t.1.rr kk).isSome) ∧ (0 < i → 0 < q → 0 < n → t.1.tbl.isSome))
    (s := (s1, v1))
    (f := fun k st =>
      let kb := min blockSize (n - k)
      let s := forN kb (fun kk => m3Load (fun r => (a (i, k + kk)).eval (pt r)) kk) st.1
      let s := { s with ok := s.ok && (decide (len = 0) || (List.range kb).all fun kk => (s.rr kk).isSome) }
      (s, forN len (fun r => forN kb fun kk => write (r, i, k + kk) (m3Get s kk r)) st.2))
    ⟨h1, fun r i' k hr hi' hk => h2 r i' k hr (by omega) hk, fun h => h3 (by omega), fun _ h => absurd h (by omega)⟩ (by
      rintro q ⟨s, v⟩ hq ⟨g1, g2, g3, g4⟩
      dsimp only at g1 g2 g3 g4
      obtain ⟨l1, l2, l3⟩ := m3Loads_spec (fun kk r => (a (i, q * blockSize + kk)).eval (pt r)) (min blockSize (n - q * blockSize)) s
      dsimp only
      generalize forN (min blockSize (n - q * blockSize)) _ s = s' at l1 l2 l3 ⊢
      have hall : ∀ kk, kk < min blockSize n → (s'.rr kk).isSome := by
        intro kk hkk
        rw [l2]
        by_cases hk : kk < min blockSize (n - q * blockSize)
        · rw [if_pos hk]; rfl
        · rw [if_neg hk]
          refine g3 ?_ kk hkk
          by_contra hc
          have : q = 0 := by omega
          subst this
          omega
      refine ⟨?_, ?_, fun _ => hall, ?_⟩
      · rw [l1, g1, Bool.true_and, Bool.or_eq_true]
        refine Or.inr ?_
        rw [List.all_eq_true]
        intro kk hkk
        rw [l2, if_pos (List.mem_range.1 hkk)]; rfl
      · intro r i' k hr hi' hk
        have hf := Fills.forN (n := len) (v := fun x : Nat × Nat × Nat => (a (x.2.1, x.2.2)).eval (pt x.1)) fun r _ =>
          Fills.forN (n := min blockSize (n - q * blockSize)) fun kk hkk =>
            Fills.write (r, i, q * blockSize + kk) (m3Get (⟨s'.tbl, s'.rr, s'.ok &&
              (decide (len = 0) || (List.range (min blockSize (n - q * blockSize))).all fun kk => (s'.rr kk).isSome)⟩ : M3 F) kk r) (by
              unfold m3Get
              dsimp only
              rw [l2, if_pos hkk]; rfl)
        by_cases hin : i' = i ∧ q * blockSize ≤ k
        · obtain ⟨rfl, hk'⟩ := hin
          refine (hf v (r, i', k)).1 ⟨r, hr, k - q * blockSize, ?_, ?_⟩
          · rw [Nat.succ_mul] at hi'; omega
          · rw [Set.mem_singleton_iff, show q * blockSize + (k - q * blockSize) = k by omega]
        · refine ((hf v (r, i', k)).2 ?_).trans (g2 r i' k hr (by omega) hk)
          rintro ⟨r', -, kk, -, hx⟩
          rw [Set.mem_singleton_iff, Prod.mk.injEq, Prod.mk.injEq] at hx
          omega
      · intro hi0 _ hn
        rw [l3]
        have hkb : min blockSize (n - q * blockSize) ≠ 0 := by omega
        rw [if_neg hkb]
        exact g3 (Or.inl hi0) _ (by omega))
  obtain ⟨k1, k2, k3, k4⟩ := key
  have hle := blocks_le blockSize n hbs
  generalize (n + blockSize - 1) / blockSize = nblk at *
  refine ⟨k1, fun r i' k hr hi' hk => k2 r i' k hr (by omega) hk, fun _ kk hkk => k3 ?_ kk hkk, fun hi hn => k4 (by omega) ?_ hn⟩
  · by_contra hc
    have hz : nblk = 0 := by omega
    rw [hz, Nat.zero_mul] at hle
    omega
  · by_contra hc
    have hz : nblk = 0 := by omega
    rw [hz, Nat.zero_mul] at hle
    omega

/-- All buffers in use are allocated. -/
def M3.Full (s : M3 F) (n : Nat) : Prop := s.ok = true ∧ s.tbl.isSome ∧ ∀ kk, kk < min blockSize n → (s.rr kk).isSome

theorem m3Puts_spec (w : Nat → Nat → F) (len kb n : Nat) (hkb : kb ≤ min blockSize n) (s : M3 F) (hs : s.Full n) :
    (forN len (fun r => forN kb fun kk => m3Put (w r kk) kk r) s).Full n ∧ ∀ kk, kk < kb → ∃ x,
      (forN len (fun r => forN kb fun kk => m3Put (w r kk) kk r) s).rr kk = some x ∧ ∀ r, r < len → x r = w r kk := by
  refine forN_inv (P := fun (R : Nat) (t : M3 F) => t.Full n ∧ ∀ kk, kk < kb → ∃ x, t.rr kk = some x ∧ ∀ r, r < R → x r = w r kk)
    ⟨hs, fun kk hkk => ?_⟩ ?_
  · obtain ⟨x, hx⟩ := Option.isSome_iff_exists.1 (hs.2.2 kk (by omega))
    exact ⟨x, hx, fun r hr => absurd hr (by omega)⟩
  rintro R t _ ⟨h1, h2⟩
  have key := forN_inv (P := fun (j : Nat) (t : M3 F) => t.Full n ∧ ∀ kk, kk < kb → ∃ x, t.rr kk = some x ∧
      ∀ r, r < R ∨ (r = R ∧ kk < j) → x r = w r kk) (s := t) (n := kb) (f := fun kk => m3Put (w R kk) kk R)
    ⟨h1, fun kk hkk => by
      obtain ⟨x, hx, hx'⟩ := h2 kk hkk
      exact ⟨x, hx, fun r hr => hx' r (by omega)⟩⟩ (by
    rintro j t hj ⟨g1, g2⟩
    obtain ⟨x, hx, hx'⟩ := g2 j hj
    have he : m3Put (w R j) j R t = { t with rr := write j (some (write R (w R j) x)) t.rr } := by
      unfold m3Put; rw [hx]
    rw [he]
    refine ⟨⟨g1.1, g1.2.1, fun kk hkk => ?_⟩, fun kk hkk => ?_⟩
    · unfold write
      dsimp only
      by_cases hk : kk = j
      · subst hk; rw [Function.update_self]; rfl
      · rw [Function.update_of_ne hk]; exact g1.2.2 kk hkk
    · by_cases hk : kk = j
      · subst hk
        refine ⟨write R (w R kk) x, by unfold write; dsimp only; rw [Function.update_self], fun r hr => ?_⟩
        unfold write
        by_cases hR : r = R
        · subst hR; rw [Function.update_self]
        · rw [Function.update_of_ne hR]; exact hx' r (by omega)
      · obtain ⟨y, hy, hy'⟩ := g2 kk hkk
        refine ⟨y, by unfold write; dsimp only; rw [Function.update_of_ne hk, hy], fun r hr => hy' r (by omega)⟩)
  obtain ⟨k1, k2⟩ := key
  refine ⟨k1, fun kk hkk => ?_⟩
  obtain ⟨x, hx, hx'⟩ := k2 kk hkk
  exact ⟨x, hx, fun r hr => hx' r (by omega)⟩

theorem write_ne' {α : Type} {i j i' j' : Nat} {w : α} {o : Nat × Nat → α} (h : i' ≠ i ∨ j' ≠ j) :
    write (i, j) w o (i', j') = o (i', j') := by
  unfold write
  rw [Function.update_of_ne]
  intro e
  rw [Prod.mk.injEq] at e
  omega

theorem m3Swaps_spec (pt : Nat → F) (len lo cnt i k n kb : Nat) (hkb : kb ≤ min blockSize n) (w : Nat → Nat → F) (s : M3 F)
    (o : Nat × Nat → F[X]) (hs : s.Full n) (hx : ∀ kk, kk < kb → ∃ x, s.rr kk = some x ∧ ∀ r, r < len → x r = w r kk) :
    let res := forN kb (fun kk (st : M3 F × (Nat × Nat → F[X])) =>
      let s := st.1
      let s := { s with tbl := s.rr kk, rr := write kk s.tbl s.rr, ok := s.ok && (s.rr kk).isSome }
      (s, write (i, k + kk) (fromEval pt len lo cnt (s.tbl.getD fun _ => 0)) st.2)) (s, o)
    res.1.Full n ∧ (∀ kk, kk < kb → ∃ v : Nat → F, (∀ r, r < len → v r = w r kk) ∧ res.2 (i, k + kk) = fromEval pt len lo cnt v) ∧
      ∀ i' j', (i' ≠ i ∨ j' < k ∨ k + kb ≤ j') → res.2 (i', j') = o (i', j') := by
  dsimp only
  have key := forN_inv (P := fun (q : Nat) (t : M3 F × (Nat × Nat → F[X])) => t.1.Full n ∧
      (∀ kk, q ≤ kk → t.1.rr kk = s.rr kk) ∧
      (∀ kk, kk < q → ∃ v : Nat → F, (∀ r, r < len → v r = w r kk) ∧ t.2 (i, k + kk) = fromEval pt len lo cnt v) ∧
      ∀ i' j', (i' ≠ i ∨ j' < k ∨ k + kb ≤ j') → t.2 (i', j') = o (i', j'))
    (s := (s, o)) (n := kb) (f := fun kk st =>
      let s := st.1
      let s := { s with tbl := s.rr kk, rr := write kk s.tbl s.rr, ok := s.ok && (s.rr kk).isSome }
      (s, write (i, k + kk) (fromEval pt len lo cnt (s.tbl.getD fun _ => 0)) st.2))
    ⟨hs, fun _ _ => rfl, fun kk h => absurd h (by omega), fun _ _ _ => rfl⟩ (by
    rintro q ⟨t, o'⟩ hq ⟨⟨g0, g1, g2⟩, g3, g4, g5⟩
    dsimp only at g0 g1 g2 g3 g4 g5 ⊢
    have hsq := g3 q le_rfl
    obtain ⟨x, hxq, hx'⟩ := hx q hq
    refine ⟨⟨?_, ?_, ?_⟩, ?_, ?_, ?_⟩
    · rw [g0, hsq, hxq]; rfl
    · rw [hsq, hxq]; rfl
    · intro kk hkk
      unfold write
      dsimp only
      by_cases hk : kk = q
      · subst hk; rw [Function.update_self]; exact g1
      · rw [Function.update_of_ne hk]; exact g2 kk hkk
    · intro kk hkk
      unfold write
      rw [Function.update_of_ne (by omega)]
      exact g3 kk (by omega)
    · intro kk hkk
      by_cases hk : kk = q
      · subst hk
        refine ⟨x, hx', ?_⟩
        rw [write_self, hsq, hxq]; rfl
      · obtain ⟨v, hv, hv'⟩ := g4 kk (by omega)
        refine ⟨v, hv, ?_⟩
        rw [write_ne' (by omega)]
        exact hv'
    · intro i' j' h
      rw [write_ne' (by omega)]
      exact g5 i' j' h)
  exact ⟨key.1, key.2.2.1, key.2.2.2⟩

theorem m3Out_spec (pt : Nat → F) (len lo cnt : Nat) (val : Nat × Nat × Nat → F) (m n : Nat) (s0 : M3 F) (o0 : Nat × Nat → F[X])
    (hs : 0 < n → s0.Full n) (hok : s0.ok = true) :
    (m3Out pt len lo cnt val m n (s0, o0)).1.ok = true ∧ ∀ i j, i < m → j < n → ∃ v : Nat → F,
      (∀ r, r < len → v r = val (r, i, j)) ∧ (m3Out pt len lo cnt val m n (s0, o0)).2 (i, j) = fromEval pt len lo cnt v := by
  have hbs : 0 < blockSize := by decide
  by_cases hn : n = 0
  · subst hn
    refine ⟨?_, fun i j _ hj => absurd hj (by omega)⟩
    refine forN_inv (P := fun (_ : Nat) (t : M3 F × (Nat × Nat → F[X])) => t.1.ok = true) hok ?_
    intro i t _ h
    exact h
  have hs := hs (by omega)
  have main : (m3Out pt len lo cnt val m n (s0, o0)).1.Full n ∧ ∀ i j, i < m → j < n → ∃ v : Nat → F,
      (∀ r, r < len → v r = val (r, i, j)) ∧ (m3Out pt len lo cnt val m n (s0, o0)).2 (i, j) = fromEval pt len lo cnt v := by
    refine forN_inv (P := fun (m : Nat) (t : M3 F × (Nat × Nat → F[X])) => t.1.Full n ∧ ∀ i j, i < m → j < n → ∃ v : Nat → F,
      (∀ r, r < len → v r = val (r, i, j)) ∧ t.2 (i, j) = fromEval pt len lo cnt v) ⟨hs, fun i j hi => absurd hi (by omega)⟩ ?_
    rintro i ⟨s1, o1⟩ _ ⟨h1, h2⟩
    dsimp only at h1 h2
    have key := forStep_inv blockSize n hbs (P := fun (q : Nat) (t : M3 F × (Nat × Nat → F[X])) => t.1.Full n ∧
      ∀ i' j, (i' < i ∨ i' = i ∧ j < q * blockSize) → j < n → ∃ v : Nat → F, (∀ r, r < len → v r = val (r, i', j)) ∧
        t.2 (i', j) = fromEval pt len lo cnt v) (s := (s1, o1))
      (f := fun k st =>
        let kb := min blockSize (n - k)
        let s := forN len (fun r => forN kb fun kk => m3Put (val (r, i, k + kk)) kk r) st.1
        forN kb (fun kk st =>
          let s := st.1
          let s := { s with tbl := s.rr kk, rr := write kk s.tbl s.rr, ok := s.ok && (s.rr kk).isSome }
          (s, write (i, k + kk) (fromEval pt len lo cnt (s.tbl.getD fun _ => 0)) st.2)) (s, st.2))
      ⟨h1, fun i' j h => h2 i' j (by omega)⟩ (by
      rintro q ⟨s, o⟩ hq ⟨g1, g2⟩
      dsimp only at g1 g2
      have hkb : min blockSize (n - q * blockSize) ≤ min blockSize n := by omega
      obtain ⟨p1, p2⟩ := m3Puts_spec (fun r kk => val (r, i, q * blockSize + kk)) len (min blockSize (n - q * blockSize)) n hkb s g1
      obtain ⟨w1, w2, w3⟩ := m3Swaps_spec pt len lo cnt i (q * blockSize) n (min blockSize (n - q * blockSize)) hkb
        (fun r kk => val (r, i, q * blockSize + kk)) _ o p1 p2
      refine ⟨w1, fun i' j hij hj => ?_⟩
      by_cases hin : i' = i ∧ q * blockSize ≤ j
      · obtain ⟨rfl, hj'⟩ := hin
        rw [Nat.succ_mul] at hij
        obtain ⟨v, hv, hv'⟩ := w2 (j - q * blockSize) (by omega)
        rw [show q * blockSize + (j - q * blockSize) = j by omega] at hv hv'
        exact ⟨v, hv, hv'⟩
      · obtain ⟨v, hv, hv'⟩ := g2 i' j (by omega) hj
        exact ⟨v, hv, (w3 i' j (by omega)).trans hv'⟩)
    obtain ⟨k1, k2⟩ := key
    have hle := blocks_le blockSize n hbs
    exact ⟨k1, fun i' j hi' hj => k2 i' j (by omega) hj⟩
  exact ⟨main.1.1, main.2⟩

theorem fftMatmul3_spec (pt : Nat → F) (len lo cnt : Nat) (a b : PMat F[X]) (hab : a.cols = b.rows) (h2 : 2 ≤ a.cols) :
    ∃ c, fftMatmul3 pt len lo cnt a b = some c ∧ EvalProd pt len lo cnt a b c := by
  unfold fftMatmul3
  dsimp only
  rw [if_neg (by omega)]
  obtain ⟨a1, a2, -, -⟩ := m3Eval_spec pt len a.e a.rows a.cols ⟨some fun _ => 0, fun _ => none, true⟩ (fun _ => 0) rfl
  generalize m3Eval pt len a.e a.rows a.cols _ = sa at a1 a2 ⊢
  obtain ⟨sa, va⟩ := sa
  obtain ⟨b1, b2, b3, b4⟩ := m3Eval_spec pt len b.e a.cols b.cols sa (fun _ => 0) a1
  dsimp only at a2 ⊢
  generalize m3Eval pt len b.e a.cols b.cols _ = sb at b1 b2 b3 b4 ⊢
  obtain ⟨sb, vb⟩ := sb
  dsimp only at b1 b2 b3 b4 ⊢
  obtain ⟨o1, o2⟩ := m3Out_spec pt len lo cnt (fun x => cmul a.cols (fun y => va (x.1, y.1, y.2)) (fun y => vb (x.1, y.1, y.2))
    (x.2.1, x.2.2)) a.rows b.cols sb (fun _ => 0) (fun hn => ⟨b1, b4 h2 hn, b3 (by omega)⟩) b1
  rw [if_pos o1]
  refine ⟨_, rfl, rfl, rfl, fun i j hi hj => ?_⟩
  obtain ⟨v, hv, hv'⟩ := o2 i j hi hj
  refine ⟨v, fun r hr => ?_, hv'⟩
  rw [hv r hr]
  unfold cmul
  refine Finset.sum_congr rfl fun k hk => ?_
  dsimp only
  rw [a2 r i k hr hi (Finset.mem_range.1 hk), b2 r k j hr (Finset.mem_range.1 hk) hj]

/-! ### Double-word accumulation -/

theorem llRed_eq (pr t : Nat) : llRed pr t = t % pr := by
  unfold llRed
  conv_rhs => rw [← Nat.div_add_mod t (2 ^ 64)]
  rw [Nat.mul_comm (2 ^ 64) (t / 2 ^ 64), Nat.add_mod, Nat.mul_mod, Nat.mod_mod, ← Nat.mul_mod, ← Nat.add_mod]

theorem ll_acc (f : Nat → Nat) (B n t0 : Nat) (hf : ∀ j, j < n → f j ≤ B) (hB : t0 + n * B < 2 ^ 128) :
    forN n (fun j tmp => (tmp + f j) % 2 ^ 128) t0 = t0 + ∑ j ∈ Finset.range n, f j ∧
      t0 + ∑ j ∈ Finset.range n, f j ≤ t0 + n * B := by
  induction n with
  | zero => exact ⟨by simp [forN], by simp⟩
  | succ n ih =>
    have hmul : (n + 1) * B = n * B + B := Nat.succ_mul n B
    obtain ⟨h1, h2⟩ := ih (fun j hj => hf j (by omega)) (by omega)
    have := hf n (by omega)
    constructor
    · show (forN n _ t0 + f n) % 2 ^ 128 = _
      rw [h1, Finset.sum_range_succ, Nat.mod_eq_of_lt (by omega), Nat.add_assoc]
    · rw [Finset.sum_range_succ]; omega

theorem ll_slices (f : Nat → Nat) (pr N B fs ns : Nat) (hpr : 0 < pr) (hB : pr + N * B < 2 ^ 128)
    (hf : ∀ j, j < fs + ns * N → f j ≤ B) :
    forN ns (fun jj tmp => forN N (fun j tmp => (tmp + f (j + (fs + jj * N))) % 2 ^ 128) (llRed pr tmp))
      (∑ j ∈ Finset.range fs, f j) % pr = (∑ j ∈ Finset.range (fs + ns * N), f j) % pr := by
  induction ns with
  | zero => rw [Nat.zero_mul, Nat.add_zero]; rfl
  | succ q ih =>
    rw [Nat.succ_mul] at hf
    have ih := ih fun j hj => hf j (by omega)
    rw [forN, llRed_eq, ih]
    have hlt := Nat.mod_lt (∑ j ∈ Finset.range (fs + q * N), f j) hpr
    rw [(ll_acc (fun j => f (j + (fs + q * N))) B N _ (fun j hj => hf _ (by omega)) (by omega)).1,
      Nat.mod_add_mod, Nat.succ_mul, ← Nat.add_assoc, Finset.sum_range_add f (fs + q * N) N]
    congr 2
    exact Finset.sum_congr rfl fun j _ => by rw [Nat.add_comm]

theorem llDot_eq (pr n : Nat) (f : Nat → Nat) (hpr : 0 < pr) (hpr2 : pr ≤ 2 ^ 60) (hn : 0 < n)
    (hf : ∀ j, j < n → f j ≤ (pr - 1) * (pr - 1)) :
    llDot pr n f = (∑ j ∈ Finset.range n, f j) % pr := by
  have hn0 : n0 = 255 := by decide
  have hB : (pr - 1) * (pr - 1) ≤ (2 ^ 60 - 1) * (2 ^ 60 - 1) := Nat.mul_le_mul (by omega) (by omega)
  generalize (pr - 1) * (pr - 1) = B at hf hB
  unfold llDot
  rw [hn0]
  dsimp only
  have hdm := Nat.div_add_mod n 255
  have hmd := Nat.mod_lt n (show 0 < 255 by omega)
  obtain ⟨fs, ns, hfs, hns, h1, h2, h3⟩ : ∃ fs ns, (if n % 255 ≠ 0 then n % 255 else 255) = fs ∧
      (if n % 255 ≠ 0 then n / 255 else n / 255 - 1) = ns ∧ 1 ≤ fs ∧ fs ≤ 255 ∧ n = fs + ns * 255 := by
    by_cases h : n % 255 = 0
    · exact ⟨255, n / 255 - 1, by simp [h], by simp [h], by omega, by omega, by omega⟩
    · exact ⟨n % 255, n / 255, by simp [h], by simp [h], by omega, by omega, by omega⟩
  rw [hfs, hns]
  -- first slice
  have hf0 := hf 0 hn
  have hs1 : forN (fs - 1) (fun j tmp => (tmp + f (j + 1)) % 2 ^ 128) (f 0 % 2 ^ 128) = ∑ j ∈ Finset.range fs, f j := by
    rw [Nat.mod_eq_of_lt (by omega)]
    have hmul : (fs - 1) * B ≤ 254 * B := Nat.mul_le_mul_right B (by omega)
    rw [(ll_acc (fun j => f (j + 1)) B (fs - 1) (f 0) (fun j hj => hf _ (by omega)) (by omega)).1]
    obtain ⟨m, rfl⟩ : ∃ m, fs = m + 1 := ⟨fs - 1, by omega⟩
    rw [Nat.add_sub_cancel, Finset.sum_range_succ', Nat.add_comm]
  rw [hs1, llRed_eq]
  rw [ll_slices f pr 255 B fs ns hpr (by omega) (fun j hj => hf j (by omega)), ← h3]

theorem fftLL_spec {pr : Nat} [Fact pr.Prime] (hpr : pr < 2 ^ 60) (pt : Nat → ZMod pr) (len lo cnt : Nat)
    (a b : PMat (ZMod pr)[X]) (hab : a.cols = b.rows) (h0 : 0 < a.cols) (hm : 0 < a.rows) :
    ∃ c, fftLL pt len lo cnt a b = some c ∧ EvalProd pt len lo cnt a b c := by
  have hp := (Fact.out : pr.Prime).pos
  have : NeZero pr := ⟨by omega⟩
  unfold fftLL
  dsimp only
  rw [if_neg (by omega)]
  refine ⟨_, rfl, rfl, rfl, fun i j hi hj => ?_⟩
  refine ⟨_, fun r hr => ?_, loop2_at _ _ _ _ i j hi hj⟩
  rw [llDot_eq pr a.cols _ hp (by omega) h0 (fun k _ => Nat.mul_le_mul
    (by have := ZMod.val_lt ((a.e (i, k)).eval (pt r)); omega) (by have := ZMod.val_lt ((b.e (k, j)).eval (pt r)); omega)),
    ZMod.natCast_mod, Nat.cast_sum]
  refine Finset.sum_congr rfl fun k _ => ?_
  rw [Nat.cast_mul, ZMod.natCast_zmod_val, ZMod.natCast_zmod_val]

end PML.Ntl.MatEval
