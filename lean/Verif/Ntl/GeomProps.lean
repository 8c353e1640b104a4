import Verif.Ntl.GeomLemmas
import Verif.Ntl.SeriesProps
import Verif.Ntl.MiddleProps

/-!
# C62: evaluation and interpolation at a geometric progression
-/

set_option linter.unusedSectionVars false

namespace PML.Ntl.Geom

open Polynomial Finset
open PML.Ntl.Series (build build_coeff mul_coeff_high repMul)

variable {K : Type} [Field K]

/-- Contract of `middle_product(a, c, dA, dB)` for `dA, dB < n` (C56): coefficients `dA, …, dA + dB`
    of `a c`, `a` having degree at most `dA`. -/
def MidOK (mp : K[X] → K[X] → Nat → Nat → Option K[X]) (n : Nat) : Prop :=
  ∀ a c dA dB, dA < n → dB < n → ∃ b, mp a c dA dB = some b ∧
    ∀ j, j ≤ dB → b.coeff j = ∑ i ∈ range (dA + 1), a.coeff (dA - i) * c.coeff (i + j)

/-- The state of an object with parameters `r, s`. -/
structure Good (r s : K) (o : Obj K) : Prop where
  n_pos : 1 ≤ o.n
  r_ne : r ≠ 0
  s_ne : s ≠ 0
  fac : qfac (r * r) (o.n - 1) ≠ 0
  pts0 : o.pts0 = s * r
  idx : o.idxK = nextPow2 (2 * o.n - 1)
  x : ∀ j, j < o.n → o.x j = (r⁻¹) ^ (j * j)
  xs : ∀ j, j < o.n → o.xs j = (r⁻¹) ^ (j * j) * s ^ j
  w : ∀ j, j < o.n → o.w j = (qfac (r * r) j)⁻¹
  ws : ∀ j, j < o.n → o.ws j = (qfac (r * r) j)⁻¹ * (s⁻¹) ^ j
  y : ∀ j, j < o.n → o.y j = (-1) ^ j * qfac (r * r) j * ((r * r)⁻¹) ^ j.choose 2
  z : ∀ j, j < o.n → o.z j = (-1) ^ j * (qfac (r * r) j)⁻¹
  zs : ∀ j, j < o.n → o.zs j = (-1) ^ j * (qfac (r * r) j)⁻¹ * (s⁻¹) ^ j
  f : ∀ j, o.f.coeff j = if j < 2 * o.n - 1 then r ^ (j * j) else 0
  g1 : ∀ j, o.g1.coeff j = if j < o.n then (-1) ^ j * ((r * r) ^ j.choose 2 * (qfac (r * r) j)⁻¹) else 0
  g2 : ∀ j, o.g2.coeff j = if j < o.n then (r * r) ^ j.choose 2 * (qfac (r * r) j)⁻¹ else 0
  fft : o.feasible = true → o.g1fft = toRepAll o.idxK o.g1 ∧ o.g2fft = toRepAll o.idxK o.g2 ∧
    ∃ v, (o.n - 1, v) ∈ o.known
  known : ∀ d v, (d, v) ∈ o.known → d < o.n ∧ v = toRep (nextPow2 (d + o.n)) 0 (d + o.n - 1) o.f

theorem lookup_mem {α : Type} (l : List (Nat × α)) (d : Nat) (v : α) (h : l.lookup d = some v) : (d, v) ∈ l := by
  induction l with
  | nil => simp at h
  | cons e l ih =>
    obtain ⟨a, b⟩ := e
    rw [List.lookup_cons] at h
    by_cases hd : d = a
    · subst hd
      simp at h
      simp [h]
    · have : (d == a) = false := by simpa using hd
      rw [this] at h
      exact List.mem_cons_of_mem _ (ih h)

theorem lookup_some {α : Type} (l : List (Nat × α)) (d : Nat) (v : α) (h : (d, v) ∈ l) :
    ∃ v', l.lookup d = some v' := by
  induction l with
  | nil => simp at h
  | cons e l ih =>
    obtain ⟨a, b⟩ := e
    rw [List.lookup_cons]
    by_cases hd : d = a
    · subst hd
      exact ⟨b, by simp⟩
    · have h2 : (d == a) = false := by simpa using hd
      rw [h2]
      rcases List.mem_cons.1 h with e | e
      · exact absurd (Prod.mk.inj e).1 hd
      · exact ih e

theorem good_prepare {r s : K} {o : Obj K} (h : Good r s o) (d : Nat) (hd : d < o.n) :
    ∃ o', prepareDegree o d = some o' ∧ Good r s o' ∧ o'.n = o.n := by
  unfold prepareDegree
  rw [if_neg (by omega)]
  cases hf : o.feasible with
  | false => exact ⟨o, by simp, h, rfl⟩
  | true =>
    refine ⟨_, if_pos rfl, ⟨h.n_pos, h.r_ne, h.s_ne, h.fac, h.pts0, h.idx, h.x, h.xs, h.w, h.ws, h.y, h.z, h.zs, h.f, h.g1, h.g2,
      fun _ => ?_, fun d' v hm => ?_⟩, rfl⟩
    · obtain ⟨a, b, v, hv⟩ := h.fft hf
      refine ⟨a, b, v, ?_⟩
      show _ ∈ insertKnown _ _ _
      unfold insertKnown
      cases o.known.lookup d with
      | some _ => exact hv
      | none => exact List.mem_append_left _ hv
    · have hm : (d', v) ∈ insertKnown o.known d (toRep (nextPow2 (d + o.n)) 0 (d + o.n - 1) o.f) := hm
      unfold insertKnown at hm
      cases hl : o.known.lookup d with
      | some _ =>
        rw [hl] at hm
        exact h.known d' v hm
      | none =>
        rw [hl] at hm
        rcases List.mem_append.1 hm with hm | hm
        · exact h.known d' v hm
        · obtain ⟨e1, e2⟩ := Prod.mk.inj (List.mem_singleton.1 hm)
          subst e1
          exact ⟨hd, e2⟩

theorem good_construct [DecidableEq K] (feasible flags : Bool) (r s : K) (n : Nat) (hn : 1 ≤ n) (hr : r ≠ 0) (hs : s ≠ 0)
    (hord : ∀ i, 1 ≤ i → i < n → r ^ (2 * i) ≠ 1) :
    ∃ o, construct feasible flags r s n = some o ∧ Good r s o ∧ o.n = n := by
  have hfac : qfac (r * r) (n - 1) ≠ 0 := qfac_ne_iff.2 fun i h1 h2 e =>
    hord i h1 (by omega) (by rw [pow_mul, pow_two]; exact e)
  obtain ⟨hF, -⟩ := fLoop_spec r (2 * n - 2)
  obtain ⟨hX, hXs, -, -⟩ := xLoop_spec s r⁻¹ (n - 1)
  obtain ⟨hD, hP, -⟩ := dLoop_spec (r * r) (n - 1)
  have hpn : (dLoop (r * r) (n - 1)).prod (n - 1) = qfac (r * r) (n - 1) := hP _ le_rfl
  have hI := (invLoop_spec (r * r) (dLoop (r * r) (n - 1)).diff (dLoop (r * r) (n - 1)).prod (n - 1)
    (dLoop (r * r) (n - 1)).diff hD hP hfac).2
  obtain ⟨hW, -⟩ := wLoop_spec (r * r) s _ _ (n - 1) hI hP (n - 1) le_rfl
  unfold construct
  rw [if_neg (by omega), if_neg hr]
  dsimp only
  rw [if_neg (by rw [hpn]; exact hfac), if_neg hs, hpn]
  generalize hWe : wLoop (r * r) (r * r)⁻¹ s⁻¹ (invLoop (dLoop (r * r) (n - 1)).diff (dLoop (r * r) (n - 1)).prod (n - 1)
    (qfac (r * r) (n - 1))⁻¹ (dLoop (r * r) (n - 1)).diff) (dLoop (r * r) (n - 1)).prod (n - 1) = W at *
  have hgf : ∀ j, (build (2 * n - 1) (fLoop r (r * r) (2 * n - 2)).1).coeff j =
      if j < 2 * n - 1 then r ^ (j * j) else 0 := by
    intro j
    rw [build_coeff]
    by_cases h : j < 2 * n - 1
    · rw [if_pos h, if_pos h, hF j (by omega)]
    · rw [if_neg h, if_neg h]
  have hg1 : ∀ j, (build n W.g1).coeff j =
      if j < n then (-1) ^ j * ((r * r) ^ j.choose 2 * (qfac (r * r) j)⁻¹) else 0 := by
    intro j
    rw [build_coeff]
    by_cases h : j < n
    · rw [if_pos h, if_pos h, hW.g1 j (by omega)]
    · rw [if_neg h, if_neg h]
  have hg2 : ∀ j, (build n W.g2).coeff j = if j < n then (r * r) ^ j.choose 2 * (qfac (r * r) j)⁻¹ else 0 := by
    intro j
    rw [build_coeff]
    by_cases h : j < n
    · rw [if_pos h, if_pos h, hW.g2 j (by omega)]
    · rw [if_neg h, if_neg h]
  cases feasible with
  | false =>
    exact ⟨_, rfl, ⟨hn, hr, hs, hfac, rfl, rfl, fun j hj => hX j (Nat.le_sub_one_of_lt hj), fun j hj => hXs j (Nat.le_sub_one_of_lt hj),
      fun j hj => hW.w j (Nat.le_sub_one_of_lt hj), fun j hj => hW.ws j (Nat.le_sub_one_of_lt hj), fun j hj => hW.y j (Nat.le_sub_one_of_lt hj),
      fun j hj => hW.z j (Nat.le_sub_one_of_lt hj), fun j hj => hW.zs j (Nat.le_sub_one_of_lt hj), hgf, hg1, hg2,
      fun h => absurd h (by simp), fun d v hm => absurd hm (by simp)⟩, rfl⟩
  | true =>
    have hlt : ¬ n ≤ n - 1 := by omega
    simp only [if_true, prepareDegree, if_neg hlt, insertKnown, List.lookup_nil, List.nil_append]
    refine ⟨_, rfl, ⟨hn, hr, hs, hfac, rfl, rfl, fun j hj => hX j (Nat.le_sub_one_of_lt hj), fun j hj => hXs j (Nat.le_sub_one_of_lt hj),
      fun j hj => hW.w j (Nat.le_sub_one_of_lt hj), fun j hj => hW.ws j (Nat.le_sub_one_of_lt hj), fun j hj => hW.y j (Nat.le_sub_one_of_lt hj),
      fun j hj => hW.z j (Nat.le_sub_one_of_lt hj), fun j hj => hW.zs j (Nat.le_sub_one_of_lt hj), hgf, hg1, hg2,
      fun h => ⟨rfl, rfl, _, List.mem_singleton.2 rfl⟩, fun d v hm => ?_⟩, rfl⟩
    obtain ⟨e1, e2⟩ := Prod.mk.inj (List.mem_singleton.1 hm)
    subst e1
    exact ⟨by show n - 1 < n; omega, e2⟩

theorem good_calls {r s : K} : ∀ (cs : List Call) (o : Obj K), Good r s o →
    (∀ d, Call.prepare d ∈ cs → d < o.n) → ∃ o', calls o cs = some o' ∧ Good r s o' ∧ o'.n = o.n := by
  intro cs
  induction cs with
  | nil => intro o h _; exact ⟨o, rfl, h, rfl⟩
  | cons c cs ih =>
    intro o h hc
    have h1 : ∃ o', call o c = some o' ∧ Good r s o' ∧ o'.n = o.n := by
      cases c with
      | prepare d => exact good_prepare h d (hc d List.mem_cons_self)
      | setEvaluate b =>
        exact ⟨_, rfl, ⟨h.n_pos, h.r_ne, h.s_ne, h.fac, h.pts0, h.idx, h.x, h.xs, h.w, h.ws, h.y, h.z, h.zs, h.f, h.g1, h.g2,
          h.fft, h.known⟩, rfl⟩
      | setInterpolate b =>
        exact ⟨_, rfl, ⟨h.n_pos, h.r_ne, h.s_ne, h.fac, h.pts0, h.idx, h.x, h.xs, h.w, h.ws, h.y, h.z, h.zs, h.f, h.g1, h.g2,
          h.fft, h.known⟩, rfl⟩
    obtain ⟨o1, e1, g1, n1⟩ := h1
    obtain ⟨o2, e2, g2, n2⟩ := ih o1 g1 fun d hd => n1 ▸ hc d (List.mem_cons_of_mem _ hd)
    refine ⟨o2, ?_, g2, n2.trans n1⟩
    show (match call o c with | none => none | some o' => calls o' cs) = _
    rw [e1]
    exact e2

/-! ### Middle products with `f` -/

theorem findDegree_spec (l : List (Nat × K[X])) (dp : Nat) : ∀ top, dp ≤ top →
    dp ≤ findDegree l dp top ∧ findDegree l dp top ≤ top ∧
      (findDegree l dp top = top ∨ ∃ v, (findDegree l dp top, v) ∈ l) := by
  unfold findDegree
  induction l with
  | nil => intro top h; exact ⟨h, le_rfl, Or.inl rfl⟩
  | cons e l ih =>
    intro top h
    rw [List.foldl_cons]
    by_cases hc : dp ≤ e.1 ∧ e.1 < top
    · rw [if_pos hc]
      obtain ⟨h1, h2, h3⟩ := ih e.1 hc.1
      refine ⟨h1, by omega, Or.inr ?_⟩
      rcases h3 with h3 | ⟨v, h3⟩
      · rw [h3]; exact ⟨e.2, List.mem_cons_self⟩
      · exact ⟨v, List.mem_cons_of_mem _ h3⟩
    · rw [if_neg hc]
      obtain ⟨h1, h2, h3⟩ := ih top h
      refine ⟨h1, h2, ?_⟩
      rcases h3 with h3 | ⟨v, h3⟩
      · exact Or.inl h3
      · exact Or.inr ⟨v, List.mem_cons_of_mem _ h3⟩

/-- The key found is in the table. -/
theorem findDegree_lookup {r s : K} {o : Obj K} (h : Good r s o) (hf : o.feasible = true) (dp : Nat) (hdp : dp < o.n) :
    dp ≤ findDegree o.known dp (o.n - 1) ∧ findDegree o.known dp (o.n - 1) < o.n ∧
      ∃ v, (findDegree o.known dp (o.n - 1), v) ∈ o.known := by
  have hn := h.n_pos
  obtain ⟨h1, h2, h3⟩ := findDegree_spec o.known dp (o.n - 1) (by omega)
  refine ⟨h1, by omega, ?_⟩
  rcases h3 with h3 | h3
  · rw [h3]; exact (h.fft hf).2.2
  · exact h3

theorem conv_coeff (A B : K[X]) (da j : Nat) (hA : ∀ i, da < i → A.coeff i = 0) :
    (A * B).coeff (da + j) = ∑ i ∈ range (da + 1), A.coeff (da - i) * B.coeff (i + j) := by
  rw [coeff_mul, Finset.Nat.sum_antidiagonal_eq_sum_range_succ_mk,
    ← Finset.sum_range_add_sum_Ico _ (show da + 1 ≤ (da + j).succ by omega)]
  rw [Finset.sum_eq_zero (s := Finset.Ico (da + 1) (da + j).succ) fun i hi => by
    have := (Finset.mem_Ico.1 hi).1
    rw [hA i (by omega), zero_mul], add_zero]
  rw [← Finset.sum_range_reflect]
  refine Finset.sum_congr rfl fun i hi => ?_
  have hi := Finset.mem_range.1 hi
  congr 2 <;> omega

theorem fftStep_spec {r s : K} {o : Obj K} (h : Good r s o) (key : Nat) (hk : ∃ v, (key, v) ∈ o.known) (a : K[X])
    (da hi : Nat) (hhi : hi < key + o.n) :
    ∃ b, fftStep o key a da da hi = some b ∧ ∀ j, da + j ≤ hi →
      b.coeff j = ∑ i ∈ range (da + 1), a.coeff (da - i) * o.f.coeff (i + j) := by
  have hn := h.n_pos
  obtain ⟨v0, hv0⟩ := hk
  obtain ⟨v, hv⟩ := lookup_some _ _ _ hv0
  obtain ⟨hkn, rfl⟩ := h.known key v (lookup_mem _ _ _ hv)
  have hp := le_nextPow2 (key + o.n)
  unfold fftStep
  rw [hv]
  refine ⟨_, rfl, fun j hj => ?_⟩
  unfold toRep
  rw [repMul (by omega), slice_coeff, if_pos (by omega), conv_coeff]
  · refine sum_congr rfl fun i hi => ?_
    have hi := mem_range.1 hi
    rw [slice_coeff, slice_coeff, if_pos (by omega), if_pos (by omega), Nat.zero_add, Nat.zero_add]
  · intro i hi
    rw [slice_coeff, if_neg (by omega)]
  · intro m hm
    exact mul_coeff_high (u := da + 1 - 0) (v := key + o.n - 1 + 1 - 0) (fun j hj => by rw [slice_coeff, if_neg (by omega)])
      (fun j hj => by rw [slice_coeff, if_neg (by omega)]) m (by omega)

/-- The exponent identity `2 i j = (i + j)^2 - i^2 - j^2`. -/
theorem chirp {r : K} (hr : r ≠ 0) (s : K) (i j : Nat) :
    (r⁻¹) ^ (j * j) * ((r⁻¹) ^ (i * i) * s ^ i * r ^ ((i + j) * (i + j))) = (s * r ^ (2 * j)) ^ i := by
  have h1 : r ^ ((i + j) * (i + j)) = r ^ (i * i) * r ^ (j * j) * r ^ (2 * j * i) := by
    rw [← pow_add, ← pow_add]; congr 1; ring
  rw [h1, mul_pow, ← pow_mul, inv_pow, inv_pow]
  have := pow_ne_zero (i * i) hr
  have := pow_ne_zero (j * j) hr
  field_simp

/-- Evaluation from a middle product. -/
theorem eval_sum {r s : K} {o : Obj K} (h : Good r s o) (P : Nat → K) (dp : Nat) (hdp : dp < o.n) (j : Nat) (hj : j < o.n) :
    o.x j * ∑ i ∈ range (dp + 1), (build (dp + 1) fun i => o.xs (dp - i) * P (dp - i)).coeff (dp - i) * o.f.coeff (i + j)
      = ∑ i ∈ range (dp + 1), P i * (s * r ^ (2 * j)) ^ i := by
  rw [mul_sum]
  refine sum_congr rfl fun i hi => ?_
  have hi := mem_range.1 hi
  rw [build_coeff, if_pos (by omega), show dp - (dp - i) = i by omega, h.f, if_pos (by omega), h.x j hj,
    h.xs i (by omega), ← chirp h.r_ne]
  ring

/-- Transposed evaluation from a middle product. -/
theorem t_eval_sum {r s : K} {o : Obj K} (h : Good r s o) (V : Nat → K) (j : Nat) (hj : j < o.n) :
    o.xs j * ∑ i ∈ range (o.n - 1 + 1), (build o.n fun i => o.x (o.n - 1 - i) * V (o.n - 1 - i)).coeff (o.n - 1 - i) *
        o.f.coeff (i + j)
      = ∑ i ∈ range o.n, V i * (s * r ^ (2 * i)) ^ j := by
  rw [mul_sum, Nat.sub_add_cancel h.n_pos]
  refine sum_congr rfl fun i hi => ?_
  have hi := mem_range.1 hi
  rw [build_coeff, if_pos (by omega), show o.n - 1 - (o.n - 1 - i) = i by omega, h.f, if_pos (by omega), h.x i hi,
    h.xs j hj, ← chirp h.r_ne]
  rw [Nat.add_comm i j]
  ring

/-- Value of a polynomial from its coefficients. -/
theorem eval_range (P : K[X]) (t : K) (N : Nat) (h : P.natDegree < N) : P.eval t = ∑ i ∈ range N, P.coeff i * t ^ i :=
  eval_eq_sum_range' h t

theorem evaluate_spec {mp : K[X] → K[X] → Nat → Nat → Option K[X]} {r s : K} {o : Obj K} (h : Good r s o)
    (hmp : MidOK mp o.n) (P : K[X]) (hP : P.natDegree < o.n) :
    ∃ v, evaluate mp o P = some v ∧ ∀ i, i < o.n → v i = P.eval (s * r ^ (2 * i)) := by
  have hn := h.n_pos
  unfold evaluate
  rw [if_neg (by omega), if_neg (by omega)]
  by_cases h1 : o.n = 1
  · rw [if_pos h1]
    refine ⟨_, rfl, fun i hi => ?_⟩
    rw [eval_range P _ 1 (by omega), sum_range_one, pow_zero, mul_one]
  · rw [if_neg h1]
    by_cases h0 : P = 0
    · rw [if_pos h0]
      exact ⟨_, rfl, fun i _ => by rw [h0, eval_zero]⟩
    · rw [if_neg h0]
      dsimp only
      cases hF : (o.feasible && o.doE) with
      | true =>
        have hf : o.feasible = true := by
          cases hb : o.feasible <;> rw [hb] at hF <;> simp at hF ⊢
        simp only [if_true]
        obtain ⟨g1, g2, g3⟩ := findDegree_lookup h hf P.natDegree hP
        generalize findDegree o.known P.natDegree (o.n - 1) = dp at *
        obtain ⟨b, e, hb⟩ := fftStep_spec h dp g3
          (build (dp + 1) fun i => o.xs (dp - i) * P.coeff (dp - i)) dp (dp + o.n - 1) (by omega)
        rw [e]
        refine ⟨_, rfl, fun i hi => ?_⟩
        rw [hb i (by omega), eval_sum h P.coeff dp g2 i hi, eval_range P _ (dp + 1) (by omega)]
      | false =>
        simp only [Bool.false_eq_true, if_false]
        obtain ⟨b, e, hb⟩ := hmp (build (P.natDegree + 1) fun i => o.xs (P.natDegree - i) * P.coeff (P.natDegree - i)) o.f
          P.natDegree (o.n - 1) hP (by omega)
        rw [e]
        refine ⟨_, rfl, fun i hi => ?_⟩
        rw [hb i (by omega), eval_sum h P.coeff P.natDegree hP i hi, eval_range P _ (P.natDegree + 1) (by omega)]

theorem mulRight_spec {mp : K[X] → K[X] → Nat → Nat → Option K[X]} {r s : K} {o : Obj K} (h : Good r s o)
    (hmp : MidOK mp o.n) (P : Nat → K) :
    ∃ v, mulRight mp o P = some v ∧ ∀ i, i < o.n → v i = ∑ j ∈ range o.n, P j * (s * r ^ (2 * i)) ^ j := by
  have hn := h.n_pos
  have hN : o.n - 1 + 1 = o.n := by omega
  unfold mulRight
  rw [if_neg (by omega)]
  by_cases h1 : o.n = 1
  · rw [if_pos h1]
    refine ⟨_, rfl, fun i hi => ?_⟩
    rw [h1, sum_range_one, pow_zero, mul_one]
  · rw [if_neg h1]
    dsimp only
    have key : ∃ b, (if (o.feasible && o.doE) = true then fftStep o (o.n - 1)
          (build o.n fun i => o.xs (o.n - 1 - i) * P (o.n - 1 - i)) (o.n - 1) (o.n - 1) (o.n - 1 + o.n - 1)
        else mp (build o.n fun i => o.xs (o.n - 1 - i) * P (o.n - 1 - i)) o.f (o.n - 1) (o.n - 1)) = some b ∧
        ∀ j, j < o.n → b.coeff j = ∑ i ∈ range (o.n - 1 + 1),
          (build o.n fun i => o.xs (o.n - 1 - i) * P (o.n - 1 - i)).coeff (o.n - 1 - i) * o.f.coeff (i + j) := by
      cases hF : (o.feasible && o.doE) with
      | true =>
        have hf : o.feasible = true := by
          cases hb : o.feasible <;> rw [hb] at hF <;> simp at hF ⊢
        rw [if_pos rfl]
        obtain ⟨b, e, hb⟩ := fftStep_spec h (o.n - 1) (h.fft hf).2.2
          (build o.n fun i => o.xs (o.n - 1 - i) * P (o.n - 1 - i)) (o.n - 1) (o.n - 1 + o.n - 1) (by omega)
        exact ⟨b, e, fun j hj => hb j (by omega)⟩
      | false =>
        rw [if_neg (by simp)]
        obtain ⟨b, e, hb⟩ := hmp (build o.n fun i => o.xs (o.n - 1 - i) * P (o.n - 1 - i)) o.f
          (o.n - 1) (o.n - 1) (by omega) (by omega)
        exact ⟨b, e, fun j hj => hb j (by omega)⟩
    obtain ⟨b, e, hb⟩ := key
    rw [e]
    refine ⟨_, rfl, fun i hi => ?_⟩
    have := eval_sum h P (o.n - 1) (by omega) i hi
    rw [hN] at this
    rw [hb i hi, hN, this]

theorem mulLeft_spec {mp : K[X] → K[X] → Nat → Nat → Option K[X]} {r s : K} {o : Obj K} (h : Good r s o)
    (hmp : MidOK mp o.n) (V : Nat → K) :
    ∃ v, mulLeft mp o V = some v ∧ ∀ j, j < o.n → v j = ∑ i ∈ range o.n, V i * (s * r ^ (2 * i)) ^ j := by
  have hn := h.n_pos
  unfold mulLeft
  rw [if_neg (by omega)]
  by_cases h1 : o.n = 1
  · rw [if_pos h1]
    refine ⟨_, rfl, fun j hj => ?_⟩
    obtain rfl : j = 0 := by omega
    rw [h1, sum_range_one, pow_zero, mul_one]
  · rw [if_neg h1]
    dsimp only
    have key : ∃ b, (if (o.feasible && o.doE) = true then fftStep o (o.n - 1)
          (build o.n fun i => o.x (o.n - 1 - i) * V (o.n - 1 - i)) (o.n - 1) (o.n - 1) (o.n - 1 + o.n - 1)
        else mp (build o.n fun i => o.x (o.n - 1 - i) * V (o.n - 1 - i)) o.f (o.n - 1) (o.n - 1)) = some b ∧
        ∀ j, j < o.n → b.coeff j = ∑ i ∈ range (o.n - 1 + 1),
          (build o.n fun i => o.x (o.n - 1 - i) * V (o.n - 1 - i)).coeff (o.n - 1 - i) * o.f.coeff (i + j) := by
      cases hF : (o.feasible && o.doE) with
      | true =>
        have hf : o.feasible = true := by
          cases hb : o.feasible <;> rw [hb] at hF <;> simp at hF ⊢
        rw [if_pos rfl]
        obtain ⟨b, e, hb⟩ := fftStep_spec h (o.n - 1) (h.fft hf).2.2
          (build o.n fun i => o.x (o.n - 1 - i) * V (o.n - 1 - i)) (o.n - 1) (o.n - 1 + o.n - 1) (by omega)
        exact ⟨b, e, fun j hj => hb j (by omega)⟩
      | false =>
        rw [if_neg (by simp)]
        obtain ⟨b, e, hb⟩ := hmp (build o.n fun i => o.x (o.n - 1 - i) * V (o.n - 1 - i)) o.f
          (o.n - 1) (o.n - 1) (by omega) (by omega)
        exact ⟨b, e, fun j hj => hb j (by omega)⟩
    obtain ⟨b, e, hb⟩ := key
    rw [e]
    refine ⟨_, rfl, fun j hj => ?_⟩
    rw [hb j hj, t_eval_sum h V j hj]

theorem tEvaluate_spec {mp : K[X] → K[X] → Nat → Nat → Option K[X]} {r s : K} {o : Obj K} (h : Good r s o)
    (hmp : MidOK mp o.n) (V : Nat → K) (size : Option Nat) (hsize : size.getD o.n ≤ o.n) :
    ∃ P, tEvaluate mp false o V size = some P ∧ ∀ j, P.coeff j =
      if j < size.getD o.n then ∑ i ∈ range o.n, V i * (s * r ^ (2 * i)) ^ j else 0 := by
  have hn := h.n_pos
  unfold tEvaluate
  dsimp only
  generalize size.getD o.n = sz at *
  by_cases h00 : sz = 0
  · rw [if_pos h00]
    exact ⟨0, rfl, fun j => by rw [if_neg (by omega), coeff_zero]⟩
  rw [if_neg h00, if_neg (by omega), if_neg (by simp)]
  by_cases h1 : o.n = 1
  · rw [if_pos h1]
    refine ⟨_, rfl, fun j => ?_⟩
    rw [h1, sum_range_one, coeff_C]
    by_cases hj : j = 0
    · rw [if_pos hj, if_pos (by omega), hj, pow_zero, mul_one]
    · rw [if_neg hj, if_neg (by omega)]
  · rw [if_neg h1]
    have key : ∃ b, (if (o.feasible && o.doE) = true then fftStep o (findDegree o.known (sz - 1) (o.n - 1))
          (build o.n fun i => o.x (o.n - 1 - i) * V (o.n - 1 - i)) (o.n - 1) (o.n - 1)
            (o.n - 1 + findDegree o.known (sz - 1) (o.n - 1))
        else mp (build o.n fun i => o.x (o.n - 1 - i) * V (o.n - 1 - i)) o.f (o.n - 1) (sz - 1)) = some b ∧
        ∀ j, j < sz → b.coeff j = ∑ i ∈ range (o.n - 1 + 1),
          (build o.n fun i => o.x (o.n - 1 - i) * V (o.n - 1 - i)).coeff (o.n - 1 - i) * o.f.coeff (i + j) := by
      cases hF : (o.feasible && o.doE) with
      | true =>
        have hf : o.feasible = true := by
          cases hb : o.feasible <;> rw [hb] at hF <;> simp at hF ⊢
        rw [if_pos rfl]
        obtain ⟨g1, g2, g3⟩ := findDegree_lookup h hf (sz - 1) (by omega)
        generalize findDegree o.known (sz - 1) (o.n - 1) = dp at *
        obtain ⟨b, e, hb⟩ := fftStep_spec h dp g3
          (build o.n fun i => o.x (o.n - 1 - i) * V (o.n - 1 - i)) (o.n - 1) (o.n - 1 + dp) (by omega)
        exact ⟨b, e, fun j hj => hb j (by omega)⟩
      | false =>
        rw [if_neg (by simp)]
        obtain ⟨b, e, hb⟩ := hmp (build o.n fun i => o.x (o.n - 1 - i) * V (o.n - 1 - i)) o.f
          (o.n - 1) (sz - 1) (by omega) (by omega)
        exact ⟨b, e, fun j hj => hb j (by omega)⟩
    obtain ⟨b, e, hb⟩ := key
    rw [e]
    refine ⟨_, if_neg (by omega), fun j => ?_⟩
    rw [build_coeff]
    by_cases hj : j < sz
    · rw [if_pos hj, if_pos hj, hb j hj, t_eval_sum h V j (by omega)]
    · rw [if_neg hj, if_neg hj]

/-! ### Interpolation -/

theorem mulStep_spec {r s : K} {o : Obj K} (h : Good r s o) (k g gfft : K[X]) (hg : o.feasible = true → gfft = toRepAll o.idxK g)
    (hk : ∀ j, o.n ≤ j → k.coeff j = 0) (hgd : ∀ j, o.n ≤ j → g.coeff j = 0) (j : Nat) (hj : j < o.n) :
    (mulStep o k g gfft).coeff j = ∑ i ∈ range (j + 1), k.coeff i * g.coeff (j - i) := by
  have hn := h.n_pos
  have h1 : (mulStep o k g gfft).coeff j = (k * g).coeff j := by
    unfold mulStep
    cases hF : (o.feasible && o.doI) with
    | true =>
      have hf : o.feasible = true := by
        cases hb : o.feasible <;> rw [hb] at hF <;> simp at hF ⊢
      have hp := le_nextPow2 (2 * o.n - 1)
      rw [← h.idx] at hp
      rw [if_pos rfl, hg hf]
      unfold toRepAll
      rw [repMul (by omega), slice_coeff, if_pos (by omega), Nat.zero_add]
      intro m hm
      exact mul_coeff_high hk hgd m (by omega)
    | false =>
      rw [if_neg (by simp), coeff_mod_X_pow, if_pos hj]
  rw [h1, coeff_mul, Finset.Nat.sum_antidiagonal_eq_sum_range_succ_mk]

theorem interpCore_spec {r s : K} {o : Obj K} (h : Good r s o) (V : Nat → K) (v : Nat → K)
    (hv : ∀ i, i < o.n → v i = V i * (qfac (r * r) i)⁻¹) (i : Nat) (hi : i < o.n) :
    (-1) ^ i * (qfac (r * r) i)⁻¹ * (interpCore o v).coeff (o.n - 1 - i) = monoCoeff (r * r) o.n V i := by
  have hn := h.n_pos
  unfold interpCore monoCoeff
  dsimp only
  congr 1
  have hfirst : ∀ m, m < o.n → (mulStep o (build o.n v) o.g1 o.g1fft).coeff m = newtonCoeff (r * r) V m := by
    intro m hm
    rw [mulStep_spec h _ _ _ (fun hf => (h.fft hf).1) (fun j hj => by rw [build_coeff, if_neg (by omega)])
      (fun j hj => by rw [h.g1, if_neg (by omega)]) m hm]
    unfold newtonCoeff
    refine sum_congr rfl fun j hj => ?_
    have hj := mem_range.1 hj
    rw [build_coeff, if_pos (by omega), h.g1, if_pos (by omega), hv j (by omega)]
  generalize mulStep o (build o.n v) o.g1 o.g1fft = H at *
  rw [mulStep_spec h _ _ _ (fun hf => (h.fft hf).2.1) (fun j hj => by rw [build_coeff, if_neg (by omega)])
    (fun j hj => by rw [h.g2, if_neg (by omega)]) _ (by omega)]
  rw [sum_Ico_eq_sum_range, ← sum_range_reflect, show o.n - 1 - i + 1 = o.n - i by omega]
  refine sum_congr rfl fun l hl => ?_
  have hl := mem_range.1 hl
  rw [build_coeff, if_pos (by omega), h.g2, if_pos (by omega), show o.n - 1 - (o.n - i - 1 - l) = i + l by omega,
    hfirst _ (by omega), h.y _ (by omega), show o.n - 1 - i - (o.n - i - 1 - l) = i + l - i by omega]

theorem pt_pow (r s : K) (a i : Nat) : (s * r ^ (2 * a)) ^ i = s ^ i * ((r * r) ^ a) ^ i := by
  rw [mul_pow, pow_mul, pow_two]

theorem s_cancel {s : K} (hs : s ≠ 0) (i : Nat) : (s⁻¹) ^ i * s ^ i = 1 := by
  rw [← mul_pow, inv_mul_cancel₀ hs, one_pow]

theorem invMulRight_spec {r s : K} {o : Obj K} (h : Good r s o) (V : Nat → K) (a : Nat) (ha : a < o.n) :
    ∑ i ∈ range o.n, invMulRight o V i * (s * r ^ (2 * a)) ^ i = V a := by
  have hn := h.n_pos
  unfold invMulRight
  rw [if_neg (by omega)]
  by_cases h1 : o.n = 1
  · obtain rfl : a = 0 := by omega
    rw [if_pos h1, h1, sum_range_one, pow_zero, mul_one]
  · rw [if_neg h1]
    rw [← mono_value (r * r) (mul_ne_zero h.r_ne h.r_ne) o.n h.fac V a ha]
    refine sum_congr rfl fun i hi => ?_
    have hi := mem_range.1 hi
    have e := interpCore_spec h V (fun i => V i * o.w i) (fun i hi => by rw [h.w i hi]) i hi
    rw [h.zs i hi, pt_pow, ← e]
    linear_combination (interpCore o fun i => V i * o.w i).coeff (o.n - 1 - i) * ((-1) ^ i * (qfac (r * r) i)⁻¹) *
      ((r * r) ^ a) ^ i * s_cancel h.s_ne i

theorem interpolate_spec {r s : K} {o : Obj K} (h : Good r s o) (V : Nat → K) :
    ∃ P, interpolate false o V = some P ∧ P.natDegree < o.n ∧
      ∀ a, a < o.n → P.eval (s * r ^ (2 * a)) = V a := by
  have hn := h.n_pos
  have hP : ∃ P, interpolate false o V = some P ∧ (∀ j, P.coeff j = if j < o.n then invMulRight o V j else 0) := by
    unfold interpolate invMulRight
    simp only [if_neg (show ¬ o.n = 0 by omega), Bool.false_eq_true, if_false]
    by_cases h1 : o.n = 1
    · simp only [if_pos h1]
      refine ⟨_, rfl, fun j => ?_⟩
      rw [coeff_C]
      by_cases hj : j = 0
      · rw [if_pos hj, if_pos (by omega)]
      · rw [if_neg hj, if_neg (by omega)]
    · simp only [if_neg h1]
      exact ⟨_, rfl, fun j => build_coeff _ _ _⟩
  obtain ⟨P, e, hc⟩ := hP
  have hd : P.natDegree < o.n := by
    rw [Nat.lt_iff_le_pred hn, natDegree_le_iff_coeff_eq_zero]
    intro j hj
    rw [hc, if_neg (by have := Nat.pred_eq_sub_one (n := o.n); omega)]
  refine ⟨P, e, hd, fun a ha => ?_⟩
  rw [eval_range P _ o.n hd, ← invMulRight_spec h V a ha]
  refine sum_congr rfl fun i hi => ?_
  rw [hc, if_pos (mem_range.1 hi)]

theorem invMulLeft_spec {r s : K} {o : Obj K} (h : Good r s o) (P : Nat → K) (j : Nat) (hj : j < o.n) :
    ∑ i ∈ range o.n, invMulLeft o P i * (s * r ^ (2 * i)) ^ j = P j := by
  have hn := h.n_pos
  unfold invMulLeft
  rw [if_neg (by omega)]
  by_cases h1 : o.n = 1
  · obtain rfl : j = 0 := by omega
    rw [if_pos h1, h1, sum_range_one, pow_zero, mul_one]
  · rw [if_neg h1]
    have hm := mono_value (r * r) (mul_ne_zero h.r_ne h.r_ne) o.n h.fac (fun i => P i * (s⁻¹) ^ i) j hj
    have : P j = s ^ j * (P j * (s⁻¹) ^ j) := by linear_combination -P j * s_cancel h.s_ne j
    rw [this, ← hm, mul_sum]
    refine sum_congr rfl fun i hi => ?_
    have hi := mem_range.1 hi
    have e := interpCore_spec h (fun i => P i * (s⁻¹) ^ i) (fun i => P i * o.ws i)
      (fun i hi => by rw [h.ws i hi]; ring) i hi
    rw [h.z i hi, pt_pow, ← e, ← pow_mul, ← pow_mul, Nat.mul_comm i j]
    ring

theorem tInterpolate_spec {o : Obj K} (P : K[X]) : tInterpolate o P = invMulLeft o P.coeff := by
  unfold tInterpolate invMulLeft
  rfl

/-! ### More points than `n` -/

theorem getQ_spec {r s : K} {o : Obj K} (h : Good r s o) (h2 : 2 ≤ o.n) : getQ o = r * r := by
  unfold getQ
  rw [if_neg (by omega), h.x 1 (by omega)]
  simp

theorem getS_spec {r s : K} {o : Obj K} (h : Good r s o) (h2 : 2 ≤ o.n) : getS o = s := by
  unfold getS
  have := h.r_ne
  rw [if_neg (by omega), h.x 1 (by omega), h.xs 1 (by omega)]
  simp only [mul_one, pow_one]
  field_simp

theorem len_coeff [DecidableEq K] (P : K[X]) (j : Nat) (h : Series.len P ≤ j) : P.coeff j = 0 := Series.coeff_len P j h

theorem natDegree_lt_of_len [DecidableEq K] {P : K[X]} {n D : Nat} (hn : 1 ≤ n) (hD : D ≤ n) (h : ∀ j, D ≤ j → P.coeff j = 0) :
    P.natDegree < n := by
  have : P.natDegree ≤ n - 1 := by
    rw [natDegree_le_iff_coeff_eq_zero]
    intro j hj
    exact h j (by omega)
  omega

theorem evalMoreLoop_spec {mp : K[X] → K[X] → Nat → Nat → Option K[X]} {r s : K} {o : Obj K} [DecidableEq K]
    (h : Good r s o) (hmp : MidOK mp o.n) (P : K[X]) (D nb : Nat) (hD : D ≤ o.n) (hP : ∀ j, D ≤ j → P.coeff j = 0)
    (pow : K) (hpow : o.n = 1 ∨ pow = (r * r) ^ o.n) :
    ∀ (fuel t : Nat) (val : Nat → K) (g : K[X]),
      (∀ j, g.coeff j = P.coeff j * (pow ^ j) ^ t) →
      t * o.n < nb → nb ≤ t * o.n + fuel →
      (∀ j, j < t * o.n → val j = P.eval (s * r ^ (2 * j))) →
      ∃ v, evalMoreLoop mp o pow D nb fuel (t * o.n) val g = some v ∧ ∀ j, j < nb → v j = P.eval (s * r ^ (2 * j)) := by
  have hn := h.n_pos
  intro fuel
  induction fuel with
  | zero => intro t val g _ h1 h2 _; omega
  | succ fuel ih =>
    intro t val g hg h1 h2 hval
    have hgd : ∀ j, D ≤ j → g.coeff j = 0 := fun j hj => by rw [hg, hP j hj, zero_mul]
    have hgn := natDegree_lt_of_len hn hD hgd
    obtain ⟨tmp, e, htmp⟩ := evaluate_spec h hmp g hgn
    have hPn := natDegree_lt_of_len hn hD hP
    have hnew : ∀ i, i < o.n → tmp i = P.eval (s * r ^ (2 * (t * o.n + i))) := by
      intro i hi
      rw [htmp i hi, eval_range g _ o.n hgn, eval_range P _ o.n hPn]
      refine sum_congr rfl fun j hj => ?_
      have hj := mem_range.1 hj
      rw [hg]
      rcases hpow with h1 | hp
      · obtain rfl : j = 0 := by omega
        simp
      · rw [hp, pt_pow, pt_pow]
        have e1 : ((((r * r) ^ o.n) ^ j) ^ t) * ((r * r) ^ i) ^ j = ((r * r) ^ (t * o.n + i)) ^ j := by
          rw [← pow_mul, ← pow_mul, ← pow_mul, ← pow_mul, ← pow_add]; congr 1; ring
        rw [← e1]
        ring
    have hval' : ∀ j, j < (t + 1) * o.n →
        (if t * o.n ≤ j ∧ j < t * o.n + o.n then tmp (j - t * o.n) else val j) = P.eval (s * r ^ (2 * j)) := by
      intro j hj
      have hj : j < t * o.n + o.n := by rw [Nat.add_mul, Nat.one_mul] at hj; exact hj
      by_cases hc : t * o.n ≤ j
      · rw [if_pos ⟨hc, hj⟩, hnew _ (by omega), show t * o.n + (j - t * o.n) = j by omega]
      · rw [if_neg (by omega), hval j (by omega)]
    show ∃ v, (match evaluate mp o g with
      | none => none
      | some tmp =>
        if t * o.n + o.n < nb then evalMoreLoop mp o pow D nb fuel (t * o.n + o.n)
          (fun j => if t * o.n ≤ j ∧ j < t * o.n + o.n then tmp (j - t * o.n) else val j)
          (build D fun i => g.coeff i * pow ^ i)
        else some fun j => if t * o.n ≤ j ∧ j < t * o.n + o.n then tmp (j - t * o.n) else val j) = some v ∧ _
    rw [e]
    have et : t * o.n + o.n = (t + 1) * o.n := by ring
    by_cases hc : t * o.n + o.n < nb
    · dsimp only
      rw [if_pos hc, et]
      refine ih (t + 1) _ _ (fun j => ?_) (by omega) (by omega) ?_
      · rw [build_coeff]
        by_cases hj : j < D
        · rw [if_pos hj, hg]; ring
        · rw [if_neg hj, hP j (by omega), zero_mul]
      · intro j hj
        have := hval' j hj
        rw [et] at this
        exact this
    · dsimp only
      rw [if_neg hc]
      exact ⟨_, rfl, fun j hj => hval' j (by omega)⟩

theorem evaluateMore_spec {mp : K[X] → K[X] → Nat → Nat → Option K[X]} {r s : K} {o : Obj K} [DecidableEq K]
    (h : Good r s o) (hmp : MidOK mp o.n) (P : K[X]) (hP : P.natDegree < o.n) (nb : Nat) :
    ∃ v, evaluateMore mp o P nb = some v ∧ ∀ j, j < nb → v j = P.eval (s * r ^ (2 * j)) := by
  have hn := h.n_pos
  unfold evaluateMore
  by_cases h0 : nb = 0
  · rw [if_pos h0]
    exact ⟨_, rfl, fun j hj => absurd hj (by omega)⟩
  · rw [if_neg h0]
    have hl : Series.len P ≤ o.n := by
      unfold Series.len
      split_ifs <;> omega
    have := evalMoreLoop_spec h hmp P (Series.len P) nb hl (fun j hj => len_coeff P j hj) (getQ o ^ o.n)
      (by
        by_cases h1 : o.n = 1
        · exact Or.inl h1
        · exact Or.inr (by rw [getQ_spec h (by omega)])) nb 0 (fun _ => 0) P (fun j => by simp) (by omega) (by omega)
      (fun j hj => absurd hj (by omega))
    rw [Nat.zero_mul] at this
    exact this

/-! ### The theorems -/

/-- What is claimed of an object with points `pt 0, …, pt (n-1)`. -/
structure MultipointSpec [DecidableEq K] (mp : K[X] → K[X] → Nat → Nat → Option K[X]) (o : Obj K) (n : Nat) (pt : Nat → K) :
    Prop where
  /-- `evaluate(val, P)`. -/
  eval : ∀ P : K[X], P.natDegree < n → ∃ v, evaluate mp o P = some v ∧ ∀ i, i < n → v i = P.eval (pt i)
  /-- `evaluate(val, P)` rejects larger degrees. -/
  eval_reject : ∀ P : K[X], n ≤ P.natDegree → evaluate mp o P = none
  /-- `evaluate(val, P, nb)`. -/
  eval_more : ∀ (P : K[X]) (nb : Nat), P.natDegree < n →
    ∃ v, evaluateMore mp o P nb = some v ∧ ∀ i, i < nb → v i = P.eval (pt i)
  /-- `interpolate(P, val)`. -/
  interp : ∀ val : Nat → K, ∃ P, interpolate false o val = some P ∧ P.natDegree < n ∧ ∀ i, i < n → P.eval (pt i) = val i
  /-- `t_evaluate(P, val, size)`. -/
  t_eval : ∀ (val : Nat → K) (size : Option Nat), size.getD n ≤ n → ∃ P, tEvaluate mp false o val size = some P ∧
    ∀ j, P.coeff j = if j < size.getD n then ∑ i ∈ range n, val i * pt i ^ j else 0
  /-- `t_interpolate(val, P)`. -/
  t_interp : ∀ (P : K[X]) (j : Nat), j < n → ∑ i ∈ range n, tInterpolate o P i * pt i ^ j = P.coeff j
  /-- `mul_right(val, P)`. -/
  mul_right : ∀ P : Nat → K, ∃ v, mulRight mp o P = some v ∧ ∀ i, i < n → v i = ∑ j ∈ range n, P j * pt i ^ j
  /-- `inv_mul_right(P, val)`. -/
  inv_mul_right : ∀ (val : Nat → K) (i : Nat), i < n → ∑ j ∈ range n, invMulRight o val j * pt i ^ j = val i
  /-- `mul_left(P, val)`. -/
  mul_left : ∀ val : Nat → K, ∃ P, mulLeft mp o val = some P ∧ ∀ j, j < n → P j = ∑ i ∈ range n, val i * pt i ^ j
  /-- `inv_mul_left(val, P)`. -/
  inv_mul_left : ∀ (P : Nat → K) (j : Nat), j < n → ∑ i ∈ range n, invMulLeft o P i * pt i ^ j = P j

theorem good_multipoint [DecidableEq K] {mp : K[X] → K[X] → Nat → Nat → Option K[X]} {r s : K} {o : Obj K} (h : Good r s o)
    (hmp : MidOK mp o.n) : MultipointSpec mp o o.n fun i => s * r ^ (2 * i) where
  eval P hP := evaluate_spec h hmp P hP
  eval_reject P hP := by
    have hn := h.n_pos
    have h0 : P ≠ 0 := by rintro rfl; rw [natDegree_zero] at hP; omega
    unfold evaluate
    rw [if_pos ⟨h0, hP⟩]
  eval_more P nb hP := evaluateMore_spec h hmp P hP nb
  interp V := interpolate_spec h V
  t_eval V size hs := tEvaluate_spec h hmp V size hs
  t_interp P j hj := by rw [tInterpolate_spec]; exact invMulLeft_spec h P.coeff j hj
  mul_right P := mulRight_spec h hmp P
  inv_mul_right V i hi := invMulRight_spec h V i hi
  mul_left V := mulLeft_spec h hmp V
  inv_mul_left P j hj := invMulLeft_spec h P j hj

/-- **C62**. For `n ≥ 1`, nonzero `r`, `s`, with `r^2, r^4, …, r^(2(n-1))` all different from 1,
    `zz_pX_Multipoint_Geometric(r, s, n)` is constructed; after any sequence of calls to
    `prepare_degree` and to the setters of FFT flags, evaluation, interpolation and their transposes,
    on polynomials and on vectors, are right for the points `s r^(2i)`, whatever the choice between
    FFT and `middle_product`. -/
theorem C62_geometric [DecidableEq K] {mp : K[X] → K[X] → Nat → Nat → Option K[X]} (n : Nat) (hmp : MidOK mp n)
    (feasible flags : Bool) (r s : K) (hn : 1 ≤ n) (hr : r ≠ 0) (hs : s ≠ 0)
    (hord : ∀ i, 1 ≤ i → i < n → r ^ (2 * i) ≠ 1) (cs : List Call) (hcs : ∀ d, Call.prepare d ∈ cs → d < n) :
    ∃ o₀ o, construct feasible flags r s n = some o₀ ∧ calls o₀ cs = some o ∧
      MultipointSpec mp o n fun i => s * r ^ (2 * i) := by
  obtain ⟨o₀, e₀, g₀, n₀⟩ := good_construct feasible flags r s n hn hr hs hord
  obtain ⟨o, e, g, n₁⟩ := good_calls cs o₀ g₀ fun d hd => n₀ ▸ hcs d hd
  have hon : o.n = n := n₁.trans n₀
  refine ⟨o₀, o, e₀, e, ?_⟩
  have := good_multipoint g (mp := mp) (by rw [hon]; exact hmp)
  rw [hon] at this
  exact this

/-- **C62**, with the documented condition on the order of `r`, and for the `middle_product` of this
    library when it cannot overflow (see C56). -/
theorem C62_geometric_order {p : Nat} [Fact p.Prime] {red : Nat → ZMod p} (hred : Middle.RedOK red) (cross : Nat) (n : Nat)
    (hsafe : Middle.useLong p = false ∨ n * (p - 1) ^ 2 < Middle.SP_BOUND)
    (feasible flags : Bool) (r s : ZMod p) (hn : 1 ≤ n) (hr : r ≠ 0) (hs : s ≠ 0) (hord : 2 * (n - 1) + 1 ≤ orderOf r)
    (cs : List Call) (hcs : ∀ d, Call.prepare d ∈ cs → d < n) :
    ∃ o₀ o, construct feasible flags r s n = some o₀ ∧ calls o₀ cs = some o ∧
      MultipointSpec (Middle.middleProduct red cross) o n fun i => s * r ^ (2 * i) := by
  haveI : Fact (1 < p) := ⟨(Fact.out : p.Prime).one_lt⟩
  refine C62_geometric n ?_ feasible flags r s hn hr hs ?_ cs hcs
  · intro a c dA dB hA hB
    obtain ⟨b, e, hb⟩ := Middle.C56_middle_product_partial hred cross a c dA dB (by
      rcases hsafe with h | h
      · exact Or.inl h
      · exact Or.inr (Or.inl (lt_of_le_of_lt (Nat.mul_le_mul_right _ (by omega)) h)))
    refine ⟨b, e, fun j hj => ?_⟩
    rw [hb j, if_pos hj, Middle.trunc_mul_coeff]
  · intro i h1 h2 e
    have := orderOf_le_of_pow_eq_one (by omega) e
    omega

/-- `get_q`, `get_s` and `get_point` for at least two points. -/
theorem C62_getters [DecidableEq K] {mp : K[X] → K[X] → Nat → Nat → Option K[X]} (n : Nat) (hmp : MidOK mp n)
    (feasible flags : Bool) (r s : K) (hn : 2 ≤ n) (hr : r ≠ 0) (hs : s ≠ 0)
    (hord : ∀ i, 1 ≤ i → i < n → r ^ (2 * i) ≠ 1) :
    ∃ o, construct feasible flags r s n = some o ∧ getQ o = r ^ 2 ∧ getS o = s ∧
      ∀ i, i < n → getPoint mp o i = some (s * r ^ (2 * i)) := by
  obtain ⟨o, e, g, n₀⟩ := good_construct feasible flags r s n (by omega) hr hs hord
  refine ⟨o, e, by rw [getQ_spec g (by omega), pow_two], getS_spec g (by omega), fun i hi => ?_⟩
  unfold getPoint
  rw [if_neg (by omega)]
  obtain ⟨v, e1, hv⟩ := evaluate_spec g (mp := mp) (by rw [n₀]; exact hmp) X
    (lt_of_le_of_lt natDegree_X_le (by omega))
  rw [e1]
  show some (v i) = _
  rw [hv i (by omega), eval_X]

/-- With a single point the getters are inconsistent with the documentation: `get_point` returns
    `s r` and not `s`, `get_q` and `get_s` return 1. -/
theorem C62_getters_one_point [DecidableEq K] (mp : K[X] → K[X] → Nat → Nat → Option K[X])
    (feasible flags : Bool) (r s : K) (hr : r ≠ 0) (hs : s ≠ 0) :
    ∃ o, construct feasible flags r s 1 = some o ∧ getQ o = 1 ∧ getS o = 1 ∧ getPoint mp o 0 = some (s * r) := by
  obtain ⟨o, e, g, n₀⟩ := good_construct feasible flags r s 1 le_rfl hr hs (fun i h1 h2 => absurd h1 (by omega))
  refine ⟨o, e, if_pos n₀, if_pos n₀, ?_⟩
  unfold getPoint
  rw [if_pos n₀, g.pts0]

/-- The source says that `val` may be `f.rep` in `interpolate` and `P.rep` in `t_evaluate`; this is
    not so, the argument is emptied first. -/
theorem C62_alias_fails (mp : K[X] → K[X] → Nat → Nat → Option K[X]) (o : Obj K) (hn : 1 ≤ o.n) (val : Nat → K) :
    interpolate true o val = none ∧ tEvaluate mp true o val none = none := by
  constructor
  · unfold interpolate
    rw [if_neg (by omega), if_pos rfl]
  · unfold tEvaluate
    rw [Option.getD_none, if_neg (by omega), if_neg (by omega), if_pos rfl]

/-- `middle_product` can be implemented. -/
theorem exists_midOK (n : Nat) : ∃ mp : K[X] → K[X] → Nat → Nat → Option K[X], MidOK mp n :=
  ⟨fun a c dA dB => some (build (dB + 1) fun j => ∑ i ∈ range (dA + 1), a.coeff (dA - i) * c.coeff (i + j)),
    fun a c dA dB _ _ => ⟨_, rfl, fun j hj => by rw [build_coeff, if_pos (by omega)]⟩⟩

/-- The hypotheses of `C62_geometric` hold for the points `3, 3*4, 3*4^2 = 2, …` over `ZMod 7`:
    `r = 3` has order 6 and three points are allowed. -/
example : (1 : Nat) ≤ 3 ∧ (3 : ZMod 7) ≠ 0 ∧ ∀ i : Nat, 1 ≤ i → i < 3 → (3 : ZMod 7) ^ (2 * i) ≠ 1 := by
  refine ⟨by omega, by decide, fun i h1 h2 => ?_⟩
  have : i = 1 ∨ i = 2 := by omega
  rcases this with rfl | rfl <;> decide

end PML.Ntl.Geom
