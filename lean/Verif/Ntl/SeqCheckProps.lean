import Verif.Ntl.SeqCheckModel
import Verif.Ntl.SeqProps

/-!
# C98: the test `check_cancel`, and the start of `modified_kurakin`
-/

namespace PML.Ntl.Seq

open Polynomial PML.Ntl.Utils PML.Ntl.Inv PML.Ntl.Solve

open PML.Ntl.Struct (loopOut)

variable {F : Type} [Field F]

theorem mulXY_le {S : List F[X]} {f : Polynomial F[X]} (h : degY f ≤ S.length) : mulXY S f = .ok [] := by
  unfold mulXY
  dsimp only
  rw [min_eq_left (by omega), if_neg (by omega)]
  rfl

theorem mulTruncXY_le {S : List F[X]} {f : Polynomial F[X]} (d : Int) (h : degY f ≤ S.length) : mulTruncXY S f d = .ok [] := by
  unfold mulTruncXY
  dsimp only
  rw [min_eq_left (by omega), if_neg (by omega)]
  rfl

/-- `check_cancel(S, gens, d)` for a sequence of polynomials: the answer is always `true` when no polynomial of `gens` has a degree in
    `y` larger than the length of `S`, whatever they do to `S`. -/
theorem C98_check_vacuous (S : List F[X]) (d : Int) : ∀ gens : List (Polynomial F[X]), (∀ f, f ∈ gens → (f.natDegree : Int) ≤ S.length) →
    checkCancel S d gens = .ok true
  | [], _ => rfl
  | f :: gens, h => by
    have hd : degY f ≤ S.length := by
      refine le_trans ?_ (h f (by simp))
      unfold degY
      by_cases h0 : f = 0
      · rw [h0, pdeg_zero]; omega
      · rw [pdeg_ne _ h0]
    unfold checkCancel
    have e : (if d = -1 then mulXY S f else mulTruncXY S f d) = .ok [] := by
      split_ifs
      · exact mulXY_le hd
      · exact mulTruncXY_le d hd
    rw [e]
    simp only [andThen, isZeroSeq]
    exact C98_check_vacuous S d gens fun g hg => h g (by simp [hg])

/-- The answer `true` for the sequence `1`, the polynomial `1` and `d = 1`, although the product is `1`. -/
theorem C98_check_fails : checkCancel ([1] : List (ZMod 2)[X]) 1 [1] = .ok true ∧
    ¬CancelsFirst 1 1 (fun i => ([1] : List (ZMod 2)[X]).getD i 0) 1 := by
  haveI : Fact (Nat.Prime 2) := ⟨Nat.prime_two⟩
  refine ⟨C98_check_vacuous _ _ _ fun f hf => ?_, fun h => ?_⟩
  · simp only [List.mem_singleton] at hf
    rw [hf, natDegree_one]; simp
  · have h1 := h 0 (by simp)
    simp only [entry, natDegree_one, zero_add, Finset.sum_range_one, coeff_one_zero, List.getD_cons_zero, mul_one] at h1
    have h5 : (X : (ZMod 2)[X]) ∣ 1 := by simpa using h1
    rw [X_dvd_iff] at h5
    simp at h5

/-- An error is raised when the first polynomial has a degree in `y` larger than the length of `S`, so that there is nothing to check. -/
theorem C98_check_error (S : List F[X]) (d : Int) (f : Polynomial F[X]) (gens : List (Polynomial F[X])) (h : S.length < f.natDegree) :
    checkCancel S d (f :: gens) = .error := by
  have h0 : f ≠ 0 := fun e => by rw [e, natDegree_zero] at h; omega
  have hd : degY f = f.natDegree := pdeg_ne _ h0
  unfold checkCancel
  have e : (if d = -1 then mulXY S f else mulTruncXY S f d) = .error := by
    unfold mulXY mulTruncXY
    dsimp only
    rw [hd]
    have h1 : min 0 ((S.length : Int) - f.natDegree) < 0 := by omega
    split_ifs
    · rfl
    · rfl
  rw [e]
  rfl

theorem tabulate_ok {α : Type} (g : Nat → Out α) (v : Nat → α) : ∀ n, (∀ i, i < n → g i = .ok (v i)) → tabulate n g = .ok ((List.range n).map v)
  | 0, _ => rfl
  | n + 1, h => by
    have ih := tabulate_ok g v n fun i hi => h i (by omega)
    unfold tabulate at ih ⊢
    simp only [loopOut]
    rw [ih]
    simp only [andThen, h n (by omega)]
    rw [List.range_succ, List.map_append]
    rfl

/-- A table of `tau` polynomials. -/
def tab (tau : Nat) (v : Nat → F[X]) : List F[X] := (List.range tau).map v

theorem tab_add (tau : Nat) (v w : Nat → F[X]) : add (tab tau v) (tab tau w) = tab tau fun c => v c + w c := by
  unfold add tab
  rw [List.zipWith_map, List.zipWith_self]

theorem isZero_tab (tau : Nat) (v : Nat → F[X]) : indexNonZero (tab tau v) = (tab tau v).length ↔ 0 < tau ∧ ∀ c, c < tau → v c = 0 := by
  classical
  unfold indexNonZero
  have hl : (tab tau v).length = tau := by simp [tab]
  rw [hl]
  by_cases h0 : tau = 0
  · rw [if_pos h0]
    constructor
    · intro h; omega
    · intro h; omega
  · rw [if_neg h0]
    have : (tab tau v).findIdx (fun s => decide (s ≠ 0)) = tau ↔ ∀ c, c < tau → v c = 0 := by
      have e := List.findIdx_eq_length (p := fun s => decide (s ≠ 0)) (xs := tab tau v)
      rw [hl] at e
      rw [e]
      simp [tab]
    constructor
    · intro h
      refine ⟨by omega, this.1 ?_⟩
      exact_mod_cast h
    · intro h
      have := this.2 h.2
      exact_mod_cast this

theorem isZeroVec_tab (n tau : Nat) (v : Nat → Nat → F[X]) :
    isZeroSeqVec ((List.range n).map fun i => tab tau (v i)) = true ↔ n = 0 ∨ (0 < tau ∧ ∀ i, i < n → ∀ c, c < tau → v i c = 0) := by
  unfold isZeroSeqVec
  rw [List.length_map, List.length_range]
  by_cases h0 : n = 0
  · simp [h0]
  · rw [if_neg h0]
    unfold indexNonZeroVec
    rw [List.length_map, List.length_range, if_neg h0]
    have hlen : ((List.range n).map fun i => tab tau (v i)).length = n := by simp
    have key : ((List.range n).map fun i => tab tau (v i)).findIdx (fun s => decide (indexNonZero s ≠ s.length)) = n ↔
        ∀ i, i < n → indexNonZero (tab tau (v i)) = (tab tau (v i)).length := by
      have e := List.findIdx_eq_length (p := fun s => decide (indexNonZero s ≠ s.length)) (xs := (List.range n).map fun i => tab tau (v i))
      rw [hlen] at e
      rw [e]
      simp only [List.mem_map, List.mem_range, forall_exists_index, and_imp, forall_apply_eq_imp_iff₂]
      refine forall_congr' fun i => forall_congr' fun _ => ?_
      simp
    rw [decide_eq_true_iff]
    have e : (((((List.range n).map fun i => tab tau (v i)).findIdx fun s => decide (indexNonZero s ≠ s.length)) : Nat) : Int) = (n : Int) ↔
        ((List.range n).map fun i => tab tau (v i)).findIdx (fun s => decide (indexNonZero s ≠ s.length)) = n := by norm_cast
    rw [e, key]
    constructor
    · intro h
      refine .inr ⟨((isZero_tab tau (v 0)).1 (h 0 (by omega))).1, fun i hi => ((isZero_tab tau (v i)).1 (h i hi)).2⟩
    · rintro (h | h)
      · omega
      · exact fun i hi => (isZero_tab tau (v i)).2 ⟨h.1, h.2 i hi⟩

/-- The sequence of vectors with the components `σ 0, ..., σ (tau - 1)`. -/
def vectorSeq (n tau : Nat) (σ : Nat → Nat → F[X]) : List (List F[X]) := (List.range n).map fun i => tab tau fun c => σ c i

theorem rd_vectorSeq {n tau i : Nat} (σ : Nat → Nat → F[X]) (hi : i < n) : rd (vectorSeq n tau σ) (i : Int) = .ok (tab tau fun c => σ c i) := by
  unfold rd vectorSeq
  rw [if_neg (by omega)]
  simp [hi]

theorem trunc_add (a b : F[X]) (d : Nat) : ptrunc (a + b) d = ptrunc a d + ptrunc b d := by
  ext k
  simp only [coeff_add, ptrunc_coeff]
  split_ifs <;> simp

theorem windowTruncVec_ok {n tau d i : Nat} (σ : Nat → Nat → F[X]) (f : Polynomial F[X]) (m : Nat) (h : i + m < n) :
    windowTruncVec (vectorSeq n tau σ) f m d i = .ok (tab tau fun c => ptrunc (∑ t ∈ Finset.range (m + 1), f.coeff t * σ c (i + t)) d) := by
  unfold windowTruncVec
  rw [rd_vectorSeq σ (by omega)]
  simp only [andThen]
  rw [show ((m : Int) + 1).toNat = m + 1 by omega]
  have key := Struct.loopOut_inv (k := m + 1) (f := fun t val => andThen (rd (vectorSeq n tau σ) ((i + t : Nat) : Int)) fun s => .ok (add val (mulTrunc s (f.coeff t) d)))
    (s := List.replicate (tab tau fun c => σ c i).length (0 : F[X]))
    (P := fun T val => val = tab tau fun c => ptrunc (∑ t ∈ Finset.range T, f.coeff t * σ c (i + t)) d)
    (by simp [tab, trunc_of_zero]) (fun T val hT hv => by
      rw [rd_vectorSeq σ (by omega)]
      refine ⟨_, rfl, ?_⟩
      have e : mulTrunc (tab tau fun c => σ c (i + T)) (f.coeff T) d = tab tau fun c => ptrunc (σ c (i + T) * f.coeff T) d := by
        unfold mulTrunc tab
        rw [List.map_map]; rfl
      rw [hv, e, tab_add]
      congr 1
      funext c
      rw [Finset.sum_range_succ, trunc_add, mul_comm (σ c (i + T))])
  obtain ⟨u, e1, e2⟩ := key
  rw [← e2]
  exact e1

theorem mulTruncXYVec_ok (n tau d : Nat) (σ : Nat → Nat → F[X]) (f : Polynomial F[X]) :
    ∃ res, mulTruncXYVec (vectorSeq n tau σ) f d = .ok res ∧
      (0 < tau → (isZeroSeqVec res = true ↔ ∀ c, c < tau → CancelsFirst d n (σ c) f)) := by
  unfold mulTruncXYVec
  by_cases h0 : f = 0
  · refine ⟨[], ?_, fun _ => ⟨fun _ c _ i _ => ?_, fun _ => rfl⟩⟩
    · rw [if_pos (by unfold degY; rw [h0, pdeg_zero]; omega)]
    · rw [h0]; simp [entry]
  · have hd : degY f = f.natDegree := pdeg_ne _ h0
    have hlen : (vectorSeq n tau σ).length = n := by simp [vectorSeq]
    rw [hd, if_neg (by omega)]
    dsimp only
    rw [hlen, show (max 0 ((n : Int) - f.natDegree)).toNat = n - f.natDegree by omega]
    rw [tabulate_ok _ (fun i => tab tau fun c => ptrunc (entry f (σ c) i) d) _ fun i hi => windowTruncVec_ok σ f _ (by omega)]
    refine ⟨_, rfl, fun ht => ?_⟩
    rw [isZeroVec_tab (n - f.natDegree) tau fun i c => ptrunc (entry f (σ c) i) d]
    constructor
    · rintro (h | ⟨-, h⟩) c hc i hi
      · omega
      · exact (trunc_zero_iff _ _).1 (h i (by omega) c hc)
    · intro h
      exact .inr ⟨ht, fun i hi c hc => (trunc_zero_iff _ _).2 (h c hc i (by omega))⟩

/-- `check_cancel(S, gens, d)` for a sequence of nonempty vectors of the same length and `d ≥ 0`: the answer is `true` exactly when
    every polynomial of `gens` cancels every component of `S`. -/
theorem C98_check_vectors (n tau d : Nat) (htau : 0 < tau) (σ : Nat → Nat → F[X]) : ∀ gens : List (Polynomial F[X]),
    ∃ b, checkCancelVec (vectorSeq n tau σ) d gens = .ok b ∧ (b = true ↔ ∀ f, f ∈ gens → ∀ c, c < tau → CancelsFirst d n (σ c) f)
  | [] => ⟨true, rfl, by simp⟩
  | f :: gens => by
    obtain ⟨res, e, h⟩ := mulTruncXYVec_ok n tau d σ f
    have h := h htau
    obtain ⟨b, e2, h2⟩ := C98_check_vectors n tau d htau σ gens
    unfold checkCancelVec
    rw [if_neg (by omega), show ((d : Int)).toNat = d by omega, e]
    simp only [andThen]
    by_cases hz : isZeroSeqVec res = true
    · rw [hz]
      refine ⟨b, by simpa using e2, ?_⟩
      rw [h2]
      constructor
      · intro h3 g hg
        rcases List.mem_cons.1 hg with e3 | e3
        · rw [e3]; exact h.1 hz
        · exact h3 g e3
      · exact fun h3 g hg => h3 g (List.mem_cons_of_mem _ hg)
    · rw [Bool.not_eq_true] at hz
      rw [hz]
      refine ⟨false, by simp, ?_⟩
      simp only [Bool.false_eq_true, false_iff]
      intro h3
      have := h.2 (h3 f (by simp))
      rw [hz] at this
      cases this

/-- With vectors of length 0 the answer is `false` for the polynomial 1, although nothing is left to cancel. -/
theorem C98_check_empty_fails (d : Nat) : checkCancelVec (vectorSeq 1 0 fun _ _ => (0 : F[X])) d [1] = .ok false := by
  have hd : degY (1 : Polynomial F[X]) = ((0 : Nat) : Int) := by
    unfold degY
    rw [pdeg_ne _ one_ne_zero, natDegree_one]
  have e : mulTruncXYVec (vectorSeq 1 0 fun _ _ => (0 : F[X])) 1 d = .ok ((List.range 1).map fun i => tab 0 fun c => ptrunc (entry 1 (fun _ => (0 : F[X])) i) d) := by
    unfold mulTruncXYVec
    rw [hd, if_neg (by omega)]
    dsimp only
    rw [show (max 0 (((vectorSeq 1 0 fun _ _ => (0 : F[X])).length : Int) - ((0 : Nat) : Int))).toNat = 1 by simp [vectorSeq]]
    exact tabulate_ok _ _ _ fun i hi => (windowTruncVec_ok (n := 1) (tau := 0) (fun _ _ => (0 : F[X])) 1 0 (by omega)).trans rfl
  unfold checkCancelVec
  rw [if_neg (by omega), show ((d : Int)).toNat = d by omega, e]
  simp only [andThen]
  have : ¬isZeroSeqVec ((List.range 1).map fun i => tab 0 fun c => ptrunc (entry 1 (fun _ => (0 : F[X])) i) d) = true := by
    rw [isZeroVec_tab 1 0 fun i c => ptrunc (entry 1 (fun _ => (0 : F[X])) i) d]
    omega
  rw [Bool.not_eq_true] at this
  rw [this]
  rfl

/-- Without truncation (`d = -1`, the default) the answer is always `true` for sequences of vectors as well. -/
theorem C98_check_vectors_vacuous (S : List (List F[X])) : ∀ gens : List (Polynomial F[X]), (∀ f, f ∈ gens → (f.natDegree : Int) ≤ S.length) →
    checkCancelVec S (-1) gens = .ok true
  | [], _ => rfl
  | f :: gens, h => by
    have hd : degY f ≤ S.length := by
      refine le_trans ?_ (h f (by simp))
      unfold degY
      by_cases h0 : f = 0
      · rw [h0, pdeg_zero]; omega
      · rw [pdeg_ne _ h0]
    unfold checkCancelVec
    have e : mulXYVec S f = .ok [] := by
      unfold mulXYVec
      dsimp only
      rw [min_eq_left (by omega), if_neg (by omega)]
      rfl
    rw [if_pos rfl, e]
    simp only [andThen, isZeroSeqVec]
    exact C98_check_vectors_vacuous S gens fun g hg => h g (by simp [hg])

theorem modifiedLoop_spec {d n : Nat} (σ : Nat → F[X]) : ∀ (fuel t : Nat) (x : MSt F), x.queue = [t] → t < d → d - t ≤ fuel →
    ((∃ i, i < n ∧ (σ i).coeff 0 ≠ 0) → ∃ y, modifiedLoop d (firstTerms n σ) fuel x = .ok y) ∧
    ((∀ i, i < n → (σ i).coeff 0 = 0) → modifiedLoop d (firstTerms n σ) fuel x = .ub)
  | 0, t, x, _, h1, h2 => by omega
  | fuel + 1, t, x, hq, h1, h2 => by
    unfold modifiedLoop
    rw [hq]
    dsimp only
    rw [first_pre]
    by_cases hz : ∀ i, i < n → X ^ d ∣ act σ i (C (X ^ t))
    · constructor
      · rintro ⟨i, hi, h0⟩
        exfalso
        have := hz i hi
        rw [act_C, mul_comm, dvd_unit h0, pow_dvd_pow_iff X_ne_zero not_isUnit_X] at this
        omega
      · intro _
        rw [pre_index_zero hz]
        have : rd (pre d σ n (C (X ^ t))) (if n = 0 then -1 else (n : Int)) = .ub := by
          unfold rd
          split_ifs with h3 h4 h4
          · rfl
          · omega
          · omega
          · rw [List.getElem?_eq_none (by rw [pre_length]; omega)]
        rw [this]
        rfl
    · obtain ⟨k, hk, hl⟩ := lead_exists hz
      rw [pre_index hk hl, pre_rd σ _ hk]
      simp only [andThen]
      obtain ⟨v, hv⟩ := exists_V hl.2
      have hvd := hv.lt hl.2
      rw [valuation_eq (hv.trunc hvd)]
      have hvt : t ≤ v := hv.le (by rw [act_C]; exact dvd_mul_right _ _)
      have hc : (σ k).coeff 0 ≠ 0 ↔ v = t := by
        constructor
        · intro h0
          have := hv.1
          rw [act_C, mul_comm, dvd_unit h0, pow_dvd_pow_iff X_ne_zero not_isUnit_X] at this
          omega
        · rintro rfl h0
          apply hv.2
          rw [act_C, pow_succ]
          exact mul_dvd_mul_left _ (X_dvd_iff.2 h0)
      by_cases e : v = t
      · subst e
        rw [if_neg (by omega)]
        refine ⟨fun _ => ?_, fun h => ((hc.2 rfl) (h k hk)).elim⟩
        unfold modifiedLoop
        exact ⟨_, rfl⟩
      · rw [if_pos (by omega)]
        exact modifiedLoop_spec σ fuel ((d : Int) - v + t).toNat _ rfl (by omega) (by omega)

/-- `modified_kurakin(d, S, gens)` reads outside of a vector, before its main loop, exactly when `d` is zero or no entry of `S` has a
    nonzero constant coefficient; in particular for a zero sequence and for an empty one. -/
theorem C98_modified_overflow (d : Nat) (S : List F[X]) :
    (modifiedStart d S = .ub ↔ d = 0 ∨ ∀ s, s ∈ S → s.coeff 0 = 0) ∧ (modifiedStart d S ≠ .ub → ∃ x, modifiedStart d S = .ok x) := by
  unfold modifiedStart
  by_cases h0 : d = 0
  · simp [h0]
  · rw [if_neg h0]
    have key := modifiedLoop_spec (d := d) (n := S.length) (fun i => S.getD i 0) (d + 1) 0
      ⟨[0], write 0 true fun _ => false, fun _ => none, fun _ => none, fun _ => none, fun _ => none⟩ rfl (by omega) (by omega)
    rw [firstTerms_list] at key
    have hmem : (∀ i, i < S.length → (S.getD i 0).coeff 0 = 0) ↔ ∀ s, s ∈ S → s.coeff 0 = 0 := by
      constructor
      · intro h s hs
        obtain ⟨i, hi, rfl⟩ := List.getElem_of_mem hs
        have := h i hi
        simpa [List.getD_eq_getElem?_getD, hi] using this
      · intro h i hi
        have := h _ (List.getElem_mem hi)
        simpa [List.getD_eq_getElem?_getD, hi] using this
    by_cases hz : ∀ s, s ∈ S → s.coeff 0 = 0
    · have := key.2 (hmem.2 hz)
      rw [this]
      exact ⟨⟨fun _ => .inr hz, fun _ => rfl⟩, fun h => (h rfl).elim⟩
    · have hex : ∃ i, i < S.length ∧ (S.getD i 0).coeff 0 ≠ 0 := by
        by_contra hc
        push Not at hc
        exact hz (hmem.1 hc)
      obtain ⟨y, e⟩ := key.1 hex
      rw [e]
      refine ⟨⟨nofun, fun h => ?_⟩, fun _ => ⟨y, rfl⟩⟩
      rcases h with h | h
      · exact (h0 h).elim
      · exact (hz h).elim

end PML.Ntl.Seq
