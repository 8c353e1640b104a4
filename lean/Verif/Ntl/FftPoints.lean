import Verif.Ntl.FftPointsModel
import Verif.Ntl.BivarMore
import Mathlib.RingTheory.RootsOfUnity.PrimitiveRoots
import Mathlib.LinearAlgebra.Lagrange
import Mathlib.Data.Nat.Bitwise

/-!
# C91: evaluation and interpolation at FFT points
-/

namespace PML.Ntl.FftPoints

open Polynomial Finset PML.Ntl.Utils PML.Ntl.Inv PML.Ntl.Solve PML.Ntl.Struct

/-! ### Specification -/

/-- The reversal of the `k` low bits: bit `b` goes to place `k - 1 - b`. -/
def bitRev (k i : Nat) : Nat := ∑ b ∈ range k, if i.testBit b then 2 ^ (k - 1 - b) else 0

/-- The exponent of the point at place `i`. -/
def ord (rev : Bool) (k i : Nat) : Nat := if rev then bitRev k i else i

/-- The FFT of length `2^k` of NTL: the points are the powers of `w`, in order or in bit-reversed order. -/
structure ToolOK {F : Type} [Field F] (T : Tool F) (k : Nat) (w : F) (rev : Bool) : Prop where
  prim : IsPrimitiveRoot w (2 ^ k)
  fwd : ∀ f i, i < 2 ^ k → T.fwd k f i = f.eval (w ^ ord rev k i)
  bwd_deg : ∀ V, (T.bwd k V).degree < (2 ^ k : Nat)
  bwd : ∀ V i, i < 2 ^ k → (T.bwd k V).eval (w ^ ord rev k i) = V i

/-- An object for the points of an FFT. -/
structure Good {F : Type} [Field F] (T : Tool F) (w : F) (o : Obj) : Prop where
  k_pos : 1 ≤ o.k
  n_eq : o.n = 2 ^ o.k
  ind : ∀ i, i < o.n → o.indices i = bitRev o.k i
  tool : ToolOK T o.k w o.rev

/-- The point at place `i`. -/
def pt {F : Type} [Field F] (w : F) (o : Obj) (i : Nat) : F := w ^ ord o.rev o.k i

/-! ### Bit reversal -/

theorem bitRev_succ (k i : Nat) : bitRev (k + 1) i = (if i.testBit 0 then 2 ^ k else 0) + bitRev k (i / 2) := by
  unfold bitRev
  rw [sum_range_succ', add_comm]
  congr 1
  refine sum_congr rfl fun b hb => ?_
  rw [Nat.testBit_succ, show k + 1 - 1 - (b + 1) = k - 1 - b by omega]

theorem bitRev_lt (k i : Nat) : bitRev k i < 2 ^ k := by
  induction k generalizing i with
  | zero => simp [bitRev]
  | succ k ih =>
    rw [bitRev_succ, pow_succ]
    have := ih (i / 2)
    split <;> omega

theorem bitRev_testBit (k i b : Nat) : (bitRev k i).testBit b = (decide (b < k) && i.testBit (k - 1 - b)) := by
  induction k generalizing i b with
  | zero => simp [bitRev]
  | succ k ih =>
    rw [bitRev_succ]
    have hlt := bitRev_lt k (i / 2)
    rcases Nat.lt_trichotomy b k with h | h | h
    · have e : ((if i.testBit 0 then 2 ^ k else 0) + bitRev k (i / 2)).testBit b = (bitRev k (i / 2)).testBit b := by
        split
        · exact Nat.testBit_two_pow_add_gt h _
        · rw [zero_add]
      rw [e, ih, decide_eq_true h, decide_eq_true (by omega : b < k + 1), ← Nat.testBit_succ]
      congr 2
      omega
    · subst h
      rw [decide_eq_true (by omega), show b + 1 - 1 - b = 0 by omega, Bool.true_and]
      split
      · rename_i h1
        rw [Nat.testBit_two_pow_add_eq, Nat.testBit_lt_two_pow hlt, h1]
        rfl
      · rename_i h1
        rw [zero_add, Nat.testBit_lt_two_pow hlt]
        exact (Bool.eq_false_iff.2 h1).symm
    · rw [decide_eq_false (by omega), Bool.false_and]
      refine Nat.testBit_lt_two_pow ?_
      have : 2 ^ (k + 1) ≤ 2 ^ b := Nat.pow_le_pow_right (by omega) (by omega)
      rw [pow_succ] at this
      split <;> omega

theorem bitRev_bitRev {k i : Nat} (h : i < 2 ^ k) : bitRev k (bitRev k i) = i := by
  refine Nat.eq_of_testBit_eq fun b => ?_
  rw [bitRev_testBit, bitRev_testBit]
  by_cases hb : b < k
  · rw [decide_eq_true hb, decide_eq_true (by omega : k - 1 - b < k), show k - 1 - (k - 1 - b) = b by omega]
    rfl
  · rw [decide_eq_false hb, Bool.false_and]
    exact (Nat.testBit_lt_two_pow (lt_of_lt_of_le h (Nat.pow_le_pow_right (by omega) (by omega)))).symm

theorem bitRev_zero (k : Nat) : bitRev k 0 = 0 := by simp [bitRev]

theorem bitRev_one (k : Nat) : bitRev (k + 1) 1 = 2 ^ k := by
  rw [bitRev_succ]
  simp [bitRev_zero]

theorem bitRev_top (k : Nat) : bitRev (k + 1) (2 ^ k) = 1 := by
  rw [← bitRev_one, bitRev_bitRev (Nat.one_lt_two_pow (by omega))]

theorem xor_pow {k a : Nat} (h : a < 2 ^ k) : a ^^^ 2 ^ k = 2 ^ k + a := by
  refine Nat.eq_of_testBit_eq fun b => ?_
  rw [Nat.testBit_xor, Nat.testBit_two_pow]
  rcases Nat.lt_trichotomy b k with hb | hb | hb
  · rw [Nat.testBit_two_pow_add_gt hb, decide_eq_false (by omega)]
    simp
  · subst hb
    rw [Nat.testBit_two_pow_add_eq, Nat.testBit_lt_two_pow h]
    simp
  · have : 2 ^ (k + 1) ≤ 2 ^ b := Nat.pow_le_pow_right (by omega) (by omega)
    rw [pow_succ] at this
    rw [Nat.testBit_lt_two_pow (by omega), Nat.testBit_lt_two_pow (by omega), decide_eq_false (by omega)]
    rfl

theorem pow_add_xor {k a : Nat} (h : a < 2 ^ k) : (2 ^ k + a) ^^^ 2 ^ k = a := by
  rw [← xor_pow h, Nat.xor_assoc, Nat.xor_self, Nat.xor_zero]

theorem revLoop_bitRev (k i : Nat) (h : i < 2 ^ k) : revLoop k (bitRev k i) = bitRev k ((i + 1) % 2 ^ k) := by
  induction k generalizing i with
  | zero => simp [bitRev, revLoop]
  | succ k ih =>
    have hb : (bitRev (k + 1) i).testBit k = i.testBit 0 := by
      rw [bitRev_testBit, decide_eq_true (by omega), show k + 1 - 1 - k = 0 by omega, Bool.true_and]
    have hlt := bitRev_lt k (i / 2)
    rw [revLoop, hb]
    rw [pow_succ] at h
    rcases Nat.mod_two_eq_zero_or_one i with h2 | h2
    · have h0 : i.testBit 0 = false := by rw [Nat.testBit_zero]; simp [h2]
      have h1 : (i + 1).testBit 0 = true := by rw [Nat.testBit_zero]; simp; omega
      rw [h0, if_neg (by simp), Nat.mod_eq_of_lt (by rw [pow_succ]; omega), bitRev_succ, bitRev_succ, h0, h1, if_neg (by simp), if_pos rfl,
        zero_add, show (i + 1) / 2 = i / 2 by omega, xor_pow hlt]
    · have h0 : i.testBit 0 = true := by rw [Nat.testBit_zero]; simp [h2]
      have h3 : (i + 1) % 2 ^ (k + 1) = 2 * ((i / 2 + 1) % 2 ^ k) := by
        rw [← Nat.mul_mod_mul_left, pow_succ, mul_comm 2 (2 ^ k)]
        congr 1
        omega
      have h1 : ((i + 1) % 2 ^ (k + 1)).testBit 0 = false := by rw [h3, Nat.testBit_zero]; simp
      rw [h0, if_pos rfl, bitRev_succ, h0, if_pos rfl, pow_add_xor hlt, ih _ (by omega), bitRev_succ, h1, if_neg (by simp), zero_add, h3]
      congr 1
      omega

/-- **C91**.  `BitReverse_init` computes the bit reversal: bit `b` of `i` is bit `k - 1 - b` of entry `i`. -/
theorem C91_bit_reverse (k : Nat) (hk : 1 ≤ k) : ∃ ind, bitReverseInit k = .ok ind ∧ ∀ i, i < 2 ^ k → ind i < 2 ^ k ∧ ind (ind i) = i ∧
    ∀ b, b < k → (ind i).testBit b = i.testBit (k - 1 - b) := by
  have key : ∃ ind, bitReverseInit k = .ok ind ∧ ∀ i, i < 2 ^ k → ind i = bitRev k i := by
    obtain ⟨s, e, h1, -⟩ := Bivar.loopOut_inv (s := ((fun _ => 0 : Nat → Nat), 0))
      (f := fun i (s : (Nat → Nat) × Nat) => andThen (revInc s.2 k) fun j => .ok (write i s.2 s.1, j))
      (fun m s => (∀ i, i < m → s.1 i = bitRev k i) ∧ s.2 = bitRev k (m % 2 ^ k)) (2 ^ k)
      ⟨fun i hi => absurd hi (by omega), by rw [Nat.zero_mod, bitRev_zero]⟩
      (by
        intro m s hm ⟨h1, h2⟩
        rw [revInc, if_neg (by omega), Bivar.andThen_ok]
        refine ⟨_, rfl, fun i hi => ?_, ?_⟩
        · dsimp only
          by_cases him : i = m
          · subst him
            rw [Bivar.write_self, h2, Nat.mod_eq_of_lt hm]
          · rw [Bivar.write_ne _ _ him, h1 i (by omega)]
        · dsimp only
          rw [h2, Nat.mod_eq_of_lt hm, revLoop_bitRev k m hm])
    exact ⟨s.1, by rw [bitReverseInit, e, Bivar.andThen_ok], h1⟩
  obtain ⟨ind, e, h⟩ := key
  refine ⟨ind, e, fun i hi => ?_⟩
  rw [h i hi]
  refine ⟨bitRev_lt k i, ?_, fun b hb => ?_⟩
  · rw [h _ (bitRev_lt k i), bitRev_bitRev hi]
  · rw [bitRev_testBit, decide_eq_true hb, Bool.true_and]

theorem bitReverseInit_ok (k : Nat) (hk : 1 ≤ k) : ∃ ind, bitReverseInit k = .ok ind ∧ ∀ i, i < 2 ^ k → ind i = bitRev k i := by
  obtain ⟨ind, e, h⟩ := C91_bit_reverse k hk
  refine ⟨ind, e, fun i hi => ?_⟩
  obtain ⟨h1, -, h2⟩ := h i hi
  refine Nat.eq_of_testBit_eq fun b => ?_
  rw [bitRev_testBit]
  by_cases hb : b < k
  · rw [decide_eq_true hb, h2 b hb, Bool.true_and]
  · rw [decide_eq_false hb, Bool.false_and]
    exact Nat.testBit_lt_two_pow (lt_of_lt_of_le h1 (Nat.pow_le_pow_right (by omega) (by omega)))

/-! ### The constructor -/

variable {F : Type} [Field F]

theorem ord_lt {rev : Bool} {k i : Nat} (h : i < 2 ^ k) : ord rev k i < 2 ^ k := by
  unfold ord
  split
  · exact bitRev_lt k i
  · exact h

theorem ord_ord {rev : Bool} {k i : Nat} (h : i < 2 ^ k) : ord rev k (ord rev k i) = i := by
  unfold ord
  cases rev
  · rfl
  · exact bitRev_bitRev h

theorem nextPow2_pow (k : Nat) : nextPow2 (2 ^ k) = k := by
  unfold nextPow2
  exact Nat.clog_pow 2 k (by omega)

variable [DecidableEq F]

theorem orderLoop_direct {w : F} {k : Nat} {tbl : Nat → F} (hk : 1 ≤ k) (hw : IsPrimitiveRoot w (2 ^ k)) (ht : ∀ i, i < 2 ^ k → tbl i = w ^ i) {ind : Nat → Nat}
    (hi : ∀ i, i < 2 ^ k → ind i = bitRev k i) : ∃ s, orderLoop (2 ^ k) tbl ind = .ok s ∧ (s.2.2 = true → k = 1) := by
  have h1k : 2 ^ 1 ≤ 2 ^ k := Nat.pow_le_pow_right (by omega) hk
  obtain ⟨s, e, h1, h2, h3⟩ := Bivar.loopOut_inv (s := ((1 : F), (1 : F), true)) (f := fun i (s : F × F × Bool) =>
      if ¬ (tbl i = s.1 ∨ tbl (ind i) = s.2.1) then .error
      else .ok (s.1 * tbl 1, s.2.1 * tbl (2 ^ k / 2), if ¬ tbl (ind i) = s.2.1 then false else s.2.2))
    (fun m s => s.1 = w ^ m ∧ s.2.1 = w ^ (2 ^ k / 2 * m) ∧ (s.2.2 = true → ∀ i, i < m → w ^ bitRev k i = w ^ (2 ^ k / 2 * i))) (2 ^ k)
    ⟨by simp, by simp, fun _ i hi => absurd hi (by omega)⟩
    (by
      intro m s hm ⟨h1, h2, h3⟩
      rw [if_neg (by rw [not_not, ht m hm, h1]; exact .inl rfl)]
      refine ⟨_, rfl, ?_, ?_, ?_⟩
      · dsimp only
        rw [h1, ht 1 (by omega), ← pow_add]
      · dsimp only
        rw [h2, ht _ (by omega), ← pow_add, Nat.mul_succ]
      · dsimp only
        intro hf i hi'
        rw [hi m hm, ht _ (bitRev_lt k m), h2] at hf
        split at hf
        · cases hf
        · rename_i hne
          by_cases him : i = m
          · subst him; exact not_not.1 hne
          · exact h3 hf i (by omega))
  refine ⟨s, e, fun hf => ?_⟩
  by_contra hk1
  obtain ⟨j, rfl⟩ := Nat.exists_eq_add_of_le (show 2 ≤ k by omega)
  have h := h3 hf 2 (by rw [pow_add]; have := Nat.one_le_two_pow (n := j); omega)
  have h4 : 2 ^ (2 + j) = 4 * 2 ^ j := by rw [pow_add]; rfl
  have hj := Nat.one_le_two_pow (n := j)
  have hr : bitRev (2 + j) 2 = 2 ^ j := by
    rw [show 2 + j = (j + 1) + 1 by omega, bitRev_succ]
    simp [bitRev_one]
  rw [hr, show 2 ^ (2 + j) / 2 * 2 = 2 ^ (2 + j) by omega, hw.pow_eq_one] at h
  have := hw.pow_eq_one_iff_dvd (2 ^ j) |>.1 h
  have := Nat.le_of_dvd (by omega) this
  omega

theorem orderLoop_rev {w : F} {k : Nat} {tbl : Nat → F} (hk : 1 ≤ k) (ht : ∀ i, i < 2 ^ k → tbl i = w ^ bitRev k i) {ind : Nat → Nat}
    (hi : ∀ i, i < 2 ^ k → ind i = bitRev k i) : ∃ s, orderLoop (2 ^ k) tbl ind = .ok s ∧ s.2.2 = true := by
  have h1k : 2 ^ 1 ≤ 2 ^ k := Nat.pow_le_pow_right (by omega) hk
  obtain ⟨s, e, -, h3⟩ := Bivar.loopOut_inv (s := ((1 : F), (1 : F), true)) (f := fun i (s : F × F × Bool) =>
      if ¬ (tbl i = s.1 ∨ tbl (ind i) = s.2.1) then .error
      else .ok (s.1 * tbl 1, s.2.1 * tbl (2 ^ k / 2), if ¬ tbl (ind i) = s.2.1 then false else s.2.2))
    (fun m s => s.2.1 = w ^ m ∧ s.2.2 = true) (2 ^ k)
    ⟨by simp, rfl⟩
    (by
      intro m s hm ⟨h1, h2⟩
      have e1 : tbl (ind m) = s.2.1 := by rw [hi m hm, ht _ (bitRev_lt k m), bitRev_bitRev hm, h1]
      rw [if_neg (by rw [not_not]; exact .inr e1)]
      refine ⟨_, rfl, ?_, ?_⟩
      · dsimp only
        obtain ⟨j, rfl⟩ := Nat.exists_eq_add_of_le' hk
        rw [h1, ht _ (by omega), show 2 ^ (j + 1) / 2 = 2 ^ j by rw [pow_succ]; omega, bitRev_top, pow_one, pow_succ]
      · dsimp only
        rw [if_neg (not_not.2 e1), h2])
  exact ⟨s, e, h3⟩

theorem ToolOK.one {T : Tool F} {w : F} {rev rev' : Bool} (h : ToolOK T 1 w rev) : ToolOK T 1 w rev' := by
  have ho : ∀ r, ∀ i, i < 2 ^ 1 → ord r 1 i = i := by
    intro r i hi
    unfold ord
    cases r
    · rfl
    · have : i = 0 ∨ i = 1 := by omega
      rcases this with rfl | rfl <;> rfl
  refine ⟨h.prim, fun f i hi => ?_, h.bwd_deg, fun V i hi => ?_⟩
  · rw [ho _ i hi]
    have := h.fwd f i hi
    rwa [ho _ i hi] at this
  · rw [ho _ i hi]
    have := h.bwd V i hi
    rwa [ho _ i hi] at this

/-- **C91**.  The constructor, for a power of two from 2 to the maximal length, whatever the order of the points of NTL. -/
theorem C91_construct (T : Tool F) (w : F) (rev : Bool) (maxRoot k : Nat) (hk : 1 ≤ k) (hm : k ≤ maxRoot) (hT : ToolOK T k w rev) :
    ∃ o, construct T true maxRoot (2 ^ k) = .ok o ∧ o.n = 2 ^ k ∧ Good T w o := by
  obtain ⟨ind, e1, hi⟩ := bitReverseInit_ok k hk
  have hX : ∀ i, i < 2 ^ k → T.fwd k X i = w ^ ord rev k i := fun i h => by rw [hT.fwd X i h, eval_X]
  have key : ∃ s, orderLoop (2 ^ k) (T.fwd k X) ind = .ok s ∧ ToolOK T k w s.2.2 := by
    cases rev with
    | false =>
      obtain ⟨s, e, h⟩ := orderLoop_direct hk hT.prim hX hi
      refine ⟨s, e, ?_⟩
      cases hs : s.2.2 with
      | false => exact hT
      | true =>
        have := h hs
        subst this
        exact hT.one
    | true =>
      obtain ⟨s, e, h⟩ := orderLoop_rev hk hX hi
      exact ⟨s, e, by rw [h]; exact hT⟩
  obtain ⟨s, e2, h⟩ := key
  unfold construct
  dsimp only
  rw [nextPow2_pow, if_neg (by simp), if_neg (by simp), if_neg (by omega), e1, Bivar.andThen_ok, e2, Bivar.andThen_ok]
  exact ⟨_, rfl, rfl, hk, rfl, hi, h⟩

/-- The lengths that the constructor rejects. -/
theorem C91_construct_error (T : Tool F) (fft : Bool) (maxRoot n : Nat) (h : (∀ k, n ≠ 2 ^ k) ∨ fft = false ∨ 2 ^ maxRoot < n) :
    construct T fft maxRoot n = .error := by
  unfold construct
  dsimp only
  split
  · rfl
  · rename_i hn
    rw [not_not] at hn
    split
    · rfl
    · rename_i hf
      rcases h with h | h | h
      · exact absurd hn (h _)
      · exact absurd h hf
      · rw [if_pos]
        rw [hn] at h
        exact (Nat.pow_lt_pow_iff_right (by omega)).1 h

/-- A single point: the constructor is undefined, because of `1L << (k-1)` with `k = 0`. -/
theorem C91_construct_one (T : Tool F) (maxRoot : Nat) : construct T true maxRoot 1 = .ub := by
  have : nextPow2 1 = 0 := nextPow2_pow 0
  unfold construct
  dsimp only
  rw [this, if_neg (by simp), if_neg (by simp), if_neg (by omega)]
  rfl

/-- `get_FFT_points(n)` has at least `n` points and less than `2n`, for `n ≥ 2`. -/
theorem C91_get_points (T : Tool F) (w : F) (rev : Bool) (maxRoot n : Nat) (hn : 2 ≤ n) (hm : n ≤ 2 ^ maxRoot)
    (hT : ∀ k, n ≤ 2 ^ k → 2 ^ k < 2 * n → ToolOK T k w rev) :
    ∃ o, getPoints T true maxRoot n = .ok o ∧ n ≤ o.n ∧ o.n < 2 * n ∧ Good T w o := by
  have h1 : n ≤ 2 ^ nextPow2 n := Nat.le_pow_clog (by omega) n
  have hpos : 1 ≤ nextPow2 n := Nat.clog_pos (by omega) hn
  have h2 : 2 ^ nextPow2 n < 2 * n := by
    have : 2 ^ (nextPow2 n - 1) < n := Nat.pow_pred_clog_lt_self (by omega) (by omega)
    have e : 2 ^ nextPow2 n = 2 * 2 ^ (nextPow2 n - 1) := by rw [← pow_succ']; congr 1; omega
    omega
  obtain ⟨o, e, h3, h4⟩ := C91_construct T w rev maxRoot (nextPow2 n) hpos ((Nat.clog_le_iff_le_pow (by omega)).2 hm) (hT _ h1 h2)
  exact ⟨o, e, by omega, by omega, h4⟩

/-! ### The operations -/

theorem Good.ordI {T : Tool F} {w : F} {o : Obj} (h : Good T w o) {i : Nat} (hi : i < o.n) : (if o.rev then o.indices i else i) = ord o.rev o.k i := by
  unfold ord
  split
  · exact h.ind i hi
  · rfl

theorem Good.ord_lt {T : Tool F} {w : F} {o : Obj} (h : Good T w o) {i : Nat} (hi : i < o.n) : ord o.rev o.k i < o.n := by
  rw [h.n_eq] at *
  exact FftPoints.ord_lt hi

theorem Good.ord_ord {T : Tool F} {w : F} {o : Obj} (h : Good T w o) {i : Nat} (hi : i < o.n) : ord o.rev o.k (ord o.rev o.k i) = i := by
  rw [h.n_eq] at *
  exact FftPoints.ord_ord hi

theorem Good.sum_ord {T : Tool F} {w : F} {o : Obj} (h : Good T w o) (g : Nat → F) :
    ∑ i ∈ range o.n, g (ord o.rev o.k i) = ∑ i ∈ range o.n, g i := by
  refine sum_nbij' (ord o.rev o.k) (ord o.rev o.k) ?_ ?_ ?_ ?_ ?_
  · exact fun i hi => mem_range.2 (h.ord_lt (mem_range.1 hi))
  · exact fun i hi => mem_range.2 (h.ord_lt (mem_range.1 hi))
  · exact fun i hi => h.ord_ord (mem_range.1 hi)
  · exact fun i hi => h.ord_ord (mem_range.1 hi)
  · exact fun i _ => rfl

/-- The points are distinct. -/
theorem C91_points {T : Tool F} {w : F} {o : Obj} (h : Good T w o) (i j : Nat) (hi : i < o.n) (hj : j < o.n) (e : pt w o i = pt w o j) : i = j := by
  have h1 := h.tool.prim.pow_inj (by rw [← h.n_eq]; exact h.ord_lt hi) (by rw [← h.n_eq]; exact h.ord_lt hj) e
  rw [← h.ord_ord hi, h1, h.ord_ord hj]

/-- **C91**.  `evaluate` returns the values at the points, for polynomials of any degree. -/
theorem C91_evaluate {T : Tool F} {w : F} {o : Obj} (h : Good T w o) (f : F[X]) :
    ∃ v, evaluate T o f = .ok v ∧ v.len = o.n ∧ ∀ i, i < o.n → v.e i = f.eval (pt w o i) := by
  obtain ⟨v, e, hv⟩ := Bivar.loopOut_inv (s := fun _ => (0 : F)) (f := fun i (val : Nat → F) => .ok (write i (T.fwd o.k f i) val))
    (fun m v => ∀ i, i < m → v i = T.fwd o.k f i) o.n (fun i hi => absurd hi (by omega)) (by
      intro m v hm hv
      refine ⟨_, rfl, fun i hi => ?_⟩
      by_cases him : i = m
      · subst him; rw [Bivar.write_self]
      · rw [Bivar.write_ne _ _ him, hv i (by omega)])
  rw [evaluate, e, Bivar.andThen_ok]
  refine ⟨_, rfl, rfl, fun i hi => ?_⟩
  dsimp only
  rw [hv i hi, h.tool.fwd f i (by rw [← h.n_eq]; exact hi), pt]

theorem readLoop (n : Nat) (val : NVec F) (σ : Nat → Nat) (hσ : ∀ i, i < n → σ i < val.len) :
    ∃ t, loopOut n (fun i (t : Nat → F) => andThen (vget val (σ i)) fun c => .ok (write i c t)) (fun _ => 0) = .ok t ∧
      ∀ i, i < n → t i = val.e (σ i) := by
  refine Bivar.loopOut_inv (fun m (t : Nat → F) => ∀ i, i < m → t i = val.e (σ i)) n (fun i hi => absurd hi (by omega)) ?_
  intro m t hm ht
  rw [vget, if_pos (hσ m hm), Bivar.andThen_ok]
  refine ⟨_, rfl, fun i hi => ?_⟩
  by_cases him : i = m
  · subst him; rw [Bivar.write_self]
  · rw [Bivar.write_ne _ _ him, ht i (by omega)]

theorem loopOut_congr {σ : Type} {f g : Nat → σ → Out σ} {s : σ} : ∀ n, (∀ i t, i < n → f i t = g i t) → loopOut n f s = loopOut n g s
  | 0, _ => rfl
  | n + 1, h => by
    show andThen (loopOut n f s) (f n) = andThen (loopOut n g s) (g n)
    rw [loopOut_congr n fun i t hi => h i t (by omega)]
    congr 1
    funext t
    exact h n t (by omega)

/-- **C91**.  `interpolate` returns the polynomial of degree less than `n` with the given values at the points. -/
theorem C91_interpolate {T : Tool F} {w : F} {o : Obj} (h : Good T w o) (val : NVec F) (hv : o.n ≤ val.len) :
    ∃ f, interpolate T o val = .ok f ∧ f.degree < (o.n : Nat) ∧ ∀ i, i < o.n → f.eval (pt w o i) = val.e i := by
  obtain ⟨t, e, ht⟩ := readLoop o.n val (fun i => i) fun i hi => by omega
  rw [interpolate, e, Bivar.andThen_ok]
  refine ⟨_, rfl, ?_, fun i hi => ?_⟩
  · have := h.tool.bwd_deg t
    rwa [← h.n_eq] at this
  · rw [pt, h.tool.bwd t i (by rw [← h.n_eq]; exact hi), ht i hi]

theorem loopOut_ub_at {σ : Type} {f : Nat → σ → Out σ} {s : σ} (m : Nat) (h1 : ∀ i t, i < m → ∃ t', f i t = .ok t') (h2 : ∀ t, f m t = .ub) :
    ∀ n, m < n → loopOut n f s = .ub
  | 0, h => absurd h (by omega)
  | n + 1, h => by
    show andThen (loopOut n f s) (f n) = .ub
    by_cases hn : m = n
    · subst hn
      obtain ⟨t, e, -⟩ := Bivar.loopOut_inv (s := s) (f := f) (fun _ _ => True) m trivial fun k t hk _ => by
        obtain ⟨t', e⟩ := h1 k t hk
        exact ⟨t', e, trivial⟩
      rw [e]
      exact h2 t
    · rw [loopOut_ub_at m h1 h2 n (by omega)]
      rfl

/-- `interpolate` with a vector that is too short is undefined. -/
theorem C91_interpolate_short {T : Tool F} {w : F} {o : Obj} (_h : Good T w o) (val : NVec F) (hv : val.len < o.n) : interpolate T o val = .ub := by
  have : loopOut o.n (fun i (tbl : Nat → F) => andThen (vget val i) fun c => .ok (write i c tbl)) (fun _ => 0) = .ub := by
    refine loopOut_ub_at val.len ?_ ?_ o.n hv
    · intro m t hm
      rw [vget, if_pos hm, Bivar.andThen_ok]
      exact ⟨_, rfl⟩
    · intro t
      rw [vget, if_neg (by omega)]
      rfl
  rw [interpolate, this]
  rfl

theorem eval_ofCoeffs (n : Nat) (t : Nat → F) (x : F) : (ofCoeffs n t).eval x = ∑ i ∈ range n, t i * x ^ i := by
  unfold ofCoeffs
  rw [eval_finsetSum]
  refine sum_congr rfl fun i _ => ?_
  rw [eval_mul, eval_C, eval_pow, eval_X]

/-- **C91**.  `t_evaluate` returns the transposed evaluation: coefficient `j` is the sum of the `val_i pt_i^j`, for a size up to `n`. -/
theorem C91_t_evaluate {T : Tool F} {w : F} {o : Obj} (h : Good T w o) (val : NVec F) (hv : o.n ≤ val.len) (size : Nat) (hs : size ≤ o.n) (os : Int)
    (hos : os = size ∨ os = -1 ∧ size = o.n) :
    ∃ f, tEvaluate T o val os = .ok f ∧ ∀ j, f.coeff j = if j < size then ∑ i ∈ range o.n, val.e i * pt w o i ^ j else 0 := by
  obtain ⟨t, e, ht⟩ := readLoop o.n val (fun i => if o.rev then o.indices i else i) fun i hi => by
    rw [h.ordI hi]
    have := h.ord_lt hi
    omega
  have hsize : (if os = -1 then (o.n : Int) else os) = (size : Int) := by
    split <;> omega
  unfold tEvaluate
  dsimp only
  rw [hsize, e, Bivar.andThen_ok, if_neg (by omega), Int.toNat_natCast]
  obtain ⟨f, e', hf⟩ := Bivar.loopOut_inv (s := fun _ => (0 : F)) (f := fun i (f : Nat → F) =>
      if i < o.n then .ok (write i (T.fwd o.k (ofCoeffs o.n t) (if o.rev then o.indices i else i)) f) else .ub)
    (fun m f => ∀ j, j < m → f j = T.fwd o.k (ofCoeffs o.n t) (ord o.rev o.k j)) size (fun i hi => absurd hi (by omega)) (by
      intro m f hm hf
      rw [if_pos (by omega)]
      refine ⟨_, rfl, fun i hi => ?_⟩
      by_cases him : i = m
      · subst him; rw [Bivar.write_self, h.ordI (by omega)]
      · rw [Bivar.write_ne _ _ him, hf i (by omega)])
  rw [e', Bivar.andThen_ok]
  refine ⟨_, rfl, fun j => ?_⟩
  rw [ofCoeffs_coeff]
  by_cases hj : j < size
  · rw [if_pos hj, if_pos hj, hf j hj, h.tool.fwd _ _ (by rw [← h.n_eq]; exact h.ord_lt (by omega)), h.ord_ord (by omega), eval_ofCoeffs,
      ← h.sum_ord fun i => val.e i * pt w o i ^ j]
    refine sum_congr rfl fun i hi => ?_
    have hi := mem_range.1 hi
    rw [ht i hi, h.ordI hi, pt, h.ord_ord hi, ← pow_mul, ← pow_mul, mul_comm i j]
  · rw [if_neg hj, if_neg hj]

/-- `t_evaluate` with a size above the number of points is undefined: it reads the table beyond its end. -/
theorem C91_t_evaluate_long {T : Tool F} {w : F} {o : Obj} (h : Good T w o) (val : NVec F) (hv : o.n ≤ val.len) (size : Nat) (hs : o.n < size) :
    tEvaluate T o val size = .ub := by
  obtain ⟨t, e, ht⟩ := readLoop o.n val (fun i => if o.rev then o.indices i else i) fun i hi => by
    rw [h.ordI hi]
    have := h.ord_lt hi
    omega
  have hsize : (if (size : Int) = -1 then (o.n : Int) else (size : Int)) = (size : Int) := by
    split <;> omega
  unfold tEvaluate
  dsimp only
  rw [hsize, e, Bivar.andThen_ok, if_neg (by omega), Int.toNat_natCast]
  have : loopOut size (fun i (f : Nat → F) =>
      if i < o.n then .ok (write i (T.fwd o.k (ofCoeffs o.n t) (if o.rev then o.indices i else i)) f) else .ub) (fun _ => 0) = .ub := by
    refine loopOut_ub_at o.n ?_ ?_ size hs
    · intro m t hm
      rw [if_pos hm]
      exact ⟨_, rfl⟩
    · intro t
      rw [if_neg (by omega)]
  rw [this]
  rfl

theorem forN_write_perm {α : Type} (σ : Nat → Nat) (g : Nat → α) (init : Nat → α) : ∀ n, (∀ i j, i < n → j < n → σ i = σ j → i = j) →
    ∀ i, i < n → forN n (fun i val => write (σ i) (g i) val) init (σ i) = g i
  | 0, _, i, hi => absurd hi (by omega)
  | n + 1, h, i, hi => by
    show write (σ n) (g n) _ (σ i) = g i
    by_cases hin : i = n
    · subst hin; rw [Bivar.write_self]
    · rw [Bivar.write_ne _ _ fun e => hin (h i n hi (by omega) e)]
      exact forN_write_perm σ g init n (fun i j hi hj => h i j (by omega) (by omega)) i (by omega)

theorem Good.pow_ord {T : Tool F} {w : F} {o : Obj} (_h : Good T w o) (i : Nat) : pt w o i = w ^ ord o.rev o.k i := rfl

/-- **C91**.  `t_interpolate` inverts the transposed evaluation. -/
theorem C91_t_interpolate {T : Tool F} {w : F} {o : Obj} (h : Good T w o) (f : F[X]) :
    ∃ v, tInterpolate T o f = .ok v ∧ v.len = o.n ∧ ∀ j, j < o.n → ∑ i ∈ range o.n, v.e i * pt w o i ^ j = f.coeff j := by
  have hk := h.k_pos
  have hn := h.n_eq
  have h2 : 2 ≤ o.n := by
    have : 2 ^ 1 ≤ 2 ^ o.k := Nat.pow_le_pow_right (by omega) hk
    omega
  unfold tInterpolate
  rw [if_neg (by omega)]
  by_cases hn2 : o.n = 2
  · have hk1 : o.k = 1 := by
      rw [hn] at hn2
      exact Nat.pow_right_injective (le_refl 2) (by simpa using hn2)
    have hpr := h.tool.prim
    rw [← hn, hn2] at hpr
    have hw : w = -1 := hpr.eq_neg_one_of_two_right
    have hne : (2 : F) ≠ 0 := by
      intro e
      have : w ^ 1 = 1 := by
        rw [hw, pow_one]
        linear_combination -e
      exact absurd ((hpr.pow_eq_one_iff_dvd 1).1 this) (by omega)
    rw [if_pos hn2, if_neg hne]
    have hT := h.tool
    have ho : ∀ i, i < 2 → ord o.rev o.k i = i := by
      intro i hi
      rw [hk1]
      unfold ord
      cases o.rev
      · rfl
      · have : i = 0 ∨ i = 1 := by omega
        rcases this with rfl | rfl <;> rfl
    refine ⟨_, rfl, hn2.symm, fun j hj => ?_⟩
    rw [hn2, sum_range_succ, sum_range_succ, sum_range_zero, zero_add]
    rw [h.pow_ord, h.pow_ord, ho 0 (by omega), ho 1 (by omega), hw]
    dsimp only
    rw [Bivar.write_self, Bivar.write_ne _ _ (by omega), Bivar.write_self]
    have : j = 0 ∨ j = 1 := by omega
    rcases this with rfl | rfl
    · field_simp
      ring
    · field_simp
      ring
  · rw [if_neg hn2]
    refine ⟨_, rfl, rfl, fun j hj => ?_⟩
    dsimp only
    generalize htbl : forN o.n (fun i tbl => write i (f.coeff (if o.rev then o.indices i else i)) tbl) (fun _ => (0 : F)) = tbl
    have ht : ∀ i, i < o.n → tbl i = f.coeff (ord o.rev o.k i) := by
      intro i hi
      have := forN_write_perm (fun i => i) (fun i => f.coeff (if o.rev then o.indices i else i)) (fun _ => (0 : F)) o.n (fun i j _ _ e => e) i hi
      rw [← htbl, this, h.ordI hi]
    have hinj : ∀ i j, i < o.n → j < o.n → (if o.rev then o.indices i else i) = (if o.rev then o.indices j else j) → i = j := by
      intro i j hi hj e
      rw [h.ordI hi, h.ordI hj] at e
      rw [← h.ord_ord hi, e, h.ord_ord hj]
    have hval : ∀ i, i < o.n → forN o.n (fun i val => write (if o.rev then o.indices i else i) ((T.bwd o.k tbl).coeff i) val) (fun _ => (0 : F)) i =
        (T.bwd o.k tbl).coeff (ord o.rev o.k i) := by
      intro i hi
      have := forN_write_perm (fun i => if o.rev then o.indices i else i) (fun i => (T.bwd o.k tbl).coeff i) (fun _ => (0 : F)) o.n hinj
        (ord o.rev o.k i) (h.ord_lt hi)
      rw [h.ordI (h.ord_lt hi), h.ord_ord hi] at this
      exact this
    have hb := h.tool.bwd tbl (ord o.rev o.k j) (by rw [← hn]; exact h.ord_lt hj)
    rw [h.ord_ord hj, ht _ (h.ord_lt hj), h.ord_ord hj] at hb
    rw [← hb, eval_eq_sum_range' (n := o.n), ← h.sum_ord fun i => (T.bwd o.k tbl).coeff i * (w ^ j) ^ i]
    · refine sum_congr rfl fun i hi => ?_
      rw [hval i (mem_range.1 hi), pt, ← pow_mul, ← pow_mul, mul_comm j]
    · have hd := h.tool.bwd_deg tbl
      rw [← hn] at hd
      by_cases h0 : T.bwd o.k tbl = 0
      · rw [h0, natDegree_zero]; omega
      · exact (natDegree_lt_iff_degree_lt h0).2 hd

/-- Transposed interpolation and evaluation are inverse to each other. -/
theorem C91_t_inverse {T : Tool F} {w : F} {o : Obj} (h : Good T w o) (f : F[X]) (hf : f.degree < (o.n : Nat)) :
    ∃ v, tInterpolate T o f = .ok v ∧ tEvaluate T o v (-1) = .ok f := by
  obtain ⟨v, e, hl, hv⟩ := C91_t_interpolate h f
  obtain ⟨g, e', hg⟩ := C91_t_evaluate h v (by omega) o.n le_rfl (-1) (.inr ⟨rfl, rfl⟩)
  refine ⟨v, e, ?_⟩
  rw [e']
  congr 1
  ext j
  rw [hg]
  by_cases hj : j < o.n
  · rw [if_pos hj, hv j hj]
  · rw [if_neg hj]
    refine (coeff_eq_zero_of_degree_lt (lt_of_lt_of_le hf ?_)).symm
    exact_mod_cast (by omega : o.n ≤ j)

/-! ### Examples -/

/-- There is a tool for every primitive root of unity and every order. -/
theorem exists_tool (w : F) (k : Nat) (hw : IsPrimitiveRoot w (2 ^ k)) (rev : Bool) : ∃ T : Tool F, ToolOK T k w rev := by
  classical
  have hinj : Set.InjOn (fun i : Nat => w ^ ord rev k i) (range (2 ^ k) : Finset Nat) := by
    intro i hi j hj e
    have hi := mem_range.1 hi
    have hj := mem_range.1 hj
    have := hw.pow_inj (ord_lt hi) (ord_lt hj) e
    rw [← ord_ord (rev := rev) hi, this, ord_ord hj]
  refine ⟨⟨fun k f i => f.eval (w ^ ord rev k i), fun k V => Lagrange.interpolate (range (2 ^ k)) (fun i : Nat => w ^ ord rev k i) V⟩, hw,
    fun f i _ => rfl, fun V => ?_, fun V i hi => ?_⟩
  · have := Lagrange.degree_interpolate_lt V hinj
    rwa [card_range] at this
  · have := Lagrange.eval_interpolate_at_node (s := range (2 ^ k)) (v := fun i : Nat => w ^ ord rev k i) V hinj (mem_range.2 hi)
    exact this

theorem root17 : IsPrimitiveRoot (2 : ZMod 17) (2 ^ 3) := by
  refine IsPrimitiveRoot.mk_of_lt _ (by omega) (by decide) fun l h1 h2 => ?_
  have : l < 8 := h2
  interval_cases l <;> decide

instance : Fact (Nat.Prime 17) := ⟨by norm_num⟩

/-- In `ZMod 17`, `2` has order 8: points for an FFT of length 8 in either order. -/
example (rev : Bool) : ∃ (T : Tool (ZMod 17)) (o : Obj), construct T true 4 (2 ^ 3) = .ok o ∧ Good T 2 o := by
  obtain ⟨T, hT⟩ := exists_tool (2 : ZMod 17) 3 root17 rev
  obtain ⟨o, e, -, h⟩ := C91_construct T 2 rev 4 3 (by omega) (by omega) hT
  exact ⟨T, o, e, h⟩

end PML.Ntl.FftPoints
