import Verif.Ntl.BivarSpec
import Verif.Ntl.MatUtilsLemmas

/-!
# Lemmas on vectors of polynomials
-/

namespace PML.Ntl.Bivar

open Polynomial PML.Ntl.Utils PML.Ntl.Inv PML.Ntl.Solve PML.Ntl.Struct

variable {F : Type} [Field F]

theorem loopOut_inv {σ : Type} (P : Nat → σ → Prop) {f : Nat → σ → Out σ} {s : σ} : ∀ (n : Nat), P 0 s →
    (∀ k t, k < n → P k t → ∃ t', f k t = .ok t' ∧ P (k + 1) t') → ∃ t, loopOut n f s = .ok t ∧ P n t
  | 0, h0, _ => ⟨s, rfl, h0⟩
  | n + 1, h0, hf => by
    obtain ⟨t, e, ht⟩ := loopOut_inv P n h0 fun k t hk => hf k t (by omega)
    obtain ⟨t', e', ht'⟩ := hf n t (by omega) ht
    exact ⟨t', by show andThen (loopOut n f s) (f n) = _; rw [e]; exact e', ht'⟩

theorem write_self {α : Type} (x : Nat) (w : α) (e : Nat → α) : write x w e x = w := by simp [write]

theorem write_ne {α : Type} {x y : Nat} (w : α) (e : Nat → α) (h : y ≠ x) : write x w e y = e y := by
  simp [write, h]

theorem rd_ok {m : Mem F} {a i : Nat} (h : i < (m a).len) : rd m a (i : Int) = .ok ((m a).at' i) := by
  have hc : (0 : Int) ≤ i ∧ (i : Int) < (m a).len := by omega
  simp only [rd, PVec.get, hc, if_true, Int.toNat_natCast, and_self]

theorem wr_ok {m : Mem F} {c i : Nat} (w : F[X]) (h : i < (m c).len) :
    wr m c (i : Int) w = .ok (write c { m c with at' := write i w (m c).at' } m) := by
  have hc : (0 : Int) ≤ i ∧ (i : Int) < (m c).len := by omega
  simp only [wr, PVec.put, hc, if_true, Int.toNat_natCast, and_self, andThen]

theorem setLen_ok {m : Mem F} {c : Nat} {n : Int} (h : 0 ≤ n) :
    setLen m c n = .ok (write c { m c with len := n.toNat } m) := by
  simp only [setLen, PVec.setLength, if_neg (by omega : ¬n < 0), andThen]

/-- The memory `m'` is `m`, with the vector of length `L` and entries `g` in the variable `c`. -/
structure Upd (m : Mem F) (c L : Nat) (g : Nat → F[X]) (m' : Mem F) : Prop where
  len : (m' c).len = L
  ent : ∀ k, (m' c).at' k = g k
  other : ∀ x, x ≠ c → m' x = m x

/-- A loop writing `v i` at each index `i` from `lo` to `hi`. -/
theorem loop_fill {m m1 : Mem F} {c L : Nat} {g : Nat → F[X]} (h : Upd m c L g m1) (v : Nat → F[X]) (lo hi : Int)
    (hlo : 0 ≤ lo) (hhi : hi < L) (f : Int → Mem F → Out (Mem F))
    (hf : ∀ (i : Nat) m', lo ≤ i → i ≤ hi → Upd m c L (fun k => if lo ≤ k ∧ k < i then v k else g k) m' →
      f i m' = wr m' c i (v i)) :
    ∃ m', loopI lo hi f m1 = .ok m' ∧ Upd m c L (fun k => if lo ≤ k ∧ (k : Int) ≤ hi then v k else g k) m' := by
  obtain ⟨lo, rfl⟩ := Int.eq_ofNat_of_zero_le hlo
  obtain ⟨m', e, h'⟩ := loopOut_inv (f := fun k => f (lo + k)) (s := m1)
    (fun n m' => Upd m c L (fun k => if (lo : Int) ≤ k ∧ k < lo + n then v k else g k) m')
    (hi + 1 - lo).toNat
    (by
      refine ⟨h.len, fun k => ?_, h.other⟩
      rw [h.ent, if_neg (by omega)])
    (by
      intro n t hn ht
      have hi' : ((lo + n : Nat) : Int) ≤ hi := by omega
      have := hf (lo + n) t (by omega) hi' ht
      refine ⟨write c { t c with at' := write (lo + n) (v (lo + n)) (t c).at' } t, ?_, ?_, ?_, ?_⟩
      · show f ((lo : Int) + n) t = _
        rw [← Nat.cast_add, this, wr_ok _ (by have := ht.len; omega)]
      · rw [write_self]
        exact ht.len
      · intro k
        rw [write_self]
        show write (lo + n) (v (lo + n)) (t c).at' k = _
        by_cases hk : k = lo + n
        · subst hk
          rw [write_self, if_pos (by omega)]
        · rw [write_ne _ _ hk, ht.ent]
          by_cases h1 : (lo : Int) ≤ k ∧ k < lo + n
          · rw [if_pos h1, if_pos (by omega)]
          · rw [if_neg h1, if_neg (by omega)]
      · intro x hx
        rw [write_ne _ _ hx]
        exact ht.other x hx)
  refine ⟨m', e, h'.len, fun k => ?_, h'.other⟩
  rw [h'.ent]
  by_cases h1 : (lo : Int) ≤ k ∧ (k : Int) ≤ hi
  · rw [if_pos h1, if_pos (by omega)]
  · rw [if_neg h1, if_neg (by omega)]

theorem setLen_upd {m : Mem F} {c : Nat} {n : Int} (h : 0 ≤ n) :
    ∃ m', setLen m c n = .ok m' ∧ Upd m c n.toNat (m c).at' m' := by
  refine ⟨_, setLen_ok h, ?_, ?_, ?_⟩
  · rw [write_self]
  · intro k
    rw [write_self]
  · intro x hx
    rw [write_ne _ _ hx]

/-! ### `normalize` -/

theorem trimLen_le (e : Nat → F[X]) : ∀ n, trimLen e n ≤ n
  | 0 => le_refl _
  | n + 1 => by
    unfold trimLen
    split
    · exact (trimLen_le e n).trans (by omega)
    · exact le_refl _

theorem trimLen_zero (e : Nat → F[X]) : ∀ n k, trimLen e n ≤ k → k < n → e k = 0
  | 0, k, _, h => by omega
  | n + 1, k, h1, h2 => by
    unfold trimLen at h1
    split at h1
    · rename_i h
      by_cases hk : k = n
      · rw [hk]; exact h
      · exact trimLen_zero e n k h1 (by omega)
    · omega

theorem trimLen_last (e : Nat → F[X]) : ∀ n j, trimLen e n = j + 1 → e j ≠ 0
  | 0, j, h => by simp [trimLen] at h
  | n + 1, j, h => by
    unfold trimLen at h
    split at h
    · exact trimLen_last e n j h
    · rename_i h'
      have : j = n := by omega
      rw [this]
      exact h'

theorem poly_coeff (v : PVec F) (k : Nat) : v.poly.coeff k = if k < v.len then v.at' k else 0 :=
  ofCoeffs_coeff v.len v.at' k

theorem normalize_poly (v : PVec F) : v.normalize.poly = v.poly := by
  ext1 k
  rw [poly_coeff, poly_coeff]
  have h1 := trimLen_le v.at' v.len
  show (if k < trimLen v.at' v.len then v.at' k else 0) = _
  by_cases hk : k < trimLen v.at' v.len
  · rw [if_pos hk, if_pos (by omega)]
  · rw [if_neg hk]
    by_cases h2 : k < v.len
    · rw [if_pos h2, trimLen_zero v.at' v.len k (by omega) h2]
    · rw [if_neg h2]

theorem normalize_normal (v : PVec F) : v.normalize.Normal := fun n hn => trimLen_last v.at' v.len n hn

/-- The end of a function: the entries of `c` are the coefficients of `P`, up to zeros at the end. -/
theorem yields_norm {m m' : Mem F} {c L : Nat} {g : Nat → F[X]} {P : Polynomial F[X]} (h : Upd m c L g m')
    (hP : ∀ k, P.coeff k = if k < L then g k else 0) : Yields (.ok (norm m' c)) m c P := by
  refine ⟨_, rfl, ?_, ?_, ?_⟩
  · rw [norm, write_self, normalize_poly]
    ext1 k
    rw [poly_coeff, hP, h.len, h.ent]
  · rw [norm, write_self]
    exact normalize_normal _
  · intro x hx
    rw [norm, write_ne _ _ hx]
    exact h.other x hx

theorem poly_eq_zero_iff {v : PVec F} (h : v.Normal) : v.poly = 0 ↔ v.len = 0 := by
  constructor
  · intro h0
    by_contra hl
    obtain ⟨n, hn⟩ := Nat.exists_eq_succ_of_ne_zero hl
    have := poly_coeff v n
    rw [h0, coeff_zero, if_pos (by omega)] at this
    exact h n hn this.symm
  · intro h0
    ext1 k
    rw [poly_coeff, if_neg (by omega), coeff_zero]

/-! ### Degrees -/

theorem pdeg_le (f : F[X]) (d : Int) (hd : -1 ≤ d) : pdeg f ≤ d ↔ ∀ j : Nat, d < j → f.coeff j = 0 := by
  unfold pdeg
  by_cases h : f = 0
  · rw [if_pos h]
    subst h
    simpa using hd
  · rw [if_neg h]
    constructor
    · intro h1 j hj
      exact coeff_eq_zero_of_natDegree_lt (by omega)
    · intro h1
      by_contra h2
      exact h (leadingCoeff_eq_zero.1 (h1 f.natDegree (by omega)))

theorem pdeg_ge (f : F[X]) : -1 ≤ pdeg f := by
  unfold pdeg
  split <;> omega

theorem pdeg_nonneg {f : F[X]} (h : f ≠ 0) : 0 ≤ pdeg f := by
  unfold pdeg
  rw [if_neg h]
  omega

theorem forMax (g : Nat → Int) : ∀ n d, forN n (fun i d => max d (g i)) (-1) ≤ d ↔ -1 ≤ d ∧ ∀ i, i < n → g i ≤ d
  | 0, d => by simp [forN]
  | n + 1, d => by
    show max (forN n (fun i d => max d (g i)) (-1)) (g n) ≤ d ↔ _
    rw [max_le_iff, forMax g n d]
    constructor
    · rintro ⟨⟨h1, h2⟩, h3⟩
      refine ⟨h1, fun i hi => ?_⟩
      by_cases h : i = n
      · rw [h]; exact h3
      · exact h2 i (by omega)
    · rintro ⟨h1, h2⟩
      exact ⟨⟨h1, fun i hi => h2 i (by omega)⟩, h2 n (by omega)⟩

theorem degX_le (v : PVec F) (d : Int) : v.degX ≤ d ↔ -1 ≤ d ∧ ∀ i, i < v.len → pdeg (v.at' i) ≤ d := forMax _ _ _

theorem degX_get (v : PVec F) {i : Nat} (h : i < v.len) : pdeg (v.at' i) ≤ v.degX :=
  ((degX_le v v.degX).1 (le_refl _)).2 i h

theorem degX_nonneg {v : PVec F} (h : v.Normal) (h0 : v.len ≠ 0) : 0 ≤ v.degX := by
  obtain ⟨n, hn⟩ := Nat.exists_eq_succ_of_ne_zero h0
  have hx := h n hn
  exact (pdeg_nonneg hx).trans (degX_get v (by omega))

/-! ### Kronecker substitution -/

theorem kron_coeff (Q : Polynomial F[X]) (D : Nat) (hQ : ∀ i j, D ≤ j → (Q.coeff i).coeff j = 0) (i j : Nat) (hj : j < D) :
    (Q.eval (X ^ D)).coeff (i * D + j) = (Q.coeff i).coeff j := by
  rw [eval_eq_sum_range, finsetSum_coeff]
  have key : ∀ t, (Q.coeff t * (X ^ D) ^ t : F[X]).coeff (i * D + j) = if t = i then (Q.coeff i).coeff j else 0 := by
    intro t
    rw [← pow_mul, coeff_mul_X_pow']
    by_cases ht : t = i
    · subst ht
      rw [if_pos (by rw [Nat.mul_comm]; omega), if_pos rfl]
      congr 1
      rw [Nat.mul_comm]
      omega
    · rw [if_neg ht]
      rcases Nat.lt_or_ge t i with h | h
      · have h1 : (t + 1) * D ≤ i * D := Nat.mul_le_mul_right D h
        rw [Nat.add_mul, Nat.one_mul] at h1
        rw [Nat.mul_comm D t, if_pos (by omega)]
        exact hQ t _ (by omega)
      · have h1 : (i + 1) * D ≤ t * D := Nat.mul_le_mul_right D (by omega)
        rw [Nat.add_mul, Nat.one_mul] at h1
        rw [Nat.mul_comm D t, if_neg (by omega)]
  rw [Finset.sum_congr rfl fun t _ => key t]
  rw [Finset.sum_ite_eq' (Finset.range (Q.natDegree + 1)) i]
  split
  · rfl
  · rename_i h
    rw [Finset.mem_range] at h
    rw [coeff_eq_zero_of_natDegree_lt (show Q.natDegree < i by omega), coeff_zero]

theorem ext_blocks {D : Nat} (hD : 0 < D) {f g : F[X]} (h : ∀ i j, j < D → f.coeff (i * D + j) = g.coeff (i * D + j)) :
    f = g := by
  ext k
  have := h (k / D) (k % D) (Nat.mod_lt _ hD)
  rwa [Nat.div_add_mod'] at this

theorem kron_inj {D : Nat} {P Q : Polynomial F[X]} (hP : ∀ i j, D ≤ j → (P.coeff i).coeff j = 0)
    (hQ : ∀ i j, D ≤ j → (Q.coeff i).coeff j = 0) (h : P.eval (X ^ D) = Q.eval (X ^ D)) : P = Q := by
  ext i j
  by_cases hj : j < D
  · rw [← kron_coeff P D hP i j hj, ← kron_coeff Q D hQ i j hj, h]
  · rw [hP i j (by omega), hQ i j (by omega)]

/-- A loop writing `v i` at the indices `off + i`, `i` from `lo` to `hi`, of an array. -/
theorem array_fill (N off : Nat) (v : Nat → F) (lo hi : Int) (e : Nat → F) (hlo : 0 ≤ lo) (hhi : off + hi < N)
    (f : Int → (Nat → F) → Out (Nat → F))
    (hf : ∀ (i : Nat) e, f i e = aput N e (off + i) (v i)) :
    ∃ e', loopI lo hi f e = .ok e' ∧ ∀ k, e' k = if off + lo ≤ k ∧ (k : Int) ≤ off + hi then v (k - off) else e k := by
  obtain ⟨lo, rfl⟩ := Int.eq_ofNat_of_zero_le hlo
  obtain ⟨e', h, h'⟩ := loopOut_inv (f := fun k => f (lo + k)) (s := e)
    (fun n e' => ∀ k, e' k = if off + lo ≤ k ∧ k < off + lo + n then v (k - off) else e k)
    (hi + 1 - lo).toNat (by intro k; rw [if_neg (by omega)])
    (by
      intro n t hn ht
      refine ⟨write (off + (lo + n)) (v (lo + n)) t, ?_, ?_⟩
      · show f ((lo : Int) + n) t = _
        rw [← Nat.cast_add, hf, aput, if_pos (by omega)]
        congr 2
      · intro k
        by_cases hk : k = off + (lo + n)
        · subst hk
          rw [write_self, if_pos (by omega)]
          congr 1
          omega
        · rw [write_ne _ _ hk, ht]
          by_cases h1 : off + lo ≤ k ∧ k < off + lo + n
          · rw [if_pos h1, if_pos (by omega)]
          · rw [if_neg h1, if_neg (by omega)])
  refine ⟨e', h, fun k => ?_⟩
  rw [h']
  by_cases h1 : (off : Int) + lo ≤ k ∧ (k : Int) ≤ off + hi
  · rw [if_pos h1, if_pos (by omega)]
  · rw [if_neg h1, if_neg (by omega)]

theorem kronBlock_spec (N D off : Nat) (x : F[X]) (e : Nat → F) (hx : ∀ j, D ≤ j → x.coeff j = 0) (hD : 0 < D) (hN : off + D ≤ N) :
    ∃ e', kronBlock N ((D : Int) - 1) off x e = .ok e' ∧
      ∀ k, e' k = if off ≤ k ∧ k < off + D then x.coeff (k - off) else e k := by
  have hd : pdeg x ≤ (D : Int) - 1 := (pdeg_le x _ (by omega)).2 fun j hj => hx j (by omega)
  unfold kronBlock
  by_cases h0 : 0 ≤ pdeg x
  · rw [if_pos h0]
    obtain ⟨e1, h1, h1'⟩ := array_fill N off x.coeff 0 (pdeg x) e (le_refl _) (by omega)
      (fun j e => aput N e (off + j) (x.coeff j.toNat)) (fun i e => rfl)
    obtain ⟨e2, h2, h2'⟩ := array_fill N off (fun _ => (0 : F)) (pdeg x + 1) ((D : Int) - 1) e1 (by omega) (by omega)
      (fun j e => aput N e (off + j) 0) (fun i e => rfl)
    refine ⟨e2, ?_, fun k => ?_⟩
    · rw [h1]
      exact h2
    · rw [h2', h1']
      have hz : ∀ j : Nat, pdeg x < j → x.coeff j = 0 := (pdeg_le x _ (pdeg_ge x)).1 (le_refl _)
      by_cases ha : (off : Int) + (pdeg x + 1) ≤ k ∧ (k : Int) ≤ off + ((D : Int) - 1)
      · rw [if_pos ha, if_pos (by omega), hz _ (by omega)]
      · rw [if_neg ha]
        by_cases hb : (off : Int) + 0 ≤ k ∧ (k : Int) ≤ off + pdeg x
        · rw [if_pos hb, if_pos (by omega)]
        · rw [if_neg hb, if_neg (by omega)]
  · rw [if_neg h0]
    obtain ⟨e2, h2, h2'⟩ := array_fill N off (fun _ => (0 : F)) 0 ((D : Int) - 1) e (by omega) (by omega)
      (fun j e => aput N e (off + j) 0) (fun i e => rfl)
    refine ⟨e2, h2, fun k => ?_⟩
    rw [h2']
    have hz : ∀ j : Nat, x.coeff j = 0 := fun j => (pdeg_le x _ (pdeg_ge x)).1 (le_refl _) j (by omega)
    by_cases ha : off ≤ k ∧ k < off + D
    · rw [if_pos ha, if_pos (by omega), hz]
    · rw [if_neg ha, if_neg (by omega)]

end PML.Ntl.Bivar
