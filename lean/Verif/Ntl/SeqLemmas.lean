import Verif.Ntl.SeqTheory

/-!
# Lemmas for C97: the functions on polynomials and sequences
-/

namespace PML.Ntl.Seq

open Polynomial PML.Ntl.Utils PML.Ntl.Inv PML.Ntl.Solve

variable {F : Type} [Field F]

theorem trunc_eq_iff (a b : F[X]) (d : Nat) : ptrunc a d = ptrunc b d ↔ X ^ d ∣ a - b := by
  rw [X_pow_dvd_iff]
  constructor
  · intro h k hk
    have := congrArg (fun p => coeff p k) h
    simp only [ptrunc_coeff, if_pos hk] at this
    rw [coeff_sub, this, sub_self]
  · intro h
    ext k
    rw [ptrunc_coeff, ptrunc_coeff]
    split_ifs with hk
    · have := h k hk
      rw [coeff_sub] at this
      exact sub_eq_zero.1 this
    · rfl

theorem trunc_of_zero (d : Nat) : ptrunc (0 : F[X]) d = 0 := by
  ext k
  rw [ptrunc_coeff]
  simp

theorem trunc_zero_iff (a : F[X]) (d : Nat) : ptrunc a d = 0 ↔ X ^ d ∣ a := by
  rw [← trunc_of_zero d, trunc_eq_iff, sub_zero]

theorem trunc_dvd (a : F[X]) (d : Nat) : X ^ d ∣ a - ptrunc a d := by
  rw [X_pow_dvd_iff]
  intro k hk
  rw [coeff_sub, ptrunc_coeff, if_pos hk, sub_self]

theorem trunc_high (a : F[X]) (d : Nat) : ∀ k, d ≤ k → (ptrunc a d).coeff k = 0 := fun k hk => by
  rw [ptrunc_coeff, if_neg (by omega)]

theorem trunc_self {a : F[X]} {d : Nat} (h : ∀ k, d ≤ k → a.coeff k = 0) : ptrunc a d = a := by
  ext k
  rw [ptrunc_coeff]
  split_ifs with hk
  · rfl
  · rw [h k (by omega)]

theorem trunc_pow_dvd {a : F[X]} {d u : Nat} (hu : u ≤ d) : X ^ u ∣ ptrunc a d ↔ X ^ u ∣ a := by
  have h : (X : F[X]) ^ u ∣ a - ptrunc a d := (pow_dvd_pow X hu).trans (trunc_dvd a d)
  constructor
  · intro h1
    have := dvd_add h h1
    rwa [sub_add_cancel] at this
  · intro h1
    exact (dvd_sub_right h1).1 h

theorem V.trunc {a : F[X]} {d v : Nat} (h : V v a) (hv : v < d) : V v (ptrunc a d) :=
  ⟨(trunc_pow_dvd (by omega)).2 h.1, fun h1 => h.2 ((trunc_pow_dvd (by omega)).1 h1)⟩

theorem V.coeff_ne {a : F[X]} {v : Nat} (h : V v a) : a.coeff v ≠ 0 := by
  intro h0
  apply h.2
  rw [X_pow_dvd_iff]
  intro k hk
  rcases Nat.lt_or_ge k v with h1 | h1
  · exact X_pow_dvd_iff.1 h.1 k h1
  · rw [show k = v by omega, h0]

theorem V.coeff_lt {a : F[X]} {v k : Nat} (h : V v a) (hk : k < v) : a.coeff k = 0 := X_pow_dvd_iff.1 h.1 k hk

theorem valuation_eq {a : F[X]} {v : Nat} (h : V v a) : valuation a = v := by
  classical
  have hne : a ≠ 0 := fun e => h.coeff_ne (by rw [e, coeff_zero])
  unfold valuation
  rw [if_neg (by rw [pdeg_neg_iff]; exact hne)]
  have : (List.range (a.natDegree + 1)).find? (fun i => decide (a.coeff i ≠ 0)) = some v := by
    rw [List.find?_range_eq_some]
    refine ⟨by simpa using h.coeff_ne, List.mem_range.2 ?_, fun j hj => ?_⟩
    · have := le_natDegree_of_ne_zero h.coeff_ne
      omega
    · simp [h.coeff_lt hj]
  have e2 : (List.range (a.natDegree + 1)).find? (fun i => decide (a.coeff i ≠ 0)) = some v := this
  simp only [ne_eq] at e2 ⊢
  rw [e2]

theorem pdeg_X_pow (m : Nat) : pdeg (X ^ m : F[X]) = m := by
  rw [pdeg_ne _ (pow_ne_zero _ X_ne_zero), natDegree_X_pow]

theorem shift_eq {a : F[X]} {v : Nat} (h : X ^ v ∣ a) : a = X ^ v * pshift a (-(v : Int)) := by
  ext k
  rw [coeff_X_pow_mul']
  split_ifs with hk
  · rw [pshift_coeff, if_pos (by omega)]
    congr 1; omega
  · exact X_pow_dvd_iff.1 h k (by omega)

theorem pdeg_shift_lt {a : F[X]} {v d : Nat} (hv : v < d) (ha : ∀ k, d ≤ k → a.coeff k = 0) : pdeg (pshift a (-(v : Int))) < (d - v : Nat) := by
  rw [pdeg_lt_iff]
  intro k hk
  rw [pshift_coeff, if_pos (by omega)]
  exact ha _ (by omega)

/-- `solve(a, l, r, d)` when the valuation of `l` is at least that of `r`. -/
theorem solve_spec {l r : F[X]} {d v : Nat} (hr : V v r) (hv : v < d) (hl : X ^ v ∣ l) (hrd : ∀ k, d ≤ k → r.coeff k = 0)
    (hld : ∀ k, d ≤ k → l.coeff k = 0) : ∃ a, solve l r d = .ok a ∧ X ^ d ∣ l - a * r := by
  classical
  unfold solve
  dsimp only
  rw [valuation_eq hr, if_neg (by omega), show ((d : Int) - v).toNat = d - v by omega]
  set r' := pshift r (-(v : Int)) with hr'
  set l' := pshift l (-(v : Int)) with hl'
  have er : r = X ^ v * r' := shift_eq hr.1
  have el : l = X ^ v * l' := shift_eq hl
  have h0 : r'.coeff 0 ≠ 0 := by
    have := hr.coeff_ne
    rw [er, coeff_X_pow_mul', if_pos le_rfl, Nat.sub_self] at this
    exact this
  have hcop : IsCoprime r' (X ^ (d - v)) := (coprime_X h0 _).symm
  have dr : pdeg r' < pdeg (X ^ (d - v) : F[X]) := by rw [pdeg_X_pow]; exact pdeg_shift_lt hv hrd
  have dl : pdeg l' < pdeg (X ^ (d - v) : F[X]) := by rw [pdeg_X_pow]; exact pdeg_shift_lt hv hld
  have d0 : pdeg (X ^ (d - v) : F[X]) ≠ 0 := by rw [pdeg_X_pow]; omega
  unfold invMod
  rw [if_neg (by push Not; exact ⟨dr, d0⟩), dif_pos hcop]
  show ∃ a, mulMod l' (hcop.choose % X ^ (d - v)) (X ^ (d - v)) = .ok a ∧ _
  set b := hcop.choose % X ^ (d - v) with hb
  have db : pdeg b < pdeg (X ^ (d - v) : F[X]) := by
    rw [pdeg_X_pow, pdeg_lt_iff]
    intro k hk
    refine coeff_eq_zero_of_degree_lt ?_
    have := Polynomial.degree_mod_lt hcop.choose (q := (X : F[X]) ^ (d - v)) (pow_ne_zero _ X_ne_zero)
    rw [degree_X_pow] at this
    exact lt_of_lt_of_le this (by exact_mod_cast hk)
  unfold mulMod
  rw [if_neg (by push Not; exact ⟨dl, db, d0⟩)]
  refine ⟨_, rfl, ?_⟩
  obtain ⟨q, hq⟩ := hcop.choose_spec
  have e1 := EuclideanDomain.div_add_mod hcop.choose ((X : F[X]) ^ (d - v))
  have e2 := EuclideanDomain.div_add_mod (l' * b) ((X : F[X]) ^ (d - v))
  have key : (X : F[X]) ^ (d - v) ∣ l' - l' * b % X ^ (d - v) * r' := by
    refine ⟨l' * q + l' * (hcop.choose / X ^ (d - v)) * r' + l' * b / X ^ (d - v) * r', ?_⟩
    rw [← hb] at e1
    linear_combination (-l') * hq - l' * r' * e1 - r' * e2
  have e3 : l - l' * b % X ^ (d - v) * r = X ^ v * (l' - l' * b % X ^ (d - v) * r') := by
    rw [mul_sub, ← el]
    nth_rw 1 [er]
    ring
  rw [e3, show d = v + (d - v) by omega, pow_add]
  simp only [Nat.add_sub_cancel_left]
  exact mul_dvd_mul_left _ key

/-- The first `L` entries of `f σ`, truncated. -/
noncomputable def pre (d : Nat) (σ : Nat → F[X]) (L : Nat) (f : Polynomial F[X]) : List F[X] := (List.range L).map fun i => ptrunc (act σ i f) d

theorem pre_length (d : Nat) (σ : Nat → F[X]) (L : Nat) (f : Polynomial F[X]) : (pre d σ L f).length = L := by simp [pre]

theorem pre_get (d : Nat) (σ : Nat → F[X]) (L : Nat) (f : Polynomial F[X]) (i : Nat) (hi : i < L) :
    (pre d σ L f)[i]? = some (ptrunc (act σ i f) d) := by simp [pre, hi]

theorem pre_rd {d L k : Nat} (σ : Nat → F[X]) (f : Polynomial F[X]) (hk : k < L) : rd (pre d σ L f) (k : Int) = .ok (ptrunc (act σ k f) d) := by
  unfold rd
  rw [if_neg (by omega), show ((k : Int)).toNat = k by omega, pre_get d σ L f k hk]

theorem pre_congr {d L : Nat} {σ : Nat → F[X]} {f g : Polynomial F[X]} (h : ∀ i, i < L → X ^ d ∣ act σ i f - act σ i g) : pre d σ L f = pre d σ L g := by
  unfold pre
  refine List.map_congr_left fun i hi => ?_
  rw [trunc_eq_iff]
  exact h i (List.mem_range.1 hi)

theorem pre_isZero (d L : Nat) (σ : Nat → F[X]) (f : Polynomial F[X]) : isZeroSeq (pre d σ L f) = true ↔ ∀ i, i < L → X ^ d ∣ act σ i f := by
  unfold isZeroSeq pre
  simp [trunc_zero_iff]

theorem pre_index {d L : Nat} {σ : Nat → F[X]} {f : Polynomial F[X]} {k : Nat} (hk : k < L) (h : Lead d σ f k) : indexNonZero (pre d σ L f) = k := by
  classical
  unfold indexNonZero
  rw [if_neg (by rw [pre_length]; omega)]
  congr 1
  rw [List.findIdx_eq (by rw [pre_length]; exact hk)]
  refine ⟨?_, fun j hj => ?_⟩
  · simp [pre, trunc_zero_iff, h.2]
  · simp [pre, trunc_zero_iff, h.1 j hj]

theorem pre_index_zero {d L : Nat} {σ : Nat → F[X]} {f : Polynomial F[X]} (h : ∀ i, i < L → X ^ d ∣ act σ i f) :
    indexNonZero (pre d σ L f) = if L = 0 then -1 else (L : Int) := by
  classical
  unfold indexNonZero
  rw [pre_length]
  split_ifs with h0
  · rfl
  · congr 1
    have : (pre d σ L f).findIdx (fun s => decide (s ≠ 0)) = (pre d σ L f).length := by
      rw [List.findIdx_eq_length]
      intro x hx
      simp only [pre, List.mem_map, List.mem_range] at hx
      obtain ⟨i, hi, rfl⟩ := hx
      simp [trunc_zero_iff, h i hi]
    rw [pre_length] at this
    exact this

theorem pre_shift (d L : Nat) (σ : Nat → F[X]) (f : Polynomial F[X]) : shift (pre d σ (L + 1) f) 1 = pre d σ L (f * X) := by
  unfold shift pre
  refine List.ext_getElem? fun i => ?_
  rw [List.getElem?_drop]
  by_cases hi : i < L
  · simp [hi, act_mul_X, Nat.add_comm 1 i]
  · rw [List.getElem?_eq_none (by simp; omega), List.getElem?_eq_none (by simp; omega)]

theorem pre_mul (d L : Nat) (σ : Nat → F[X]) (g : Polynomial F[X]) (a : F[X]) : mulTrunc (pre d σ L g) a d = pre d σ L (C a * g) := by
  unfold mulTrunc pre
  rw [List.map_map]
  refine List.map_congr_left fun i _ => ?_
  show ptrunc (ptrunc (act σ i g) d * a) d = _
  rw [trunc_eq_iff, act_C_mul]
  have := (trunc_dvd (act σ i g) d).mul_left (-a)
  obtain ⟨q, hq⟩ := this
  exact ⟨q, by linear_combination hq⟩

theorem pre_add {d L L' : Nat} (σ : Nat → F[X]) (f g : Polynomial F[X]) (h : L ≤ L') : add (pre d σ L f) (pre d σ L' g) = pre d σ L (f + g) := by
  unfold add
  refine List.ext_getElem? fun i => ?_
  rw [List.getElem?_zipWith]
  by_cases hi : i < L
  · rw [pre_get d σ L f i hi, pre_get d σ L' g i (by omega), pre_get d σ L _ i hi]
    have : ptrunc (act σ i (f + g)) d = ptrunc (act σ i f) d + ptrunc (act σ i g) d := by
      rw [map_add]
      ext k
      simp only [coeff_add, ptrunc_coeff]
      split_ifs <;> simp
    rw [this]
  · rw [List.getElem?_eq_none (by rw [pre_length]; omega), List.getElem?_eq_none (l := pre d σ L (f + g)) (by rw [pre_length]; omega)]

theorem truncX_coeff (f : Polynomial F[X]) (d j : Nat) : (truncX f d).coeff j = ptrunc (f.coeff j) d := by
  unfold truncX
  rw [ofCoeffs_coeff]
  split_ifs with h
  · rfl
  · rw [coeff_eq_zero_of_natDegree_lt (n := j) (by omega), trunc_of_zero]

theorem act_truncX (σ : Nat → F[X]) (i d : Nat) (f : Polynomial F[X]) : X ^ d ∣ act σ i f - act σ i (truncX f d) := by
  rw [← map_sub]
  refine act_dvd _ _ _ _ fun j => ?_
  rw [coeff_sub, truncX_coeff]
  exact trunc_dvd _ _

end PML.Ntl.Seq
