import Verif.Ntl.SeqCheckProps

/-!
# Instances of the hypotheses of C97 and C98
-/

namespace PML.Ntl.Seq

open Polynomial PML.Ntl.Inv

instance : Fact (Nat.Prime 3) := ⟨Nat.prime_three⟩

/-- The sequence of the powers of `1 + X`. -/
noncomputable def powers (i : Nat) : (ZMod 3)[X] := (1 + X) ^ i

theorem powers_cancels (d : Nat) : Cancels d powers (X - C (1 + X) : Polynomial (ZMod 3)[X]) := by
  intro i
  have : entry (X - C (1 + X) : Polynomial (ZMod 3)[X]) powers i = 0 := by
    unfold entry powers
    rw [natDegree_X_sub_C]
    simp only [Finset.sum_range_succ, Finset.sum_range_zero, coeff_sub, coeff_X_zero, coeff_C_zero, coeff_X_one, coeff_C_succ, zero_add,
      add_zero, sub_zero, zero_sub, one_mul, pow_succ]
    ring
  rw [this]
  exact dvd_zero _

/-- `C97_annihilator` with `m = 1`, two terms and precision 2. -/
example : ∃ gens, kurakin 2 (firstTerms 2 powers) = .ok gens ∧ gens.length = 2 ∧
    (∀ t, t < 2 → Cancels 2 powers (gens.getD t 0) ∧ (gens.getD t 0).natDegree ≤ 1) ∧ ∀ h, Cancels 2 powers h → Generated 2 gens h :=
  C97_annihilator 2 1 2 powers (X - C (1 + X)) (monic_X_sub_C _) (natDegree_X_sub_C _) (powers_cancels 2) (by omega)

/-- `C97_minimal` with `h = Y - (1 + X)`: the first generator of the sequence `1, 1 + X, 1 + 2 X` has degree at most 1. -/
example (gens : List (Polynomial (ZMod 3)[X])) (hk : kurakin (2 : Nat) (firstTerms 3 powers) = .ok gens) : (gens.getD 0 0).natDegree ≤ 1 := by
  have := (C97_minimal 2 (firstTerms 3 powers) gens hk 0 (by omega) (X - C (1 + X)) 1 (by simp) (by rw [(monic_X_sub_C _).leadingCoeff]; simp)
    (by rw [natDegree_X_sub_C]; simp [firstTerms]) fun i hi => by
      rw [natDegree_X_sub_C] at hi
      have e : entry (X - C (1 + X) : Polynomial (ZMod 3)[X]) (fun i => (firstTerms 3 powers).getD i 0) i = entry (X - C (1 + X)) powers i := by
        unfold entry
        refine Finset.sum_congr rfl fun j hj => ?_
        rw [natDegree_X_sub_C, Finset.mem_range] at hj
        have h3 : i + j < 3 := by simp [firstTerms] at hi; omega
        simp [firstTerms, List.getD_eq_getElem?_getD, h3]
      rw [e]
      exact powers_cancels 2 i).1
  rwa [natDegree_X_sub_C] at this

/-- `C98_check_vectors` tells two answers apart: the polynomial `Y - (1 + X)` cancels the first component, and not both. -/
example : ∃ b, checkCancelVec (vectorSeq 3 1 fun _ => powers) (2 : Nat) [X - C (1 + X)] = .ok b ∧ b = true := by
  obtain ⟨b, e, h⟩ := C98_check_vectors 3 1 2 (by omega) (fun _ => powers) [X - C (1 + X)]
  refine ⟨b, e, h.2 fun f hf c _ i _ => ?_⟩
  rw [List.mem_singleton] at hf
  rw [hf]
  exact powers_cancels 2 i

example : ∃ b, checkCancelVec (vectorSeq 3 2 fun c i => if c = 0 then powers i else 1) (2 : Nat) [X - C (1 + X)] = .ok b ∧ b = false := by
  obtain ⟨b, e, h⟩ := C98_check_vectors 3 2 2 (by omega) (fun c i => if c = 0 then powers i else 1) [X - C (1 + X)]
  refine ⟨b, e, ?_⟩
  by_contra hb
  have h1 := h.1 (by simpa using hb) _ (List.mem_singleton_self _) 1 (by omega) 0 (by rw [natDegree_X_sub_C]; omega)
  have e2 : entry (X - C (1 + X) : Polynomial (ZMod 3)[X]) (fun i => if 1 = 0 then powers i else 1) 0 = -X := by
    unfold entry
    rw [natDegree_X_sub_C]
    simp [Finset.sum_range_succ, coeff_one]
  rw [e2, dvd_neg] at h1
  have h4 := X_pow_dvd_iff.1 h1 1 (by omega)
  rw [coeff_X_one] at h4
  exact one_ne_zero h4

/-- `C98_check_vacuous` and `C98_check_vectors_vacuous` with a polynomial that does not cancel the sequence, and `C98_check_error`. -/
example : checkCancel ([X, 1] : List (ZMod 3)[X]) 4 [(X)] = .ok true := C98_check_vacuous _ _ _ fun f hf => by
  rw [List.mem_singleton] at hf
  simp [hf]

example : checkCancelVec ([[(X)], [1]] : List (List (ZMod 3)[X])) (-1) [(X)] = .ok true := C98_check_vectors_vacuous _ _ fun f hf => by
  rw [List.mem_singleton] at hf
  simp [hf]

example : checkCancel ([(X)] : List (ZMod 3)[X]) 4 [X ^ 2] = .error := C98_check_error _ _ _ _ (by simp)

/-- `C98_modified_overflow`: the sequence `X, X^2` reads outside of a vector, the sequence `X, 1` does not. -/
example : modifiedStart 3 ([X, X ^ 2] : List (ZMod 3)[X]) = .ub := (C98_modified_overflow 3 _).1.2 (.inr fun s hs => by
  simp only [List.mem_cons, List.not_mem_nil, or_false] at hs
  rcases hs with rfl | rfl <;> simp)

example : ∃ x, modifiedStart 3 ([X, 1] : List (ZMod 3)[X]) = .ok x := (C98_modified_overflow 3 _).2 fun h => by
  rcases (C98_modified_overflow 3 _).1.1 h with h | h
  · omega
  · have := h 1 (by simp)
    simp at this

end PML.Ntl.Seq
