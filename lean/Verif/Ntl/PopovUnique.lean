import Verif.Ntl.KerbasLemmas
import Mathlib.Order.WellFounded

/-!
# Uniqueness of the Popov form
-/

namespace PML.Ntl.Popov

open Polynomial PML.Ntl.Utils PML.Ntl.Mbasis PML.Ntl.Kerbas PML.Approx PML.Approx.Spec PML.Forms.Spec

variable {F : Type} [Field F] [DecidableEq F]

theorem PopovLower.pivots {r n : Nat} {s : Nat → Int} {P : Nat → Nat → F[X]} (h : PopovLower r n s P) :
    ∃ ρ : Fin r → Fin n, Pivots (fun j : Fin n => s j) (fun (i : Fin r) (j : Fin n) => P i j) (fun i => (P i (ρ i)).natDegree + s (ρ i)) ρ ∧
      (∀ i : Fin r, (P i (ρ i)).Monic) ∧ ∀ i k : Fin r, k ≠ i → (P k (ρ i)).degree < (P i (ρ i)).degree := by
  obtain ⟨piv, δ, h1, h2, h3, h4⟩ := h
  refine ⟨fun i => ⟨piv i, (h1 i i.2).lt⟩, ⟨fun i => ?_, fun i j hij => h2 i j hij j.2⟩, fun i => h3 i i.2,
    fun i k hki => h4 i k i.2 k.2 fun e => hki (Fin.ext e)⟩
  have := hasPivot_of_lower (h1 i i.2)
  have e := (h1 i i.2).degree
  generalize_proofs at this ⊢
  dsimp only
  rw [e]
  exact this

theorem popov_unique {r n : Nat} {s : Nat → Int} {P Q : Nat → Nat → F[X]} (hP : PopovLower r n s P) (hQ : PopovLower r n s Q)
    (hPQ : ∀ i : Fin r, ∃ u : Fin r → F[X], (fun j : Fin n => P i j) = Matrix.vecMul u fun (k : Fin r) (j : Fin n) => Q k j)
    (hQP : ∀ i : Fin r, ∃ u : Fin r → F[X], (fun j : Fin n => Q i j) = Matrix.vecMul u fun (k : Fin r) (j : Fin n) => P k j) :
    ∀ i j, i < r → j < n → P i j = Q i j := by
  obtain ⟨ρ, p1, p2, p3⟩ := PopovLower.pivots hP
  obtain ⟨ρ', q1, q2, q3⟩ := PopovLower.pivots hQ
  have a1 : ∀ i : Fin r, ∃ k : Fin r, ρ' k = ρ i ∧ ((Q k (ρ' k)).natDegree : Int) + s (ρ' k) ≤ (P i (ρ i)).natDegree + s (ρ i) := by
    intro i
    obtain ⟨u, hu⟩ := hPQ i
    have := p1.row i
    rw [hu] at this
    obtain ⟨k, e1, -, e2⟩ := q1.of_mem this
    exact ⟨k, e1, e2⟩
  have a2 : ∀ i : Fin r, ∃ k : Fin r, ρ k = ρ' i ∧ ((P k (ρ k)).natDegree : Int) + s (ρ k) ≤ (Q i (ρ' i)).natDegree + s (ρ' i) := by
    intro i
    obtain ⟨u, hu⟩ := hQP i
    have := q1.row i
    rw [hu] at this
    obtain ⟨k, e1, -, e2⟩ := p1.of_mem this
    exact ⟨k, e1, e2⟩
  have hρ : ρ = ρ' := (StrictMono.range_inj p1.mono q1.mono).1 (Set.ext fun x => ⟨by
    rintro ⟨i, rfl⟩; obtain ⟨k, e, -⟩ := a1 i; exact ⟨k, e⟩, by rintro ⟨i, rfl⟩; obtain ⟨k, e, -⟩ := a2 i; exact ⟨k, e⟩⟩)
  subst hρ
  have hd : ∀ i : Fin r, (P i (ρ i)).natDegree = (Q i (ρ i)).natDegree := by
    intro i
    obtain ⟨k, e1, e2⟩ := a1 i
    obtain ⟨k', e3, e4⟩ := a2 i
    obtain rfl := p1.mono.injective e1
    obtain rfl := p1.mono.injective e3
    omega
  have hdeg : ∀ i : Fin r, (P i (ρ i)).degree = (Q i (ρ i)).degree := fun i => by
    rw [degree_eq_natDegree (p2 i).ne_zero, degree_eq_natDegree (q2 i).ne_zero, hd i]
  intro i j hi hj
  obtain ⟨u, hu⟩ := hPQ ⟨i, hi⟩
  by_contra hne
  have hv : (fun j : Fin n => P i j - Q i j) ≠ 0 := fun e => hne (sub_eq_zero.1 (congrFun e ⟨j, hj⟩))
  obtain ⟨D, π, hp⟩ := exists_hasPivot (fun j : Fin n => s j) _ hv
  have hvm : (fun j : Fin n => P i j - Q i j) = Matrix.vecMul (u - Pi.single ⟨i, hi⟩ 1) fun (k : Fin r) (j : Fin n) => Q k j := by
    have h1 := Matrix.sub_vecMul (Matrix.of fun (k : Fin r) (j : Fin n) => Q k j) u (Pi.single ⟨i, hi⟩ 1)
    rw [Matrix.single_one_vecMul] at h1
    refine Eq.trans ?_ h1.symm
    funext j
    exact congrArg (· - Q i j) (congrFun hu j)
  have hp' := hp
  rw [hvm] at hp'
  obtain ⟨k, rfl, -, hD⟩ := q1.of_mem hp'
  have hlt : (P i (ρ k) - Q i (ρ k)).degree < (Q k (ρ k)).degree := by
    by_cases hk : k = ⟨i, hi⟩
    · subst hk
      rw [← hdeg]
      exact degree_sub_lt_left (hdeg ⟨i, hi⟩) (p2 ⟨i, hi⟩).ne_zero ((p2 ⟨i, hi⟩).leadingCoeff.trans (q2 ⟨i, hi⟩).leadingCoeff.symm)
    · refine lt_of_le_of_lt (degree_sub_le _ _) (max_lt ?_ (q3 k ⟨i, hi⟩ (fun e => hk e.symm)))
      rw [← hdeg]
      exact p3 k ⟨i, hi⟩ fun e => hk e.symm
  have h1 := natDegree_lt_natDegree (hp.entry_ne) hlt
  have h2 := hp.natDegree
  omega

end PML.Ntl.Popov
