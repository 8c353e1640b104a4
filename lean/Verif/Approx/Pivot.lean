import Verif.Approx.Theory

/-!
# Theory: pivots of vectors, and bases with increasing pivots
-/

namespace PML.Approx

open Polynomial Matrix Spec

variable {K : Type} [Field K] {k m n : Nat}

/-- `v` has `s`-degree `D` and its (lower) `s`-pivot at index `π`. -/
structure HasPivot (s : Fin m → Int) (v : Fin m → K[X]) (D : Int) (π : Fin m) : Prop where
  le : ∀ j, DegLE (s j) (v j) D
  after : ∀ j, π < j → DegLE (s j) (v j) (D - 1)
  ge : s π ≤ D
  lead : (v π).coeff (D - s π).toNat ≠ 0

theorem HasPivot.ne_zero {s : Fin m → Int} {v : Fin m → K[X]} {D : Int} {π : Fin m}
    (h : HasPivot s v D π) : v ≠ 0 := by
  rintro rfl; exact h.lead (by simp)

theorem HasPivot.entry_ne {s : Fin m → Int} {v : Fin m → K[X]} {D : Int} {π : Fin m}
    (h : HasPivot s v D π) : v π ≠ 0 := by
  intro e; exact h.lead (by rw [e, coeff_zero])

theorem HasPivot.natDegree {s : Fin m → Int} {v : Fin m → K[X]} {D : Int} {π : Fin m}
    (h : HasPivot s v D π) : (v π).natDegree = (D - s π).toNat := by
  have h1 := degLE_iff.1 (h.le π) h.entry_ne
  have h2 := le_natDegree_of_ne_zero h.lead
  have := h.ge
  omega

theorem HasPivot.unique {s : Fin m → Int} {v : Fin m → K[X]} {D D' : Int} {π π' : Fin m}
    (h : HasPivot s v D π) (h' : HasPivot s v D' π') : D = D' ∧ π = π' := by
  have key : ∀ {D D' : Int} {π π' : Fin m}, HasPivot s v D π → HasPivot s v D' π' → D ≤ D' := by
    intro D D' π π' h h'
    by_contra hc
    exact h.lead (h'.le π _ (by have := h.ge; omega))
  have hD : D = D' := le_antisymm (key h h') (key h' h)
  subst hD
  refine ⟨rfl, ?_⟩
  rcases lt_trichotomy π π' with h1 | h1 | h1
  · exact absurd (h.after π' h1 _ (by have := h'.ge; omega)) h'.lead
  · exact h1
  · exact absurd (h'.after π h1 _ (by have := h.ge; omega)) h.lead

theorem exists_hasPivot (s : Fin m → Int) (v : Fin m → K[X]) (hv : v ≠ 0) :
    ∃ D π, HasPivot s v D π := by
  classical
  have hne : (Finset.univ.filter fun j => v j ≠ 0).Nonempty := by
    obtain ⟨j, hj⟩ := Function.ne_iff.1 hv
    exact ⟨j, by simpa using hj⟩
  -- the largest degree
  obtain ⟨a, ha, hmax⟩ := Finset.exists_max_image _ (fun j => ((v j).natDegree : Int) + s j) hne
  generalize hD : ((v a).natDegree : Int) + s a = D at hmax
  have hne2 : (Finset.univ.filter fun j => v j ≠ 0 ∧ ((v j).natDegree : Int) + s j = D).Nonempty :=
    ⟨a, by simpa using ⟨(by simpa using ha), hD⟩⟩
  obtain ⟨π, hπ, hlast⟩ := Finset.exists_max_image _ id hne2
  simp only [Finset.mem_filter, Finset.mem_univ, true_and, id] at hπ hlast hmax
  refine ⟨D, π, fun j => degLE_iff.2 fun hj => hmax j hj, fun j hj => degLE_iff.2 fun hne => ?_,
    by omega, ?_⟩
  · have h1 := hmax j hne
    by_contra hc
    have := hlast j ⟨hne, by omega⟩
    exact absurd hj (not_lt.2 this)
  · have e : (D - s π).toNat = (v π).natDegree := by omega
    rw [e]
    exact leadingCoeff_ne_zero.2 hπ.1

/-- The rows of `P` have `s`-degrees `t` and increasing `s`-pivots `ρ`. -/
structure Pivots (s : Fin m → Int) (P : Matrix (Fin k) (Fin m) K[X]) (t : Fin k → Int)
    (ρ : Fin k → Fin m) : Prop where
  row : ∀ i, HasPivot s (P i) (t i) (ρ i)
  mono : StrictMono ρ

theorem DiagPivots.pivots {d : Nat} {s t : Fin m → Int} {P : Matrix (Fin m) (Fin m) K[X]}
    (h : DiagPivots d s P t) : Pivots s P t id :=
  ⟨fun i => ⟨h.le i, h.after i, h.ge i, h.lead i⟩, strictMono_id⟩

/-- The pivot of a combination of rows with increasing pivots. -/
theorem Pivots.vecMul {s : Fin m → Int} {P : Matrix (Fin k) (Fin m) K[X]} {t : Fin k → Int}
    {ρ : Fin k → Fin m} (h : Pivots s P t ρ) {u : Fin k → K[X]} {D : Int} {π : Fin k}
    (hu : HasPivot t u D π) : HasPivot s (u ᵥ* P) D (ρ π) := by
  have hsum : ∀ j, (u ᵥ* P) j = ∑ i, u i * P i j := fun j => rfl
  -- contributions are of smaller degree unless the row is `π` and the column `ρ π`
  have hstrict : ∀ i j, ρ π ≤ j → (i ≠ π ∨ ρ π < j) → DegLE (s j) (u i * P i j) (D - 1) := by
    intro i j hj hij
    by_cases hi : π < i
    · exact (hu.after i hi).mul ((h.row i).le j)
    · have hlt : ρ i < j := by
        rcases hij with h1 | h1
        · exact lt_of_lt_of_le (h.mono (lt_of_le_of_ne (not_lt.1 hi) h1)) hj
        · exact lt_of_le_of_lt (h.mono.monotone (not_lt.1 hi)) h1
      intro x hx
      rw [coeff_mul]
      refine Finset.sum_eq_zero fun y hy => ?_
      rw [Finset.mem_antidiagonal] at hy
      by_cases h3 : D < (y.1 : Int) + t i
      · rw [hu.le i y.1 h3, zero_mul]
      · rw [(h.row i).after j hlt y.2 (by omega), mul_zero]
  have hge1 := hu.ge
  have hge2 := (h.row π).ge
  refine ⟨fun j => ?_, fun j hj => ?_, by omega, ?_⟩
  · rw [hsum]; exact DegLE.sum _ _ fun i _ => (hu.le i).mul ((h.row i).le j)
  · rw [hsum]; exact DegLE.sum _ _ fun i _ => hstrict i j (le_of_lt hj) (Or.inr hj)
  · rw [hsum, ← Finset.sum_erase_add _ _ (Finset.mem_univ π), coeff_add]
    have hz : DegLE (s (ρ π)) (∑ i ∈ Finset.univ.erase π, u i * P i (ρ π)) (D - 1) :=
      DegLE.sum _ _ fun i hi => hstrict i _ (le_refl _) (Or.inl (Finset.ne_of_mem_erase hi))
    rw [hz _ (by omega), zero_add]
    have e : (D - s (ρ π)).toNat = (D - t π).toNat + (t π - s (ρ π)).toNat := by omega
    have hd1 : (u π).natDegree ≤ (D - t π).toNat := (hu.natDegree).le
    have hd2 : (P π (ρ π)).natDegree ≤ (t π - s (ρ π)).toNat := ((h.row π).natDegree).le
    rw [e, coeff_mul_add_eq_of_natDegree_le hd1 hd2]
    exact mul_ne_zero hu.lead (h.row π).lead

/-- Rows with increasing pivots are independent. -/
theorem Pivots.independent {s : Fin m → Int} {P : Matrix (Fin k) (Fin m) K[X]} {t : Fin k → Int}
    {ρ : Fin k → Fin m} (h : Pivots s P t ρ) (u : Fin k → K[X]) (hu : u ᵥ* P = 0) : u = 0 := by
  by_contra hne
  obtain ⟨D, π, hp⟩ := exists_hasPivot t u hne
  exact (h.vecMul hp).ne_zero hu

/-- Products of matrices with increasing pivots. -/
theorem Pivots.mul {l : Nat} {s : Fin m → Int} {P : Matrix (Fin k) (Fin m) K[X]} {t : Fin k → Int}
    {ρ : Fin k → Fin m} {Q : Matrix (Fin l) (Fin k) K[X]} {r : Fin l → Int} {τ : Fin l → Fin k}
    (h : Pivots s P t ρ) (hQ : Pivots t Q r τ) : Pivots s (Q * P) r (fun i => ρ (τ i)) :=
  ⟨fun i => h.vecMul (hQ.row i), fun _ _ hij => h.mono (hQ.mono hij)⟩

/-- The pivot of an element of the row space is the pivot of a row, of at most its degree. -/
theorem Pivots.of_mem {s : Fin m → Int} {P : Matrix (Fin k) (Fin m) K[X]} {t : Fin k → Int}
    {ρ : Fin k → Fin m} (h : Pivots s P t ρ) {u : Fin k → K[X]} {D : Int} {π : Fin m}
    (hv : HasPivot s (u ᵥ* P) D π) : ∃ i, ρ i = π ∧ HasPivot t u D i ∧ t i ≤ D := by
  have hne : u ≠ 0 := by
    rintro rfl; exact hv.ne_zero (by simp)
  obtain ⟨D', i, hp⟩ := exists_hasPivot t u hne
  obtain ⟨rfl, rfl⟩ := (h.vecMul hp).unique hv
  exact ⟨i, rfl, hp, hp.ge⟩

end PML.Approx
