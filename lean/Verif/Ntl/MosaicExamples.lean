import Verif.Ntl.MosaicInv
import Verif.Ntl.CLikeExamples

/-!
# Mosaic matrices: examples
-/

namespace PML.Ntl.Mosaic

open Polynomial PML.Ntl.Utils PML.Ntl.Inv PML.Ntl.Solve PML.Ntl.Middle PML.Ntl.Struct PML.Ntl.CLike PML.Ntl.Geom

instance fact101 : Fact (Nat.Prime 101) := ⟨by norm_num⟩

/-- Arrays of blocks exist for all sizes and all entries. -/
theorem tiled_exists {p : Nat} [Fact p.Prime] {nb mb : Nat} {R C : Nat → Nat} (h1 : 0 < nb) (h2 : 0 < mb) (hF : Full nb mb R C)
    (A : Nat → Nat → NVec (ZMod p)) (hA : ∀ a b, a < nb → b < mb → R a + C b - 1 ≤ (A a b).len) : ∃ g, Tiled g nb mb R C A := by
  classical
  have : ∀ a b, ∃ t, a < nb → b < mb → Band.make (A a b) (R a) (C b) = .ok t := by
    intro a b
    by_cases h : a < nb ∧ b < mb
    · obtain ⟨t, e, -⟩ := (C83_constructor (A a b) (R a) (C b)).2 ⟨by have h3 := hF.1 a h.1; exact Nat.lt_of_lt_of_le h3 (Nat.le_add_right _ _), hA a b h.1 h.2⟩
      exact ⟨t, fun _ _ => e⟩
    · obtain ⟨t, e, -⟩ := (C83_constructor (⟨1, fun _ => 0⟩ : NVec (ZMod p)) 1 1).2 ⟨by omega, le_refl _⟩
      exact ⟨t, fun h1 h2 => absurd ⟨h1, h2⟩ h⟩
  choose t ht using this
  exact ⟨⟨nb, fun _ => mb, t⟩, h1, h2, rfl, fun _ _ => rfl, fun a b ha hb => ht a b ha hb⟩

/-- Blocks with 2 and 1 rows, and with 1 and 3 columns. -/
example : ∃ g : Grid 101, ∃ M E, Tiled g 2 2 (fun a => 2 - a) (fun b => 2 * b + 1) (fun a b => ⟨5, fun i => (7 * a + 3 * b + i : ZMod 101)⟩) ∧
    Full 2 2 (fun a => 2 - a) (fun b => 2 * b + 1) ∧ Mosaic.make g = .ok M ∧
    IsMosaic .toeplitz 2 2 (fun a => 2 - a) (fun b => 2 * b + 1) (fun a b => ⟨5, fun i => (7 * a + 3 * b + i : ZMod 101)⟩) E ∧
    off (fun a => 2 - a) 2 = 3 ∧ off (fun b => 2 * b + 1) 2 = 4 ∧ E 2 3 = 10 := by
  have hF : Full 2 2 (fun a => 2 - a) (fun b => 2 * b + 1) := ⟨fun a ha => by show 0 < 2 - a; omega, fun b _ => by show 0 < 2 * b + 1; omega⟩
  obtain ⟨g, hg⟩ := tiled_exists (p := 101) (nb := 2) (mb := 2) (by omega) (by omega) hF
    (fun a b => ⟨5, fun i => (7 * a + 3 * b + i : ZMod 101)⟩) (fun a b ha hb => by show 2 - a + (2 * b + 1) - 1 ≤ 5; omega)
  obtain ⟨M, hM, -⟩ := C102_constructor hg
  obtain ⟨E, hE⟩ := exists_mosaic hg .toeplitz
  refine ⟨g, M, E, hg, hF, hM, hE, rfl, rfl, ?_⟩
  exact (hE 1 1 0 2 (by omega) (by omega) (by decide) (by decide)).trans (by decide)

/-- Two blocks with one row. -/
def rows2 (u : ZMod 101) (a _b : Nat) : NVec (ZMod 101) := ⟨2, fun i => if a = 0 then (if i = 1 then 1 else 0) else if i = 0 then u else 0⟩

/-- The matrix with the rows `1 0` and `0 u`. -/
def diag2 (u : ZMod 101) (i j : Nat) : ZMod 101 := if i = 0 then (if j = 0 then 1 else 0) else if j = 0 then 0 else u

theorem diag2_mosaic (u : ZMod 101) : IsMosaic .hankel 2 1 (fun _ => 1) (fun _ => 2) (rows2 u) (diag2 u) := by
  intro a b i j ha hb hi hj
  obtain rfl : b = 0 := by omega
  obtain rfl : i = 0 := Nat.lt_one_iff.1 hi
  have hj : j < 2 := hj
  interval_cases a <;> interval_cases j <;> rfl

theorem full2 : Full 2 1 (fun _ => 1) (fun _ => 2) := ⟨fun _ _ => Nat.one_pos, fun _ _ => Nat.two_pos⟩

theorem diag2_tiled (u : ZMod 101) : ∃ g, Tiled g 2 1 (fun _ => 1) (fun _ => 2) (rows2 u) :=
  tiled_exists (by omega) (by omega) full2 (rows2 u) fun _ _ _ _ => by show 1 + 2 - 1 ≤ 2; omega

/-- The functions of NTL. -/
noncomputable def env : Env 101 := ⟨middleProduct (fun n => (n : ZMod 101)) 0, false, true, fun n => (n : ZMod 101), 0⟩

/-- The draws: the element 2 has order 100. -/
def draws (e : Nat → ZMod 101) : Draws 101 := ⟨fun _ => 2, fun _ => 3, e, fun _ => 1⟩

theorem env_mid : MidOK env.mp 2 := by
  intro a c dA dB hA hB
  obtain ⟨b, e, hb⟩ := C56_middle_product_partial (p := 101) (red := fun n => (n : ZMod 101)) (fun _ _ => rfl) 0 a c dA dB
    (Or.inr (Or.inl (lt_of_le_of_lt (Nat.mul_le_mul_right _ (show dA + 1 ≤ 2 by omega)) (by decide))))
  refine ⟨b, e, fun j hj => ?_⟩
  rw [hb j, if_pos hj, trunc_mul_coeff]

theorem env_no (a b s : Nat) (hs : s ≤ 2) : NoOverflow 101 env.cross a b s :=
  fun _ _ => lt_of_le_of_lt (Nat.mul_le_mul_right _ hs) (by decide)

theorem draws_order (e : Nat → ZMod 101) : Order.elementOfOrder (draws e).ord (2 * max (off (fun _ => 2) 1) (off (fun _ => 1) 2)) 100 true = some 2 := by
  have : Order.elementOfOrder (fun _ => (2 : ZMod 101)) 4 100 true = some 2 := by decide +kernel
  exact this

theorem pre2 {g : Grid 101} {M : Mosaic 101} (u : ZMod 101) (e : Nat → ZMod 101) (hg : Tiled g 2 1 (fun _ => 1) (fun _ => 2) (rows2 u)) (hM : Mosaic.make g = .ok M) :
    ∃ P U V, M.toCauchy .hankel env (draws e) = .ok (some P) ∧ PreOK env 2 2 (diag2 u) P U V 3 4 ∧ P.e = e ∧ P.f = fun _ => 1 := by
  have hm : MidOK env.mp (off (fun _ => 2) 1) := env_mid
  rcases C103_reduction hg hM full2 (diag2_mosaic u) env (draws e) env_mid hm with ⟨h1, -⟩ | ⟨-, ⟨-, h2⟩ | ⟨-, a, ea, -, h3⟩ | ⟨P, U, V, c, b, h1, hP, h3, h4, a, ea, -, hb, -, t, hc⟩⟩
  · exact absurd h1 (by decide)
  · rw [draws_order] at h2
    exact absurd h2 (by decide)
  · rw [draws_order] at ea
    obtain rfl : 2 = a := Option.some.inj ea
    have hgood : goodC (2 * 2 : ZMod 101) 2 2 3 := by
      refine ⟨by decide, fun i hi => ?_, fun i hi => ?_⟩
      · interval_cases i <;> decide
      · interval_cases i
        · decide
        · decide +kernel
    exact absurd hgood (h3 0)
  · rw [draws_order] at ea
    obtain rfl : 2 = a := Option.some.inj ea
    obtain rfl : c = 3 := hc
    obtain rfl : b = 4 := hb.trans (by decide)
    exact ⟨P, U, V, h1, hP, h3, h4⟩

theorem entry2 {u : ZMod 101} {P : Pre 101} {U V : PMat (ZMod 101)} (hP : PreOK env 2 2 (diag2 u) P U V 3 4) (i j : Nat) (hi : i < 2) (hj : j < 2) :
    clMat U V 1 3 4 i j = P.e i * (1 + u * 4 ^ i * (3 * 4 ^ j)) * P.f j := by
  rw [hP.entry i j hi hj]
  congr 2
  simp only [bivar, Finset.sum_range_succ, Finset.sum_range_zero, diag2]
  simp
  exact Or.inl (mul_comm _ _)

/-- The hypotheses of `C104_complete_partial` and `C105_succeeds_partial`: the identity matrix as a mosaic of two blocks. -/
example : ∃ g M P U V, Tiled g 2 1 (fun _ => 1) (fun _ => 2) (rows2 1) ∧ Mosaic.make g = .ok M ∧ M.toCauchy .hankel env (draws fun _ => 1) = .ok (some P) ∧
    PreOK env 2 2 (diag2 1) P U V 3 4 ∧ GenericRankProfile 2 2 (clMat U V 1 3 4) ∧ IsInv 2 (diag2 1) (diag2 1) ∧
    ∀ rnd ta, ∃ t, M.inv .hankel env (draws fun _ => 1) rnd ta = .ok (some t) ∧ Represents .hankel t 2 (diag2 1) := by
  obtain ⟨g, hg⟩ := diag2_tiled 1
  obtain ⟨M, hM, -⟩ := C102_constructor hg
  obtain ⟨P, U, V, h1, hP, h3, h4⟩ := pre2 1 (fun _ => 1) hg hM
  have hgr : GenericRankProfile 2 2 (clMat U V 1 3 4) := by
    have e1 := entry2 hP 0 0 (by omega) (by omega)
    have e2 := entry2 hP 0 1 (by omega) (by omega)
    have e3 := entry2 hP 1 0 (by omega) (by omega)
    have e4 := entry2 hP 1 1 (by omega) (by omega)
    rw [h3, h4] at e1 e2 e3 e4
    refine ⟨2, le_refl _, le_refl _, fun j hj => ?_, fun i hi => spanned_first _ hi⟩
    interval_cases j
    · intro v _ j hj; omega
    · exact nonsing_one_of (by rw [e1]; decide)
    · exact nonsing_two_of (by rw [e1, e2, e3, e4]; decide)
  have hI : IsInv 2 (diag2 1) (diag2 1) := by
    constructor <;> intro i j hi hj <;> interval_cases i <;> interval_cases j <;> decide
  exact ⟨g, M, P, U, V, hg, hM, h1, hP, hgr, hI, fun rnd ta =>
    C105_succeeds_partial (k := .hankel) hg hM full2 (diag2_mosaic 1) rfl hI env _ (fun _ _ => rfl) (fun a b s hs => env_no a b s hs) h1 hP
      (fun i _ => by rw [h3]; exact one_ne_zero) (fun i _ => by rw [h4]; exact one_ne_zero) hgr rnd ta⟩

/-- `C104_zero_draws` on the matrix with the rows `1 0` and `0 0` and the right-hand side `0 1`: if the second diagonal draw is 0, `solve` returns a vector. -/
example : ∃ g M, Tiled g 2 1 (fun _ => 1) (fun _ => 2) (rows2 0) ∧ Mosaic.make g = .ok M ∧
    (¬∃ w : Nat → ZMod 101, ∀ i, i < 2 → ∑ j ∈ Finset.range 2, diag2 0 i j * w j = if i = 1 then 1 else 0) ∧
    ∀ rnd rx ta, ∃ x, M.solve .hankel env (draws fun i => if i = 0 then 1 else 0) rnd rx ta ⟨2, fun i => if i = 1 then 1 else 0⟩ = .ok (some x) := by
  obtain ⟨g, hg⟩ := diag2_tiled 0
  obtain ⟨M, hM, -⟩ := C102_constructor hg
  obtain ⟨P, U, V, h1, hP, h3, h4⟩ := pre2 0 (fun i => if i = 0 then 1 else 0) hg hM
  refine ⟨g, M, hg, hM, ?_, fun rnd rx ta => ?_⟩
  · rintro ⟨w, hw⟩
    have := hw 1 (by omega)
    rw [Finset.sum_range_succ, Finset.sum_range_one] at this
    simp [diag2] at this
  · refine C104_zero_draws (k := .hankel) (E := diag2 0) hg hM full2 env _ (fun _ _ => rfl) (fun a b s hs => env_no a b s hs) h1 hP (fun i h0 _ => ?_) ?_ rnd rx ta _ rfl
    · rw [h3]; exact if_neg (by omega)
    · rw [entry2 hP 0 0 (by omega) (by omega), h3, h4]
      simp

end PML.Ntl.Mosaic
