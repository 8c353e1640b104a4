import Verif.Ntl.MatMulLemmas
import Verif.Ntl.MatMulSpec
import Verif.Common.Prime
import Mathlib.Tactic.IntervalCases

/-!
# C67: products of polynomial matrices without evaluation
-/

namespace PML.Ntl.MatMul

open Polynomial PML.Ntl.Utils

variable {R : Type} [CommRing R]

/-- **C67 (naive)**. `multiply_naive`: with matching inner dimension, at least 1, the output is the product. -/
theorem C67_naive (a b : PMat R[X]) (hab : a.cols = b.rows) (h0 : 0 < a.cols) :
    ∃ c, naive a b = some c ∧ IsProduct a b c := by
  unfold naive
  dsimp only
  rw [if_neg (by omega)]
  · refine ⟨_, rfl, rfl, rfl, fun i j hi hj => ?_⟩
    refine (loop2_at _ _ (fun i j => forN (a.cols - 1) (fun k acc => acc + a.e (i, k + 1) * b.e (k + 1, j))
      (a.e (i, 0) * b.e (0, j))) _ i j hi hj).trans ?_
    exact forN_sum_from (fun k => a.e (i, k) * b.e (k, j)) a.cols h0

/-- **C67 (naive, no column)**. A product `s x 0` times `0 x u`, which is the zero `s x u` matrix, reads
    outside of the arrays. -/
theorem C67_naive_no_columns_fails (a b : PMat R[X]) (ha : a.cols = 0) (hs : 0 < a.rows) (hu : 0 < b.cols) :
    naive a b = none := by
  unfold naive
  dsimp only
  rw [if_pos (by omega)]

/-- **C67 (Waksman)**. `multiply_waksman`: if 2 is invertible, or the modulus is 2, or there is one
    column, the output is the product, whatever the parity of the inner dimension. -/
theorem C67_waksman (pm : Nat) (inv2 : Option R) (h2 : pm = 2 ∨ ∃ i, inv2 = some i ∧ 2 * i = 1) (a b : PMat R[X])
    (hab : a.cols = b.rows) (h0 : 0 < a.cols) (hm : 0 < a.rows) (hp : 0 < b.cols) :
    ∃ c, waksman pm inv2 a b = some c ∧ IsProduct a b c := by
  unfold waksman
  dsimp only
  by_cases h : pm = 2 ∨ a.cols < 2
  · rw [if_pos h]
    exact C67_naive a b hab h0
  · rw [if_neg h, if_neg (by omega)]
    obtain ⟨i2, rfl, hi⟩ : ∃ i, inv2 = some i ∧ 2 * i = 1 := by
      rcases h2 with h2 | h2
      · exact absurd (Or.inl h2) h
      · exact h2
    refine ⟨_, rfl, rfl, rfl, fun l k hl hk => ?_⟩
    have hw := wakPasses_spec a.e b.e a.rows b.cols hm hp ⟨fun _ => 0, fun _ => 0, fun _ => 0⟩ (a.cols / 2 - 1)
    rw [show a.cols / 2 - 1 + 1 = a.cols / 2 by omega] at hw
    have core := wak_core a.e b.e a.rows b.cols (a.cols / 2) i2 hi _ hw
    dsimp only
    generalize wakRows i2 a.rows b.cols _ = c at core ⊢
    by_cases hodd : a.cols % 2 = 1
    · rw [if_pos hodd, loop2_spec _ _ _ (fun i j x y h => by rw [h]) _ l k, if_pos ⟨hl, hk⟩]
      rw [core l k hl hk]
      have : a.cols = 2 * (a.cols / 2) + 1 := by omega
      conv_rhs => rw [this, Finset.sum_range_succ]
      rw [show a.cols - 1 = 2 * (a.cols / 2) by omega]
    · rw [if_neg hodd, core l k hl hk, show 2 * (a.cols / 2) = a.cols by omega]

/-- **C67 (Waksman, even composite modulus)**. When 2 has no inverse, the modulus is not 2 and there are
    two columns or more, there is no output: `inv(to_zz_p(2))` is an error. -/
theorem C67_waksman_no_half (pm : Nat) (hpm : pm ≠ 2) (a b : PMat R[X]) (hn : 2 ≤ a.cols) :
    waksman pm (none : Option R) a b = none := by
  unfold waksman
  dsimp only
  rw [if_neg (by omega)]
  split_ifs <;> rfl

/-- A transform that is correct on polynomials of length `T.m` multiplies matrices of that length. -/
theorem transformMul_ok (T : Transform R) (hT : T.OK) (hn : 0 < T.n) (a b : PMat R[X]) (hab : a.cols = b.rows)
    (ha : ∀ i k, i < a.rows → k < a.cols → ∀ d, T.m ≤ d → (a.e (i, k)).coeff d = 0)
    (hb : ∀ k j, k < b.rows → j < b.cols → ∀ d, T.m ≤ d → (b.e (k, j)).coeff d = 0) :
    ∃ c, transformMul T a b = some c ∧ IsProduct a b c := by
  unfold transformMul
  dsimp only
  rw [if_neg (by omega), if_neg (by omega)]
  refine ⟨_, rfl, rfl, rfl, fun i j hi hj => ?_⟩
  refine (loop2_at _ _ (fun i k => T.back fun t => ∑ q ∈ Finset.range a.cols, T.left (a.e (i, q)) t * T.right (b.e (q, k)) t)
    _ i j hi hj).trans ?_
  exact hT.sum (fun k => a.e (i, k)) (fun k => b.e (k, j)) a.cols (fun k d hk hd => ha i k hi hk d hd)
    fun k d hk hd => hb k j (by omega) hj d hd

theorem coeff_of_deg {a : PMat R[X]} {m : Nat} (h : deg a < m) (i k : Nat) (hi : i < a.rows) (hk : k < a.cols) (d : Nat)
    (hd : m ≤ d) : (a.e (i, k)).coeff d = 0 := by
  exact (deg_lt_iff a m).1 h i k hi hk d hd

/-- **C67 (transforms)**. `multiply_transform(c, a, b, len)`: for matrices of degree less than `len`,
    not both zero, the output is the product, for every length (Karatsuba 2 and 4, Montgomery 3, naive
    transform otherwise). -/
theorem C67_transform (len : Nat) (a b : PMat R[X]) (hab : a.cols = b.rows) (ha : deg a < len) (hb : deg b < len)
    (hnz : 0 ≤ max (deg a) (deg b)) :
    ∃ c, transform len a b = some c ∧ IsProduct a b c := by
  unfold transform
  split_ifs with h2 h3 h4
  · subst h2
    exact transformMul_ok _ trsKaratsuba_ok (by show 0 < 3; omega) a b hab (coeff_of_deg ha) (coeff_of_deg hb)
  · subst h3
    exact transformMul_ok _ trsMontgomery3_ok (by show 0 < 6; omega) a b hab (coeff_of_deg ha) (coeff_of_deg hb)
  · subst h4
    exact transformMul_ok _ trsKaratsuba4_ok (by show 0 < 9; omega) a b hab (coeff_of_deg ha) (coeff_of_deg hb)
  · unfold transformNaive
    have hm : 0 < (max (deg a) (deg b) + 1).toNat := by omega
    exact transformMul_ok _ (trsNaive_ok _) (by show 0 < _ * _; positivity) a b hab
      (coeff_of_deg (show deg a < ((max (deg a) (deg b) + 1).toNat : Int) by omega))
      (coeff_of_deg (show deg b < ((max (deg a) (deg b) + 1).toNat : Int) by omega))

/-- **C67 (transforms, degree too large)**: the bound on the degrees is needed.  With `len = 2`, the
    product of `(x^2)` by `(1)` comes out as zero. -/
theorem C67_transform_needs_degree :
    ∃ a b c : PMat (ZMod 5)[X], a.cols = b.rows ∧ transform 2 a b = some c ∧ ¬IsProduct a b c := by
  refine ⟨⟨1, 1, fun _ => X ^ 2⟩, ⟨1, 1, fun _ => 1⟩, _, rfl, rfl, ?_⟩
  rintro ⟨-, -, h⟩
  have h := congrArg (fun P => coeff P 2) (h 0 0 (by show 0 < 1; omega) (by show 0 < 1; omega))
  dsimp only at h
  rw [loop2_at _ _ (fun i k => trsKaratsuba.back fun j => ∑ q ∈ Finset.range 1, trsKaratsuba.left (X ^ 2 : (ZMod 5)[X]) j *
    trsKaratsuba.right (1 : (ZMod 5)[X]) j) _ 0 0 (by omega) (by omega)] at h
  simp [trsKaratsuba, setC_coeff, arr, coeff_X_pow, coeff_one] at h

/-- **C67 (naive transform, zero matrices)**. `multiply_transform_naive` of two zero matrices returns a
    `0 x 0` matrix instead of the `s x u` zero matrix. -/
theorem C67_transform_naive_zero_wrong (a b : PMat R[X]) (ha : deg a = -1) (hb : deg b = -1) (hs : 0 < a.rows) :
    ∃ c, transformNaive a b = some c ∧ c.rows = 0 ∧ ¬IsProduct a b c := by
  refine ⟨⟨0, 0, fun _ => 0⟩, ?_, rfl, fun h => ?_⟩
  · unfold transformNaive transformMul
    rw [ha, hb]
    rfl
  · have := h.1
    dsimp only at this
    omega

/-! ### The hypotheses are met -/

/-- A product of two `2 x 2` matrices of degree 1 meets the hypotheses of the naive and Waksman
    algorithms, 2 having the inverse 3 modulo 5. -/
example : ∃ a b : PMat (ZMod 5)[X], a.cols = b.rows ∧ 0 < a.cols ∧ 0 < a.rows ∧ 0 < b.cols ∧
    (∃ i : ZMod 5, some (3 : ZMod 5) = some i ∧ 2 * i = 1) ∧ a.e (0, 0) ≠ 0 :=
  ⟨⟨2, 2, fun x => if x.1 = x.2 then X else 1⟩, ⟨2, 2, fun x => X + C (x.1 : ZMod 5)⟩, rfl, by decide, by decide, by decide,
    ⟨3, rfl, by decide⟩, by simp⟩

/-- Degrees less than 2, nonzero: the matrix `(x)`. -/
example : ∃ a : PMat (ZMod 5)[X], a.cols = a.rows ∧ deg a < (2 : Nat) ∧ 0 ≤ max (deg a) (deg a) := by
  refine ⟨⟨1, 1, fun _ => X⟩, rfl, ?_, ?_⟩
  · rw [deg_lt_iff]
    intro i j _ _
    intro k hk
    show (X : (ZMod 5)[X]).coeff k = 0
    rw [coeff_X, if_neg (by omega)]
  · by_contra h
    have h0 : deg (⟨1, 1, fun _ => X⟩ : PMat (ZMod 5)[X]) = -1 := by
      have := (deg_spec (⟨1, 1, fun _ => X⟩ : PMat (ZMod 5)[X])).1
      omega
    rw [deg_neg_iff] at h0
    exact X_ne_zero (h0 0 0 (by show 0 < 1; omega) (by show 0 < 1; omega))

end PML.Ntl.MatMul
