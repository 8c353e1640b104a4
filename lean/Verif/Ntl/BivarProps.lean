import Verif.Ntl.BivarLemmas
import Mathlib.Algebra.Field.Rat
import Mathlib.Algebra.Polynomial.RingDivision

/-!
# C89: arithmetic of bivariate polynomials
-/

namespace PML.Ntl.Bivar

open Polynomial PML.Ntl.Utils PML.Ntl.Inv PML.Ntl.Solve PML.Ntl.Struct

variable {F : Type} [Field F]

/-- Reading an entry of an operand, which may be the output if the entry has not been overwritten. -/
theorem rd_upd {m m' : Mem F} {c L a i : Nat} {g : Nat → F[X]} (h : Upd m c L g m') (hi : i < (m a).len)
    (hal : a = c → i < L ∧ g i = (m c).at' i) : rd m' a (i : Int) = .ok ((m a).at' i) := by
  by_cases hac : a = c
  · subst hac
    obtain ⟨h1, h2⟩ := hal rfl
    rw [rd_ok (by rw [h.len]; exact h1), h.ent, h2]
  · rw [rd_ok (by rw [h.other a hac]; exact hi), h.other a hac]

theorem andThen_ok {α β : Type} (x : α) (f : α → Out β) : andThen (.ok x) f = f x := rfl

theorem divByMonic_X_pow (x : F[X]) (n : Nat) : x /ₘ X ^ n = rshift x n := by
  have hc : ∀ t, (rshift x n).coeff t = x.coeff (t + n) := by
    intro t
    rw [rshift, ofCoeffs_coeff]
    split
    · rfl
    · exact (coeff_eq_zero_of_natDegree_lt (by omega)).symm
  refine (div_modByMonic_unique (rshift x n) (ptrunc x n) (monic_X_pow n) ⟨?_, ?_⟩).1
  · ext t
    rw [coeff_add, ptrunc_coeff, mul_comm, coeff_mul_X_pow']
    by_cases h : t < n
    · rw [if_pos h, if_neg (by omega), add_zero]
    · rw [if_neg h, if_pos (by omega), zero_add, hc, Nat.sub_add_cancel (by omega)]
  · rw [degree_X_pow, degree_lt_iff_coeff_zero]
    intro t ht
    rw [ptrunc_coeff, if_neg (by omega)]

/-- `add(c, a, b)`, whichever of the variables are the same. -/
theorem C89_add (m : Mem F) (c a b : Nat) : Yields (add m c a b) m c ((m a).poly + (m b).poly) := by
  have hA : (m a).degY = ((m a).len : Int) - 1 := rfl
  have hB : (m b).degY = ((m b).len : Int) - 1 := rfl
  obtain ⟨m1, e1, h1⟩ := setLen_upd (m := m) (c := c) (n := max (m a).degY (m b).degY + 1) (by omega)
  obtain ⟨m2, e2, h2⟩ := loop_fill h1 (fun i => (m a).at' i + (m b).at' i) 0 (min (m a).degY (m b).degY) (le_refl _)
    (by omega)
    (fun i m => andThen (rd m a i) fun x => andThen (rd m b i) fun y => wr m c i (x + y))
    (by
      intro i m' _ hi h'
      have hg : ¬((0 : Int) ≤ (i : Int) ∧ i < i) := by omega
      rw [rd_upd h' (by omega) (fun _ => ⟨by omega, by rw [if_neg hg]⟩)]
      rw [andThen_ok]
      rw [rd_upd h' (by omega) (fun _ => ⟨by omega, by rw [if_neg hg]⟩), andThen_ok])
  obtain ⟨m3, e3, h3⟩ := loop_fill h2 (fun i => (m b).at' i) (min (m a).degY (m b).degY + 1) (m b).degY
    (by omega) (by omega)
    (fun i m => andThen (rd m b i) fun y => wr m c i y)
    (by
      intro i m' hl hi h'
      rw [rd_upd h' (by omega) (fun _ => ⟨by omega, by rw [if_neg (by omega), if_neg (by omega)]⟩)]
      rfl)
  obtain ⟨m4, e4, h4⟩ := loop_fill h3 (fun i => (m a).at' i) (min (m a).degY (m b).degY + 1) (m a).degY
    (by omega) (by omega)
    (fun i m => andThen (rd m a i) fun y => wr m c i y)
    (by
      intro i m' hl hi h'
      rw [rd_upd h' (by omega) (fun _ => ⟨by omega, by rw [if_neg (by omega), if_neg (by omega), if_neg (by omega)]⟩)]
      rfl)
  have he : add m c a b = .ok (norm m4 c) := by
    unfold add
    dsimp only
    rw [e1]; rw [andThen_ok]
    rw [e2]; rw [andThen_ok]
    rw [e3]; rw [andThen_ok]
    rw [e4]; rfl
  rw [he]
  refine yields_norm h4 fun k => ?_
  rw [coeff_add, poly_coeff, poly_coeff]
  split_ifs <;> first | omega | simp

/-- `sub(c, a, b)`, whichever of the variables are the same. -/
theorem C89_sub (m : Mem F) (c a b : Nat) : Yields (sub m c a b) m c ((m a).poly - (m b).poly) := by
  have hA : (m a).degY = ((m a).len : Int) - 1 := rfl
  have hB : (m b).degY = ((m b).len : Int) - 1 := rfl
  obtain ⟨m1, e1, h1⟩ := setLen_upd (m := m) (c := c) (n := max (m a).degY (m b).degY + 1) (by omega)
  obtain ⟨m2, e2, h2⟩ := loop_fill h1 (fun i => (m a).at' i - (m b).at' i) 0 (min (m a).degY (m b).degY) (le_refl _)
    (by omega)
    (fun i m => andThen (rd m a i) fun x => andThen (rd m b i) fun y => wr m c i (x - y))
    (by
      intro i m' _ hi h'
      have hg : ¬((0 : Int) ≤ (i : Int) ∧ i < i) := by omega
      rw [rd_upd h' (by omega) (fun _ => ⟨by omega, by rw [if_neg hg]⟩)]
      rw [andThen_ok]
      rw [rd_upd h' (by omega) (fun _ => ⟨by omega, by rw [if_neg hg]⟩), andThen_ok])
  obtain ⟨m3, e3, h3⟩ := loop_fill h2 (fun i => -(m b).at' i) (min (m a).degY (m b).degY + 1) (m b).degY
    (by omega) (by omega)
    (fun i m => andThen (rd m b i) fun y => wr m c i (-y))
    (by
      intro i m' hl hi h'
      rw [rd_upd h' (by omega) (fun _ => ⟨by omega, by rw [if_neg (by omega), if_neg (by omega)]⟩)]
      rfl)
  obtain ⟨m4, e4, h4⟩ := loop_fill h3 (fun i => (m a).at' i) (min (m a).degY (m b).degY + 1) (m a).degY
    (by omega) (by omega)
    (fun i m => andThen (rd m a i) fun y => wr m c i y)
    (by
      intro i m' hl hi h'
      rw [rd_upd h' (by omega) (fun _ => ⟨by omega, by rw [if_neg (by omega), if_neg (by omega), if_neg (by omega)]⟩)]
      rfl)
  have he : sub m c a b = .ok (norm m4 c) := by
    unfold sub
    dsimp only
    rw [e1]; rw [andThen_ok]
    rw [e2]; rw [andThen_ok]
    rw [e3]; rw [andThen_ok]
    rw [e4]; rfl
  rw [he]
  refine yields_norm h4 fun k => ?_
  rw [coeff_sub, poly_coeff, poly_coeff]
  split_ifs <;> first | omega | simp

/-- `shift_x(b, a, i)`: product by `X^i`, or quotient of all coefficients by `X^(-i)`, also in place. -/
theorem C89_shift_x (m : Mem F) (b a : Nat) (i : Int) :
    Yields (shiftX m b a i) m b (if 0 ≤ i then C (X ^ i.toNat) * (m a).poly
      else ∑ k ∈ Finset.range (m a).len, C ((m a).at' k /ₘ X ^ (-i).toNat) * X ^ k) := by
  have hA : (m a).degY = ((m a).len : Int) - 1 := rfl
  obtain ⟨m1, e1, h1⟩ := setLen_upd (m := m) (c := b) (n := (m a).degY + 1) (by omega)
  obtain ⟨m2, e2, h2⟩ := loop_fill h1 (fun k => if 0 ≤ i then (m a).at' k * X ^ i.toNat else rshift ((m a).at' k) (-i).toNat)
    0 (m a).degY (le_refl _) (by omega)
    (fun j m => andThen (rd m a j) fun x => wr m b j (if 0 ≤ i then x * X ^ i.toNat else rshift x (-i).toNat))
    (by
      intro i m' _ hi h'
      rw [rd_upd h' (by omega) (fun _ => ⟨by omega, by rw [if_neg (by omega)]⟩)]
      rfl)
  have he : shiftX m b a i = .ok (norm m2 b) := by
    unfold shiftX
    dsimp only
    rw [e1]; rw [andThen_ok]
    by_cases hi : 0 ≤ i
    · simp only [if_pos hi] at e2 ⊢
      rw [e2]; rfl
    · simp only [if_neg hi] at e2 ⊢
      rw [e2]; rfl
  rw [he]
  refine yields_norm h2 fun k => ?_
  have hL : ((m a).degY + 1).toNat = (m a).len := by omega
  rw [hL]
  by_cases hi : 0 ≤ i
  · simp only [if_pos hi]
    rw [coeff_C_mul, poly_coeff]
    by_cases hk : k < (m a).len
    · rw [if_pos hk, if_pos hk, if_pos (by omega), mul_comm]
    · rw [if_neg hk, if_neg hk, mul_zero]
  · simp only [if_neg hi]
    rw [show (∑ k ∈ Finset.range (m a).len, C ((m a).at' k /ₘ X ^ (-i).toNat) * X ^ k : Polynomial F[X]) =
      ofCoeffs (m a).len fun k => (m a).at' k /ₘ X ^ (-i).toNat from rfl, ofCoeffs_coeff]
    by_cases hk : k < (m a).len
    · rw [if_pos hk, if_pos hk, if_pos (by omega), divByMonic_X_pow]
    · rw [if_neg hk, if_neg hk]

end PML.Ntl.Bivar
