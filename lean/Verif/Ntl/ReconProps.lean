import Verif.Ntl.ReconSpec
import Verif.Ntl.ReconModel
import Verif.Ntl.IntbasProps
import Verif.Ntl.KerbasLemmas
import Verif.Kernel.Theory
import Verif.Ntl.OneColLoop
import Verif.Ntl.BivarRes

/-!
# C109: matrix reconstruction by interpolation
-/

namespace PML.Ntl.Recon

open Polynomial Matrix PML.Ntl.Utils PML.Ntl.Inv PML.Ntl.Solve PML.Ntl.Mbasis PML.Ntl.Intbas PML.Approx PML.Approx.Spec PML.Forms.Spec
open PML.Ntl.Kerbas (hasPivot_of_lower lower_of_hasPivot)

variable {F : Type} [Field F] [DecidableEq F]

/-- The vector `(p, -q)`. -/
noncomputable def glue (m : Nat) (p q : Nat → F[X]) : Nat → F[X] := fun l => if l < m then p l else -q (l - m)

theorem sum_two (m : Nat) (f : Nat → F) : ∑ l : Fin (2 * m), f l = ∑ l ∈ Finset.range m, f l + ∑ l ∈ Finset.range m, f (m + l) := by
  rw [Fin.sum_univ_eq_sum_range f (2 * m), two_mul, Finset.sum_range_add]

/-- The matrices with the identity at the bottom. -/
def bottom (m : Nat) (S : Nat → Nat → Nat → F) : Nat → Matrix (Fin (2 * m)) (Fin m) F :=
  fun k i j => if (i : Nat) < m then S k i j else if (i : Nat) = m + j then 1 else 0

theorem interp_iff (m : Nat) (S : Nat → Nat → Nat → F) (x : Nat → F) (d : Nat) (v : Nat → F[X]) :
    IsInterpolant (bottom m S) x d (fun l : Fin (2 * m) => v l) ↔
      ∀ k, k < d → ∀ c, c < m → ∑ l ∈ Finset.range m, (v l).eval (x k) * S k l c + (v (m + c)).eval (x k) = 0 := by
  have key : ∀ k (c : Fin m), ∑ l : Fin (2 * m), (v l).eval (x k) * bottom m S k l c =
      ∑ l ∈ Finset.range m, (v l).eval (x k) * S k l c + (v (m + c)).eval (x k) := fun k c => by
    refine (sum_two m fun l => (v l).eval (x k) * if l < m then S k l c else if l = m + c then 1 else 0).trans ?_
    congr 1
    · refine Finset.sum_congr rfl fun l hl => ?_
      rw [if_pos (Finset.mem_range.1 hl)]
    · rw [Finset.sum_eq_single (c : Nat)]
      · rw [if_neg (by omega), if_pos rfl, mul_one]
      · intro l _ hne
        rw [if_neg (by omega), if_neg (by omega), mul_zero]
      · intro h
        exact absurd (Finset.mem_range.2 c.2) h
  constructor
  · intro h k hk c hc
    rw [← key k ⟨c, hc⟩]
    exact h k hk ⟨c, hc⟩
  · intro h k hk c
    rw [key k c]
    exact h k hk c c.2

variable {m d : Nat} {S : Nat → Nat → Nat → F} {x : Nat → F} {N D : Nat → Nat → F[X]} {e : Nat → Nat}

/-- Row times the values of `D`. -/
theorem row_value (h : IsFraction m S x d N D e) (p r : Nat → F[X]) (k : Nat) (hk : k < d) (j : Nat) (hj : j < m) :
    ∑ c ∈ Finset.range m, (∑ l ∈ Finset.range m, (p l).eval (x k) * S k l c + (r c).eval (x k)) * (D c j).eval (x k) =
      (∑ l ∈ Finset.range m, p l * N l j + ∑ l ∈ Finset.range m, r l * D l j).eval (x k) := by
  rw [eval_add, eval_finsetSum, eval_finsetSum]
  simp only [eval_mul, add_mul, Finset.sum_add_distrib]
  congr 1
  simp only [Finset.sum_mul]
  rw [Finset.sum_comm]
  refine Finset.sum_congr rfl fun l hl => ?_
  rw [← h.value k hk l j (Finset.mem_range.1 hl) hj, Finset.mul_sum]
  exact Finset.sum_congr rfl fun c _ => mul_assoc _ _ _

/-- A denominator with its numerator is an interpolant. -/
theorem den_interp (h : IsFraction m S x d N D e) {p q : Nat → F[X]}
    (hpq : ∀ j, j < m → ∑ l ∈ Finset.range m, p l * N l j = ∑ l ∈ Finset.range m, q l * D l j) :
    IsInterpolant (bottom m S) x d (fun l : Fin (2 * m) => glue m p q l) := by
  rw [interp_iff]
  intro k hk c hc
  have := h.regular k hk (fun c => ∑ l ∈ Finset.range m, (p l).eval (x k) * S k l c + (-q c).eval (x k)) (fun j hj => by
    rw [row_value h p (fun c => -q c) k hk j hj, hpq j hj]
    simp only [neg_mul, Finset.sum_neg_distrib, add_neg_cancel, eval_zero]) c hc
  rw [← this]
  congr 1
  · refine Finset.sum_congr rfl fun l hl => ?_
    unfold glue
    rw [if_pos (Finset.mem_range.1 hl)]
  · unfold glue
    rw [if_neg (by omega), Nat.add_sub_cancel_left]

theorem coeff_mul_high {p q : F[X]} {a b c : Nat} (hp : p.natDegree ≤ a) (hq : ∀ k, b ≤ k → q.coeff k = 0) (hc : a + b ≤ c) : (p * q).coeff c = 0 := by
  rw [coeff_mul]
  refine Finset.sum_eq_zero fun y hy => ?_
  have hy := Finset.mem_antidiagonal.1 hy
  by_cases h1 : a < y.1
  · rw [coeff_eq_zero_of_natDegree_lt (by omega), zero_mul]
  · rw [hq y.2 (by omega), mul_zero]

/-- The numerator has a smaller degree. -/
theorem num_degree (h : IsFraction m S x d N D e) {p q : Nat → F[X]} {δ : Nat} (hp : ∀ l, l < m → (p l).natDegree ≤ δ)
    (hpq : ∀ j, j < m → ∑ l ∈ Finset.range m, p l * N l j = ∑ l ∈ Finset.range m, q l * D l j) (l : Nat) (hl : l < m) (hq : q l ≠ 0) :
    (q l).natDegree < δ := by
  classical
  obtain ⟨a, ha, hmax⟩ := Finset.exists_max_image ((Finset.range m).filter fun l => q l ≠ 0) (fun l => (q l).natDegree) ⟨l, by simp [hl, hq]⟩
  have ha' : a < m ∧ q a ≠ 0 := by simpa using ha
  have hle : ∀ c, c < m → (q c).natDegree ≤ (q a).natDegree := fun c hc => by
    by_cases h0 : q c = 0
    · rw [h0, natDegree_zero]; omega
    · exact hmax c (by simp [hc, h0])
  by_contra hcon
  have hE : δ ≤ (q a).natDegree := (not_lt.1 hcon).trans (hle l hl)
  have := h.reduced (fun c => (q c).coeff (q a).natDegree) (fun j hj => by
    have h1 := congrArg (fun f : F[X] => f.coeff ((q a).natDegree + e j)) (hpq j hj)
    simp only [finsetSum_coeff] at h1
    rw [Finset.sum_eq_zero fun c hc => coeff_mul_high (hp c (Finset.mem_range.1 hc)) (h.proper c j (Finset.mem_range.1 hc) hj) (by omega)] at h1
    rw [h1]
    refine Finset.sum_congr rfl fun c hc => ?_
    exact (coeff_mul_add_eq_of_natDegree_le (hle c (Finset.mem_range.1 hc)) (h.degree c j (Finset.mem_range.1 hc) hj)).symm) a ha'.1
  exact ha'.2 (leadingCoeff_eq_zero.1 this)

theorem glue_pivot (h : IsFraction m S x d N D e) {p q : Nat → F[X]} {i δ : Nat} (hp : PivotLower m (fun _ => 0) p i δ)
    (hpq : ∀ j, j < m → ∑ l ∈ Finset.range m, p l * N l j = ∑ l ∈ Finset.range m, q l * D l j) :
    PivotLower (2 * m) (fun _ => 0) (glue m p q) i δ := by
  have hi := hp.lt
  have hdeg : ∀ l, l < m → (p l).natDegree ≤ δ := fun l hl => by
    by_cases h0 : p l = 0
    · rw [h0, natDegree_zero]; omega
    · have := hp.le l hl h0; omega
  have e1 : ∀ l, l < m → glue m p q l = p l := fun l hl => if_pos hl
  have e2 : ∀ l, ¬l < m → glue m p q l = -q (l - m) := fun l hl => if_neg hl
  have hlt : ∀ l, l < 2 * m → ¬l < m → glue m p q l ≠ 0 → (glue m p q l).natDegree < δ := fun l hl hlm hne => by
    rw [e2 l hlm] at hne ⊢
    rw [natDegree_neg]
    exact num_degree h hdeg hpq (l - m) (by omega) (neg_ne_zero.1 hne)
  refine ⟨by omega, by rw [e1 i hi]; exact hp.nonzero, by rw [e1 i hi]; exact hp.degree, fun l hl hne => ?_, fun l hl hil hne => ?_⟩
  · by_cases hlm : l < m
    · rw [e1 l hlm] at hne ⊢; exact hp.le l hlm hne
    · have := hlt l hl hlm hne; omega
  · by_cases hlm : l < m
    · rw [e1 l hlm] at hne ⊢; exact hp.after l hlm hil hne
    · have := hlt l hl hlm hne; omega

/-- An interpolant of small degree is a denominator with its numerator. -/
theorem interp_den (h : IsFraction m S x d N D e) (hx : DistinctPts x 0 d) {v : Nat → F[X]} {i δ : Nat} (hi : i < m)
    (hv : PivotLower (2 * m) (fun _ => 0) v i δ) (hδ : ∀ j, j < m → δ + e j ≤ d)
    (hint : IsInterpolant (bottom m S) x d (fun l : Fin (2 * m) => v l)) : IsLeftDen m N D v := by
  rw [interp_iff] at hint
  refine ⟨fun l => -v (m + l), fun j hj => ?_⟩
  have hz : ∑ l ∈ Finset.range m, v l * N l j + ∑ l ∈ Finset.range m, v (m + l) * D l j = 0 := by
    set f := ∑ l ∈ Finset.range m, v l * N l j + ∑ l ∈ Finset.range m, v (m + l) * D l j with hf
    by_contra hne
    have hco : ∀ c, δ + e j ≤ c → f.coeff c = 0 := fun c hc => by
      rw [hf, coeff_add, finsetSum_coeff, finsetSum_coeff, Finset.sum_eq_zero, Finset.sum_eq_zero, add_zero]
      · intro l hl
        have hl := Finset.mem_range.1 hl
        by_cases h0 : v (m + l) = 0
        · rw [h0, zero_mul, coeff_zero]
        · have h1 := hv.after (m + l) (by omega) (by omega) h0
          refine coeff_eq_zero_of_natDegree_lt (lt_of_le_of_lt natDegree_mul_le ?_)
          have := h.degree l j hl hj
          omega
      · intro l hl
        have hl := Finset.mem_range.1 hl
        by_cases h0 : v l = 0
        · rw [h0, zero_mul, coeff_zero]
        · have h1 := hv.le l (by omega) h0
          exact coeff_mul_high (show (v l).natDegree ≤ δ by omega) (h.proper l j hl hj) hc
    have hdeg : f.natDegree < d := by
      by_contra hc
      exact hne (leadingCoeff_eq_zero.1 (hco _ (by have := hδ j hj; omega)))
    refine hne (eq_zero_of_natDegree_lt_card_of_eval_eq_zero f (f := fun k : Fin d => x k) (fun a b hab => ?_) (fun k => ?_) (by rw [Fintype.card_fin]; exact hdeg))
    · exact Fin.ext (hx a b a.2 b.2 (by simpa using hab))
    · rw [hf, ← row_value h v (fun l => v (m + l)) k k.2 j hj]
      refine Finset.sum_eq_zero fun c hc => ?_
      rw [hint k k.2 c (Finset.mem_range.1 hc), zero_mul]
  rw [eq_neg_of_add_eq_zero_left hz, ← Finset.sum_neg_distrib]
  exact Finset.sum_congr rfl fun l _ => (neg_mul _ _).symm

/-- The extension of a vector by zero. -/
noncomputable def ext (m : Nat) (p : Fin m → F[X]) : Nat → F[X] := fun l => if h : l < m then p ⟨l, h⟩ else 0

theorem IsLeftDen.congr {p p' : Nat → F[X]} (h : IsLeftDen m N D p) (hp : ∀ l, l < m → p l = p' l) : IsLeftDen m N D p' := by
  obtain ⟨q, hq⟩ := h
  refine ⟨q, fun j hj => ?_⟩
  rw [← hq j hj]
  exact Finset.sum_congr rfl fun l hl => by rw [hp l (Finset.mem_range.1 hl)]

theorem ext_fin (m : Nat) (p : Nat → F[X]) (l : Nat) (hl : l < m) : ext m (fun i : Fin m => p i) l = p l := dif_pos hl

/-- The module of the denominators. -/
noncomputable def denModule (m : Nat) (N D : Nat → Nat → F[X]) : Submodule F[X] (Fin m → F[X]) where
  carrier := {p | IsLeftDen m N D (ext m p)}
  add_mem' := by
    rintro a b ⟨q, hq⟩ ⟨r, hr⟩
    refine ⟨fun l => q l + r l, fun j hj => ?_⟩
    simp only [add_mul, Finset.sum_add_distrib]
    rw [← hq j hj, ← hr j hj, ← Finset.sum_add_distrib]
    refine Finset.sum_congr rfl fun l hl => ?_
    have hl := Finset.mem_range.1 hl
    unfold ext
    rw [dif_pos hl, dif_pos hl, dif_pos hl, Pi.add_apply, add_mul]
  zero_mem' := ⟨fun _ => 0, fun j hj => by
    rw [Finset.sum_eq_zero, Finset.sum_eq_zero]
    · intro l _; rw [zero_mul]
    · intro l hl
      unfold ext
      rw [dif_pos (Finset.mem_range.1 hl), Pi.zero_apply, zero_mul]⟩
  smul_mem' := by
    rintro c a ⟨q, hq⟩
    refine ⟨fun l => c * q l, fun j hj => ?_⟩
    simp only [mul_assoc]
    rw [← Finset.mul_sum, ← hq j hj, Finset.mul_sum]
    refine Finset.sum_congr rfl fun l hl => ?_
    have hl := Finset.mem_range.1 hl
    unfold ext
    rw [dif_pos hl, dif_pos hl, Pi.smul_apply, smul_eq_mul, mul_assoc]

/-- The top left block of a minimal interpolant basis is a basis of the denominators. -/
theorem block_basis (h : IsFraction m S x d N D e) (hx : DistinctPts x 0 d) {P : PMat F[X]} {t : Nat → Int}
    (hP : IsMinInt (bottom m S) x d (fun _ => 0) P t) (dd : Nat → Nat)
    (hdd : ∀ i, i < m → ∃ p, IsLeftDen m N D p ∧ PivotLower m (fun _ => 0) p i (dd i) ∧ ∀ j, j < m → dd i + e j ≤ d) :
    (∀ i, i < m → PivotLower m (fun _ => 0) (fun j => P.e (i, j)) i (t i).toNat ∧
      ∀ p δ, IsLeftDen m N D p → PivotLower m (fun _ => 0) p i δ → (t i).toNat ≤ δ) ∧
    ∀ p, IsLeftDen m N D p ↔ ∃ u : Nat → F[X], ∀ j, j < m → p j = ∑ i ∈ Finset.range m, u i * P.e (i, j) := by
  have hpiv : ∀ i, i < 2 * m → PivotLower (2 * m) (fun _ => 0) (fun j => P.e (i, j)) i (t i).toNat := fun i hi => by
    have := hP.pivot i hi
    simpa using this
  have hPiv : Pivots (fun _ : Fin (2 * m) => 0) (mat (2 * m) (2 * m) P) (fun i => ((t i).toNat : Int)) id :=
    ⟨fun i => by
      have := hasPivot_of_lower (hpiv i i.2)
      rw [add_zero] at this
      exact this, strictMono_id⟩
  -- minimality
  have hmin : ∀ p i δ, IsLeftDen m N D p → PivotLower m (fun _ => 0) p i δ → (t i).toNat ≤ δ := by
    rintro p i δ ⟨q, hq⟩ hp
    obtain ⟨u, hu⟩ := (hP.basis.generates _).1 (den_interp h hq)
    have hg := hasPivot_of_lower (glue_pivot h hp hq)
    rw [hu] at hg
    obtain ⟨i', hi', -, hle⟩ := hPiv.of_mem hg
    have : i' = ⟨i, by have := hp.lt; omega⟩ := hi'
    rw [this] at hle
    simpa using hle
  -- rows
  have hrow : ∀ i, i < m → IsLeftDen m N D fun j => P.e (i, j) := fun i hi => by
    obtain ⟨p, hp1, hp2, hp3⟩ := hdd i hi
    have hle := hmin p i _ hp1 hp2
    refine interp_den h hx hi (hpiv i (by omega)) (fun j hj => by have := hp3 j hj; omega) ?_
    refine (hP.basis.generates _).2 ⟨Pi.single ⟨i, by omega⟩ 1, ?_⟩
    rw [Matrix.single_one_vecMul]
    rfl
  have hpm : ∀ i, i < m → PivotLower m (fun _ => 0) (fun j => P.e (i, j)) i (t i).toNat := fun i hi => by
    have hq := hpiv i (by omega)
    exact ⟨hi, hq.nonzero, hq.degree, fun j hj => hq.le j (by omega), fun j hj => hq.after j (by omega)⟩
  refine ⟨fun i hi => ?_, fun p => ⟨fun hp => ?_, ?_⟩⟩
  · exact ⟨hpm i hi, fun p δ hp hpp => hmin p i δ hp hpp⟩
  · obtain ⟨u, hu⟩ := Kernel.generates_of_pivots (s := fun _ : Fin m => 0) (M := denModule m N D) (P := mat m m P) (t := fun i => ((t i).toNat : Int)) (ρ := id)
      (fun i => by
        have := hasPivot_of_lower (hpm i i.2)
        rw [add_zero] at this
        exact this)
      (fun i => (hrow i i.2).congr fun l hl => (ext_fin m (fun j => P.e (i, j)) l hl).symm)
      (fun v hv D' π hvp => by
        refine ⟨π, rfl, ?_⟩
        have hvp' : HasPivot (fun _ : Fin m => 0) (fun i : Fin m => ext m v i) D' π := by
          have : (fun i : Fin m => ext m v i) = v := funext fun i => dif_pos i.2
          rw [this]; exact hvp
        have hl := (lower_of_hasPivot (s := fun _ => 0) hvp').1
        have := hmin _ _ _ hv hl
        have hge := hvp.ge
        change (((t (π : Nat)).toNat : Nat) : Int) ≤ D'
        omega) (fun i : Fin m => p i) (hp.congr fun l hl => (ext_fin m p l hl).symm)
    refine ⟨ext m u, fun j hj => ?_⟩
    have := congrFun hu ⟨j, hj⟩
    change p j = ∑ i : Fin m, u i * P.e ((i : Nat), j) at this
    rw [this, ← Fin.sum_univ_eq_sum_range (fun i => ext m u i * P.e (i, j)) m]
    exact Finset.sum_congr rfl fun i _ => by rw [show ext m u i = u i from dif_pos i.2]
  · rintro ⟨u, hu⟩
    choose! q hq using hrow
    refine ⟨fun l => ∑ i ∈ Finset.range m, u i * q i l, fun j hj => ?_⟩
    have e1 : ∑ l ∈ Finset.range m, p l * N l j = ∑ i ∈ Finset.range m, u i * ∑ l ∈ Finset.range m, P.e (i, l) * N l j := by
      simp only [Finset.mul_sum]
      rw [Finset.sum_comm]
      refine Finset.sum_congr rfl fun l hl => ?_
      rw [hu l (Finset.mem_range.1 hl), Finset.sum_mul]
      exact Finset.sum_congr rfl fun i _ => mul_assoc _ _ _
    rw [e1]
    have e2 : ∀ i ∈ Finset.range m, u i * ∑ l ∈ Finset.range m, P.e (i, l) * N l j = u i * ∑ l ∈ Finset.range m, q i l * D l j := fun i hi => by
      rw [hq i (Finset.mem_range.1 hi) j hj]
    rw [Finset.sum_congr rfl e2]
    simp only [Finset.mul_sum, Finset.sum_mul]
    rw [Finset.sum_comm]
    exact Finset.sum_congr rfl fun l _ => Finset.sum_congr rfl fun i _ => (mul_assoc _ _ _).symm

theorem write_at {ι α : Type} [DecidableEq ι] (i : ι) (w : α) (x : ι → α) (j : ι) : write i w x j = if j = i then w else x j := by
  unfold write
  exact Function.update_apply _ _ _ _

theorem inner_e (m j : Nat) (e : Nat × Nat → Nat → F) : ∀ n, n ≤ m → ∀ a b c,
    forN n (fun i (e : Nat × Nat → Nat → F) => write (j, m + i) (write i 1 (e (j, m + i))) e) e (a, b) c =
      if a = j ∧ b = m + c ∧ c < n then 1 else e (a, b) c
  | 0, _, a, b, c => by rw [if_neg (by omega)]; rfl
  | n + 1, hn, a, b, c => by
    have ih := inner_e m j e n (by omega)
    rw [OneCol.forN_succ, write_at]
    by_cases h : (a, b) = (j, m + n)
    · obtain ⟨rfl, rfl⟩ := Prod.mk.inj h
      rw [if_pos rfl, write_at]
      by_cases hc : c = n
      · subst hc
        rw [if_pos rfl, if_pos ⟨rfl, rfl, by omega⟩]
      · rw [if_neg hc, ih, if_neg (by omega), if_neg (by omega)]
    · rw [if_neg h, ih]
      have : (a = j ∧ b = m + c ∧ c < n + 1) ↔ (a = j ∧ b = m + c ∧ c < n) := by
        constructor
        · rintro ⟨rfl, rfl, h3⟩
          refine ⟨rfl, rfl, ?_⟩
          rcases Nat.lt_or_eq_of_le (Nat.lt_succ_iff.1 h3) with h4 | rfl
          · exact h4
          · exact absurd rfl h
        · rintro ⟨h1, h2, h3⟩
          exact ⟨h1, h2, by omega⟩
      simp only [this]

theorem outer_e (m : Nat) (e : Nat × Nat → Nat → F) : ∀ n a b c,
    forN n (fun j => forN m fun i (e : Nat × Nat → Nat → F) => write (j, m + i) (write i 1 (e (j, m + i))) e) e (a, b) c =
      if a < n ∧ b = m + c ∧ c < m then 1 else e (a, b) c
  | 0, a, b, c => by rw [if_neg (by omega)]; rfl
  | n + 1, a, b, c => by
    rw [OneCol.forN_succ, inner_e m n _ m le_rfl, outer_e m e n]
    by_cases h : b = m + c ∧ c < m
    · by_cases h1 : a = n
      · rw [if_pos ⟨h1, h⟩, if_pos ⟨by omega, h⟩]
      · rw [if_neg (by tauto)]
        by_cases h2 : a < n
        · rw [if_pos ⟨h2, h⟩, if_pos ⟨by omega, h⟩]
        · rw [if_neg (by tauto), if_neg (by omega)]
    · rw [if_neg (by tauto), if_neg (by tauto), if_neg (by tauto)]

/-- The matrices after the identity has been added. -/
theorem addIdentity_e (E : Evals F) (k i c : Nat) (hk : k < E.len) (hc : c < E.rows) :
    (addIdentity E).e (k, i) c = if i < E.rows then (if E.cols = E.rows then E.e (k, i) c else 0) else if i = E.rows + c then 1 else 0 := by
  refine (outer_e E.rows _ E.len k i c).trans ?_
  by_cases h : i < E.rows
  · rw [if_neg (by omega), if_pos h]
    simp only [h, and_true]
  · rw [if_neg h]
    by_cases h1 : i = E.rows + c
    · rw [if_pos ⟨hk, h1, hc⟩, if_pos h1]
    · rw [if_neg (by tauto), if_neg h1, if_neg (by tauto)]

omit [DecidableEq F] in
theorem interp_congr {m n d : Nat} {A B : Nat → Matrix (Fin m) (Fin n) F} {x : Nat → F} (h : ∀ k, k < d → A k = B k) (v : Fin m → F[X]) :
    IsInterpolant A x d v ↔ IsInterpolant B x d v := by
  unfold IsInterpolant
  refine forall_congr' fun k => forall_congr' fun hk => ?_
  rw [h k hk]

theorem minInt_congr {m n d : Nat} {A B : Nat → Matrix (Fin m) (Fin n) F} {x y : Nat → F} {s : Nat → Int} {P : PMat F[X]} {t : Nat → Int}
    (h : ∀ k, k < d → A k = B k) (hxy : x = y) (hP : IsMinInt A x d s P t) : IsMinInt B y d s P t := by
  subst hxy
  exact ⟨hP.rows, hP.cols, ⟨hP.basis.nonsingular, fun v => (interp_congr h v).symm.trans (hP.basis.generates v)⟩, hP.popov, hP.pivot, hP.rdeg, hP.ge, hP.deg⟩

theorem addIdentity_mats (E : Evals F) (hsq : E.cols = E.rows) (k : Nat) (hk : k < E.len) :
    (addIdentity E).mats 0 k = bottom E.rows (fun k i j => E.e (k, i) j) k := by
  funext i j
  have h := addIdentity_e E k i j hk j.2
  rw [if_pos hsq] at h
  show (addIdentity E).e (0 + k, (i : Nat)) (j : Nat) = _
  rw [Nat.zero_add, h]
  rfl

/-! ## The theorems -/

theorem finish {E : Evals F} {d : Nat} {x : Nat → F} {N D : Nat → Nat → F[X]} {e : Nat → Nat} (hsq : E.cols = E.rows) (hd : d ≤ E.len)
    (h : IsFraction E.rows (fun k i j => E.e (k, i) j) x d N D e) (hx : DistinctPts x 0 d) (dd : Nat → Nat)
    (hdd : ∀ i, i < E.rows → ∃ p, IsLeftDen E.rows N D p ∧ PivotLower E.rows (fun _ => 0) p i (dd i) ∧ ∀ j, j < E.rows → dd i + e j ≤ d)
    {P : PMat F[X]} {t : Nat → Int} (hP : IsMinInt ((addIdentity E).mats 0) (fun k => x (0 + k)) d (fun _ => 0) P t) :
    IsDenBasis E.rows N D ⟨E.rows, E.rows, fun ij => P.e ij⟩ := by
  have hP' : IsMinInt (bottom E.rows (fun k i j => E.e (k, i) j)) x d (fun _ => 0) P t :=
    minInt_congr (fun k hk => addIdentity_mats E hsq k (by omega)) (funext fun k => by rw [Nat.zero_add]) hP
  obtain ⟨h1, h2⟩ := block_basis h hx hP' dd hdd
  refine ⟨rfl, rfl, fun i hi => ?_, fun i δ p δ' hi hb hp hpp => ?_, h2⟩
  · exact ⟨_, (h1 i hi).1⟩
  · have h3 := (h1 i hi).1.degree
    have h4 := hb.degree
    have h5 := (h1 i hi).2 p δ' hp hpp
    simp only at h4
    omega

theorem mbasis_len (N : Nt F) (int0 : PMat F[X]) (E : Evals F) (np : Nat) (x : Nat → F) (s : Nat → Int) (off order : Nat)
    {r : PMat F[X] × (Nat → Int) × Evals F} (h : mbasis N int0 E np x s off order = .ok r) :
    off + order ≤ E.len ∧ off + order ≤ np ∧ r.2.2.len = E.len := by
  unfold Intbas.mbasis at h
  split at h
  · unfold Intbas.resupdate at h
    split at h
    · exact absurd h (by simp)
    · rename_i hn
      split at h
      · exact absurd h (by simp)
      · obtain ⟨a, -, ha⟩ := Bivar.andThen_eq_ok h
        cases ha
        refine ⟨by omega, by omega, rfl⟩
  · split at h
    · exact absurd h (by simp)
    · obtain ⟨a, ha, hr⟩ := Bivar.andThen_eq_ok h
      cases hr
      unfold Intbas.rescomp at ha
      split at ha
      · exact absurd ha (by simp)
      · refine ⟨by omega, by omega, rfl⟩

theorem pmbasis_len (N : Nt F) (mul : PMat F[X] → PMat F[X] → Option (PMat F[X])) (mk : Maker F) (thr np : Nat) (x : Nat → F) :
    ∀ (fuel : Nat) (int0 : PMat F[X]) (E : Evals F) (s : Nat → Int) (off order : Nat) (r : PMat F[X] × (Nat → Int) × Evals F),
    pmbasis N mul mk thr fuel int0 E np x s off order = .ok r → off + order ≤ E.len ∧ off + order ≤ np ∧ r.2.2.len = E.len := by
  intro fuel
  induction fuel with
  | zero =>
    intro int0 E s off order r h
    unfold Intbas.pmbasis at h
    split at h
    · exact mbasis_len N int0 E np x s off order h
    · exact absurd h (by simp)
  | succ fuel ih =>
    intro int0 E s off order r h
    unfold Intbas.pmbasis at h
    split at h
    · exact mbasis_len N int0 E np x s off order h
    · simp only at h
      obtain ⟨r1, h1, h⟩ := Bivar.andThen_eq_ok h
      split at h
      · exact absurd h (by simp)
      obtain ⟨ev, -, h⟩ := Bivar.andThen_eq_ok h
      obtain ⟨v, -, h⟩ := Bivar.andThen_eq_ok h
      obtain ⟨E2, h2, h⟩ := Bivar.andThen_eq_ok h
      obtain ⟨r2, h3, h⟩ := Bivar.andThen_eq_ok h
      obtain ⟨a, -, h⟩ := Bivar.andThen_eq_ok h
      cases h
      have e1 := (ih _ _ _ _ _ _ h1).2.2
      obtain ⟨f1, f2, f3⟩ := ih _ _ _ _ _ _ h3
      have e2 : E2.len = r1.2.2.len := by
        unfold updEvals at h2
        split at h2
        · exact absurd h2 (by simp)
        · cases h2; rfl
      refine ⟨by omega, by omega, ?_⟩
      show r2.2.2.len = E.len
      omega

/-- **C109.** `matrix_recon_interpolation` on the values of a strictly proper fraction `N D⁻¹` at distinct points, with `D` column reduced of
    column degrees `e` and regular at the points: if for every `i` there is a left denominator with pivot `i` and pivot degree `dd i`, and there
    are at least `dd i + e j` points, the matrix that is returned is a minimal basis of the left denominators.  There may be more matrices
    than points; the sequence that is left behind has `2m x m` matrices. -/
theorem C109_interpolation {Nt' : Nt F} (hN : Nt'.Ok) {mul : PMat F[X] → PMat F[X] → Option (PMat F[X])} (hmul : MulOk mul)
    {it : F[X] → Nat → F[X]} (hit : Crt.InvTruncOK it) {thr : Nat} (hthr : 0 < thr) (fuelc fuel : Nat) (E : Evals F) (np : Nat) (x : Nat → F)
    (hf : np ≤ fuel) (hfc : np ≤ fuelc) (h0 : 0 < E.len) (hnp : np ≤ E.len) (hm : 0 < E.rows) (hsq : E.cols = E.rows) (hx : DistinctPts x 0 np)
    {N D : Nat → Nat → F[X]} {e : Nat → Nat} (h : IsFraction E.rows (fun k i j => E.e (k, i) j) x np N D e) (dd : Nat → Nat)
    (hdd : ∀ i, i < E.rows → ∃ p, IsLeftDen E.rows N D p ∧ PivotLower E.rows (fun _ => 0) p i (dd i) ∧ ∀ j, j < E.rows → dd i + e j ≤ np) :
    ∃ B E', interpolation Nt' mul it fuelc thr fuel E np x = .ok (B, E') ∧ IsDenBasis E.rows N D B ∧
      E'.len = E.len ∧ E'.rows = 2 * E.rows ∧ E'.cols = E.rows := by
  obtain ⟨P, t, E', h1, h2, h3⟩ := C80_pmbasis hN hmul hit hthr fuelc fuel ⟨0, 0, fun _ => 0⟩ (addIdentity E) np x (fun _ => 0) 0 np hf hfc h0
    (by rw [Nat.zero_add]; exact hnp) (by omega) (show 0 < 2 * E.rows by omega) hx
  refine ⟨_, E', ?_, finish hsq hnp h hx dd hdd h2, h3.1, h3.2.1, h3.2.2.1⟩
  unfold interpolation
  rw [if_neg (by omega)]
  simp only
  rw [h1]
  rfl

/-- **C109.** `matrix_recon_interpolation_geometric`: the same with as many points as matrices, in a geometric progression of ratio `r ^ 2`. -/
theorem C109_geometric {Nt' : Nt F} (hN : Nt'.Ok) {mul : PMat F[X] → PMat F[X] → Option (PMat F[X])} (hmul : MulOk mul)
    {mp : F[X] → F[X] → Nat → Nat → Option F[X]} (feasible flags : Nat → Bool) {thr : Nat} (hthr : 0 < thr) (fuel : Nat) (E : Evals F) (np : Nat)
    (x : Nat → F) (r : F) (hmp : ∀ n, n ≤ E.len → Geom.MidOK mp n) (hf : E.len ≤ fuel) (h0 : 0 < E.len) (hnp : E.len ≤ np) (hm : 0 < E.rows)
    (hsq : E.cols = E.rows) (hx : IsGeometric r x 0 E.len)
    {N D : Nat → Nat → F[X]} {e : Nat → Nat} (h : IsFraction E.rows (fun k i j => E.e (k, i) j) x E.len N D e) (dd : Nat → Nat)
    (hdd : ∀ i, i < E.rows → ∃ p, IsLeftDen E.rows N D p ∧ PivotLower E.rows (fun _ => 0) p i (dd i) ∧ ∀ j, j < E.rows → dd i + e j ≤ E.len) :
    ∃ B E', interpolationGeometric Nt' mul mp feasible flags thr fuel E np x r = .ok (B, E') ∧ IsDenBasis E.rows N D B ∧
      E'.len = E.len ∧ E'.rows = 2 * E.rows ∧ E'.cols = E.rows := by
  obtain ⟨P, t, E', h1, h2, h3⟩ := C80_pmbasis_geometric hN hmul feasible flags hthr fuel ⟨0, 0, fun _ => 0⟩ (addIdentity E) np x r (fun _ => 0) 0 E.len
    hmp hf h0 (by rw [Nat.zero_add]; exact le_rfl) (by omega) (show 0 < 2 * E.rows by omega) hx
  refine ⟨_, E', ?_, finish hsq le_rfl h hx.distinct dd hdd h2, h3.1, h3.2.1, h3.2.2.1⟩
  unfold interpolationGeometric
  rw [if_neg (by omega)]
  simp only
  rw [h1]
  rfl

/-- **C109.** An empty sequence is refused. -/
theorem C109_empty (Nt' : Nt F) (mul : PMat F[X] → PMat F[X] → Option (PMat F[X])) (it : F[X] → Nat → F[X])
    (mp : F[X] → F[X] → Nat → Nat → Option F[X]) (feasible flags : Nat → Bool) (fuelc thr fuel : Nat) (E : Evals F) (np : Nat) (x : Nat → F) (r : F)
    (h : E.len = 0) :
    interpolation Nt' mul it fuelc thr fuel E np x = .error ∧ interpolationGeometric Nt' mul mp feasible flags thr fuel E np x r = .error :=
  ⟨if_pos h, if_pos h⟩

/-- **C109.** The lengths are not checked: with more points than matrices (fewer, for the geometric variant) no call succeeds. -/
theorem C109_lengths (Nt' : Nt F) (mul : PMat F[X] → PMat F[X] → Option (PMat F[X])) (it : F[X] → Nat → F[X])
    (mp : F[X] → F[X] → Nat → Nat → Option F[X]) (feasible flags : Nat → Bool) (fuelc thr fuel : Nat) (E : Evals F) (np : Nat) (x : Nat → F) (r : F)
    (o : PMat F[X] × Evals F) :
    (interpolation Nt' mul it fuelc thr fuel E np x = .ok o → np ≤ E.len) ∧
    (interpolationGeometric Nt' mul mp feasible flags thr fuel E np x r = .ok o → E.len ≤ np) := by
  constructor
  · intro h
    unfold interpolation at h
    split at h
    · exact absurd h (by simp)
    · obtain ⟨a, ha, -⟩ := Bivar.andThen_eq_ok h
      have := (pmbasis_len Nt' mul _ thr np x fuel _ _ _ _ _ _ ha).1
      have e1 : (addIdentity E).len = E.len := rfl
      omega
  · intro h
    unfold interpolationGeometric at h
    split at h
    · exact absurd h (by simp)
    · obtain ⟨a, ha, -⟩ := Bivar.andThen_eq_ok h
      have := (pmbasis_len Nt' mul _ thr np x fuel _ _ _ _ _ _ ha).2.1
      omega

/-- **C109.** For more points than matrices, at most as many as the base case treats, the behaviour is undefined: the entries behind the end of the
    sequence are read. -/
theorem C109_more_points_undefined (Nt' : Nt F) (mul : PMat F[X] → PMat F[X] → Option (PMat F[X])) (it : F[X] → Nat → F[X])
    (fuelc thr fuel : Nat) (E : Evals F) (np : Nat) (x : Nat → F) (h0 : 0 < E.len) (h : E.len < np) (ht : np ≤ thr) :
    interpolation Nt' mul it fuelc thr fuel E np x = .ub := by
  have hb : mbasis Nt' ⟨0, 0, fun _ => 0⟩ (addIdentity E) np x (fun _ => 0) 0 np = .ub := by
    have e1 : (addIdentity E).len = E.len := rfl
    unfold Intbas.mbasis
    split
    · unfold Intbas.resupdate
      rw [if_pos (by omega)]
    · rw [if_neg (by omega)]
      unfold Intbas.rescomp
      rw [if_pos (by omega)]
      rfl
  unfold interpolation
  rw [if_neg (by omega)]
  unfold Intbas.pmbasis
  simp only
  rw [if_pos ht, hb]
  rfl

/-- **C109.** Matrices that are not square are thrown away: for `k x n` matrices with `n` different from `k`, the result does not depend on
    their entries. -/
theorem C109_rectangular_lost (Nt' : Nt F) (mul : PMat F[X] → PMat F[X] → Option (PMat F[X])) (it : F[X] → Nat → F[X])
    (mp : F[X] → F[X] → Nat → Nat → Option F[X]) (feasible flags : Nat → Bool) (fuelc thr fuel : Nat) (len k n : Nat)
    (e e' : Nat × Nat → Nat → F) (np : Nat) (x : Nat → F) (r : F) (hkn : n ≠ k) :
    interpolation Nt' mul it fuelc thr fuel ⟨len, k, n, e⟩ np x = interpolation Nt' mul it fuelc thr fuel ⟨len, k, n, e'⟩ np x ∧
    interpolationGeometric Nt' mul mp feasible flags thr fuel ⟨len, k, n, e⟩ np x r =
      interpolationGeometric Nt' mul mp feasible flags thr fuel ⟨len, k, n, e'⟩ np x r := by
  have h : addIdentity ⟨len, k, n, e⟩ = addIdentity ⟨len, k, n, e'⟩ := by
    unfold addIdentity
    simp only [hkn, false_and, if_false]
  unfold interpolation interpolationGeometric
  rw [h]
  exact ⟨rfl, rfl⟩

/-! ## The hypotheses are met -/

/-- The fraction `[[1, 1], [0, 1]] / X` modulo 5. -/
noncomputable def numer : Nat → Nat → (ZMod 5)[X] := fun i j => if i ≤ j then 1 else 0

/-- See `numer`. -/
noncomputable def denom : Nat → Nat → (ZMod 5)[X] := fun i j => if i = j then X else 0

/-- Its values at 1 and 4. -/
def sampleEvals : Evals (ZMod 5) := ⟨2, 2, 2, fun ki j => if ki.2 ≤ j then (if ki.1 = 0 then 1 else 4) else 0⟩

/-- The points 1 and 4, a geometric progression of ratio `2 ^ 2`. -/
def samplePts : Nat → ZMod 5 := fun k => if k = 0 then 1 else 4

theorem sample_fraction : IsFraction 2 (fun k i j => sampleEvals.e (k, i) j) samplePts 2 numer denom (fun _ => 1) := by
  refine ⟨fun k hk i j hi hj => ?_, fun k hk y hy l hl => ?_, fun i j _ _ c hc => ?_, fun i j _ _ => ?_, fun y hy l hl => ?_⟩
  · rw [Finset.sum_eq_single j]
    · interval_cases k <;> interval_cases i <;> interval_cases j <;> simp [sampleEvals, denom, numer, samplePts] <;> decide
    · intro b _ hb
      simp [denom, hb]
    · intro h
      exact absurd (Finset.mem_range.2 hj) h
  · have h1 := hy l hl
    rw [Finset.sum_eq_single l (fun b _ hb => by simp [denom, hb]) (fun h => absurd (Finset.mem_range.2 hl) h)] at h1
    have h2 : (denom l l).eval (samplePts k) = samplePts k := by simp [denom]
    rw [h2] at h1
    refine (mul_eq_zero.1 h1).resolve_right ?_
    unfold samplePts
    split <;> decide
  · unfold numer
    split
    · rw [coeff_one, if_neg (by omega)]
    · rw [coeff_zero]
  · unfold denom
    split
    · exact natDegree_X_le
    · rw [natDegree_zero]; omega
  · have h1 := hy l hl
    rw [Finset.sum_eq_single l (fun b _ hb => by simp [denom, hb]) (fun h => absurd (Finset.mem_range.2 hl) h)] at h1
    have h2 : (denom l l).coeff 1 = 1 := by simp [denom]
    rwa [h2, mul_one] at h1

theorem sample_den (i : Nat) (hi : i < 2) : ∃ p, IsLeftDen 2 numer denom p ∧ PivotLower 2 (fun _ => 0) p i 1 ∧ ∀ j, j < 2 → 1 + (fun _ => 1) j ≤ 2 := by
  refine ⟨fun l => if l = i then X else 0, ⟨fun l => numer i l, fun j hj => ?_⟩, ⟨hi, ?_, ?_, fun l _ hl => ?_, fun l _ hil hl => ?_⟩, fun _ _ => le_rfl⟩
  · rw [Finset.sum_eq_single i (fun b _ hb => by simp [hb]) (fun h => absurd (Finset.mem_range.2 hi) h),
      Finset.sum_eq_single j (fun b _ hb => by simp [denom, hb]) (fun h => absurd (Finset.mem_range.2 hj) h)]
    simp [denom, mul_comm]
  · simp
  · simp
  · have h1 : l = i := by
      by_contra h1
      exact hl (if_neg h1)
    rw [if_pos h1, natDegree_X]
  · rw [if_neg (by omega)] at hl
    exact absurd rfl hl

theorem sample_distinct : DistinctPts samplePts 0 2 := by
  intro k l hk hl
  interval_cases k <;> interval_cases l <;> decide

theorem sample_geometric : IsGeometric 2 samplePts 0 2 := by
  refine ⟨by decide, by decide, fun k hk => ?_, fun i h1 h2 => ?_⟩
  · interval_cases k <;> decide
  · obtain rfl : i = 1 := by omega
    decide

example : ∃ (N : Nt (ZMod 5)) (mul : PMat (ZMod 5)[X] → PMat (ZMod 5)[X] → Option (PMat (ZMod 5)[X])) (it : (ZMod 5)[X] → Nat → (ZMod 5)[X]) (B : _) (E' : _),
    interpolation N mul it 2 1 2 sampleEvals 2 samplePts = .ok (B, E') ∧ IsDenBasis 2 numer denom B := by
  obtain ⟨mul, hmul⟩ := mulOk_exists (F := ZMod 5)
  obtain ⟨N, hN⟩ := nt_exists (F := ZMod 5)
  obtain ⟨it, hit⟩ := Crt.exists_invTrunc (K := ZMod 5)
  obtain ⟨B, E', h1, h2, -⟩ := C109_interpolation hN hmul hit one_pos 2 2 sampleEvals 2 samplePts le_rfl le_rfl (by decide) le_rfl (by decide) rfl
    sample_distinct sample_fraction (fun _ => 1) sample_den
  exact ⟨N, mul, it, B, E', h1, h2⟩

example : ∃ (N : Nt (ZMod 5)) (mul : PMat (ZMod 5)[X] → PMat (ZMod 5)[X] → Option (PMat (ZMod 5)[X]))
    (mp : (ZMod 5)[X] → (ZMod 5)[X] → Nat → Nat → Option (ZMod 5)[X]) (B : _) (E' : _),
    interpolationGeometric N mul mp (fun _ => true) (fun _ => false) 1 2 sampleEvals 2 samplePts 2 = .ok (B, E') ∧ IsDenBasis 2 numer denom B := by
  obtain ⟨mul, hmul⟩ := mulOk_exists (F := ZMod 5)
  obtain ⟨N, hN⟩ := nt_exists (F := ZMod 5)
  obtain ⟨mp, hmp⟩ := midOK_all (K := ZMod 5)
  obtain ⟨B, E', h1, h2, -⟩ := C109_geometric hN hmul (fun _ => true) (fun _ => false) one_pos 2 sampleEvals 2 samplePts 2 (fun n _ => hmp n) le_rfl
    (by decide) le_rfl (by decide) rfl sample_geometric sample_fraction (fun _ => 1) sample_den
  exact ⟨N, mul, mp, B, E', h1, h2⟩

/-- The limits: three points for the two matrices, and two by three matrices. -/
example (N : Nt (ZMod 5)) (mul : PMat (ZMod 5)[X] → PMat (ZMod 5)[X] → Option (PMat (ZMod 5)[X])) (it : (ZMod 5)[X] → Nat → (ZMod 5)[X])
    (x : Nat → ZMod 5) : interpolation N mul it 3 32 3 sampleEvals 3 x = .ub ∧
    interpolation N mul it 3 32 3 ⟨2, 2, 3, fun _ _ => 1⟩ 2 x = interpolation N mul it 3 32 3 ⟨2, 2, 3, fun _ _ => 0⟩ 2 x :=
  ⟨C109_more_points_undefined N mul it 3 32 3 sampleEvals 3 x (by decide) (by decide) (by decide),
    (C109_rectangular_lost N mul it (fun _ _ _ _ => none) (fun _ => true) (fun _ => true) 3 32 3 2 2 3 _ _ 2 x 1 (by decide)).1⟩

end PML.Ntl.Recon
