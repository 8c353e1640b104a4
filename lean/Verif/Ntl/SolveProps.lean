import Verif.Ntl.SolveLemmas
import Verif.Common.Prime

/-!
# C72: power series solution of linear systems
-/

namespace PML.Ntl.Solve

open Polynomial PML.Ntl.Utils PML.Ntl.Inv PML.Ntl.MatMul PML.Ntl.MatMid PML.Ntl.LMul

variable {F : Type} [Field F]

attribute [local irreducible] Utils.deg

/-- A solution for truncated matrices. -/
theorem IsSol.of_trunc {A b u A' b' : PMat F[X]} {prec : Nat} (h : IsSol A' b' prec u) (r1 : A'.rows = A.rows) (c1 : A'.cols = A.cols)
    (c2 : b'.cols = b.cols) (hb : b.rows = A.rows)
    (hA : ∀ i j, i < A.rows → j < A.cols → ∀ k, k < prec → (A'.e (i, j)).coeff k = (A.e (i, j)).coeff k)
    (hB : ∀ i j, i < b.rows → j < b.cols → ∀ k, k < prec → (b'.e (i, j)).coeff k = (b.e (i, j)).coeff k) : IsSol A b prec u := by
  obtain ⟨h1, h2, h3, h4⟩ := h
  rw [r1, c1, c2] at *
  refine ⟨h1, h2, h3, fun i j hi hj k hk => ?_⟩
  have := h4 i j hi hj k hk
  rw [hB i j (by omega) hj k hk] at this
  rw [← this]
  refine (dvd_iff _ _ prec).1 (cmul_dvd (a := A.e) (a' := A'.e) (b := u.e) (fun l hl => ?_) fun l hl => ?_) k hk
  · rw [dvd_iff]
    exact fun t ht => (hA i l hi hl t ht).symm
  · rw [sub_self]; exact dvd_zero _

/-! ### Divide and conquer -/

theorem lowBody_spec {C : Calls F} (hC : C.Ok) (thresh : Nat) (ht : 1 ≤ thresh) (A b : PMat F[X]) (prec : Nat) (hp : 1 ≤ prec) (hn : 0 < A.rows)
    (hsq : A.rows = A.cols) (hc : ConstInv A) (hb : b.rows = A.rows) (hdA : deg A < prec) (hdb : deg b < prec) :
    (∃ u, lowBody C thresh A b prec = .ok u ∧ IsSol A b prec u) ∨ (lowBody C thresh A b prec = .ub ∧ MidFails C) := by
  unfold lowBody
  obtain ⟨x, e, hx⟩ := hC.inv A thresh hsq hn hc ht
  obtain ⟨f, e2, hf⟩ := hC.lm x (thresh - 1) (by rw [hx.cols]; exact hn) (inv_deg_nonneg hx ht hn)
  rw [e]
  dsimp only [andThen]
  rw [e2]
  exact dac_spec hC hx hf ht hn prec A b prec (le_refl _) hp rfl hsq.symm hb (fun i j _ _ => by rw [sub_self]; exact dvd_zero _) hdA hdb

/-- **C72 (low precision)**. For a square matrix `A` whose constant coefficient is invertible,
    `solve_series_low_precision` gives the solution of `A u = b` modulo `X^prec`, or a call of `middle_product` on
    a zero matrix failed.  Full statement: the second case does not exist; it does, see
    `C72_low_precision_fails`. -/
theorem C72_low_precision_partial {C : Calls F} (hC : C.Ok) (thresh : Option Nat) (ht : 1 ≤ thresh.getD C.thresh) (A b : PMat F[X]) (prec : Nat)
    (hp : 1 ≤ prec) (hn : 0 < A.rows) (hsq : A.rows = A.cols) (hc : ConstInv A) (hb : b.rows = A.rows) :
    (∃ u, lowPrec C thresh A b prec = .ok u ∧ IsSol A b prec u) ∨
      (lowPrec C thresh A b prec = .ub ∧ ∃ (a c : PMat F[X]) (dA dB : Nat), deg a < 0 ∧ C.mid a c dA dB = none) := by
  unfold lowPrec
  dsimp only
  by_cases h : (prec : Int) ≤ deg A ∨ (prec : Int) ≤ deg b
  · rw [if_pos h]
    obtain ⟨a1, a2, a3⟩ := C65_trunc false ⟨0, 0, fun _ => 0⟩ A prec
    obtain ⟨b1, b2, b3⟩ := C65_trunc false ⟨0, 0, fun _ => 0⟩ b prec
    rcases lowBody_spec hC _ ht (trunc false ⟨0, 0, fun _ => 0⟩ A prec) (trunc false ⟨0, 0, fun _ => 0⟩ b prec) prec hp (by omega) (by omega)
      (constInv_congr hc a1 fun i j hi hj => by rw [a3 i j hi (by omega), if_pos (by omega)]) (by omega) (trunc_deg _ _ _ _) (trunc_deg _ _ _ _)
      with ⟨u, e, hu⟩ | hf
    · refine Or.inl ⟨u, e, hu.of_trunc a1 a2 b2 hb (fun i j hi hj k hk => ?_) fun i j hi hj k hk => ?_⟩
      · rw [a3 i j hi hj, if_pos hk]
      · rw [b3 i j hi hj, if_pos hk]
    · exact Or.inr hf
  · rw [if_neg h]
    exact lowBody_spec hC _ ht A b prec hp hn hsq hc hb (by omega) (by omega)

/-- **C72 (low precision)**, up to the threshold, where no middle product is done. -/
theorem C72_low_precision_small {C : Calls F} (hC : C.Ok) (thresh : Option Nat) (A b : PMat F[X]) (prec : Nat)
    (hp : 1 ≤ prec) (ht : prec ≤ thresh.getD C.thresh) (hn : 0 < A.rows) (hsq : A.rows = A.cols) (hc : ConstInv A) (hb : b.rows = A.rows) :
    ∃ u, lowPrec C thresh A b prec = .ok u ∧ IsSol A b prec u := by
  -- the same functions with a middle product that never fails
  let C' : Calls F := ⟨C.inv, C.lm, fun a c dA dB => some ⟨a.rows, c.cols, fun ij => ofCoeffs (dB + 1) fun k =>
    (∑ l ∈ Finset.range a.cols, (a.e (ij.1, l) %ₘ X ^ (dA + 1)) * c.e (l, ij.2)).coeff (dA + k)⟩, C.thresh⟩
  have hC' : C'.Ok := ⟨hC.inv, hC.lm, fun a c dA dB _ _ _ _ _ => Or.inl ⟨_, rfl, rfl, rfl, fun i j _ _ k => by
    rw [ofCoeffs_coeff]
    by_cases h : k ≤ dB
    · rw [if_pos h, if_pos (by omega)]
    · rw [if_neg h, if_neg (by omega)]⟩⟩
  have hdac : ∀ f A b, dac C.mid f (thresh.getD C.thresh) prec A b prec = dac C'.mid f (thresh.getD C.thresh) prec A b prec := by
    intro f A b
    unfold dac
    rw [if_pos ht, if_pos ht]
  have hlow : lowPrec C thresh A b prec = lowPrec C' thresh A b prec := by
    unfold lowPrec lowBody
    simp only [hdac]
    rfl
  rw [hlow]
  rcases C72_low_precision_partial hC' thresh (hp.trans ht) A b prec hp hn hsq hc hb with h | ⟨-, a, c, dA, dB, -, h⟩
  · exact h
  · exact nomatch h

theorem Multiplies.zero {a : PMat F[X]} {dB : Nat} {f : PMat F[X] → Res (PMat F[X])} (hf : Multiplies a dB f) {b : PMat F[X]} (hab : a.cols = b.rows)
    (hb : deg b < 0) : ∃ c, f b = .ok c ∧ IsProduct a b c ∧ deg c < 0 := by
  obtain ⟨c, e, h⟩ := hf b hab (by omega)
  refine ⟨c, e, h, ?_⟩
  obtain ⟨h1, h2, h3⟩ := h
  have := (deg_lt_iff c 0).2 fun i j hi hj k _ => by
    rw [h3 i j (by omega) (by omega), Finset.sum_eq_zero, coeff_zero]
    intro l hl
    have hl := Finset.mem_range.1 hl
    rw [(deg_neg_iff b).1 (by have := (deg_spec b).1; omega) l j (by omega) (by omega), mul_zero]
  exact this

/-- **C72 (low precision, failure)**. Let the first half of `b` be zero.  If `middle_product` fails for a zero matrix
    and degrees at least `D` (for NTL's functions it does, see `C69_zero_matrix_fails`), then so does
    `solve_series_low_precision`, although the system has a solution. -/
theorem C72_low_precision_fails {C : Calls F} (hC : C.Ok) (D : Nat)
    (hz : ∀ (a c : PMat F[X]) (dA dB : Nat), deg a < 0 → D ≤ dB → C.mid a c dA dB = none) (thresh : Option Nat) (A b : PMat F[X])
    (prec : Nat) (h1 : thresh.getD C.thresh < prec) (h2 : prec / 2 ≤ thresh.getD C.thresh) (ht : 1 ≤ thresh.getD C.thresh)
    (hD : D ≤ prec - prec / 2 - 1) (hn : 0 < A.rows) (hsq : A.rows = A.cols)
    (hc : ConstInv A) (hb : b.rows = A.rows) (hlow : ∀ i j, i < b.rows → j < b.cols → ∀ k, k < prec / 2 → (b.e (i, j)).coeff k = 0) :
    lowPrec C thresh A b prec = .ub := by
  have key : ∀ A b : PMat F[X], 0 < A.rows → A.rows = A.cols → ConstInv A → b.rows = A.rows →
      (∀ i j, i < b.rows → j < b.cols → ∀ k, k < prec / 2 → (b.e (i, j)).coeff k = 0) →
      lowBody C (thresh.getD C.thresh) A b prec = .ub := by
    intro A b hn hsq hc hb hlow
    unfold lowBody
    obtain ⟨x, e, hx⟩ := hC.inv A _ hsq hn hc ht
    obtain ⟨f, e2, hf⟩ := hC.lm x (thresh.getD C.thresh - 1) (by rw [hx.cols]; exact hn) (inv_deg_nonneg hx ht hn)
    rw [e]
    dsimp only [andThen]
    rw [e2]
    dsimp only [ofRes]
    generalize thresh.getD C.thresh = th at *
    obtain ⟨fuel, rfl⟩ : ∃ n, prec = n + 1 := ⟨prec - 1, by omega⟩
    unfold dac
    rw [if_neg (by omega)]
    dsimp only
    have hdac : ∀ b' s, f b' = .ok s → dac C.mid f th fuel (trunc false ⟨0, 0, fun _ => 0⟩ A ((fuel + 1) / 2)) b' ((fuel + 1) / 2) =
        .ok (trunc true s s ((fuel + 1) / 2)) := by
      intro b' s he
      unfold dac
      rw [if_pos h2, he]
      rfl
    obtain ⟨b1, b2, b3⟩ := C65_trunc false ⟨0, 0, fun _ => 0⟩ b ((fuel + 1) / 2)
    have hz1 : deg (trunc false ⟨0, 0, fun _ => 0⟩ b ((fuel + 1) / 2)) < 0 := by
      refine (deg_lt_iff _ 0).2 fun i j hi hj k _ => ?_
      rw [b3 i j (by omega) (by omega)]
      split_ifs with hk
      · exact hlow i j (by omega) (by omega) k hk
      · rfl
    have hcx := hx.cols
    obtain ⟨s, e3, -, hs⟩ := Multiplies.zero hf (b := trunc false ⟨0, 0, fun _ => 0⟩ b ((fuel + 1) / 2)) (by omega) hz1
    rw [hdac _ _ e3]
    dsimp only [andThen]
    rw [hz _ _ _ _ ?_ hD]
    · rfl
    obtain ⟨p1, p2, p3⟩ := C65_transpose false (trunc false ⟨0, 0, fun _ => 0⟩ b ((fuel + 1) / 2)) (trunc true s s ((fuel + 1) / 2))
    obtain ⟨q1, q2, q3⟩ := C65_trunc true s s ((fuel + 1) / 2)
    refine (deg_lt_iff _ 0).2 fun i j hi hj k _ => ?_
    rw [p3 i j (by omega) (by omega), q3 j i (by omega) (by omega)]
    split_ifs
    · exact (deg_lt_iff s 0).1 hs j i (by omega) (by omega) k (Nat.zero_le _)
    · rfl
  unfold lowPrec
  dsimp only
  obtain ⟨a1, a2, a3⟩ := C65_trunc false ⟨0, 0, fun _ => 0⟩ A prec
  obtain ⟨b1, b2, b3⟩ := C65_trunc false ⟨0, 0, fun _ => 0⟩ b prec
  split_ifs
  · refine key _ _ (by omega) (by omega) (constInv_congr hc a1 fun i j hi hj => by rw [a3 i j hi (by omega), if_pos (by omega)]) (by omega)
      fun i j hi hj k hk => ?_
    rw [b3 i j (by omega) (by omega), if_pos (by omega)]
    exact hlow i j (by omega) (by omega) k hk
  · exact key A b hn hsq hc hb hlow

/-! ### Iteration -/

theorem highBody_spec [DecidableEq F] {C : Calls F} (hC : C.Ok) (A b : PMat F[X]) (prec : Nat) (hp : 1 ≤ prec) (hn : 0 < A.rows)
    (hsq : A.rows = A.cols) (hc : ConstInv A) (hb : b.rows = A.rows) :
    ∃ u, highBody C A b prec = .ok u ∧ IsSol A b prec (vals u) := by
  have hd := ConstInv.deg_nonneg hc hn hsq
  obtain ⟨dA, hdA⟩ : ∃ dA : Nat, deg A = dA := ⟨(deg A).toNat, by omega⟩
  have hlen : (deg A + 1).toNat = dA + 1 := by omega
  obtain ⟨x, e, hx⟩ := hC.inv A (dA + 1) hsq hn hc (by omega)
  obtain ⟨mI, e2, hI⟩ := hC.lm x dA (by rw [hx.cols]; exact hn) (inv_deg_nonneg hx (by omega) hn)
  obtain ⟨mA, e3, hA⟩ := hC.lm A dA (by omega) hd
  have hxr := hx.rows
  have hxc := hx.cols
  unfold highBody
  dsimp only
  rw [hlen, show (deg A).toNat = dA by omega, e]
  dsimp only [andThen]
  rw [e2, e3]
  dsimp only [ofRes]
  rw [if_neg (by omega)]
  obtain ⟨b1, b2, b3⟩ := C65_trunc false ⟨0, 0, fun _ => 0⟩ b (dA + 1)
  have b4 := trunc_deg false ⟨0, 0, fun _ => 0⟩ b (dA + 1)
  generalize trunc false ⟨0, 0, fun _ => 0⟩ b (dA + 1) = b' at *
  obtain ⟨s, e4, s1, s2, s3⟩ := hI b' (by omega) (by omega)
  rw [e4]
  dsimp only [andThen]
  obtain ⟨t1, t2, t3⟩ := C65_trunc true s s (dA + 1)
  generalize trunc true s s (dA + 1) = s' at *
  have hvals : vals (reps s') = s' := by
    unfold vals reps
    dsimp only
    congr 1
    funext ij
    exact repOf_val _
  obtain ⟨nb, hnb⟩ : ∃ nb : Nat, nb = (prec - 1) / (dA + 1) := ⟨_, rfl⟩
  have hnb2 : (1 + ((prec : Int) - 1).tdiv ((dA + 1 : Nat) : Int)).toNat - 1 = nb := by
    rw [show (prec : Int) - 1 = ((prec - 1 : Nat) : Int) by omega, ← Int.ofNat_tdiv, hnb]
    omega
  rw [hnb2]
  have hge : prec ≤ dA + 1 + nb * (dA + 1) := by
    have := Nat.div_add_mod (prec - 1) (dA + 1)
    have h2 := Nat.mod_lt (prec - 1) (show 0 < dA + 1 by omega)
    rw [← hnb, Nat.mul_comm] at this
    omega
  have hinit : Loop A b dA (dA + 1) (vals (reps s')) s' := by
    rw [hvals]
    refine ⟨by omega, by omega, by omega, by omega, fun i j hi hj t ht => ?_, fun i j hi hj t ht => ?_, fun i j hi hj t ht => ?_⟩
    · rw [t3 i j (by omega) (by omega), if_neg (by omega)]
    · have h1 := (dvd_iff _ _ _).1 (inv_solves (A := A.e) (A0 := A.e) (x := x.e) (b := b'.e) (u := s'.e) hi
        (fun i l _ _ => by rw [sub_self]; exact dvd_zero _) (invMod_of hx) fun l hl => by
          rw [dvd_iff]
          intro t ht
          rw [t3 l j (by omega) (by omega), if_pos ht, s3 l j (by omega) (by omega), hxc]
          rfl) t ht
      rw [h1, b3 i j (by omega) (by omega), if_pos ht]
    · congr 1
      omega
  obtain ⟨u, sol, f1, f2, f3⟩ := highLoop_spec hsq hb (by omega) hx hA hI nb (dA + 1) (reps s') s' (le_refl _) hinit
    (fun i j hi hj t ht => by rw [hvals, t3 i j (by omega) (by omega), if_neg (by omega)])
  rw [f1]
  have hur : u.rows = A.rows := f2.ur
  have huc : u.cols = b.cols := f2.uc
  have hv : ∀ i j, i < A.rows → j < b.cols → ∀ k, ((vals { u with e := loop2 u.rows u.cols (fun i j cur => truncRep prec (cur (i, j))) u.e }).e (i, j)).coeff k =
      if k < prec then ((vals u).e (i, j)).coeff k else 0 := by
    intro i j hi hj k
    show (loop2 u.rows u.cols (fun i j cur => truncRep prec (cur (i, j))) u.e (i, j)).val.coeff k = if k < prec then (u.e (i, j)).val.coeff k else 0
    rw [loop2_spec _ _ _ (fun i j x y h => by rw [h]), if_pos ⟨by omega, by omega⟩, truncRep_val]
  refine ⟨_, rfl, by rw [← hsq]; exact hur, huc, fun i j hi hj k hk => ?_, fun i j hi hj k hk => ?_⟩
  · rw [hv i j (by omega) hj, if_neg (by omega)]
  · rw [← f2.lo i j hi hj k (by omega), ← hsq]
    refine (dvd_iff _ _ prec).1 (cmul_dvd (a := A.e) (a' := A.e) (b' := (vals u).e) (fun l _ => by rw [sub_self]; exact dvd_zero _) fun l hl => ?_) k hk
    rw [dvd_iff]
    intro t ht
    rw [hv l j hl hj, if_pos ht]

/-- **C72 (high precision)**. For a square matrix `A` whose constant coefficient is invertible,
    `solve_series_high_precision` gives the solution of `A u = b` modulo `X^prec`. -/
theorem C72_high_precision [DecidableEq F] {C : Calls F} (hC : C.Ok) (A b : PMat F[X]) (prec : Nat) (hp : 1 ≤ prec) (hn : 0 < A.rows)
    (hsq : A.rows = A.cols) (hc : ConstInv A) (hb : b.rows = A.rows) :
    ∃ u, highPrec C A b prec = .ok u ∧ IsSol A b prec (vals u) := by
  unfold highPrec
  dsimp only
  by_cases h : (prec : Int) ≤ deg A ∨ (prec : Int) ≤ deg b
  · rw [if_pos h]
    obtain ⟨a1, a2, a3⟩ := C65_trunc false ⟨0, 0, fun _ => 0⟩ A prec
    obtain ⟨b1, b2, b3⟩ := C65_trunc false ⟨0, 0, fun _ => 0⟩ b prec
    obtain ⟨u, e, hu⟩ := highBody_spec hC (trunc false ⟨0, 0, fun _ => 0⟩ A prec) (trunc false ⟨0, 0, fun _ => 0⟩ b prec) prec hp (by omega)
      (by omega) (constInv_congr hc a1 fun i j hi hj => by rw [a3 i j hi (by omega), if_pos (by omega)]) (by omega)
    refine ⟨u, e, hu.of_trunc a1 a2 b2 hb (fun i j hi hj k hk => ?_) fun i j hi hj k hk => ?_⟩
    · rw [a3 i j hi hj, if_pos hk]
    · rw [b3 i j hi hj, if_pos hk]
  · rw [if_neg h]
    exact highBody_spec hC A b prec hp hn hsq hc hb

/-! ### Interface -/

/-- **C72**. `solve_series(u, A, b, prec)` gives the solution of `A u = b` modulo `X^prec`, or a call of
    `middle_product` on a zero matrix failed, which only happens if `prec ≤ 4 deg(A)`. -/
theorem C72_solve_series_partial [DecidableEq F] {C : Calls F} (hC : C.Ok) (ht : 1 ≤ C.thresh) (A b : PMat F[X]) (prec : Nat) (hp : 1 ≤ prec)
    (hn : 0 < A.rows) (hsq : A.rows = A.cols) (hc : ConstInv A) (hb : b.rows = A.rows) :
    (∃ u, solveSeries C A b prec = .ok u ∧ IsSol A b prec u) ∨ ((prec : Int) ≤ 4 * deg A ∧ C.thresh < prec ∧
      solveSeries C A b prec = .ub ∧ ∃ (a c : PMat F[X]) (dA dB : Nat), deg a < 0 ∧ C.mid a c dA dB = none) := by
  unfold solveSeries
  by_cases h : (prec : Int) ≤ 4 * deg A
  · rw [if_pos h]
    by_cases h2 : prec ≤ C.thresh
    · exact Or.inl (C72_low_precision_small hC none A b prec hp h2 hn hsq hc hb)
    · rcases C72_low_precision_partial hC none ht A b prec hp hn hsq hc hb with h3 | ⟨h3, h4⟩
      · exact Or.inl h3
      · exact Or.inr ⟨h, by omega, h3, h4⟩
  · rw [if_neg h]
    left
    obtain ⟨u, e, hu⟩ := C72_high_precision hC A b prec hp hn hsq hc hb
    rw [e]
    exact ⟨_, rfl, hu⟩

/-- **C72 (rejection)**. If `inv_trunc` reports an error for the matrices that are zero, not square or not
    invertible at 0 (C71), then so do the functions that solve a system with such a matrix. -/
theorem C72_reject [DecidableEq F] (C : Calls F)
    (hrej : ∀ (A : PMat F[X]) (m : Nat), deg A < 0 ∨ (1 ≤ m ∧ (A.rows ≠ A.cols ∨ ¬ConstInv A)) → C.inv A m = .error)
    (ht : 1 ≤ C.thresh) (A b : PMat F[X]) (prec : Nat) (hp : 1 ≤ prec) (h : A.rows ≠ A.cols ∨ ¬ConstInv A) :
    solveSeries C A b prec = .error := by
  have hl : ∀ A : PMat F[X], A.rows ≠ A.cols ∨ ¬ConstInv A → lowBody C C.thresh A b prec = .error ∧
      lowBody C C.thresh A (trunc false ⟨0, 0, fun _ => 0⟩ b prec) prec = .error := by
    intro A h
    unfold lowBody
    rw [hrej A C.thresh (Or.inr ⟨ht, h⟩)]
    exact ⟨rfl, rfl⟩
  have hh : ∀ A b : PMat F[X], A.rows ≠ A.cols ∨ ¬ConstInv A → highBody C A b prec = .error := by
    intro A b h
    unfold highBody
    dsimp only
    rw [hrej A _ (by
      by_cases hd : deg A < 0
      · exact Or.inl hd
      · exact Or.inr ⟨by omega, h⟩)]
    rfl
  obtain ⟨a1, a2, a3⟩ := C65_trunc false ⟨0, 0, fun _ => 0⟩ A prec
  have h' : (trunc false ⟨0, 0, fun _ => 0⟩ A prec).rows ≠ (trunc false ⟨0, 0, fun _ => 0⟩ A prec).cols ∨
      ¬ConstInv (trunc false ⟨0, 0, fun _ => 0⟩ A prec) := by
    by_cases hsq : A.rows = A.cols
    · right
      intro hc
      rcases h with h | h
      · exact h hsq
      · exact h (constInv_congr hc a1.symm fun i j hi hj => by
          rw [a3 i j (by omega) (by omega), if_pos (by omega)])
    · left
      omega
  unfold solveSeries
  split_ifs
  · unfold lowPrec
    dsimp only [Option.getD]
    split_ifs
    · exact (hl _ h').2
    · exact (hl A h).1
  · unfold highPrec
    dsimp only
    split_ifs
    · rw [hh _ _ h']
      rfl
    · rw [hh _ _ h]
      rfl

/-- **C72 (vectors)**. The solution of `A u = b` modulo `X^prec` for a vector `b`. -/
theorem C72_vector_partial [DecidableEq F] {C : Calls F} (hC : C.Ok) (ht : 1 ≤ C.thresh) (A : PMat F[X]) (b : Nat → F[X]) (prec : Nat) (hp : 1 ≤ prec)
    (hn : 0 < A.rows) (hsq : A.rows = A.cols) (hc : ConstInv A) :
    (∃ u, solveVec C A A.rows b prec = .ok (A.rows, u) ∧ (∀ i, i < A.rows → ∀ k, prec ≤ k → (u i).coeff k = 0) ∧
      ∀ i, i < A.rows → ∀ k, k < prec → (∑ l ∈ Finset.range A.rows, A.e (i, l) * u l).coeff k = (b i).coeff k) ∨
    (solveVec C A A.rows b prec = .ub ∧ ∃ (a c : PMat F[X]) (dA dB : Nat), deg a < 0 ∧ C.mid a c dA dB = none) := by
  unfold solveVec
  dsimp only
  have hfill : ∀ i, i < A.rows → forN A.rows (fun i => write (i, 0) (b i)) (fun _ => (0 : F[X])) (i, 0) = b i := by
    refine forN_inv (P := fun (n : Nat) (t : Nat × Nat → F[X]) => ∀ i, i < n → t (i, 0) = b i) (fun i hi => absurd hi (Nat.not_lt_zero _)) ?_
    intro m t _ h i hi
    by_cases him : i = m
    · rw [him]
      exact Function.update_self _ _ _
    · unfold write
      rw [Function.update_of_ne (fun hc => him (Prod.mk.inj hc).1)]
      exact h i (by omega)
  rcases C72_solve_series_partial hC ht A ⟨A.rows, 1, forN A.rows (fun i => write (i, 0) (b i)) fun _ => 0⟩ prec hp hn hsq hc rfl with
    ⟨u, e, h1, h2, h3, h4⟩ | ⟨-, -, e, h⟩
  · left
    rw [e]
    dsimp only [andThen] at *
    rw [if_neg (by omega)]
    have hg : ∀ i, i < A.rows → forN A.rows (fun i => write i (u.e (i, 0))) (fun _ => (0 : F[X])) i = u.e (i, 0) := by
      refine forN_inv (P := fun (n : Nat) (t : Nat → F[X]) => ∀ i, i < n → t i = u.e (i, 0)) (fun i hi => absurd hi (Nat.not_lt_zero _)) ?_
      intro m t _ h i hi
      by_cases him : i = m
      · rw [him]
        exact Function.update_self _ _ _
      · unfold write
        rw [Function.update_of_ne him]
        exact h i (by omega)
    refine ⟨_, rfl, fun i hi k hk => ?_, fun i hi k hk => ?_⟩
    · rw [hg i hi]
      exact h3 i 0 (by omega) Nat.one_pos k hk
    · have := h4 i 0 hi Nat.one_pos k hk
      rw [hfill i hi, ← hsq] at this
      rw [← this]
      congr 1
      exact Finset.sum_congr rfl fun l hl => by rw [hg l (Finset.mem_range.1 hl)]
  · right
    rw [e]
    exact ⟨rfl, h⟩

/-! ### The representation of the solution -/

/-- One iteration for the system `1 u = 1`: the new part of the solution is zero. -/
theorem highLoop_one [DecidableEq F] {x : PMat F[X]} (hI : IsInvTrunc (one1 (1 : F[X])) 1 x) {mulA mulInv : PMat F[X] → Res (PMat F[X])}
    (hmA : Multiplies (one1 (1 : F[X])) 0 mulA) (hmI : Multiplies x 0 mulInv) (it shift : Nat) (hsh : 1 ≤ shift) (u : PMat (Sto F)) (sol : PMat F[X])
    (u1 : u.rows = 1) (u2 : u.cols = 1) (s1 : sol.rows = 1) (s2 : sol.cols = 1) (sd : ∀ t, 1 ≤ t → (sol.e (0, 0)).coeff t = 0) :
    ∃ u' sol', highLoop mulA mulInv (one1 1) 0 (it + 1) shift u sol = highLoop mulA mulInv (one1 1) 0 it (shift + 1) u' sol' ∧
      u'.rows = 1 ∧ u'.cols = 1 ∧ u'.e (0, 0) = addRep shift (u.e (0, 0)) 0 ∧ sol'.rows = 1 ∧ sol'.cols = 1 ∧
      ∀ t, 1 ≤ t → (sol'.e (0, 0)).coeff t = 0 := by
  have hr : x.rows = 1 := hI.rows
  have hc : x.cols = 1 := hI.cols
  obtain ⟨up, e1, p1, p2, p3⟩ := hmA sol s1.symm (by
    have : deg sol < (1 : Nat) := by
      rw [deg_lt_iff]
      intro i j hi hj t ht
      obtain rfl : i = 0 := by omega
      obtain rfl : j = 0 := by omega
      exact sd t ht
    omega)
  have p1 : up.rows = 1 := p1
  have p4 : up.e (0, 0) = sol.e (0, 0) := by
    rw [p3 0 0 Nat.one_pos (by omega)]
    show ∑ k ∈ Finset.range 1, 1 * sol.e (k, 0) = _
    rw [Finset.sum_range_one, one_mul]
  conv => enter [1, u', 1, sol', 1, 1]; unfold highLoop
  rw [e1]
  dsimp only [ofRes, andThen]
  obtain ⟨-, q1, q2, q3⟩ := C65_shift true up up (0 + 1 : Nat)
  generalize rightShift true up up (0 + 1 : Nat) = up1 at *
  obtain ⟨up2, hup2⟩ : ∃ y : PMat F[X], y = ⟨up1.rows, up1.cols,
    loop2 (one1 (1 : F[X])).rows (one1 (1 : F[X])).cols (fun i j cur => flip 0 shift ((one1 (1 : F[X])).e (i, j)) (cur (i, j))) up1.e⟩ := ⟨_, rfl⟩
  have v1 : up2.rows = up1.rows := by rw [hup2]
  have v2 : up2.cols = up1.cols := by rw [hup2]
  have v3 : up2.e (0, 0) = 0 := by
    ext t
    rw [hup2]
    show (loop2 1 1 (fun i j cur => flip 0 shift (1 : F[X]) (cur (i, j))) up1.e (0, 0)).coeff t = _
    have hz : (up1.e (0, 0)).coeff t = 0 := by
      rw [q3 0 0 (by omega) (by omega), if_pos (by omega), p4]
      exact sd _ (by omega)
    rw [loop2_spec _ _ _ (fun i j x y h => by rw [h]), if_pos ⟨Nat.one_pos, Nat.one_pos⟩, flip_coeff, hz, coeff_zero, sub_zero,
      coeff_one, if_neg (show ¬t + shift = 0 by omega), ite_self]
  rw [← hup2]
  clear hup2 q3
  have hz2 : deg up2 < 0 := (deg_lt_iff up2 0).2 fun i j hi hj k _ => by
    obtain rfl : i = 0 := by omega
    obtain rfl : j = 0 := by omega
    rw [v3, coeff_zero]
  obtain ⟨s, e2, ⟨r1, r2, -⟩, hs⟩ := Multiplies.zero hmI (b := up2) (by omega) hz2
  rw [e2]
  dsimp only [ofRes, andThen]
  obtain ⟨t1, t2, t3⟩ := C65_trunc true s s (0 + 1)
  have t4 : (trunc true s s (0 + 1)).e (0, 0) = 0 := by
    ext t
    rw [t3 0 0 (by omega) (by omega), coeff_zero]
    split_ifs
    · exact (deg_lt_iff s 0).1 hs 0 0 (by omega) (by omega) t (Nat.zero_le _)
    · rfl
  generalize trunc true s s (0 + 1) = s' at *
  obtain ⟨y, e3, y1, y2, y3⟩ := addShiftRep_spec u s' shift (by omega) (by omega)
  rw [e3]
  dsimp only
  refine ⟨y, s', rfl, by omega, by omega, ?_, by omega, by omega, fun t _ => by rw [t4, coeff_zero]⟩
  rw [y3 0 0 (by omega) (by omega), t4]

/-- **C72 (representation)**. The solution of the system `1 u = 1` computed modulo `X^3` by
    `solve_series_high_precision` is the polynomial 1, represented by two coefficients, the last of which is zero:
    NTL takes it for a polynomial of degree 1. -/
theorem C72_high_precision_not_normal [DecidableEq F] {C : Calls F} (hC : C.Ok) :
    ∃ u, highPrec C (one1 (1 : F[X])) (one1 1) 3 = .ok u ∧ (u.e (0, 0)).val = 1 ∧ (u.e (0, 0)).len = 2 ∧ ¬Normal (u.e (0, 0)) := by
  obtain ⟨h3, h4⟩ := one1_const (1 : F) one_ne_zero
  rw [C_1] at h3 h4
  obtain ⟨x, e, hx⟩ := hC.inv (one1 (1 : F[X])) 1 rfl Nat.one_pos h3 (le_refl _)
  obtain ⟨mI, e2, hI⟩ := hC.lm x 0 (by rw [hx.cols]; exact Nat.one_pos) (inv_deg_nonneg hx (le_refl _) Nat.one_pos)
  obtain ⟨mA, e3, hA⟩ := hC.lm (one1 (1 : F[X])) 0 Nat.one_pos (by omega)
  have hxr : x.rows = 1 := hx.rows
  have hxc : x.cols = 1 := hx.cols
  unfold highPrec
  dsimp only
  rw [h4, if_neg (by omega)]
  unfold highBody
  dsimp only
  rw [h4, show ((0 : Int) + 1).toNat = 1 from rfl, show (0 : Int).toNat = 0 from rfl, e]
  dsimp only [andThen]
  rw [e2, e3]
  dsimp only [ofRes]
  rw [if_neg (by omega)]
  obtain ⟨b1, b2, b3⟩ := C65_trunc false ⟨0, 0, fun _ => 0⟩ (one1 (1 : F[X])) 1
  have b4 := trunc_deg false ⟨0, 0, fun _ => 0⟩ (one1 (1 : F[X])) 1
  have b1 : _ = 1 := b1
  have b2 : _ = 1 := b2
  generalize trunc false ⟨0, 0, fun _ => 0⟩ (one1 (1 : F[X])) 1 = b' at *
  obtain ⟨s, e4, s1, s2, s3⟩ := hI b' (by omega) (by omega)
  rw [e4]
  dsimp only [andThen]
  obtain ⟨t1, t2, t3⟩ := C65_trunc true s s 1
  generalize trunc true s s 1 = s' at *
  have hs' : s'.e (0, 0) = 1 := by
    have hl := hx.left 0 0 Nat.one_pos Nat.one_pos 0 Nat.one_pos
    rw [if_pos ⟨rfl, rfl⟩] at hl
    have hl : (∑ l ∈ Finset.range 1, x.e (0, l) * 1).coeff 0 = 1 := hl
    rw [Finset.sum_range_one, mul_one] at hl
    ext t
    rw [t3 0 0 (by omega) (by omega), coeff_one]
    by_cases ht : t < 1
    · obtain rfl : t = 0 := by omega
      rw [if_pos ht, if_pos rfl, s3 0 0 (by omega) (by omega), hxc, Finset.sum_range_one, mul_coeff_zero, hl, one_mul,
        b3 0 0 Nat.one_pos Nat.one_pos, if_pos Nat.one_pos]
      exact coeff_one_zero
    · rw [if_neg ht, if_neg (by omega)]
  obtain ⟨u1, r1, f1, g1, g2, g3, g4, g5, g6⟩ := highLoop_one hx hA hI 1 1 (le_refl _) (reps s') s' (by show s'.rows = 1; omega)
    (by show s'.cols = 1; omega) (by omega) (by omega) fun t ht => by rw [hs', coeff_one, if_neg (by omega)]
  obtain ⟨u2, r2, f2, k1, k2, k3, -⟩ := highLoop_one hx hA hI 0 2 (by omega) u1 r1 g1 g2 g4 g5 g6
  rw [show (1 + ((3 : Nat) - 1 : Int).tdiv ((1 : Nat) : Int)).toNat - 1 = 1 + 1 from rfl, f1, f2]
  unfold highLoop
  dsimp only
  refine ⟨_, rfl, ?_⟩
  have hrep : (reps s').e (0, 0) = ⟨1, (1 : F[X]).coeff⟩ := by
    show repOf (s'.e (0, 0)) = _
    rw [hs']
    unfold repOf
    rw [pdeg_ne _ one_ne_zero, natDegree_one]
    rfl
  have e5 : (u1.e (0, 0)).len = 1 ∧ (u1.e (0, 0)).mem 0 = 1 := by
    rw [g3, hrep]
    simp [addRep, Shift.addLeftShift, repOf, pdeg_zero, Shift.normLen]
  have e6 : (u2.e (0, 0)).len = 2 ∧ (u2.e (0, 0)).mem 0 = 1 ∧ (u2.e (0, 0)).mem 1 = 0 := by
    rw [k3]
    simp [addRep, Shift.addLeftShift, repOf, pdeg_zero, e5.1, e5.2]
  have e7 : loop2 u2.rows u2.cols (fun i j cur => truncRep 3 (cur (i, j))) u2.e (0, 0) = u2.e (0, 0) := by
    rw [loop2_spec _ _ _ (fun i j x y h => by rw [h]), if_pos ⟨by omega, by omega⟩]
    unfold truncRep
    rw [if_neg (by omega)]
  dsimp only
  rw [e7]
  refine ⟨?_, e6.1, ?_⟩
  · ext t
    rw [val_coeff, e6.1, coeff_one]
    by_cases h0 : t = 0
    · rw [h0, if_pos (by omega), if_pos rfl, e6.2.1]
    · rw [if_neg h0]
      by_cases h1 : t = 1
      · rw [h1, if_pos (by omega), e6.2.2]
      · rw [if_neg (by omega)]
  · unfold Normal
    rw [e6.1]
    rintro (h | h)
    · exact absurd h (by omega)
    · exact h e6.2.2

/-! ### The hypotheses can be met -/

open Classical in
/-- Functions that satisfy the assumptions, with a middle product that fails for zero matrices and `dB ≥ D`. -/
noncomputable def callsEx (F : Type) [Field F] (D thresh : Nat) : Calls F :=
  ⟨fun A m => if h : ∃ x, IsInvTrunc A m x then .ok h.choose else .error,
    fun A _ => .ok fun b => .ok ⟨A.rows, b.cols, fun ij => ∑ k ∈ Finset.range A.cols, A.e (ij.1, k) * b.e (k, ij.2)⟩,
    fun a c dA dB => if deg a < 0 ∧ D ≤ dB then none else some ⟨a.rows, c.cols, fun ij => ofCoeffs (dB + 1) fun k =>
      (∑ l ∈ Finset.range a.cols, (a.e (ij.1, l) %ₘ X ^ (dA + 1)) * c.e (l, ij.2)).coeff (dA + k)⟩, thresh⟩

open Classical in
theorem callsEx_ok (D thresh : Nat) : (callsEx F D thresh).Ok := by
  refine ⟨fun A m hsq hn hc hm => ?_, fun A dB _ _ => ⟨_, rfl, fun b hb _ => ⟨_, rfl, rfl, rfl, fun i j _ _ => rfl⟩⟩, fun a c dA dB _ _ _ _ _ => ?_⟩
  · obtain ⟨inv, hinv⟩ := MatEval.invOk_exists (F := F)
    obtain ⟨y, -, hy⟩ := C71_plain hinv (fresh F) A m hm hn hsq hc
    have h : ∃ x, IsInvTrunc A m x := ⟨y, hy⟩
    refine ⟨h.choose, ?_, h.choose_spec⟩
    show (if h : ∃ x, IsInvTrunc A m x then Out.ok h.choose else .error) = _
    rw [dif_pos h]
  · show (∃ b, (if deg a < 0 ∧ D ≤ dB then none else some _) = some b ∧ _) ∨ ((if deg a < 0 ∧ D ≤ dB then none else some _) = none ∧ _)
    by_cases h : deg a < 0 ∧ D ≤ dB
    · exact Or.inr ⟨if_pos h, h.1⟩
    · refine Or.inl ⟨_, if_neg h, rfl, rfl, fun i j _ _ k => ?_⟩
      rw [ofCoeffs_coeff]
      by_cases h : k ≤ dB
      · rw [if_pos h, if_pos (by omega)]
      · rw [if_neg h, if_neg (by omega)]

/-- The solution of a system of two equations modulo 5, with two right-hand sides, modulo `X^7`: by both methods. -/
example : ∃ u, highPrec (callsEx (ZMod 5) 1 2) inv5 inv5 7 = .ok u ∧ IsSol inv5 inv5 7 (vals u) :=
  C72_high_precision (callsEx_ok _ _) inv5 inv5 7 (by omega) (Nat.succ_pos 1) rfl inv5_const rfl

example :=
  C72_low_precision_partial (callsEx_ok 1 2) (some 3) (by decide) inv5 inv5 7 (by omega) (Nat.succ_pos 1) rfl inv5_const rfl

example : ∃ u, lowPrec (callsEx (ZMod 5) 1 2) (some 9) inv5 inv5 7 = .ok u ∧ IsSol inv5 inv5 7 u :=
  C72_low_precision_small (callsEx_ok _ _) (some 9) inv5 inv5 7 (by omega) (by decide) (Nat.succ_pos 1) rfl inv5_const rfl

example :=
  C72_solve_series_partial (callsEx_ok 1 2) (Nat.le_succ 1) inv5 inv5 3 (by omega) (Nat.succ_pos 1) rfl inv5_const rfl

/-- `C72_low_precision_fails`: the right-hand side `X^2`, modulo `X^4`, with the threshold 2. -/
example : lowPrec (callsEx (ZMod 5) 1 2) none inv5 ⟨2, 1, fun _ => X ^ 2⟩ 4 = .ub :=
  C72_low_precision_fails (callsEx_ok _ _) 1 (fun a c dA dB h1 h2 => if_pos ⟨h1, h2⟩) none inv5 ⟨2, 1, fun _ => X ^ 2⟩ 4 (by show 2 < 4; omega)
    (by show 4 / 2 ≤ 2; omega) (Nat.le_succ 1) (by omega) (Nat.succ_pos 1) rfl inv5_const rfl fun i j _ _ k hk => by
      show (X ^ 2 : (ZMod 5)[X]).coeff k = 0
      rw [coeff_X_pow, if_neg (by omega)]

open Classical in
/-- `C72_reject`: functions that report an error when there is no inverse, and a matrix that has none. -/
example : solveSeries (F := ZMod 5) ⟨fun A m => if deg A < 0 ∨ (1 ≤ m ∧ (A.rows ≠ A.cols ∨ ¬ConstInv A)) then .error else .ub, fun _ _ => .ub,
    fun _ _ _ _ => none, 1⟩ ⟨1, 2, fun _ => 1⟩ (one1 1) 3 = .error :=
  C72_reject _ (fun A m h => if_pos h) (le_refl _) _ _ 3 (by omega) (Or.inl (by decide))

end PML.Ntl.Solve
