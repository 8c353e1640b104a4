import Verif.Ntl.LinsolveTheory
import Verif.Ntl.SolveProps

/-! # Solving linear systems over `K(X)` by power series (C95) -/

namespace PML.Ntl.Linsolve

open Polynomial PML.Ntl.Utils PML.Ntl.Inv PML.Ntl.Solve

variable {F : Type} [Field F]

/-- The matrix. -/
noncomputable def matOf (n : Nat) (A : PMat F[X]) : Matrix (Fin n) (Fin n) F[X] := fun i j => A.e (i, j)

theorem matOf_mulVec (n : Nat) (A : PMat F[X]) (u : Nat → F[X]) (i : Fin n) :
    (matOf n A).mulVec (fun j => u j) i = ∑ l ∈ Finset.range n, A.e (i, l) * u l := by
  rw [Finset.sum_range]
  rfl

theorem solves_iff {A : PMat F[X]} (hsq : A.rows = A.cols) (b u : Nat → F[X]) (d : F[X]) :
    Solves A b u d ↔ (matOf A.rows A).mulVec (fun j => u j) = d • fun i : Fin A.rows => b i := by
  constructor
  · intro h
    funext i
    rw [matOf_mulVec]
    have := h i i.2
    rwa [← hsq] at this
  · intro h i hi
    have := congrFun h ⟨i, hi⟩
    rw [matOf_mulVec] at this
    rw [← hsq]
    exact this

theorem det_const {A : PMat F[X]} (hc : ConstInv A) : (matOf A.rows A).det.coeff 0 ≠ 0 := by
  obtain ⟨W, hW⟩ := hc
  have h1 : (matOf A.rows A).det.coeff 0 = (Matrix.det fun i j : Fin A.rows => (A.e (i, j)).coeff 0) := by
    rw [← constantCoeff_apply, RingHom.map_det]
    rfl
  have h2 : (Matrix.of fun i k : Fin A.rows => W (i, k)) * (Matrix.of fun i j : Fin A.rows => (A.e (i, j)).coeff 0) = 1 := by
    funext i j
    have := hW i j i.2 j.2
    rw [Finset.sum_range] at this
    rw [Matrix.mul_apply, Matrix.one_apply]
    simp only [Fin.ext_iff]
    exact this
  rw [h1]
  exact (Matrix.isUnit_det_of_left_inverse h2).ne_zero

theorem linComb_eq (n : Nat) (s : Nat → F[X]) (r : Nat → F) (D : Nat) : linComb n s r D = ∑ j ∈ Finset.range n, C (r j) * ptrunc (s j) D := by
  unfold linComb
  refine forN_inv (P := fun (m : Nat) (t : F[X]) => t = ∑ j ∈ Finset.range m, C (r j) * ptrunc (s j) D) (by simp) ?_
  intro m t _ h
  rw [h, Finset.sum_range_succ]

theorem trunc_dvd (f : F[X]) (D : Nat) : X ^ D ∣ f - ptrunc f D := by
  rw [X_pow_dvd_iff]
  intro k hk
  rw [coeff_sub, ptrunc_coeff, if_pos hk, sub_self]

theorem degree_lt_of_coeff {f : F[X]} {n : Nat} (h : ∀ k, n ≤ k → f.coeff k = 0) : f.degree < n := (degree_lt_iff_coeff_zero f n).2 fun k hk => h k hk

theorem write_all {n : Nat} (f : Nat → F[X]) (t : Nat → F[X]) (i : Nat) (hi : i < n) : forN n (fun i u => write i (f i) u) t i = f i := by
  revert i
  refine forN_inv (P := fun (m : Nat) (u : Nat → F[X]) => ∀ i, i < m → u i = f i) (fun i hi => absurd hi (Nat.not_lt_zero _)) ?_
  intro m u _ h i hi
  unfold write
  by_cases him : i = m
  · rw [him, Function.update_self]
  · rw [Function.update_of_ne him]
    exact h i (by omega)

/-- The minimal solution of the system, with the bounds that the code uses. -/
theorem exists_solution {A : PMat F[X]} (hsq : A.rows = A.cols) (hc : ConstInv A) (b : Nat → F[X]) :
    ∃ (L : F[X]) (y : Nat → F[X]), L.Monic ∧ L.coeff 0 ≠ 0 ∧ Solves A b y L ∧ L ∣ (matOf A.rows A).det ∧
      (∀ d v, Solves A b v d → ∃ q, d = L * q ∧ ∀ i, i < A.rows → v i = q * y i) ∧
      (L.natDegree : Int) ≤ max 0 (A.rows * deg A) ∧
      (∀ i, i < A.rows → (y i).degree < ((A.rows * deg A - deg A + degV A.rows b + 1).toNat : Nat) ∨ deg A < 0) := by
  have hdet := det_const hc
  have hdet0 : (matOf A.rows A).det ≠ 0 := fun h => by rw [h, coeff_zero] at hdet; exact hdet rfl
  obtain ⟨L, y, h1, h2, h3⟩ := exists_min (matOf A.rows A) (fun i => b i) hdet0
  obtain ⟨q, hq, hy⟩ := (h3 _ _ (Matrix.mulVec_cramer _ _)).2
  have q0 : q ≠ 0 := fun h => hdet0 (by rw [hq, h, mul_zero])
  have ext : (fun j : Fin A.rows => (fun k : Nat => if h : k < A.rows then y ⟨k, h⟩ else 0) j) = y := by
    funext j
    simp only [j.2, dif_pos, Fin.eta]
  have hA : ∀ i j : Fin A.rows, (matOf A.rows A i j).natDegree ≤ (deg A).toNat := fun i j => by
    have := (deg_spec A).2.1 i j i.2 (by rw [← hsq]; exact j.2)
    unfold matOf
    unfold pdeg at this
    split at this
    · rename_i h
      rw [degree_eq_bot.1 h, natDegree_zero]
      exact Nat.zero_le _
    · omega
  refine ⟨L, fun k => if h : k < A.rows then y ⟨k, h⟩ else 0, h1, ?_, ?_, ⟨q, hq⟩, ?_, ?_, ?_⟩
  · intro h0
    rw [hq, mul_coeff_zero, h0, zero_mul] at hdet
    exact hdet rfl
  · rw [solves_iff hsq, ext]
    exact h2
  · intro d v hv
    rw [solves_iff hsq] at hv
    obtain ⟨q, hq, hv⟩ := (h3 _ _ hv).2
    refine ⟨q, hq, fun i hi => ?_⟩
    have := congrFun hv ⟨i, hi⟩
    dsimp only
    rw [dif_pos hi]
    exact this
  · have h4 := det_degree _ hA
    have h5 : L.natDegree ≤ (matOf A.rows A).det.natDegree := natDegree_le_of_dvd ⟨q, hq⟩ hdet0
    rcases (show deg A < 0 ∨ 0 ≤ deg A by omega) with hneg | hneg
    · have : (deg A).toNat = 0 := by omega
      rw [this, Nat.mul_zero] at h4
      have : L.natDegree = 0 := by omega
      rw [this]
      exact le_max_left _ _
    · obtain ⟨a, ha⟩ := Int.eq_ofNat_of_zero_le hneg
      rw [ha] at h4 ⊢
      rw [Int.toNat_natCast] at h4
      refine le_trans ?_ (le_max_right _ _)
      exact_mod_cast (by omega : L.natDegree ≤ A.rows * a)
  · intro i hi
    rcases (show deg A < 0 ∨ 0 ≤ deg A by omega) with hneg | hneg
    · exact Or.inr hneg
    left
    obtain ⟨a, ha⟩ := Int.eq_ofNat_of_zero_le hneg
    dsimp only
    rw [dif_pos hi]
    have sb := deg_spec (⟨A.rows, 1, fun ij => b ij.1⟩ : PMat F[X])
    have hn : 1 ≤ A.rows := by omega
    obtain ⟨k, hk⟩ : ∃ k, A.rows = k + 1 := ⟨A.rows - 1, by omega⟩
    have e1 : (A.rows * deg A - deg A + degV A.rows b + 1).toNat = (k * a : Int) + degV A.rows b + 1 := by
      have hge : -1 ≤ degV A.rows b := sb.1
      have : (0 : Int) ≤ k * a := by positivity
      rw [ha, hk]
      push_cast
      rw [Int.toNat_of_nonneg]
      · ring
      · have e : ((k : Int) + 1) * a - a + degV (k + 1) b + 1 = k * a + degV (k + 1) b + 1 := by ring
        rw [e]
        rw [hk] at hge
        omega
    by_cases hb : degV A.rows b = -1
    · have hb0 : ∀ i, i < A.rows → b i = 0 := fun i hi => (deg_neg_iff _).1 hb i 0 hi Nat.one_pos
      have hy0 : y = 0 := by
        refine Matrix.eq_zero_of_mulVec_eq_zero hdet0 ?_
        rw [h2]
        funext j
        show L * b j = 0
        rw [hb0 j j.2, mul_zero]
      rw [hy0]
      show (0 : F[X]).degree < _
      rw [degree_zero]
      exact WithBot.bot_lt_coe _
    · obtain ⟨c, hc'⟩ : ∃ c : Nat, degV A.rows b = c := Int.eq_ofNat_of_zero_le (by have : -1 ≤ degV A.rows b := sb.1; omega)
      have h5 := cramer_degree (matOf A.rows A) (fun i => b i) (dB := c) hA (fun i => by
        have h6 := sb.2.1 i 0 i.2 Nat.one_pos
        have h7 : deg (⟨A.rows, 1, fun ij => b ij.1⟩ : PMat F[X]) = c := hc'
        rw [h7] at h6
        unfold pdeg at h6
        split at h6
        · rename_i h
          dsimp only at h
          rw [degree_eq_bot.1 h, natDegree_zero]
          exact Nat.zero_le _
        · exact_mod_cast h6) ⟨i, hi⟩
      rw [hy] at h5
      change (q * y ⟨i, hi⟩).natDegree + _ ≤ _ at h5
      by_cases hyi : y ⟨i, hi⟩ = 0
      · rw [hyi, degree_zero]
        exact WithBot.bot_lt_coe _
      · rw [degree_eq_natDegree hyi]
        rw [natDegree_mul q0 hyi, ha, Int.toNat_natCast] at h5
        generalize (y ⟨i, hi⟩).natDegree = dy at h5 ⊢
        replace h5 : q.natDegree + dy + a ≤ (k + 1) * a + c := by rw [← hk]; exact h5
        rw [hc'] at e1
        have e2 : (A.rows * deg A - deg A + degV A.rows b + 1).toNat = k * a + c + 1 := by
          rw [hc']
          exact_mod_cast e1
        rw [e2]
        have : (k + 1) * a = k * a + a := by ring
        exact_mod_cast (by omega : dy < k * a + c + 1)

/-- Everything about a run on a matrix which is not constant. -/
theorem series_core [DecidableEq F] {C' : Calls F} (hC : C'.Ok) (ht : 1 ≤ C'.thresh) {N : Ntl F} (hN : HgcdOK N.hgcd) (al : Bool) {A : PMat F[X]} (hsq : A.rows = A.cols)
    (hn : 0 < A.rows) (hc : ConstInv A) (hd : deg A ≠ 0) (b : Nat → F[X]) {L : F[X]} {y : Nat → F[X]} (L1 : L.Monic) (L0 : L.coeff 0 ≠ 0) (hy : Solves A b y L)
    (hmin : ∀ d v, Solves A b v d → ∃ q, d = L * q ∧ ∀ i, i < A.rows → v i = q * y i) (dL : (L.natDegree : Int) ≤ max 0 (A.rows * deg A))
    (dy : ∀ i, i < A.rows → (y i).degree < ((A.rows * deg A - deg A + degV A.rows b + 1).toNat : Nat) ∨ deg A < 0) :
    (∃ s : Nat → F[X], ∀ r, ∃ u den, viaSeries C' N al A b r = .ok (u, den) ∧ den.Monic ∧ (∃ g t, L = g * den ∧ ∑ j ∈ Finset.range A.rows, C (r j) * y j = g * t ∧ IsCoprime den t) ∧
      (∀ i, i < A.rows → (u i).degree < ((A.rows * deg A - deg A + degV A.rows b + 1).toNat : Nat)) ∧
      (∀ i, i < A.rows → X ^ (A.rows * deg A - deg A + degV A.rows b + 1).toNat ∣ u i - s i * den) ∧
      (∀ i, i < A.rows → X ^ (A.rows * deg A - deg A + degV A.rows b + 1).toNat ∣ (∑ l ∈ Finset.range A.cols, A.e (i, l) * u l) - den * b i) ∧
      (den = L → ∀ i, i < A.rows → u i = y i)) ∨
    ((∀ r, viaSeries C' N al A b r = .ub) ∧ ∃ (a c : PMat F[X]) (dA dB : Nat), deg a < 0 ∧ C'.mid a c dA dB = none) := by
  have dpos : 0 < deg A := by
    have h1 := (deg_spec A).1
    by_contra hcon
    have : deg A = -1 := by omega
    have hz := (deg_neg_iff A).1 this
    obtain ⟨W, hW⟩ := hc
    have := hW 0 0 hn hn
    rw [if_pos rfl, Finset.sum_eq_zero] at this
    · exact zero_ne_one this
    · intro k hk
      rw [hz k 0 (Finset.mem_range.1 hk) (by omega), coeff_zero, mul_zero]
  obtain ⟨a, ha⟩ := Int.eq_ofNat_of_zero_le dpos.le
  have hdV : -1 ≤ degV A.rows b := (deg_spec (⟨A.rows, 1, fun ij => b ij.1⟩ : PMat F[X])).1
  obtain ⟨k, hk⟩ : ∃ k, A.rows = k + 1 := ⟨A.rows - 1, by omega⟩
  have hka : (0 : Int) ≤ k * a := by positivity
  have ek : (A.rows : Int) * deg A = k * a + a := by rw [ha, hk]; push_cast; ring
  have hNn : ∃ Nn : Nat, A.rows * deg A - deg A + degV A.rows b + 1 = Nn := Int.eq_ofNat_of_zero_le (by rw [ek, ha]; omega)
  obtain ⟨Nn, hNn⟩ := hNn
  obtain ⟨dd, hdd⟩ : ∃ dd : Nat, A.rows * deg A = (dd : Int) := Int.eq_ofNat_of_zero_le (by rw [ek]; omega)
  have hdd1 : 1 ≤ dd := by rw [ek] at hdd; omega
  rw [hdd] at dL
  replace dL : L.natDegree ≤ dd := by
    have : max (0 : Int) dd = dd := max_eq_right (by omega)
    rw [this] at dL
    exact_mod_cast dL
  have hDe : A.rows * deg A + (A.rows * deg A - deg A + degV A.rows b) + 1 = ((dd + Nn : Nat) : Int) := by
    push_cast
    omega
  rw [hNn, Int.toNat_natCast]
  rw [hNn, Int.toNat_natCast] at dy
  replace dy : ∀ i, i < A.rows → (y i).degree < Nn := fun i hi => (dy i hi).resolve_right (by omega)
  generalize hprec : (max (Nn : Int) (A.rows * deg A) + A.rows * deg A).toNat = prec
  have hpr : dd + Nn ≤ prec ∧ 1 ≤ prec := by
    rw [hdd] at hprec
    have h1 := le_max_left (Nn : Int) (dd : Int)
    generalize max (Nn : Int) (dd : Int) = m at *
    omega
  have run : ∀ r, viaSeries C' N al A b r = andThen (solveVec C' A A.rows b prec) fun s =>
      if (N.hgcd (X ^ (dd + Nn)) (linComb A.rows s.2 r (dd + Nn)) (dd + 1)).m11.leadingCoeff = 0 then .error
      else .ok (forN A.rows (fun i u => write i (ptrunc (ptrunc (s.2 i) Nn * ptrunc (C ((N.hgcd (X ^ (dd + Nn)) (linComb A.rows s.2 r (dd + Nn)) (dd + 1)).m11.leadingCoeff)⁻¹ *
        (N.hgcd (X ^ (dd + Nn)) (linComb A.rows s.2 r (dd + Nn)) (dd + 1)).m11) Nn) Nn) u) (if al then b else fun _ => 0),
        C ((N.hgcd (X ^ (dd + Nn)) (linComb A.rows s.2 r (dd + Nn)) (dd + 1)).m11.leadingCoeff)⁻¹ *
        (N.hgcd (X ^ (dd + Nn)) (linComb A.rows s.2 r (dd + Nn)) (dd + 1)).m11) := fun r => by
    unfold viaSeries
    dsimp only
    rw [if_neg hd, if_neg (by omega), hDe, hNn, hprec, hdd]
    rfl
  rcases C72_vector_partial hC ht A b prec hpr.2 hn hsq hc with ⟨s, hs, -, hs2⟩ | ⟨hub, hw⟩
  · left
    refine ⟨s, fun r => ?_⟩
    rw [run r, hs]
    have hdet := det_const hc
    have hser : ∀ i, i < A.rows → X ^ prec ∣ L * s i - y i := fun i hi =>
      series_mul (matOf A.rows A) (fun i => b i) (s := fun j => s j) (y := fun j => y j) hdet (fun i => by
        rw [matOf_mulVec, X_pow_dvd_iff]
        intro k hk
        rw [coeff_sub, hs2 i i.2 k hk, sub_self]) ((solves_iff hsq _ _ _).1 hy) ⟨i, hi⟩
    have hlin := linComb_eq A.rows s r (dd + Nn)
    generalize hl : linComb A.rows s r (dd + Nn) = lin at hlin
    have hd1 : X ^ (dd + Nn) ∣ L * lin - ∑ j ∈ Finset.range A.rows, C (r j) * y j := by
      rw [hlin, Finset.mul_sum, ← Finset.sum_sub_distrib]
      refine Finset.dvd_sum fun j hj => ?_
      have e : L * (C (r j) * ptrunc (s j) (dd + Nn)) - C (r j) * y j = C (r j) * ((L * s j - y j) - L * (s j - ptrunc (s j) (dd + Nn))) := by ring
      rw [e]
      exact (dvd_sub ((pow_dvd_pow X hpr.1).trans (hser j (Finset.mem_range.1 hj))) ((trunc_dvd _ _).mul_left _)).mul_left _
    have hdl : (∑ j ∈ Finset.range A.rows, C (r j) * y j).degree < Nn := by
      refine degree_lt_of_coeff fun k hk => ?_
      rw [finsetSum_coeff]
      refine Finset.sum_eq_zero fun j hj => ?_
      rw [coeff_C_mul, (degree_lt_iff_coeff_zero _ _).1 (dy j (Finset.mem_range.1 hj)) k hk, mul_zero]
    have hds : lin.degree < (dd + Nn : Nat) := by
      refine degree_lt_of_coeff fun k hk => ?_
      rw [hlin, finsetSum_coeff]
      refine Finset.sum_eq_zero fun j _ => ?_
      rw [coeff_C_mul, ptrunc_coeff, if_neg (by omega), mul_zero]
    have hN0 : 0 < Nn ∨ lin = 0 := by
      rcases Nat.eq_zero_or_pos Nn with h0 | h0
      · right
        rw [h0] at hdl
        have hz : ∑ j ∈ Finset.range A.rows, C (r j) * y j = 0 := by
          refine degree_eq_bot.1 ?_
          exact Nat.WithBot.lt_zero_iff.1 hdl
        rw [hz, sub_zero] at hd1
        have hcop : IsCoprime (X ^ (dd + Nn) : F[X]) L := by
          refine IsCoprime.pow_left ?_
          rw [Irreducible.coprime_iff_not_dvd irreducible_X, X_dvd_iff]
          exact L0
        refine eq_zero_of_dvd_of_degree_lt (hcop.dvd_of_dvd_mul_left hd1) ?_
        rwa [degree_X_pow]
      · exact Or.inl h0
    obtain ⟨hm, g, t, hg, hgl, hcop⟩ := reconstruct hN rfl L0 dL hdl hds hN0 hd1
    simp only [andThen]
    rw [hl]
    generalize (N.hgcd (X ^ (dd + Nn)) lin (dd + 1)).m11 = m at *
    have hlc : m.leadingCoeff ≠ 0 := leadingCoeff_ne_zero.2 hm
    rw [if_neg hlc]
    have hmon : (C m.leadingCoeff⁻¹ * m).Monic := by
      rw [mul_comm]
      exact monic_mul_leadingCoeff_inv hm
    have hu : ∀ i, i < A.rows → X ^ Nn ∣ ptrunc (ptrunc (s i) Nn * ptrunc (C m.leadingCoeff⁻¹ * m) Nn) Nn - s i * (C m.leadingCoeff⁻¹ * m) := fun i hi => by
      generalize C m.leadingCoeff⁻¹ * m = den
      have e : ptrunc (ptrunc (s i) Nn * ptrunc den Nn) Nn - s i * den =
          -(ptrunc (s i) Nn * ptrunc den Nn - ptrunc (ptrunc (s i) Nn * ptrunc den Nn) Nn) - ((s i - ptrunc (s i) Nn) * den + ptrunc (s i) Nn * (den - ptrunc den Nn)) := by ring
      rw [e]
      exact dvd_sub (dvd_neg.2 (trunc_dvd _ _)) (dvd_add ((trunc_dvd _ _).mul_right _) ((trunc_dvd _ _).mul_left _))
    have hdu : ∀ i, (ptrunc (ptrunc (s i) Nn * ptrunc (C m.leadingCoeff⁻¹ * m) Nn) Nn).degree < Nn := fun i => degree_lt_of_coeff fun k hk => by
      rw [ptrunc_coeff, if_neg (by omega)]
    refine ⟨_, _, rfl, hmon, ⟨C m.leadingCoeff * g, C m.leadingCoeff⁻¹ * t, ?_, ?_, ?_⟩, ?_, ?_, ?_, ?_⟩
    · calc L = C (m.leadingCoeff * m.leadingCoeff⁻¹) * (g * m) := by rw [mul_inv_cancel₀ hlc, C_1, one_mul, hg]
        _ = _ := by rw [C_mul]; ring
    · rw [hgl]
      calc g * t = C (m.leadingCoeff * m.leadingCoeff⁻¹) * (g * t) := by rw [mul_inv_cancel₀ hlc, C_1, one_mul]
        _ = _ := by rw [C_mul]; ring
    · have hu1 : IsUnit (C m.leadingCoeff⁻¹ : F[X]) := isUnit_C.2 (IsUnit.mk0 _ (inv_ne_zero hlc))
      exact (isCoprime_mul_unit_left_left hu1 _ _).2 ((isCoprime_mul_unit_left_right hu1 _ _).2 hcop)
    · intro i hi
      rw [write_all _ _ i hi]
      exact hdu i
    · intro i hi
      rw [write_all _ _ i hi]
      exact hu i hi
    · intro i hi
      rw [← hsq, Finset.sum_congr rfl fun l hl => by rw [write_all _ _ l (Finset.mem_range.1 hl)]]
      generalize hden : C m.leadingCoeff⁻¹ * m = den at *
      have e : ∑ l ∈ Finset.range A.rows, A.e (i, l) * ptrunc (ptrunc (s l) Nn * ptrunc den Nn) Nn - den * b i =
          ∑ l ∈ Finset.range A.rows, A.e (i, l) * (ptrunc (ptrunc (s l) Nn * ptrunc den Nn) Nn - s l * den) + den * (∑ l ∈ Finset.range A.rows, A.e (i, l) * s l - b i) := by
        rw [mul_sub, Finset.mul_sum, add_sub, ← Finset.sum_add_distrib]
        congr 1
        exact Finset.sum_congr rfl fun l _ => by ring
      rw [e]
      refine dvd_add (Finset.dvd_sum fun l hl => (hu l (Finset.mem_range.1 hl)).mul_left _) (Dvd.dvd.mul_left ?_ _)
      rw [X_pow_dvd_iff]
      intro k hk
      rw [coeff_sub, hs2 i hi k (by omega), sub_self]
    · intro hL i hi
      rw [write_all _ _ i hi]
      have h1 := hu i hi
      have h2 := hdu i
      rw [hL] at h1 h2 ⊢
      have h3 : X ^ Nn ∣ ptrunc (ptrunc (s i) Nn * ptrunc L Nn) Nn - y i := by
        have e : ptrunc (ptrunc (s i) Nn * ptrunc L Nn) Nn - y i = (ptrunc (ptrunc (s i) Nn * ptrunc L Nn) Nn - s i * L) + (L * s i - y i) := by ring
        rw [e]
        exact dvd_add h1 ((pow_dvd_pow X (by omega)).trans (hser i hi))
      refine sub_eq_zero.1 (eq_zero_of_dvd_of_degree_lt h3 ?_)
      rw [degree_X_pow]
      exact lt_of_le_of_lt (degree_sub_le _ _) (max_lt h2 (dy i hi))
  · exact Or.inr ⟨fun r => by rw [run r, hub]; rfl, hw⟩

end PML.Ntl.Linsolve
