import Verif.Ntl.PopovModel
import Verif.Ntl.AppbasPopov
import Verif.Ntl.MbasisProps

/-!
# Reduced echelon forms, the two calls, and the composition of two bases
-/

namespace PML.Ntl.Popov

open Polynomial PML.Ntl.Utils PML.Ntl.Inv PML.Ntl.Solve PML.Ntl.Forms PML.Ntl.Det PML.Ntl.Mbasis PML.Ntl.Appbas PML.Approx PML.Approx.Spec
  PML.Forms.Spec

variable {F : Type} [Field F] [DecidableEq F]

/-! ### Order 1 -/

omit [DecidableEq F] in
theorem last_unique {m : Nat} {row : Nat → F} {p q : Nat} (a : Last m row p) (b : Last m row q) : p = q := by
  rcases lt_trichotomy p q with h | h | h
  · exact absurd (a.after _ h b.lt) b.ne
  · exact h
  · exact absurd (b.after _ h a.lt) a.ne

/-- The loop on the rows finds whether all pivots are as expected. -/
theorem expects_spec (pk : PMat F) (m k : Nat) : ∀ (steps i : Nat), i + steps = k → (∀ r, r < k → ∃ j, j < m ∧ pk.e (r, j) ≠ 0) →
    (expects pk m k steps i = some true ∧ ∀ r, i ≤ r → r < k → Last m (fun j => pk.e (r, j)) (m - k + r)) ∨
    expects pk m k steps i = some false := by
  intro steps
  induction steps with
  | zero => intro i hi _; exact Or.inl ⟨rfl, fun r h1 h2 => by omega⟩
  | succ steps ih =>
    intro i hi hrow
    obtain ⟨p, e, hp⟩ := scan_some (fun j => pk.e (i, j)) m (hrow i (by omega))
    unfold expects
    rw [e]
    dsimp only
    by_cases h : p ≠ m - k + i
    · rw [if_pos h]; exact Or.inr rfl
    · rw [if_neg h]
      push Not at h
      rcases ih (i + 1) (by omega) hrow with ⟨h1, h2⟩ | h1
      · refine Or.inl ⟨h1, fun r hr1 hr2 => ?_⟩
        rcases Nat.eq_or_lt_of_le hr1 with rfl | hlt
        · rw [← h]; exact hp
        · exact h2 r hlt hr2
      · exact Or.inr h1

/-- A kernel in reduced echelon form, up to the order of its rows. -/
structure Reduced (m n : Nat) (A : Nat → Nat → F) (k : Nat) (pk : PMat F) (piv : List Nat) : Prop extends Distinct m n A k pk piv where
  unit : ∀ r r', r < k → r' < k → pk.e (r, piv.getD r' 0) = if r = r' then 1 else 0

omit [DecidableEq F] in
theorem pivotBlock_det {m k : Nat} {pk : PMat F} {piv : List Nat} (h : ∀ r, r < k → Last m (fun j => pk.e (r, j)) (piv.getD r 0))
    (hmono : ∀ r r', r < r' → r' < k → piv.getD r 0 < piv.getD r' 0) :
    (Matrix.of fun i j : Fin k => pk.e (i, piv.getD j 0)).det ≠ 0 := by
  rw [Matrix.det_of_lowerTriangular]
  · exact Finset.prod_ne_zero_iff.2 fun i _ => (h i i.2).ne
  · intro i j hij
    have hij' : i < j := hij
    exact (h i i.2).after _ (hmono i j hij' j.2) (h j j.2).lt

theorem reduceRows_spec {N : Nt F} (hN : N.Ok) {m n k : Nat} {A : Nat → Nat → F} (pk : PMat F) (hk : pk.rows = k) (hm : pk.cols = m)
    (hind : ∀ c : Nat → F, (∀ l, l < m → ∑ r ∈ Finset.range k, c r * pk.e (r, l) = 0) → ∀ r, r < k → c r = 0)
    (hs : Spans m n A k fun r l => pk.e (r, l)) :
    ∃ pk' piv, reduceRows N m k pk = .ok (pk', piv) ∧ pk'.rows = k ∧ pk'.cols = m ∧ Reduced m n A k pk' piv ∧
      ∀ r r', r < r' → r' < k → piv.getD r 0 < piv.getD r' 0 := by
  obtain ⟨pk1, e1, hs1, q, hq, hmono⟩ := echelonize_spec hN ⟨0, 0, fun _ => 0⟩ pk hind hs
  have hdim : pk1.rows = k ∧ pk1.cols = m := by
    unfold echelonize at e1
    dsimp only at e1
    split_ifs at e1
    cases e1
    exact ⟨hk, hm⟩
  obtain ⟨piv, e2, hlen, hlast⟩ := scanAll_some pk1 m k fun r hr => ⟨q r, (hq r hr).lt, (hq r hr).ne⟩
  have hpq : ∀ r, r < k → piv.getD r 0 = q r := fun r hr => last_unique (hlast r hr) (hq r hr)
  have hpm : ∀ r r', r < r' → r' < k → piv.getD r 0 < piv.getD r' 0 := fun r r' h1 h2 => by
    rw [hpq r (by omega), hpq r' h2]; exact hmono r r' h1 h2
  obtain ⟨W, w1, w2⟩ := inverse_spec k (fun ij => pk1.e (ij.1, piv.getD ij.2 0)) (pivotBlock_det hlast hpm)
  unfold reduceRows
  rw [e1]
  simp only [andThen]
  rw [e2]
  dsimp only
  unfold pivotBlock
  rw [w1]
  dsimp only
  unfold mulField
  dsimp only
  rw [if_neg (by rw [hdim.1]; simp)]
  set new : PMat F := ⟨k, pk1.cols, fun ij => ∑ l ∈ Finset.range k, W (ij.1, l) * pk1.e (l, ij.2)⟩ with hnew
  have hunit : ∀ r r', r < k → r' < k → new.e (r, piv.getD r' 0) = if r = r' then 1 else 0 := by
    intro r r' hr hr'
    have := congrFun (congrFun w2 ⟨r, hr⟩) ⟨r', hr'⟩
    rw [Matrix.mul_apply, Matrix.one_apply] at this
    simp only [Fin.mk.injEq] at this
    rw [← this, hnew]
    dsimp only
    rw [Finset.sum_range]
    rfl
  -- the inverse is lower triangular
  have hW : ∀ d r r', r' + d + 1 = k → r < r' → W (r, r') = 0 := by
    intro d
    induction d using Nat.strong_induction_on with
    | _ d ih =>
      intro r r' hd hrr
      have h1 := hunit r r' (by omega) (by omega)
      rw [if_neg (by omega), hnew] at h1
      dsimp only at h1
      rw [Finset.sum_eq_single r'] at h1
      · exact (mul_eq_zero.1 h1).resolve_right (hlast r' (by omega)).ne
      · intro l hl hne
        have hl := Finset.mem_range.1 hl
        rcases lt_or_gt_of_ne hne with h2 | h2
        · rw [(hlast l hl).after _ (hpm l r' h2 (by omega)) (hlast r' (by omega)).lt, mul_zero]
        · rw [ih (k - 1 - l) (by omega) r l (by omega) (by omega), zero_mul]
      · intro h2
        exact absurd (Finset.mem_range.2 (by omega)) h2
  have w3 : (Matrix.of fun i j : Fin k => pk1.e (i, piv.getD j 0)) * (Matrix.of fun i j : Fin k => W (i, j)) = 1 := mul_eq_one_comm.1 w2
  have hback : ∀ r l, r < k → pk1.e (r, l) = ∑ r' ∈ Finset.range k, pk1.e (r, piv.getD r' 0) * new.e (r', l) := by
    intro r l hr
    rw [hnew]
    dsimp only
    simp only [Finset.mul_sum]
    rw [Finset.sum_comm]
    rw [Finset.sum_eq_single r]
    · have := congrFun (congrFun w3 ⟨r, hr⟩) ⟨r, hr⟩
      rw [Matrix.mul_apply, Matrix.one_apply_eq] at this
      have this := (Finset.sum_range fun x => pk1.e (r, piv.getD x 0) * W (x, r)).trans this
      simp only [← mul_assoc]
      rw [← Finset.sum_mul, this, one_mul]
    · intro l' hl' hne
      have hl' := Finset.mem_range.1 hl'
      have := congrFun (congrFun w3 ⟨r, hr⟩) ⟨l', hl'⟩
      rw [Matrix.mul_apply, Matrix.one_apply_ne (by simpa using hne.symm)] at this
      have this := (Finset.sum_range fun x => pk1.e (r, piv.getD x 0) * W (x, l')).trans this
      simp only [← mul_assoc]
      rw [← Finset.sum_mul, this, zero_mul]
    · intro h; exact absurd (Finset.mem_range.2 hr) h
  refine ⟨new, piv, rfl, rfl, hdim.2, ⟨⟨hlen, fun r hr => ⟨(hlast r hr).lt, ?_, fun j hj1 hj2 => ?_⟩, fun r r' hr hr' e => ?_, fun v => ?_⟩, hunit⟩, hpm⟩
  · rw [hunit r r hr hr, if_pos rfl]; exact one_ne_zero
  · show ∑ l ∈ Finset.range k, W (r, l) * pk1.e (l, j) = 0
    refine Finset.sum_eq_zero fun l hl => ?_
    have hl := Finset.mem_range.1 hl
    rcases Nat.lt_or_ge r l with h | h
    · rw [hW (k - 1 - l) r l (by omega) h, zero_mul]
    · have : piv.getD l 0 ≤ piv.getD r 0 := by
        rcases Nat.eq_or_lt_of_le h with rfl | h
        · exact le_rfl
        · exact (hpm l r h hr).le
      rw [(hlast l hl).after j (by omega) hj2, mul_zero]
  · rcases lt_trichotomy r r' with h | h | h
    · have := hpm r r' h hr'; omega
    · exact h
    · have := hpm r' r h hr; omega
  · rw [hs1 v]
    constructor
    · rintro ⟨c, hc⟩
      refine ⟨fun r' => ∑ r ∈ Finset.range k, c r * pk1.e (r, piv.getD r' 0), fun l hl => ?_⟩
      rw [hc l hl]
      dsimp only
      simp only [Finset.sum_mul]
      rw [Finset.sum_comm]
      refine Finset.sum_congr rfl fun r hr => ?_
      rw [hback r l (Finset.mem_range.1 hr), Finset.mul_sum]
      exact Finset.sum_congr rfl fun x _ => by ring
    · rintro ⟨c, hc⟩
      refine ⟨fun l' => ∑ r ∈ Finset.range k, c r * W (r, l'), fun l hl => ?_⟩
      rw [hc l hl, hnew]
      dsimp only
      simp only [Finset.sum_mul, Finset.mul_sum]
      rw [Finset.sum_comm]
      exact Finset.sum_congr rfl fun x _ => Finset.sum_congr rfl fun y _ => by ring

/-! ### Two calls -/

omit [DecidableEq F] in
theorem genBy_of {m n d : Nat} {A : Matrix (Fin m) (Fin n) F[X]} {P : Matrix (Fin m) (Fin m) F[X]} (h : Generates A d P) :
    GenBy (IsApproximant A d) P := by
  intro v
  refine ⟨fun hv => h.complete v hv, ?_⟩
  rintro ⟨u, rfl⟩ j
  rw [Matrix.vecMul_vecMul]
  show X ^ d ∣ ∑ i, u i * (P * A) i j
  exact Finset.dvd_sum fun i _ => Dvd.dvd.mul_left (h.sound i j) _

omit [DecidableEq F] in
theorem of_genBy {m n d : Nat} {A : Matrix (Fin m) (Fin n) F[X]} {P : Matrix (Fin m) (Fin m) F[X]} (h : GenBy (IsApproximant A d) P) :
    Generates A d P := by
  refine ⟨fun i j => ?_, fun v hv => (h v).1 hv⟩
  exact (h (P i)).2 ⟨Pi.single i 1, by rw [Matrix.single_one_vecMul]; rfl⟩ j

theorem popovCall_good {call : PMat F[X] → (Nat → Int) → Out (PMat F[X] × (Nat → Int))} {pmat : PMat F[X]} {d : Nat} (hm : 0 < pmat.rows)
    (hc : ∀ a s, ∃ P t, call a s = .ok (P, t) ∧ P.rows = pmat.rows ∧ P.cols = pmat.rows ∧
      Good pmat.rows pmat.cols (fun i j => pmat.e (i, j)) s d t fun i j => P.e (i, j)) (app0 : PMat F[X]) (s : Nat → Int) :
    ∃ P t, popovCall call pmat.rows app0 s = .ok (P, t) ∧ IsMinBasis pmat d s P t ∧
      PopovLower pmat.rows pmat.rows s fun i j => P.e (i, j) := by
  obtain ⟨P, t, a1, -, -, g1⟩ := hc app0 s
  set ps : Nat → Int := fun i => s i - t i with hps
  obtain ⟨⟨rr, rc, re⟩, t', c1, hrr, hrc, g2⟩ := hc P ps
  dsimp only at hrr hrc
  subst hrr; subst hrc
  have hz : (fun i : Fin pmat.rows => t' i) = fun _ => 0 := by
    funext i
    exact second_zero (genBy_of g1.gen) (genBy_of g2.gen) g1.piv g2.piv i
  have hp2 := g2.piv
  rw [hz] at hp2
  have hst : ∀ i, i < pmat.rows → s i ≤ t i := fun i hi => (g1.piv.row ⟨i, hi⟩).ge
  set pl := (List.range pmat.rows).map ps with hpl
  have hlen : pl.length = pmat.rows := by simp [hpl]
  have hent : ∀ i, i < pmat.rows → entryOf pl i = s i - t i := by
    intro i hi
    show pl.getD i 0 = _
    rw [List.getD_eq_getElem?_getD, hpl, List.getElem?_map, List.getElem?_range hi]
    rfl
  have epl : (fun i : Fin pmat.rows => entryOf pl i) = fun i : Fin pmat.rows => s i - t i := funext fun i => hent i i.2
  obtain ⟨le, l1, l2⟩ := leadingMatrix_spec hm re pl hlen s t hent hst (by rw [epl]; exact hp2)
  obtain ⟨W, w1, w2⟩ := inverse_spec pmat.rows le (by rw [l2]; exact lead_det (fun i => hst i i.2) hp2)
  obtain ⟨m1, m2⟩ := C66_mul_const_left (⟨pmat.rows, pmat.rows, W⟩ : PMat F) (⟨pmat.rows, pmat.rows, re⟩ : PMat F[X])
  obtain ⟨Q, hQ⟩ : ∃ Q, mulConstLeft (⟨pmat.rows, pmat.rows, W⟩ : PMat F) (⟨pmat.rows, pmat.rows, re⟩ : PMat F[X]) = some Q := by
    rcases hz : mulConstLeft (⟨pmat.rows, pmat.rows, W⟩ : PMat F) (⟨pmat.rows, pmat.rows, re⟩ : PMat F[X]) with _ | Q
    · exact absurd rfl (m1.1 hz)
    · exact ⟨Q, rfl⟩
  obtain ⟨q1, q2, q3⟩ := m2 Q hQ
  have hQm : tm pmat.rows pmat.rows (fun i j => Q.e (i, j)) = ((Matrix.of fun i j : Fin pmat.rows => W (i, j)).map C) *
      tm pmat.rows pmat.rows fun i j => re (i, j) := by
    refine Matrix.ext fun i j => ?_
    rw [Matrix.mul_apply]
    show Q.e (i, j) = _
    rw [q3 i j i.2 j.2, Finset.sum_range]
    rfl
  obtain ⟨k1, k2, k3, k4⟩ := popov_of_second (genBy_of g1.gen) (genBy_of g2.gen) g1.piv hp2 _ (by
    have w3 := w2
    rw [l2] at w3
    exact w3) hQm
  unfold popovCall
  rw [a1]
  show ∃ P_1 t_1, andThen (call P ps) _ = _ ∧ _
  rw [c1]
  show ∃ P_1 t_1, andThen (leadingMatrix true (⟨pmat.rows, pmat.rows, re⟩ : PMat F[X]) (some pl)) _ = _ ∧ _
  rw [l1]
  show ∃ P_1 t_1, andThen (inverse (⟨pmat.rows, pmat.rows, le⟩ : PMat F)) _ = _ ∧ _
  rw [w1]
  show ∃ P_1 t_1, andThen (ofOpt (mulConstLeft (⟨pmat.rows, pmat.rows, W⟩ : PMat F) (⟨pmat.rows, pmat.rows, re⟩ : PMat F[X]))) _ = _ ∧ _
  rw [hQ]
  have hg : Good pmat.rows pmat.cols (fun i j => pmat.e (i, j)) s d t fun i j => Q.e (i, j) := by
    refine ⟨of_genBy k1, k2, fun i l hi hl k hk => ?_⟩
    rw [q3 i l hi hl, finsetSum_coeff]
    refine Finset.sum_eq_zero fun a ha => ?_
    rw [coeff_C_mul]
    have : (re (a, l)).coeff k = 0 := g2.deg a l (Finset.mem_range.1 ha) hl k hk
    rw [this, mul_zero]
  have hmin := hg.minBasis q1 q2
  refine ⟨Q, t, rfl, hmin, ?_⟩
  refine ⟨fun i => i, _, hmin.pivot, fun i j hij _ => hij, fun i hi => (k3 ⟨i, hi⟩).1, fun i k hi hk hki => ?_⟩
  exact k4 ⟨i, hi⟩ ⟨k, hk⟩ (fun e => hki (congrArg Fin.val e))

/-! ### Composition -/

theorem Good.comp {m n d1 d2 : Nat} {A R V1 V2 V : Nat → Nat → F[X]} {s s1 s2 : Nat → Int} (h1 : Good m n A s d1 s1 V1)
    (h2 : Good m n R s1 d2 s2 V2)
    (hR : ∀ i j, i < m → j < n → ∀ k, k < d2 → (R i j).coeff k = (∑ l ∈ Finset.range m, V1 i l * A l j).coeff (d1 + k))
    (hV : ∀ i j, i < m → j < m → V i j = ∑ l ∈ Finset.range m, V2 i l * V1 l j) : Good m n A s (d1 + d2) s2 V := by
  have hPe : tm m m V = tm m m V2 * tm m m V1 := by
    funext i j
    rw [tm_mul]
    exact hV i j i.2 j.2
  refine ⟨?_, ?_, fun i l hi hl k hk => ?_⟩
  · rw [hPe]
    refine Generates.mul (d₁ := d1) (d₂ := d2) h1.gen (G := tm m n R) (fun i j => ?_) h2.gen
    rw [X_pow_dvd_iff]
    intro k hk
    rw [coeff_sub, coeff_X_pow_mul']
    by_cases hk1 : k < d1
    · rw [if_neg (by omega), sub_zero]
      exact coeff_of_dvd (h1.gen.sound i j) hk1
    · rw [if_pos (by omega), tm_mul, show tm m n R i j = R i j from rfl,
        hR i j i.2 j.2 _ (by omega), show d1 + (k - d1) = k by omega, sub_self]
  · rw [hPe]
    exact h1.piv.mul h2.piv
  · rw [hV i l hi hl, finsetSum_coeff]
    refine Finset.sum_eq_zero fun x hx => ?_
    have hx := Finset.mem_range.1 hx
    rw [coeff_mul_range]
    refine Finset.sum_eq_zero fun y hy => ?_
    by_cases hy2 : d2 < y
    · rw [h2.deg i x hi hx y hy2, zero_mul]
    · rw [h1.deg x l hx hl (k - y) (by omega), mul_zero]

/-! ### Two rows and one column -/

/-- The four polynomials are a basis for the column of `f0` and `f1`. -/
def Good2 (f0 f1 : F[X]) (order : Nat) (s0 s1 : Int) (b : Bas2 F) : Prop :=
  Good 2 1 (fun i j => (column f0 f1).e (i, j)) (entryOf [s0, s1]) order (entryOf [b.s0, b.s1]) fun i j => (square b).e (i, j)

/-- The degrees of the four polynomials are at most the order. -/
theorem iterative2x1_deg (f0 f1 : F[X]) (order : Nat) (s0 s1 : Int) :
    let st := iterative2x1 f0 f1 order s0 s1
    (∀ k, order < k → st.p0.1.coeff k = 0) ∧ (∀ k, order < k → st.p0.2.coeff k = 0) ∧ (∀ k, order < k → st.p1.1.coeff k = 0) ∧
      ∀ k, order < k → st.p1.2.coeff k = 0 := by
  unfold iterative2x1
  rw [Int.toNat_natCast]
  refine forN_inv (P := fun (n : Nat) (st : St2 F) => (∀ k, n < k → st.p0.1.coeff k = 0) ∧ (∀ k, n < k → st.p0.2.coeff k = 0) ∧
    (∀ k, n < k → st.p1.1.coeff k = 0) ∧ ∀ k, n < k → st.p1.2.coeff k = 0) ?_ (fun i st _ h => ?_)
  · refine ⟨fun k hk => ?_, fun k hk => ?_, fun k hk => ?_, fun k hk => ?_⟩ <;> dsimp only <;> first
      | rw [coeff_zero]
      | rw [coeff_one, if_neg (by omega)]
  · obtain ⟨h1, h2, h3, h4⟩ := h
    have up : ∀ f : F[X], (∀ k, i < k → f.coeff k = 0) → ∀ k, i + 1 < k → f.coeff k = 0 := fun f hf k hk => hf k (by omega)
    have sh : ∀ f : F[X], (∀ k, i < k → f.coeff k = 0) → ∀ k, i + 1 < k → (pshift f 1).coeff k = 0 := by
      intro f hf k hk
      rw [pshift_coeff, if_pos (by omega)]
      exact hf _ (by omega)
    have comb : ∀ (c : F) (f g : F[X]), (∀ k, i < k → f.coeff k = 0) → (∀ k, i < k → g.coeff k = 0) → ∀ k, i + 1 < k → (f + C c * g).coeff k = 0 := by
      intro c f g hf hg k hk
      rw [coeff_add, coeff_C_mul, hf k (by omega), hg k (by omega), mul_zero, add_zero]
    unfold step2
    dsimp only
    split_ifs
    · exact ⟨sh _ h1, sh _ h2, comb _ _ _ h3 h1, comb _ _ _ h4 h2⟩
    · exact ⟨comb _ _ _ h1 h3, comb _ _ _ h2 h4, sh _ h3, sh _ h4⟩
    · exact ⟨up _ h1, up _ h2, sh _ h3, sh _ h4⟩
    · exact ⟨sh _ h1, sh _ h2, up _ h3, up _ h4⟩
    · exact ⟨up _ h1, up _ h2, up _ h3, up _ h4⟩

theorem base2_good (f0 f1 : F[X]) (order : Nat) (s0 s1 : Int) :
    Good2 f0 f1 order s0 s1 (let r := iterative2x1 f0 f1 order s0 s1
      ⟨r.p0.1, r.p0.2, r.p1.1, r.p1.2, r.s.1, r.s.2⟩) := by
  have h := iterative2x1_ok f0 f1 order s0 s1
  have hdeg := iterative2x1_deg f0 f1 order s0 s1
  dsimp only at hdeg ⊢
  generalize iterative2x1 f0 f1 order s0 s1 = st at h hdeg
  rw [Int.toNat_natCast] at h
  have e1 : tm 2 2 (fun i j => (square (⟨st.p0.1, st.p0.2, st.p1.1, st.p1.2, st.s.1, st.s.2⟩ : Bas2 F)).e (i, j)) = mat2 st := by
    refine Matrix.ext fun i j => ?_
    fin_cases i <;> fin_cases j <;> rfl
  have e2 : tm 2 1 (fun i j => (column f0 f1).e (i, j)) = col2 f0 f1 := by
    refine Matrix.ext fun i j => ?_
    fin_cases i <;> fin_cases j <;> rfl
  have e4 : ∀ a b : Int, (fun i : Fin 2 => entryOf [a, b] i) = ![a, b] := by
    intro a b
    funext i
    fin_cases i <;> rfl
  obtain ⟨d, hd⟩ := h.piv
  refine ⟨?_, ?_, ?_⟩
  · rw [e1, e2]
    exact of_genBy h.gen
  · rw [e1, e4, e4]
    exact hd.pivots
  · intro i l hi hl k hk
    obtain ⟨h1, h2, h3, h4⟩ := hdeg
    unfold square
    dsimp only
    split_ifs
    · exact h1 k hk
    · exact h2 k hk
    · exact h3 k hk
    · exact h4 k hk

/-- `pmbasis_2x1`. -/
theorem pmbasis2_good {mid : PMat F[X] → PMat F[X] → Nat → Nat → Option (PMat F[X])} (hmid : MiddleOk mid)
    {mul : PMat F[X] → PMat F[X] → Option (PMat F[X])} (hmul : MulOk mul) {thr : Int} (hthr : 0 < thr) :
    ∀ (fuel : Nat) (f0 f1 : F[X]) (order : Nat) (s0 s1 : Int), order ≤ fuel →
    ∃ b, pmbasis2 mid mul thr fuel f0 f1 order s0 s1 = .ok b ∧ Good2 f0 f1 order s0 s1 b := by
  intro fuel
  induction fuel with
  | zero =>
    intro f0 f1 order s0 s1 hf
    unfold pmbasis2
    rw [if_pos (by omega)]
    exact ⟨_, rfl, base2_good f0 f1 order s0 s1⟩
  | succ fuel ih =>
    intro f0 f1 order s0 s1 hf
    unfold pmbasis2
    by_cases hthr' : (order : Int) ≤ thr
    · rw [if_pos hthr']
      exact ⟨_, rfl, base2_good f0 f1 order s0 s1⟩
    rw [if_neg hthr']
    dsimp only
    obtain ⟨p, e1, hG1⟩ := ih (ptrunc f0 (order / 2)) (ptrunc f1 (order / 2)) (order / 2) s0 s1 (by omega)
    rw [e1]
    simp only [andThen]
    have hG1' : Good 2 1 (fun i j => (column f0 f1).e (i, j)) (entryOf [s0, s1]) (order / 2) (entryOf [p.s0, p.s1]) fun i j => (square p).e (i, j) :=
      Good.of_congr hG1 fun i j _ _ k hk => by
        unfold column
        dsimp only
        split_ifs <;> rw [ptrunc_coeff, if_pos hk]
    have hd0 : 0 ≤ deg (square p) := Good.deg_nonneg (pmat := column f0 f1) rfl rfl (by show 0 < 2; omega) hG1'
    have hd1 : deg (square p) ≤ (order / 2 : Nat) := Good.deg_le (pmat := column f0 f1) rfl rfl hG1'
    obtain ⟨d, hd⟩ : ∃ d : Nat, deg (square p) = d := ⟨_, (Int.toNat_of_nonneg hd0).symm⟩
    rw [if_neg (by omega), hd]
    rw [Int.toNat_natCast]
    obtain ⟨-, u1, u2, u3⟩ := C65_shift true (column (ptrunc f0 order) (ptrunc f1 order)) (column (ptrunc f0 order) (ptrunc f1 order)) ((order / 2 : Nat) - (d : Int))
    generalize rightShift true (column (ptrunc f0 order) (ptrunc f1 order)) (column (ptrunc f0 order) (ptrunc f1 order)) ((order / 2 : Nat) - (d : Int)) = U at u1 u2 u3 ⊢
    change U.rows = 2 at u1
    change U.cols = 1 at u2
    have hcol : ∀ l k, ((column (ptrunc f0 order) (ptrunc f1 order)).e (l, 0)).coeff k = if k < order then ((column f0 f1).e (l, 0)).coeff k else 0 := by
      intro l k
      unfold column
      dsimp only
      split_ifs with h1 h2 h2 <;> rw [ptrunc_coeff] <;> simp [h2]
    have u3' : ∀ l, l < 2 → ∀ k, (U.e (l, 0)).coeff k = if k + (order / 2 - d) < order then ((column f0 f1).e (l, 0)).coeff (k + (order / 2 - d)) else 0 := by
      intro l hl k
      rw [u3 l 0 hl Nat.one_pos k, if_pos (by omega), hcol, show ((k : Int) + ((order / 2 : Nat) - (d : Int))).toNat = k + (order / 2 - d) by omega]
    have hdegU : deg U ≤ (d : Nat) + (order - order / 2 - 1 : Nat) := by
      have := (deg_lt_iff U (d + (order - order / 2))).2 fun i j hi hj k hk => by
        obtain rfl : j = 0 := by omega
        rw [u3' i (by omega), if_neg (by omega)]
      omega
    obtain ⟨R, e2, m1, m2, m3⟩ := hmid (square p) U d (order - order / 2 - 1) u1.symm (by show 0 < 2; omega) hd0 hd.le hdegU
    rw [e2]
    simp only [ofMid]
    obtain ⟨q, e3, hG2⟩ := ih (R.e (0, 0)) (R.e (1, 0)) (order - order / 2) p.s0 p.s1 (by omega)
    rw [e3]
    dsimp only
    obtain ⟨P, e4, p1, p2, p3⟩ := hmul (square q) (square p) rfl (by show 0 < 2; omega)
    rw [e4]
    simp only [ofOpt]
    refine ⟨_, rfl, ?_⟩
    have := Good.comp (R := fun i j => (column (R.e (0, 0)) (R.e (1, 0))).e (i, j)) hG1' hG2 (V := fun i j => P.e (i, j)) (fun i j hi hj k hk => ?_) (fun i j hi hj => p3 i j hi hj)
    · rw [show order / 2 + (order - order / 2) = order by omega] at this
      refine this.congr (fun _ _ => rfl) fun i l hi hl => ?_
      unfold square
      dsimp only
      split_ifs with h1 h2 h2
      · rw [h1, h2]
      · rw [h1, show l = 1 by omega]
      · rw [h2, show i = 1 by omega]
      · rw [show l = 1 by omega, show i = 1 by omega]
    · obtain rfl : j = 0 := by omega
      have e5 : (column (R.e (0, 0)) (R.e (1, 0))).e (i, 0) = R.e (i, 0) := by
        unfold column
        dsimp only
        split_ifs with h
        · rw [h]
        · rw [show i = 1 by omega]
      rw [e5, m3 i 0 hi (by omega) k, if_pos (by omega)]
      rw [show (square p).cols = 2 from rfl, finsetSum_coeff, finsetSum_coeff]
      refine Finset.sum_congr rfl fun l hl => ?_
      have hl := Finset.mem_range.1 hl
      rw [(Polynomial.modByMonic_eq_self_iff (monic_X_pow _)).2 (by
        rw [degree_X_pow, degree_lt_iff_coeff_zero]
        intro x hx
        exact coeff_of_deg (square p) i l x hi hl (by omega))]
      rw [coeff_mul_range, coeff_mul_range]
      rw [← Finset.sum_subset (Finset.range_subset_range.2 (show d + k + 1 ≤ order / 2 + k + 1 by omega))]
      · refine Finset.sum_congr rfl fun x hx => ?_
        have hx := Finset.mem_range.1 hx
        rw [u3' l hl, if_pos (by omega), show d + k - x + (order / 2 - d) = order / 2 + k - x by omega]
      · intro x _ hx
        rw [Finset.mem_range] at hx
        rw [coeff_of_deg (square p) i l x hi hl (by omega), zero_mul]

end PML.Ntl.Popov
