import Verif.Ntl.PopovLemmas
import Verif.Ntl.PopovUnique
import Verif.Ntl.PopovSpec
import Verif.Common.Prime

/-!
# C82: approximant bases in Popov form, and the algorithm for 2 x 1 matrices
-/

namespace PML.Ntl.Popov

open Polynomial PML.Ntl.Utils PML.Ntl.Inv PML.Ntl.Solve PML.Ntl.Forms PML.Ntl.Det PML.Ntl.Mbasis PML.Ntl.Appbas PML.Approx PML.Approx.Spec
  PML.Forms.Spec

variable {F : Type} [Field F] [DecidableEq F]

/-! ### Order 1 -/

omit [DecidableEq F] in
theorem resid_one {m : Nat} {A V : Nat → Nat → F[X]} {R : Nat → Nat → F} (hA : ∀ i j, A i j = C (R i j))
    (hV : ∀ i l, i < m → l < m → V i l = if i = l then 1 else 0) (i j : Nat) (hi : i < m) : R i j = resid m V A 0 i j := by
  unfold resid
  rw [Finset.sum_eq_single i]
  · rw [hV i i hi hi, if_pos rfl, one_mul, hA, coeff_C_zero]
  · intro l hl hne
    rw [hV i l hi (Finset.mem_range.1 hl), if_neg (fun h => hne h.symm), zero_mul]
  · intro h; exact absurd (Finset.mem_range.2 hi) h

/-- **C82.** `popov_mbasis1` never fails.  Its result is a left kernel basis of the matrix, and represents the approximant
    basis at order 1, in Popov form for the shift. -/
theorem C82_popov_mbasis1 {N : Nt F} (hN : N.Ok) (hS : KerShape N) (kerbas pmat : PMat F) (s : Nat → Int) :
    ∃ K δ, popovMbasis1 N kerbas pmat s = .ok (K, δ) ∧ IsLeftKernel pmat K ∧ ∃ P, Represents pmat.rows K δ P ∧
      IsMinBasis (constant pmat) 1 s P (fun i => s i + δ i) ∧ PopovLower pmat.rows pmat.rows s fun i j => P.e (i, j) := by
  have hp := sortBy_spec s pmat.rows
  obtain ⟨h1, h2, h3⟩ := kernel_facts hN (permRows pmat.rows pmat.cols (sortBy s pmat.rows) pmat)
  have hfull := hS.full (permRows pmat.rows pmat.cols (sortBy s pmat.rows) pmat)
  have hdiag := hS.diag (permRows pmat.rows pmat.cols (sortBy s pmat.rows) pmat)
  unfold popovMbasis1
  dsimp only
  generalize hK : N.ker (permRows pmat.rows pmat.cols (sortBy s pmat.rows) pmat) = K at *
  change K.cols = pmat.rows at h1
  change ∀ c : Nat → F, (∀ l, l < pmat.rows → _) → _ at h2
  change Spans pmat.rows pmat.cols (fun i j => pmat.e ((sortBy s pmat.rows).getD i 0, j)) _ _ at h3
  change K.rows = pmat.rows → ∀ i j, i < pmat.rows → j < pmat.rows → _ at hfull
  set m := pmat.rows with hmdef
  set one : Nat → Nat → F[X] := fun i l => if i = l then 1 else 0 with hone
  have hg1 : Good m pmat.cols (fun i j => (constant pmat).e (i, j)) s 0 s one := Good.one m pmat.cols _ s fun i l _ _ => rfl
  have hres : ∀ i j, i < m → pmat.e (i, j) = resid m one (fun i j => (constant pmat).e (i, j)) 0 i j := fun i j hi =>
    resid_one (R := fun i j => pmat.e (i, j)) (fun _ _ => rfl) (fun _ _ _ _ => rfl) i j hi
  by_cases hk0 : K.rows = 0
  · rw [if_pos hk0]
    have hsp := Spans.unperm hp (A := fun i j => pmat.e (i, j)) h3 hk0
    have hg := hg1.zero (s' := fun i => s i + 1) (V' := fun i l => if l = i then X else 0) (fun i j hi _ => hres i j hi) hsp 1 (fun _ _ => rfl) (fun i l _ _ => by
      rw [hone, pow_one]
      dsimp only
      by_cases h : i = l
      · rw [if_pos h, if_pos h.symm, mul_one]
      · rw [if_neg h, if_neg (fun e => h e.symm), mul_zero])
    rw [Nat.zero_add] at hg
    refine ⟨K, _, rfl, ⟨h1, h2, by rw [hk0]; exact hsp⟩, ⟨m, m, fun ij => if ij.2 = ij.1 then X else 0⟩, ⟨rfl, rfl, fun i => i, fun i hi => by omega,
      fun i j _ hj => by omega, fun i hi => by omega, fun t _ _ => ⟨rfl, fun l _ => rfl⟩⟩, hg.minBasis (pmat := constant pmat) (P := ⟨m, m, fun ij => if ij.2 = ij.1 then X else 0⟩) rfl rfl, ?_⟩
    have hmin := hg.minBasis (pmat := constant pmat) (P := ⟨m, m, fun ij => if ij.2 = ij.1 then X else 0⟩) rfl rfl
    refine ⟨fun i => i, _, hmin.pivot, fun i j hij _ => hij, fun i hi => ?_, fun i k hi hk hki => ?_⟩
    · dsimp only; rw [if_pos rfl]; exact monic_X
    · dsimp only
      rw [if_pos rfl, if_neg (fun e => hki e.symm), degree_zero, degree_X]
      exact WithBot.bot_lt_coe 1
  by_cases hkm : K.rows = m
  · rw [if_neg hk0, if_pos hkm]
    have h2' := h2
    have h3' := h3
    rw [hkm] at h2' h3'
    have hz := zero_of_full h2' h3'
    have hz' : ∀ i j, i < m → j < pmat.cols → pmat.e (i, j) = 0 := by
      intro i j hi hj
      obtain ⟨i', hi', rfl⟩ := hp.surj i hi
      exact hz i' j hi' hj
    have hg := hg1.full (fun i j hi hj => by rw [← hres i j hi]; exact hz' i j hi hj)
    rw [Nat.zero_add] at hg
    have hmin := hg.minBasis (pmat := constant pmat) (P := ⟨m, m, fun ij => if ij.1 = ij.2 then 1 else 0⟩) rfl rfl
    refine ⟨K, _, rfl, ⟨h1, h2, fun v => ?_⟩, ⟨m, m, fun ij => if ij.1 = ij.2 then 1 else 0⟩, ⟨rfl, rfl, fun i => i, fun i hi => hkm ▸ hi, fun i j h _ => h,
      fun i hi => ⟨rfl, fun l hl => ?_⟩, fun t ht h => absurd rfl (h t (by omega))⟩, ?_, ?_⟩
    · have e1 := h3 v
      have e2 : ∀ j, j < pmat.cols → ∑ l ∈ Finset.range m, v l * pmat.e ((sortBy s m).getD l 0, j) = 0 := fun j hj =>
        Finset.sum_eq_zero fun l hl => by rw [hz l j (Finset.mem_range.1 hl) hj, mul_zero]
      have e3 : ∀ j, j < pmat.cols → ∑ l ∈ Finset.range m, v l * pmat.e (l, j) = 0 := fun j hj =>
        Finset.sum_eq_zero fun l hl => by rw [hz' l j (Finset.mem_range.1 hl) hj, mul_zero]
      exact ⟨fun _ => e1.1 e2, fun _ => e3⟩
    · dsimp only
      rw [hfull hkm i l (by omega) hl]
      split_ifs
      · rw [C_1]
      · rw [C_0]
    · have e : (fun i => s i + (0 : Int)) = s := funext fun i => add_zero _
      rw [e]
      exact hmin
    · refine ⟨fun i => i, _, hmin.pivot, fun i j hij _ => hij, fun i hi => ?_, fun i k hi hk hki => ?_⟩
      · dsimp only; rw [if_pos rfl]; exact monic_one
      · dsimp only
        rw [if_pos rfl, if_neg hki, degree_zero, degree_one]
        exact WithBot.bot_lt_coe 0
  rw [if_neg hk0, if_neg hkm]
  have hrow : ∀ r, r < K.rows → ∃ j, j < m ∧ K.e (r, j) ≠ 0 := by
    intro r hr
    by_contra hc
    push Not at hc
    have := h2 (fun r' => if r' = r then 1 else 0) (fun l hl => by
      refine Finset.sum_eq_zero fun r' _ => ?_
      by_cases h : r' = r
      · rw [h, hc l hl, mul_zero]
      · rw [if_neg h, zero_mul]) r hr
    rw [if_pos rfl] at this
    exact one_ne_zero this
  have hle : K.rows ≤ m := rows_le h2 h3
  have hred : ∃ pk' piv, reduced N m K.rows K = .ok (pk', piv) ∧
        Reduced m pmat.cols (fun i j => pmat.e ((sortBy s m).getD i 0, j)) K.rows pk' piv := by
    unfold reduced
    rcases expects_spec K m K.rows K.rows 0 (by omega) hrow with ⟨e1, e2⟩ | e1
    · rw [e1]
      have hgd : ∀ r, r < K.rows → ((List.range K.rows).map fun i => m - K.rows + i).getD r 0 = m - K.rows + r := by
        intro r hr
        rw [List.getD_eq_getElem?_getD, List.getElem?_map, List.getElem?_range hr]
        rfl
      refine ⟨K, _, rfl, ⟨by simp, fun r hr => ?_, fun r r' hr hr' e => ?_, h3⟩, fun r r' hr hr' => ?_⟩
      · rw [hgd r hr]; exact e2 r (Nat.zero_le _) hr
      · rw [hgd r hr, hgd r' hr'] at e; omega
      · rw [hgd r' hr']
        exact hdiag (fun i hi => ⟨(e2 i (Nat.zero_le _) hi).ne, (e2 i (Nat.zero_le _) hi).after⟩) r r' hr hr'
    · rw [e1]
      obtain ⟨pk', piv, a1, -, -, a2, -⟩ := reduceRows_spec hN K rfl h1 h2 h3
      exact ⟨pk', piv, a1, a2⟩
  obtain ⟨pk', piv, e1, hr⟩ := hred
  rw [e1]
  simp only [andThen]
  have hb := baseOk_of_distinct (A := fun i j => pmat.e (i, j)) hp kerbas pk' piv hr.toDistinct
  have hun : ∀ i j, i < K.rows → j < m → (unpermute m K.rows (sortBy s m) (sortBy (fun a => ((piv.map fun p => (sortBy s m).getD p 0).getD a 0 : Nat)) K.rows) kerbas pk').e
      (i, (sortBy s m).getD j 0) = pk'.e ((sortBy (fun a => ((piv.map fun p => (sortBy s m).getD p 0).getD a 0 : Nat)) K.rows).getD i 0, j) := fun i j hi hj => unpermute_spec hp _ kerbas pk' i j hi hj
  have hpv : ∀ r, r < K.rows → (piv.map fun p => (sortBy s m).getD p 0).getD r 0 = (sortBy s m).getD (piv.getD r 0) 0 := fun r hr' =>
    map_getD piv _ r (by rw [hr.length]; exact hr')
  have hrs := sortBy_spec (fun a => ((piv.map fun p => (sortBy s m).getD p 0).getD a 0 : Int)) K.rows
  generalize sortBy (fun a => ((piv.map fun p => (sortBy s m).getD p 0).getD a 0 : Int)) K.rows = R at *
  generalize piv.map (fun p => (sortBy s m).getD p 0) = pv at *
  generalize unpermute m K.rows (sortBy s m) R kerbas pk' = kb at *
  set b : Base F := ⟨kb, piv, pv, R⟩ with hbdef
  have hpos : ∀ i, b.pos i = pv.getD (R.getD i 0) 0 := fun _ => rfl
  have hunit : ∀ i i', i < K.rows → i' < K.rows → kb.e (i, b.pos i') = if i = i' then 1 else 0 := by
    intro i i' hi hi'
    have a1 := hrs.lt i hi
    have a2 := hrs.lt i' hi'
    rw [hpos, hpv _ a2, hun i _ hi (hr.last _ a2).lt, hr.unit _ _ a1 a2]
    by_cases h : i = i'
    · rw [if_pos h, if_pos (by rw [h])]
    · rw [if_neg h, if_neg (fun e => h (hrs.inj i i' hi hi' e))]
  classical
  have hex : ∀ t, ∃ i, (∃ i, i < K.rows ∧ b.pos i = t) → i < K.rows ∧ b.pos i = t := fun t => by
    by_cases h : ∃ i, i < K.rows ∧ b.pos i = t
    · obtain ⟨i, hi⟩ := h
      exact ⟨i, fun _ => hi⟩
    · exact ⟨0, fun h' => absurd h' h⟩
  choose idx hidx using hex
  have hinj : ∀ i i', i < K.rows → i' < K.rows → b.pos i = b.pos i' → i = i' := by
    intro i i' hi hi' e
    have := hunit i i' hi hi'
    rw [← e, hunit i i hi hi, if_pos rfl] at this
    by_contra hne
    rw [if_neg hne] at this
    exact one_ne_zero this
  have hidx' : ∀ i, i < K.rows → idx (b.pos i) = i := fun i hi => by
    obtain ⟨a1, a2⟩ := hidx (b.pos i) ⟨i, hi, rfl⟩
    exact hinj _ _ a1 hi a2
  set e : Nat × Nat → F[X] := fun tl => if ∃ i, i < K.rows ∧ b.pos i = tl.1 then C (kb.e (idx tl.1, tl.2)) else if tl.2 = tl.1 then X else 0 with he
  have he1 : ∀ i l, i < K.rows → e (b.pos i, l) = C (kb.e (i, l)) := fun i l hi => by
    rw [he]
    dsimp only
    rw [if_pos ⟨i, hi, rfl⟩, hidx' i hi]
  have he2 : ∀ t l, (∀ i, i < K.rows → b.pos i ≠ t) → e (t, l) = if l = t then X else 0 := fun t l h => by
    rw [he]
    dsimp only
    rw [if_neg (by rintro ⟨i, hi, e⟩; exact h i hi e)]
  set δ : Nat → Int := forN K.rows (fun i => write (pv.getD i 0) 0) fun _ => 1 with hδ
  have hδ1 : ∀ i, i < K.rows → δ (b.pos i) = 0 := fun i hi =>
    (marks K.rows (fun a => pv.getD a 0) (0 : Int) (fun _ => 1) (b.pos i)).1 _ (hrs.lt i hi) rfl
  have hδ2 : ∀ t, (∀ i, i < K.rows → b.pos i ≠ t) → δ t = 1 := fun t ht =>
    (marks K.rows (fun a => pv.getD a 0) (0 : Int) (fun _ => 1) t).2 ((hb.is_piv t).2 ht)
  have hg := hg1.step (s' := fun i => s i + δ i) (V' := fun i l => e (i, l)) (fun i j hi _ => hres i j hi) hb
    (fun i hi => ⟨by
        show s (b.pos i) + δ (b.pos i) = s (b.pos i)
        rw [hδ1 i hi, add_zero], fun l hl => by
        show e (b.pos i, l) = _
        rw [he1 i l hi, Finset.sum_eq_single l]
        · rw [hone]; dsimp only; rw [if_pos rfl, mul_one]
        · intro t _ hne
          rw [hone]; dsimp only; rw [if_neg hne, mul_zero]
        · intro h; exact absurd (Finset.mem_range.2 hl) h⟩)
    (fun t ht h => ⟨by
        show s t + δ t = s t + 1
        rw [hδ2 t h], fun l hl => by
        show e (t, l) = _
        rw [he2 t l h, hone]
        dsimp only
        by_cases h : l = t
        · rw [if_pos h, if_pos h.symm, mul_one]
        · rw [if_neg h, if_neg (fun e => h e.symm), mul_zero]⟩)
  rw [Nat.zero_add] at hg
  have hmin := hg.minBasis (pmat := constant pmat) (P := ⟨m, m, e⟩) rfl rfl
  have hd := hb.dim
  change kb.rows = K.rows ∧ kb.cols = m at hd
  have hcase : ∀ t, (∃ i, i < K.rows ∧ b.pos i = t) ∨ ∀ i, i < K.rows → b.pos i ≠ t := fun t => by
    by_cases h : ∃ i, i < K.rows ∧ b.pos i = t
    · exact Or.inl h
    · right; intro i hi e; exact h ⟨i, hi, e⟩
  refine ⟨kb, δ, rfl, ⟨hd.2, by rw [hd.1]; exact hb.indep, by rw [hd.1]; exact hb.spans⟩, ⟨m, m, e⟩, ⟨rfl, rfl, b.pos, ?_⟩, hmin, ?_⟩
  · rw [hd.1]
    exact ⟨fun i hi => hb.lt _ (hb.rows i hi), hb.mono, fun i hi => ⟨hδ1 i hi, fun l _ => he1 i l hi⟩, fun t _ h => ⟨hδ2 t h, fun l _ => he2 t l h⟩⟩
  · refine ⟨fun i => i, _, hmin.pivot, fun i j hij _ => hij, fun i hi => ?_, fun i k hi hk hki => ?_⟩
    · dsimp only
      rcases hcase i with ⟨i', hi', rfl⟩ | h
      · rw [he1 i' _ hi', hunit i' i' hi' hi', if_pos rfl, C_1]; exact monic_one
      · rw [he2 i i h, if_pos rfl]; exact monic_X
    · dsimp only
      rcases hcase i with ⟨i', hi', rfl⟩ | h
      · rw [he1 i' _ hi', hunit i' i' hi' hi', if_pos rfl, C_1, degree_one]
        have : e (k, b.pos i') = 0 := by
          rcases hcase k with ⟨k', hk', rfl⟩ | h'
          · rw [he1 k' _ hk', hunit k' i' hk' hi', if_neg (fun e => hki (by rw [e])), C_0]
          · rw [he2 k _ h', if_neg (fun e => hki e.symm)]
        rw [this, degree_zero]
        exact WithBot.bot_lt_coe 0
      · rw [he2 i i h, if_pos rfl, degree_X]
        rcases hcase k with ⟨k', hk', rfl⟩ | h'
        · rw [he1 k' _ hk']
          exact lt_of_le_of_lt degree_C_le (by norm_num)
        · rw [he2 k _ h', if_neg (fun e => hki e.symm), degree_zero]
          exact WithBot.bot_lt_coe 1

/-- The assumptions on `kernel` and `image` can be satisfied together. -/
theorem shape_exists : ∃ N : Nt F, N.Ok ∧ KerShape N := by
  obtain ⟨N, hN⟩ := nt_exists (F := F)
  have hex : ∀ A : PMat F, ∃ X, IsLeftKernel A X ∧ (X.rows = A.rows → ∀ i j, i < A.rows → j < A.rows → X.e (i, j) = if i = j then 1 else 0) ∧
      ((∀ i, i < X.rows → X.e (i, A.rows - X.rows + i) ≠ 0 ∧ ∀ j, A.rows - X.rows + i < j → j < A.rows → X.e (i, j) = 0) →
        ∀ i j, i < X.rows → j < X.rows → X.e (i, A.rows - X.rows + j) = if i = j then 1 else 0) := by
    intro A
    obtain ⟨h1, h2, h3⟩ := kernel_facts hN A
    obtain ⟨X, piv, -, r1, r2, hr, hmono⟩ := reduceRows_spec hN (A := fun i j => A.e (i, j)) (N.ker A) rfl h1 h2 h3
    have hle := rows_le h2 h3
    have hind : ∀ c : Nat → F, (∀ l, l < A.rows → ∑ r ∈ Finset.range X.rows, c r * X.e (r, l) = 0) → ∀ r, r < X.rows → c r = 0 := by
      intro c hc r hrr
      rw [r1] at hrr
      have := hc (piv.getD r 0) (hr.last r hrr).lt
      rw [r1, Finset.sum_eq_single r] at this
      · rw [hr.unit r r hrr hrr, if_pos rfl, mul_one] at this; exact this
      · intro l hl hne
        rw [hr.unit l r (Finset.mem_range.1 hl) hrr, if_neg hne, mul_zero]
      · intro h; exact absurd (Finset.mem_range.2 hrr) h
    refine ⟨X, ⟨r2, hind, by rw [r1]; exact hr.spans⟩, fun hf i j hi hj => ?_, fun hd i j hi hj => ?_⟩
    · have hid : ∀ r, r < A.rows → piv.getD r 0 = r := by
        have hge : ∀ r, r < A.rows → r ≤ piv.getD r 0 := by
          intro r
          induction r with
          | zero => intro _; omega
          | succ r ih => intro h; have := ih (by omega); have := hmono r (r + 1) (by omega) (by omega); omega
        have hge' : ∀ d r, r + d + 1 = A.rows → piv.getD r 0 ≤ r := by
          intro d
          induction d with
          | zero => intro r h; have := (hr.last r (by omega)).lt; omega
          | succ d ih => intro r h; have := ih (r + 1) (by omega); have := hmono r (r + 1) (by omega) (by omega); omega
        intro r h
        have a := hge r h
        have b := hge' (A.rows - 1 - r) r (by omega)
        omega
      rw [← hr.unit i j (by omega) (by omega), hid j hj]
    · have hpe : ∀ r, r < X.rows → piv.getD r 0 = A.rows - X.rows + r := fun r hrr =>
        last_unique (hr.last r (by omega)) ⟨by omega, (hd r hrr).1, (hd r hrr).2⟩
      rw [← hr.unit i j (by omega) (by omega), hpe j hj]
  choose ker hker using hex
  exact ⟨⟨ker, N.img⟩, ⟨fun A => (hker A).1, hN.img⟩, ⟨fun A => (hker A).2.1, fun A => (hker A).2.2⟩⟩

/-- **C82, what is assumed of the shape of `kernel` is needed.**  With another kernel basis of a zero matrix, `popov_mbasis1` returns
    a result that is not in Popov form. -/
theorem C82_shape_needed (h2 : (2 : F) ≠ 0) : ∃ (N : Nt F) (pmat K : PMat F) (δ : Nat → Int), N.Ok ∧
    (∀ kerbas s, popovMbasis1 N kerbas pmat s = .ok (K, δ)) ∧
    ∀ P, Represents pmat.rows K δ P → ∀ s, ¬PopovLower pmat.rows pmat.rows s fun i j => P.e (i, j) := by
  classical
  obtain ⟨N, hN⟩ := nt_exists (F := F)
  set A0 : PMat F := ⟨1, 1, fun _ => 0⟩ with hA0
  set K : PMat F := ⟨1, 1, fun _ => 2⟩ with hK
  have hker : IsLeftKernel A0 K := by
    refine ⟨rfl, fun c hc r hr => ?_, fun v => ⟨fun _ => ⟨fun _ => v 0 / 2, fun l hl => ?_⟩, fun _ j _ => ?_⟩⟩
    · have hr : r < 1 := hr
      obtain rfl : r = 0 := by omega
      have h := hc 0 Nat.one_pos
      rw [show K.rows = 1 from rfl, Finset.sum_range_one] at h
      exact (mul_eq_zero.1 h).resolve_right h2
    · have hl : l < 1 := hl
      obtain rfl : l = 0 := by omega
      rw [show K.rows = 1 from rfl, Finset.sum_range_one]
      exact (div_mul_cancel₀ _ h2).symm
    · exact Finset.sum_eq_zero fun l _ => mul_zero _
  refine ⟨⟨fun A => if A = A0 then K else N.ker A, N.img⟩, A0, K, fun _ => 0, ⟨fun A => ?_, hN.img⟩, fun kerbas s => ?_, ?_⟩
  · dsimp only
    split_ifs with h
    · rw [h]; exact hker
    · exact hN.ker A
  · unfold popovMbasis1
    dsimp only
    have e : permRows A0.rows A0.cols (sortBy s A0.rows) A0 = A0 := rfl
    rw [e, if_pos rfl, if_neg (show ¬K.rows = 0 from Nat.one_ne_zero), if_pos rfl]
  · rintro P ⟨-, -, L, h3, -, h5, -⟩ s ⟨piv, d, g1, -, g3, -⟩
    have hL : L 0 = 0 := by have : L 0 < 1 := h3 0 Nat.one_pos; omega
    have hp : piv 0 = 0 := by have : piv 0 < 1 := (g1 0 Nat.one_pos).1; omega
    have hm := g3 0 Nat.one_pos
    have he := (h5 0 Nat.one_pos).2 0 Nat.one_pos
    rw [hL] at he
    rw [hp] at hm
    dsimp only at hm
    rw [he] at hm
    change (C (2 : F)).Monic at hm
    rw [Monic, leadingCoeff_C] at hm
    have : (1 : F) = 0 := by linear_combination hm
    exact one_ne_zero this

/-! ### Any order -/

/-- **C82, partial**: `popov_mbasis` returns the approximant basis in Popov form, and its shifted row degrees.  Missing: order 0 when
    there are few columns, matrices without rows (`C76_order_zero_fails`, `C76_no_row_fails`). -/
theorem C82_popov_mbasis_partial {N : Nt F} (hN : N.Ok) (app0 pmat : PMat F[X]) (order : Nat) (s : Nat → Int)
    (hm : 0 < pmat.rows) (hord : 0 < order ∨ pmat.rows / 2 + 1 < pmat.cols) :
    ∃ P t, popovMbasis N app0 pmat order s = .ok (P, t) ∧ IsMinBasis pmat order s P t ∧
      PopovLower pmat.rows pmat.rows s fun i j => P.e (i, j) :=
  popovCall_good hm (fun a s => mbasis_good hN a pmat order s hm hord) app0 s

/-- **C82, partial**: `popov_pmbasis` returns the approximant basis in Popov form, and its shifted row degrees.  Missing: as for
    `popov_mbasis`. -/
theorem C82_popov_pmbasis_partial {N : Nt F} (hN : N.Ok) {mid : PMat F[X] → PMat F[X] → Nat → Nat → Option (PMat F[X])}
    (hmid : MiddleOk mid) {mul : PMat F[X] → PMat F[X] → Option (PMat F[X])} (hmul : MulOk mul) {thr : Nat} (hthr : 0 < thr) (fuel : Nat)
    (app0 pmat : PMat F[X]) (order : Nat) (s : Nat → Int) (hf : order ≤ fuel) (hm : 0 < pmat.rows)
    (hord : 0 < order ∨ pmat.rows / 2 + 1 < pmat.cols) :
    ∃ P t, popovPmbasis N mid mul thr fuel app0 pmat order s = .ok (P, t) ∧ IsMinBasis pmat order s P t ∧
      PopovLower pmat.rows pmat.rows s fun i j => P.e (i, j) :=
  popovCall_good hm (fun a s => pmbasis_good hN hmid hmul hthr fuel a pmat order s hf hm hord) app0 s

/-- **C82, negation**: with order 0 and few columns, both read the first entry of an empty vector. -/
theorem C82_order_zero_fails (N : Nt F) (mid : PMat F[X] → PMat F[X] → Nat → Nat → Option (PMat F[X]))
    (mul : PMat F[X] → PMat F[X] → Option (PMat F[X])) (thr fuel : Nat) (app0 pmat : PMat F[X]) (s : Nat → Int)
    (h : pmat.cols ≤ pmat.rows / 2 + 1) :
    popovMbasis N app0 pmat 0 s = .ub ∧ popovPmbasis N mid mul thr fuel app0 pmat 0 s = .ub := by
  obtain ⟨h1, h2⟩ := C76_order_zero_fails N mid mul thr fuel app0 pmat s h
  constructor
  · unfold popovMbasis popovCall
    dsimp only
    rw [h1]
    rfl
  · unfold popovPmbasis popovCall
    dsimp only
    rw [h2]
    rfl

/-- **C82.** The Popov form is canonical: the approximant basis in Popov form, for a given shift, is unique. -/
theorem C82_unique {pmat : PMat F[X]} {order : Nat} {s : Nat → Int} {P Q : PMat F[X]}
    (hP : IsApproximantBasis (mat pmat.rows pmat.cols pmat) order (mat pmat.rows pmat.rows P))
    (hQ : IsApproximantBasis (mat pmat.rows pmat.cols pmat) order (mat pmat.rows pmat.rows Q))
    (hp : PopovLower pmat.rows pmat.rows s fun i j => P.e (i, j)) (hq : PopovLower pmat.rows pmat.rows s fun i j => Q.e (i, j)) :
    ∀ i j, i < pmat.rows → j < pmat.rows → P.e (i, j) = Q.e (i, j) :=
  popov_unique hp hq (fun i => (hQ.generates _).1 ((hP.generates _).2 ⟨Pi.single i 1, (Matrix.single_one_vecMul i (mat pmat.rows pmat.rows P)).symm⟩))
    (fun i => (hP.generates _).1 ((hQ.generates _).2 ⟨Pi.single i 1, (Matrix.single_one_vecMul i (mat pmat.rows pmat.rows Q)).symm⟩))

/-- **C82.** `popov_mbasis` and `popov_pmbasis` return the same matrix, whatever the threshold and the matrices given for the
    result. -/
theorem C82_same {N N' : Nt F} (hN : N.Ok) (hN' : N'.Ok) {mid : PMat F[X] → PMat F[X] → Nat → Nat → Option (PMat F[X])}
    (hmid : MiddleOk mid) {mul : PMat F[X] → PMat F[X] → Option (PMat F[X])} (hmul : MulOk mul) {thr : Nat} (hthr : 0 < thr) (fuel : Nat)
    (app0 app1 pmat : PMat F[X]) (order : Nat) (s : Nat → Int) (hf : order ≤ fuel) (hm : 0 < pmat.rows)
    (hord : 0 < order ∨ pmat.rows / 2 + 1 < pmat.cols) :
    ∃ P Q t t', popovMbasis N app0 pmat order s = .ok (P, t) ∧ popovPmbasis N' mid mul thr fuel app1 pmat order s = .ok (Q, t') ∧
      ∀ i j, i < pmat.rows → j < pmat.rows → P.e (i, j) = Q.e (i, j) := by
  obtain ⟨P, t, h1, h2, h3⟩ := C82_popov_mbasis_partial hN app0 pmat order s hm hord
  obtain ⟨Q, t', g1, g2, g3⟩ := C82_popov_pmbasis_partial hN' hmid hmul hthr fuel app1 pmat order s hf hm hord
  exact ⟨P, Q, t, t', h1, g1, C82_unique h2.basis g2.basis h3 g3⟩

/-! ### Two rows and one column -/

/-- **C82.** `pmbasis_2x1` returns a minimal approximant basis of the column of the two polynomials, for every order, every pair
    of shifts and every positive threshold; it calls the middle product within its conditions. -/
theorem C82_pmbasis_2x1 {mid : PMat F[X] → PMat F[X] → Nat → Nat → Option (PMat F[X])} (hmid : MiddleOk mid)
    {mul : PMat F[X] → PMat F[X] → Option (PMat F[X])} (hmul : MulOk mul) {thr : Int} (hthr : 0 < thr) (fuel : Nat) (f0 f1 : F[X])
    (order : Nat) (s0 s1 : Int) (hf : order ≤ fuel) :
    ∃ b, pmbasis2 mid mul thr fuel f0 f1 order s0 s1 = .ok b ∧
      IsMinBasis (column f0 f1) order (entryOf [s0, s1]) (square b) (entryOf [b.s0, b.s1]) := by
  obtain ⟨b, h1, h2⟩ := pmbasis2_good hmid hmul hthr fuel f0 f1 order s0 s1 hf
  exact ⟨b, h1, Good.minBasis (pmat := column f0 f1) rfl rfl h2⟩

/-- **C82, negation**: with a threshold that is not positive, `pmbasis_2x1` does not terminate, for every positive order. -/
theorem C82_threshold {mid : PMat F[X] → PMat F[X] → Nat → Nat → Option (PMat F[X])} (hmid : MiddleOk mid)
    (mul : PMat F[X] → PMat F[X] → Option (PMat F[X])) {thr : Int} (hthr : thr ≤ 0) (fuel : Nat) :
    ∀ (f0 f1 : F[X]) (order : Nat) (s0 s1 : Int), 0 < order ∨ thr < 0 → pmbasis2 mid mul thr fuel f0 f1 order s0 s1 = .loops := by
  induction fuel with
  | zero =>
    intro f0 f1 order s0 s1 h
    unfold pmbasis2
    rw [if_neg (by omega)]
  | succ fuel ih =>
    intro f0 f1 order s0 s1 h
    unfold pmbasis2
    rw [if_neg (by omega)]
    dsimp only
    by_cases h1 : 0 < order / 2 ∨ thr < 0
    · rw [ih _ _ _ _ _ h1]
      rfl
    · obtain rfl : thr = 0 := by omega
      obtain rfl : order = 1 := by omega
      have e : pmbasis2 mid mul 0 fuel (ptrunc f0 (1 / 2)) (ptrunc f1 (1 / 2)) (1 / 2) s0 s1 = .ok ⟨1, 0, 0, 1, s0, s1⟩ := by
        unfold pmbasis2
        rw [if_pos (by norm_num)]
        rfl
      rw [e]
      simp only [andThen]
      have hg := base2_good (F := F) f0 f1 0 s0 s1
      change Good2 f0 f1 0 s0 s1 ⟨1, 0, 0, 1, s0, s1⟩ at hg
      have hd0 := Mbasis.Good.deg_nonneg (pmat := column f0 f1) (P := square (⟨1, 0, 0, 1, s0, s1⟩ : Bas2 F)) rfl rfl (by show 0 < 2; omega) hg
      have hd1 := Good.deg_le (pmat := column f0 f1) (P := square (⟨1, 0, 0, 1, s0, s1⟩ : Bas2 F)) rfl rfl hg
      have hd : deg (square (⟨1, 0, 0, 1, s0, s1⟩ : Bas2 F)) = 0 := le_antisymm (by exact_mod_cast hd1) hd0
      rw [if_neg (by rw [hd]; omega), hd]
      obtain ⟨-, u1, u2, u3⟩ := C65_shift true (column (ptrunc f0 1) (ptrunc f1 1)) (column (ptrunc f0 1) (ptrunc f1 1)) ((1 / 2 : Nat) - (0 : Int))
      have hdegU : deg (rightShift true (column (ptrunc f0 1) (ptrunc f1 1)) (column (ptrunc f0 1) (ptrunc f1 1)) ((1 / 2 : Nat) - (0 : Int))) ≤
          (0 : Nat) + (1 - 1 / 2 - 1 : Nat) := by
        have := (deg_lt_iff (rightShift true (column (ptrunc f0 1) (ptrunc f1 1)) (column (ptrunc f0 1) (ptrunc f1 1)) ((1 / 2 : Nat) - (0 : Int))) 1).2
          fun i j hi hj k hk => by
            rw [u1] at hi; rw [u2] at hj
            rw [u3 i j hi hj k, if_pos (by omega)]
            unfold column
            dsimp only
            split_ifs <;> rw [ptrunc_coeff, if_neg (by omega)]
        omega
      obtain ⟨R, e2, -⟩ := hmid (square (⟨1, 0, 0, 1, s0, s1⟩ : Bas2 F)) _ 0 (1 - 1 / 2 - 1) u1.symm (by show 0 < 2; omega) hd0 hd.le hdegU
      rw [show Int.toNat 0 = 0 from rfl, e2]
      simp only [ofMid]
      rw [ih _ _ (1 - 1 / 2) _ _ (Or.inl (by omega))]

/-! ### Examples -/

/-- The hypotheses of the theorems on order 1 hold: over `ZMod 5`, the column `(1, 1)`. -/
example : ∃ (N : Nt (ZMod 5)) (K : PMat (ZMod 5)) (δ : Nat → Int), N.Ok ∧ KerShape N ∧
    popovMbasis1 N ⟨0, 0, fun _ => 0⟩ ⟨2, 1, fun _ => 1⟩ (fun _ => 0) = .ok (K, δ) ∧ K.rows ≤ 2 ∧ ∃ P, Represents 2 K δ P := by
  obtain ⟨N, h1, h2⟩ := shape_exists (F := ZMod 5)
  obtain ⟨K, δ, e, k, P, p, -, -⟩ := C82_popov_mbasis1 h1 h2 ⟨0, 0, fun _ => 0⟩ ⟨2, 1, fun _ => 1⟩ (fun _ => 0)
  have hk := rows_le k.indep (show Spans 2 1 (fun i j => (⟨2, 1, fun _ => 1⟩ : PMat (ZMod 5)).e (i, j)) K.rows _ from k.span)
  exact ⟨N, K, δ, h1, h2, e, hk, P, p⟩

example : (2 : ZMod 5) ≠ 0 := by decide

/-- The two functions on the column `(1, x)` over `ZMod 5`, at order 2. -/
example : ∃ (N : Nt (ZMod 5)) (mid : PMat (ZMod 5)[X] → PMat (ZMod 5)[X] → Nat → Nat → Option (PMat (ZMod 5)[X]))
    (mul : PMat (ZMod 5)[X] → PMat (ZMod 5)[X] → Option (PMat (ZMod 5)[X])) (P Q : PMat (ZMod 5)[X]) (t t' : Nat → Int),
    popovMbasis N ⟨0, 0, fun _ => 0⟩ (column 1 X) 2 (fun _ => 0) = .ok (P, t) ∧
    popovPmbasis N mid mul 1 2 ⟨0, 0, fun _ => 0⟩ (column 1 X) 2 (fun _ => 0) = .ok (Q, t') ∧ P.e (0, 0) = Q.e (0, 0) := by
  obtain ⟨N, hN⟩ := nt_exists (F := ZMod 5)
  obtain ⟨mid, hmid⟩ := middleOk_exists (F := ZMod 5)
  obtain ⟨mul, hmul⟩ := mulOk_exists (F := ZMod 5)
  obtain ⟨P, Q, t, t', h1, h2, h3⟩ := C82_same hN hN hmid hmul Nat.one_pos 2 ⟨0, 0, fun _ => 0⟩ ⟨0, 0, fun _ => 0⟩ (column 1 X) 2
    (fun _ => 0) le_rfl (by decide) (Or.inl (by decide))
  exact ⟨N, mid, mul, P, Q, t, t', h1, h2, h3 0 0 (by decide) (by decide)⟩

/-- Two rows and one column: a recursive call, at order 3 with threshold 1. -/
example : ∃ (mid : PMat (ZMod 5)[X] → PMat (ZMod 5)[X] → Nat → Nat → Option (PMat (ZMod 5)[X]))
    (mul : PMat (ZMod 5)[X] → PMat (ZMod 5)[X] → Option (PMat (ZMod 5)[X])) (b : Bas2 (ZMod 5)),
    pmbasis2 mid mul 1 3 (1 + X) X 3 0 0 = .ok b ∧ IsMinBasis (column (1 + X) X) 3 (entryOf [0, 0]) (square b) (entryOf [b.s0, b.s1]) := by
  obtain ⟨mid, hmid⟩ := middleOk_exists (F := ZMod 5)
  obtain ⟨mul, hmul⟩ := mulOk_exists (F := ZMod 5)
  obtain ⟨b, h⟩ := C82_pmbasis_2x1 hmid hmul (by decide : (0 : Int) < 1) 3 (1 + X) X 3 0 0 le_rfl
  exact ⟨mid, mul, b, h⟩

end PML.Ntl.Popov
