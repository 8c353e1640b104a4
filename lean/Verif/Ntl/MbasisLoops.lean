import Verif.Ntl.MbasisStep
import Verif.Ntl.MatUtilsProps

/-!
# The loops of the functions mbasis
-/

namespace PML.Ntl.Mbasis

open Polynomial PML.Ntl.Utils PML.Ntl.Inv PML.Ntl.Solve

set_option linter.unusedSectionVars false

variable {F : Type} [Field F] [DecidableEq F]

/-- The row of the basis that the row `i` of `kerbas` replaces. -/
def Base.pos (b : Base F) (i : Nat) : Nat := b.piv.getD (b.rows.getD i 0) 0

theorem BaseOk.inj {m n : Nat} {A : Nat → Nat → F} {s : Nat → Int} {k : Nat} {b : Base F} (h : BaseOk m n A s k b) (i j : Nat)
    (hi : i < k) (hj : j < k) (e : b.pos i = b.pos j) : i = j := by
  unfold Base.pos at e
  rcases lt_trichotomy i j with h1 | h1 | h1
  · have := h.mono i j h1 hj; omega
  · exact h1
  · have := h.mono j i h1 hi; omega

/-- Marks at the places `p a`. -/
theorem marks {β : Type} (k : Nat) (p : Nat → Nat) (c : β) (x : Nat → β) (i : Nat) :
    (∀ a, a < k → p a = i → forN k (fun a => write (p a) c) x i = c) ∧
    ((∀ a, a < k → p a ≠ i) → forN k (fun a => write (p a) c) x i = x i) := by
  have hF : Fills _ (fun _ : Nat => c) (forN k fun a => write (p a) c) := Fills.forN fun a _ => Fills.write _ _ rfl
  have := hF x i
  refine ⟨fun a ha e => this.1 ⟨a, ha, e.symm⟩, fun h => this.2 ?_⟩
  rintro ⟨a, ha, e⟩
  exact h a ha e.symm

/-- The places `pos i` are the pivots. -/
theorem BaseOk.is_piv {m n : Nat} {A : Nat → Nat → F} {s : Nat → Int} {k : Nat} {b : Base F} (h : BaseOk m n A s k b) (t : Nat) :
    (∀ a, a < k → b.piv.getD a 0 ≠ t) ↔ ∀ i, i < k → b.pos i ≠ t := by
  constructor
  · intro h1 i hi
    exact h1 _ (h.rows i hi)
  · intro h1 a ha
    obtain ⟨i, hi, e⟩ := h.rows_surj a ha
    have := h1 i hi
    unfold Base.pos at this
    rwa [e] at this

/-- The kernel of the permuted residual, in the usual case. -/
theorem kernel_facts {N : Nt F} (hN : N.Ok) (B : PMat F) :
    (N.ker B).cols = B.rows ∧
    (∀ c : Nat → F, (∀ l, l < B.rows → ∑ r ∈ Finset.range (N.ker B).rows, c r * (N.ker B).e (r, l) = 0) → ∀ r, r < (N.ker B).rows → c r = 0) ∧
    Spans B.rows B.cols (fun i j => B.e (i, j)) (N.ker B).rows fun r l => (N.ker B).e (r, l) :=
  ⟨(hN.ker B).cols, (hN.ker B).indep, (hN.ker B).span⟩

theorem rows_le {m n k : Nat} {R X' : Nat → Nat → F}
    (hind : ∀ c : Nat → F, (∀ l, l < m → ∑ r ∈ Finset.range k, c r * X' r l = 0) → ∀ r, r < k → c r = 0)
    (_ : Spans m n R k X') : k ≤ m := by
  have hli : LinearIndependent F (rowsOf k m X') := by
    rw [Fintype.linearIndependent_iff]
    intro g hg r
    have := hind (fun r => if h : r < k then g ⟨r, h⟩ else 0) (fun l hl => by
      rw [sum_ext]
      have := congrFun hg ⟨l, hl⟩
      rw [Finset.sum_apply] at this
      exact this) r r.2
    rwa [dif_pos r.2] at this
  have := hli.fintype_card_le_finrank
  simpa using this

/-- The three outcomes of `mbasis1`. -/
theorem mbasis1_spec {N : Nt F} (hN : N.Ok) (kerbas R : PMat F) (s : Nat → Int) :
    (∃ X' K diff, mbasis1 N kerbas R s = .ok (K, diff) ∧ K.rows = 0 ∧ Spans R.rows R.cols (fun i j => R.e (i, j)) 0 X') ∨
    (0 < R.rows ∧ ∃ K diff, mbasis1 N kerbas R s = .ok (K, diff) ∧ K.rows = R.rows ∧ ∀ i j, i < R.rows → j < R.cols → R.e (i, j) = 0) ∨
    ∃ b k diff, mbasis1 N kerbas R s = .ok (b.kerbas, diff) ∧ 0 < k ∧ k < R.rows ∧ BaseOk R.rows R.cols (fun i j => R.e (i, j)) s k b ∧
      ∀ t, (∀ i, i < k → b.pos i = t → diff t = 0) ∧ ((∀ i, i < k → b.pos i ≠ t) → diff t = 1) := by
  have hp := sortBy_spec s R.rows
  obtain ⟨-, h2, h3⟩ := kernel_facts hN (permRows R.rows R.cols (sortBy s R.rows) R)
  unfold mbasis1
  dsimp only
  generalize hK : N.ker (permRows R.rows R.cols (sortBy s R.rows) R) = K at *
  change ∀ c : Nat → F, (∀ l, l < R.rows → _) → _ at h2
  change Spans R.rows R.cols (fun i j => R.e ((sortBy s R.rows).getD i 0, j)) _ _ at h3
  by_cases hk0 : K.rows = 0
  · rw [if_pos hk0]
    exact Or.inl ⟨_, K, _, rfl, hk0, Spans.unperm hp (A := fun i j => R.e (i, j)) h3 hk0⟩
  by_cases hkm : K.rows = R.rows
  · rw [if_neg hk0, if_pos hkm]
    refine Or.inr (Or.inl ⟨by omega, K, _, rfl, hkm, fun i j hi hj => ?_⟩)
    rw [hkm] at h2 h3
    obtain ⟨i', hi', rfl⟩ := hp.surj i hi
    exact zero_of_full h2 h3 i' j hi' hj
  · rw [if_neg hk0, if_neg hkm]
    obtain ⟨b, e, hb⟩ := base_spec hN (A := fun i j => R.e (i, j)) hp kerbas K [] h2 h3
    have hle := rows_le h2 h3
    refine Or.inr (Or.inr ⟨b, K.rows, _, by rw [e]; rfl, by omega, by omega, hb, fun t => ?_⟩)
    obtain ⟨m1, m2⟩ := marks K.rows (fun a => b.piv.getD a 0) (0 : Int) (fun _ => 1) t
    refine ⟨fun i hi e => m1 _ (hb.rows i hi) e, fun h => m2 ((hb.is_piv t).2 h)⟩

theorem add_loop (m : Nat) (f s : Nat → Int) (i : Nat) :
    forN m (fun i s => write i (s i + f i) s) s i = if i < m then s i + f i else s i := by
  have := forN_inv (P := fun (t : Nat) (x : Nat → Int) => ∀ i, x i = if i < t then s i + f i else s i)
    (f := fun i s => write i (s i + f i) s) (s := s) (n := m) (fun i => by rw [if_neg (by omega)]) (by
      intro t x _ hx i
      by_cases h : i = t
      · subst h
        rw [show write i (x i + f i) x i = x i + f i from Function.update_self _ _ _, hx i, if_neg (by omega), if_pos (by omega)]
      · rw [show write t (x t + f t) x i = x i from Function.update_of_ne h _ _, hx i]
        by_cases h1 : i < t
        · rw [if_pos h1, if_pos (by omega)]
        · rw [if_neg h1, if_neg (by omega)])
  exact this i

theorem pshift_one (f : F[X]) : pshift f 1 = X * f := by
  unfold pshift
  rw [if_pos (by omega), mul_comm]
  simp

/-- `plainRows`: the row `pos i` becomes the row `i` of `kerapp`, the other ones are multiplied by `X`. -/
theorem plainRows_spec {m k : Nat} (pos : Nat → Nat) (hlt : ∀ i, i < k → pos i < m) (hmono : ∀ i j, i < j → j < k → pos i < pos j)
    (diff : Nat → Int) (h0 : ∀ i, i < k → diff (pos i) = 0) (h1 : ∀ t, (∀ i, i < k → pos i ≠ t) → diff t = 1)
    (app kerapp : Nat × Nat → F[X]) :
    (∀ i l, i < k → (plainRows m diff app kerapp).1 (pos i, l) = kerapp (i, l)) ∧
    ∀ t l, t < m → l < m → (∀ i, i < k → pos i ≠ t) → (plainRows m diff app kerapp).1 (t, l) = X * app (t, l) := by
  have hinj : ∀ i j, i < k → j < k → pos i = pos j → i = j := by
    intro i j hi hj e
    rcases lt_trichotomy i j with h | h | h
    · have := hmono i j h hj; omega
    · exact h
    · have := hmono j i h hi; omega
  have key := forN_inv (P := fun (t : Nat) (st : (Nat × Nat → F[X]) × (Nat × Nat → F[X]) × Nat) =>
      st.2.2 ≤ k ∧ (∀ i, i < st.2.2 → pos i < t) ∧ (∀ i, st.2.2 ≤ i → i < k → t ≤ pos i) ∧
      (∀ i l, st.2.2 ≤ i → st.2.1 (i, l) = kerapp (i, l)) ∧ (∀ u l, t ≤ u → st.1 (u, l) = app (u, l)) ∧
      (∀ i l, i < st.2.2 → st.1 (pos i, l) = kerapp (i, l)) ∧
      (∀ u l, u < t → l < m → (∀ i, i < k → pos i ≠ u) → st.1 (u, l) = X * app (u, l)))
    (f := fun i st =>
      if diff i = 0 then
        (fun ij => if ij.1 = i then st.2.1 (st.2.2, ij.2) else st.1 ij,
          fun ij => if ij.1 = st.2.2 then st.1 (i, ij.2) else st.2.1 ij, st.2.2 + 1)
      else (forN m (fun j cur => write (i, j) (pshift (cur (i, j)) 1) cur) st.1, st.2)) (s := (app, kerapp, 0)) (n := m)
    ⟨Nat.zero_le _, fun i hi => by dsimp only at hi; omega, fun i _ _ => Nat.zero_le _, fun _ _ _ => rfl, fun _ _ _ => rfl, fun i _ hi => by dsimp only at hi; omega,
      fun u _ hu => by omega⟩ (by
    rintro t ⟨a, ka, c⟩ ht ⟨q1, q2, q3, q4, q5, q6, q7⟩
    dsimp only at q1 q2 q3 q4 q5 q6 q7 ⊢
    by_cases hd : diff t = 0
    · rw [if_pos hd]
      -- the row `t` is the place `c`
      have hc : c < k ∧ pos c = t := by
        by_contra hcon
        have : ∀ i, i < k → pos i ≠ t := by
          intro i hi e
          rcases lt_or_ge i c with h | h
          · have := q2 i h; omega
          · have hc := q3 c (le_refl _) (by omega)
            rcases Nat.lt_or_eq_of_le h with h' | h'
            · have := hmono c i h' hi; omega
            · subst h'; exact hcon ⟨hi, e⟩
        have := h1 t this
        omega
      obtain ⟨hck, hct⟩ := hc
      refine ⟨hck, fun i hi => ?_, fun i hi hik => ?_, fun i l hi => ?_, fun u l hu => ?_, fun i l hi => ?_, fun u l hu hl hn => ?_⟩
      · rcases Nat.lt_or_eq_of_le (Nat.lt_succ_iff.1 hi) with h | h
        · have := q2 i h; omega
        · subst h; omega
      · dsimp only at hi; have := hmono c i (by omega) hik; omega
      · dsimp only at hi ⊢; rw [if_neg (by omega)]; exact q4 i l (by omega)
      · dsimp only; rw [if_neg (by omega)]; exact q5 u l (by omega)
      · dsimp only
        rcases Nat.lt_or_eq_of_le (Nat.lt_succ_iff.1 hi) with h | h
        · have := q2 i h
          rw [if_neg (by omega)]; exact q6 i l h
        · subst h; rw [if_pos hct]; exact q4 i l (le_refl _)
      · dsimp only
        have : u ≠ t := fun e => hn c hck (by rw [hct, e])
        rw [if_neg this]
        exact q7 u l (by omega) hl hn
    · rw [if_neg hd]
      dsimp only
      have hnt : ∀ i, i < k → pos i ≠ t := fun i hi e => hd (by rw [← e]; exact h0 i hi)
      have hrow := fun u v => loop1_spec m t 0 (fun j cur => pshift (cur (t, j)) 1)
        (by intro j x y h; rw [Nat.zero_add] at h; exact congrArg (fun z => pshift z 1) h) a u v
      simp only [Nat.zero_add, Nat.zero_le, true_and, Nat.sub_zero] at hrow
      refine ⟨q1, fun i hi => by have := q2 i hi; omega, fun i hi hik => ?_, q4, fun u l hu => ?_, fun i l hi => ?_, fun u l hu hl hn => ?_⟩
      · have := q3 i hi hik
        have := hnt i hik
        omega
      · rw [hrow, if_neg (by omega)]; exact q5 u l (by omega)
      · have := q2 i hi
        rw [hrow, if_neg (by omega)]; exact q6 i l hi
      · by_cases e : u = t
        · subst e
          rw [hrow, if_pos ⟨rfl, hl⟩, pshift_one, q5 u l (le_refl _)]
        · rw [hrow, if_neg (by omega)]
          exact q7 u l (by omega) hl hn)
  obtain ⟨q1, q2, q3, q4, q5, q6, q7⟩ := key
  change _ ∧ _ at *
  unfold plainRows
  refine ⟨fun i l hi => ?_, q7⟩
  by_cases hc : i < (forN m (fun i (st : (Nat × Nat → F[X]) × (Nat × Nat → F[X]) × Nat) =>
      if diff i = 0 then
        (fun ij => if ij.1 = i then st.2.1 (st.2.2, ij.2) else st.1 ij,
          fun ij => if ij.1 = st.2.2 then st.1 (i, ij.2) else st.2.1 ij, st.2.2 + 1)
      else (forN m (fun j cur => write (i, j) (pshift (cur (i, j)) 1) cur) st.1, st.2)) (app, kerapp, 0)).2.2
  · exact q6 i l hc
  · have := q3 i (by omega) hi
    have := hlt i hi
    omega

/-! ### Residuals -/

theorem forN_add_fun (n : Nat) (g : Nat → Nat × Nat → F) (r : Nat × Nat → F) (ij : Nat × Nat) :
    forN n (fun t r ij => r ij + g t ij) r ij = r ij + ∑ t ∈ Finset.range n, g t ij := by
  have := forN_inv (P := fun (t : Nat) (x : Nat × Nat → F) => ∀ ij, x ij = r ij + ∑ u ∈ Finset.range t, g u ij)
    (f := fun t r ij => r ij + g t ij) (s := r) (n := n) (fun ij => by rw [Finset.range_zero, Finset.sum_empty, add_zero]) (by
      intro t x _ hx ij
      rw [hx ij, Finset.sum_range_succ, add_assoc])
  exact this ij

theorem coeff_mul_range (f g : F[X]) (d : Nat) : (f * g).coeff d = ∑ t ∈ Finset.range (d + 1), f.coeff t * g.coeff (d - t) := by
  rw [coeff_mul, Finset.Nat.sum_antidiagonal_eq_sum_range_succ_mk]

theorem coeffZ_nat (f : F[X]) (t : Nat) : coeffZ f (t : Int) = f.coeff t := by
  unfold coeffZ
  rw [if_neg (by omega), Int.toNat_natCast]

theorem coeff_of_deg (a : PMat F[X]) (i j k : Nat) (hi : i < a.rows) (hj : j < a.cols) (h : deg a < k) : (a.e (i, j)).coeff k = 0 :=
  (deg_lt_iff a k).1 h i j hi hj k (le_refl _)

/-- The residual of `mbasis_plain`. -/
theorem plainResidual_spec (ord : Nat) (pmat app : PMat F[X]) (hr : app.rows = pmat.rows) (hc : app.cols = pmat.rows)
    (res : Nat × Nat → F) (i j : Nat) (hi : i < pmat.rows) (hj : j < pmat.cols) (hdeg : deg app ≤ ord) :
    plainResidual pmat.rows ord pmat app res (i, j) =
      res (i, j) + resid pmat.rows (fun i j => app.e (i, j)) (fun i j => pmat.e (i, j)) ord i j := by
  unfold plainResidual
  rw [forN_add_fun]
  congr 1
  unfold resid
  rw [finsetSum_coeff]
  simp only [cmul, coeff_mul_range]
  rw [Finset.sum_comm (s := Finset.range pmat.rows)]
  obtain ⟨dmin, hd⟩ : ∃ dmin : Nat, max 0 ((ord : Int) - deg pmat) = dmin := ⟨(max 0 ((ord : Int) - deg pmat)).toNat, by omega⟩
  rw [hd]
  have hge := (deg_spec app).1
  generalize hn : (deg app + 1 - (dmin : Int)).toNat = N
  have hterm : ∀ t l, l < pmat.rows → t < ord + 1 → (t < dmin ∨ dmin + N ≤ t) →
      (app.e (i, l)).coeff t * (pmat.e (l, j)).coeff (ord - t) = 0 := by
    intro t l hl ht h
    rcases h with h | h
    · rw [coeff_of_deg pmat l j (ord - t) hl hj (by omega), mul_zero]
    · by_cases h2 : deg app < t
      · rw [coeff_of_deg app i l t (by omega) (by omega) h2, zero_mul]
      · rw [coeff_of_deg pmat l j (ord - t) hl hj (by omega), mul_zero]
  symm
  by_cases hN : N = 0
  · subst hN
    rw [Finset.range_zero, Finset.sum_empty]
    refine Finset.sum_eq_zero fun t ht => Finset.sum_eq_zero fun l hl => ?_
    exact hterm t l (Finset.mem_range.1 hl) (Finset.mem_range.1 ht) (by omega)
  rw [show ord + 1 = dmin + (N + (ord + 1 - dmin - N)) by omega, Finset.sum_range_add, Finset.sum_range_add]
  rw [Finset.sum_eq_zero (s := Finset.range dmin), Finset.sum_eq_zero (s := Finset.range (ord + 1 - dmin - N)), zero_add, add_zero]
  · refine Finset.sum_congr rfl fun t ht => Finset.sum_congr rfl fun l hl => ?_
    have ht := Finset.mem_range.1 ht
    rw [show ((dmin : Int) + (t : Int)) = ((dmin + t : Nat) : Int) by push_cast; rfl, coeffZ_nat,
      show (ord : Int) - ((dmin + t : Nat) : Int) = ((ord - (dmin + t) : Nat) : Int) by omega, coeffZ_nat]
  · intro t ht
    have ht := Finset.mem_range.1 ht
    exact Finset.sum_eq_zero fun l hl => hterm _ l (Finset.mem_range.1 hl) (by omega) (by omega)
  · intro t ht
    have ht := Finset.mem_range.1 ht
    exact Finset.sum_eq_zero fun l hl => hterm _ l (Finset.mem_range.1 hl) (by omega) (by omega)

end PML.Ntl.Mbasis
