import Verif.Ntl.MbasisPlain

/-!
# mbasis_rescomp and mbasis_resupdate
-/

namespace PML.Ntl.Mbasis

open Polynomial PML.Ntl.Utils PML.Ntl.Inv PML.Ntl.Solve

set_option linter.unusedSectionVars false

variable {F : Type} [Field F] [DecidableEq F]

theorem wr_eq {ι α : Type} [DecidableEq ι] (x : ι) (w : α) (a : ι → α) : write x w a x = w := Function.update_self _ _ _

theorem wr_ne {ι α : Type} [DecidableEq ι] {x y : ι} (w : α) (a : ι → α) (h : y ≠ x) : write x w a y = a y := Function.update_of_ne h _ _

/-- `bump`: the shift increases at the rows that are not pivots; the degree increases if one of them has a nonzero
    coefficient of this degree. -/
theorem bump_spec (m : Nat) (isPiv : Nat → Bool) (co : Nat × Nat → Nat → F) (degA : Nat) (s : Nat → Int) :
    (∀ i, (bump m isPiv co degA s).1 i = if i < m ∧ isPiv i = false then s i + 1 else s i) ∧
    ((bump m isPiv co degA s).2.1 = degA + 1 ∨
      ((bump m isPiv co degA s).2.1 = degA ∧ ∀ i, i < m → isPiv i = false → ∀ j, j < m → co (degA, i) j = 0)) := by
  have key := forN_inv (P := fun (t : Nat) (st : (Nat → Int) × Nat × Bool) =>
      (∀ i, st.1 i = if i < t ∧ isPiv i = false then s i + 1 else s i) ∧
      ((st.2.2 = true ∧ st.2.1 = degA + 1) ∨
        (st.2.2 = false ∧ st.2.1 = degA ∧ ∀ i, i < t → isPiv i = false → ∀ j, j < m → co (degA, i) j = 0)))
    (f := fun i st =>
      if isPiv i then st
      else
        let s := write i (st.1 i + 1) st.1
        if st.2.2 = false ∧ ((List.range m).all fun j => decide (co (st.2.1, i) j = 0)) = false then (s, st.2.1 + 1, true)
        else (s, st.2)) (s := (s, degA, false)) (n := m)
    ⟨fun i => by rw [if_neg (by omega)], Or.inr ⟨rfl, rfl, fun i hi => by omega⟩⟩ (by
      rintro t ⟨x, d, u⟩ ht ⟨q1, q2⟩
      dsimp only at q1 q2 ⊢
      have hsh : ∀ i, isPiv t = false → write t (x t + 1) x i = if i < t + 1 ∧ isPiv i = false then s i + 1 else s i := by
        intro i hpt
        by_cases h : i = t
        · subst h
          rw [wr_eq, q1 i, if_neg (by omega), if_pos ⟨by omega, hpt⟩]
        · rw [wr_ne _ _ h, q1 i]
          by_cases h1 : i < t ∧ isPiv i = false
          · rw [if_pos h1, if_pos ⟨by omega, h1.2⟩]
          · rw [if_neg h1, if_neg (fun h2 => h1 ⟨by omega, h2.2⟩)]
      by_cases hp : isPiv t = true
      · rw [if_pos hp]
        refine ⟨fun i => ?_, ?_⟩
        · dsimp only
          rw [q1 i]
          by_cases h1 : i < t ∧ isPiv i = false
          · rw [if_pos h1, if_pos ⟨by omega, h1.2⟩]
          · rw [if_neg h1, if_neg]
            rintro ⟨h2, h3⟩
            by_cases h4 : i = t
            · rw [h4, hp] at h3; exact absurd h3 (by simp)
            · exact h1 ⟨by omega, h3⟩
        · rcases q2 with h | ⟨h1, h2, h3⟩
          · exact Or.inl h
          · refine Or.inr ⟨h1, h2, fun i hi hpi => ?_⟩
            have : i ≠ t := by rintro rfl; rw [hp] at hpi; exact absurd hpi (by simp)
            exact h3 i (by omega) hpi
      · have hp' : isPiv t = false := by simpa using hp
        rw [if_neg hp]
        split_ifs with hc
        · refine ⟨fun i => hsh i hp', Or.inl ⟨rfl, ?_⟩⟩
          rcases q2 with ⟨h, -⟩ | ⟨-, h, -⟩
          · rw [h] at hc; exact absurd hc.1 (by simp)
          · rw [h]
        · refine ⟨fun i => hsh i hp', ?_⟩
          rcases q2 with h | ⟨h1, h2, h3⟩
          · exact Or.inl h
          · refine Or.inr ⟨h1, h2, fun i hi hpi j hj => ?_⟩
            by_cases h4 : i = t
            · subst h4
              have : ((List.range m).all fun j => decide (co (d, i) j = 0)) = true := by
                by_contra hn
                exact hc ⟨h1, by simpa using hn⟩
              rw [List.all_eq_true] at this
              have := of_decide_eq_true (this j (List.mem_range.2 hj))
              rwa [h2] at this
            · exact h3 i (by omega) hpi j hj)
  obtain ⟨q1, q2⟩ := key
  unfold bump
  refine ⟨q1, ?_⟩
  rcases q2 with ⟨-, h⟩ | ⟨-, h2, h3⟩
  · exact Or.inl h
  · exact Or.inr ⟨h2, h3⟩

/-- `replaceRows` -/
theorem replaceRows_spec {m k : Nat} (kerbas : PMat F) (piv rows : List Nat) (pos : Nat → Nat)
    (hpos : ∀ i, i < k → piv.getD (rows.getD i 0) 0 = pos i) (hinj : ∀ i j, i < k → j < k → pos i = pos j → i = j)
    (d0 n : Nat) (co : Nat × Nat → Nat → F) :
    (∀ d i j, d0 ≤ d → d < d0 + n → i < k → replaceRows m k kerbas piv rows d0 n co (d, pos i) j =
      ∑ l ∈ Finset.range m, kerbas.e (i, l) * co (d, l) j) ∧
    (∀ d u, (d < d0 ∨ d0 + n ≤ d ∨ ∀ i, i < k → pos i ≠ u) → replaceRows m k kerbas piv rows d0 n co (d, u) = co (d, u)) := by
  -- one matrix
  have inner : ∀ (d : Nat) (x : Nat × Nat → Nat → F) (g : Nat → Nat → F),
      (∀ i, i < k → forN k (fun i => write (d, piv.getD (rows.getD i 0) 0) (g i)) x (d, pos i) = g i) ∧
      ∀ d' u, (d' ≠ d ∨ ∀ i, i < k → pos i ≠ u) → forN k (fun i => write (d, piv.getD (rows.getD i 0) 0) (g i)) x (d', u) = x (d', u) := by
    intro d x g
    have := forN_inv (P := fun (t : Nat) (y : Nat × Nat → Nat → F) => (∀ i, i < t → y (d, pos i) = g i) ∧
        ∀ d' u, (d' ≠ d ∨ ∀ i, i < k → pos i ≠ u) → y (d', u) = x (d', u))
      (f := fun i => write (d, piv.getD (rows.getD i 0) 0) (g i)) (s := x) (n := k) ⟨fun i hi => by omega, fun _ _ _ => rfl⟩ (by
        rintro t y ht ⟨q1, q2⟩
        rw [hpos t ht]
        refine ⟨fun i hi => ?_, fun d' u h => ?_⟩
        · by_cases e : i = t
          · subst e; rw [wr_eq]
          · rw [wr_ne _ _ (fun e' => e (hinj i t (by omega) ht (Prod.mk.inj e').2))]
            exact q1 i (by omega)
        · rw [wr_ne]
          · exact q2 d' u h
          · intro e
            obtain ⟨e1, e2⟩ := Prod.mk.inj e
            rcases h with h | h
            · exact h e1
            · exact h t ht e2.symm)
    exact this
  have key := forN_inv (P := fun (t : Nat) (y : Nat × Nat → Nat → F) =>
      (∀ d i j, d0 ≤ d → d < d0 + t → i < k → y (d, pos i) j = ∑ l ∈ Finset.range m, kerbas.e (i, l) * co (d, l) j) ∧
      (∀ d u, (d < d0 ∨ d0 + t ≤ d ∨ ∀ i, i < k → pos i ≠ u) → y (d, u) = co (d, u)))
    (f := fun t co =>
      let d := d0 + t
      let kerapp : Nat → Nat → F := fun i j => ∑ l ∈ Finset.range m, kerbas.e (i, l) * co (d, l) j
      forN k (fun i => write (d, piv.getD (rows.getD i 0) 0) (kerapp i)) co) (s := co) (n := n)
    ⟨fun d i j h1 h2 => by omega, fun _ _ _ => rfl⟩ (by
      rintro t y ht ⟨q1, q2⟩
      dsimp only
      obtain ⟨i1, i2⟩ := inner (d0 + t) y fun i j => ∑ l ∈ Finset.range m, kerbas.e (i, l) * y (d0 + t, l) j
      refine ⟨fun d i j h1 h2 hi => ?_, fun d u h => ?_⟩
      · by_cases e : d = d0 + t
        · subst e
          rw [i1 i hi]
          exact Finset.sum_congr rfl fun l _ => by rw [q2 (d0 + t) l (by omega)]
        · rw [i2 d _ (Or.inl e)]
          exact q1 d i j h1 (by omega) hi
      · by_cases e : d = d0 + t
        · have hu : ∀ i, i < k → pos i ≠ u := by
            rcases h with h | h | h
            · omega
            · omega
            · exact h
          rw [i2 d u (Or.inr hu)]
          exact q2 d u (Or.inr (Or.inr hu))
        · rw [i2 d u (Or.inl e)]
          exact q2 d u (by
            rcases h with h | h | h
            · exact Or.inl h
            · exact Or.inr (Or.inl (by omega))
            · exact Or.inr (Or.inr h)))
  exact key

/-- `moveRows`: the rows that are not pivots move from a matrix to the next one, the last one to the first one. -/
theorem moveRows_spec (m lo hi : Nat) (isPiv : Nat → Bool) (co : Nat × Nat → Nat → F) (hlh : lo ≤ hi) :
    (∀ d i, lo ≤ d → d < hi → i < m → isPiv i = false → moveRows m lo hi isPiv co (d + 1, i) = co (d, i)) ∧
    (∀ i, i < m → isPiv i = false → moveRows m lo hi isPiv co (lo, i) = co (hi, i)) ∧
    (∀ d i, (d < lo ∨ hi < d ∨ m ≤ i ∨ isPiv i = true) → moveRows m lo hi isPiv co (d, i) = co (d, i)) := by
  -- one exchange of two matrices
  have inner : ∀ (e : Nat) (x : Nat × Nat → Nat → F),
      (∀ i, i < m → isPiv i = false → forN m (fun i co => if isPiv i then co else swapAt (e + 1, i) (e, i) co) x (e + 1, i) = x (e, i)) ∧
      (∀ i, i < m → isPiv i = false → forN m (fun i co => if isPiv i then co else swapAt (e + 1, i) (e, i) co) x (e, i) = x (e + 1, i)) ∧
      ∀ d i, ((d ≠ e ∧ d ≠ e + 1) ∨ m ≤ i ∨ isPiv i = true) → forN m (fun i co => if isPiv i then co else swapAt (e + 1, i) (e, i) co) x (d, i) = x (d, i) := by
    intro e x
    have := forN_inv (P := fun (t : Nat) (y : Nat × Nat → Nat → F) =>
        (∀ i, i < t → isPiv i = false → y (e + 1, i) = x (e, i)) ∧ (∀ i, i < t → isPiv i = false → y (e, i) = x (e + 1, i)) ∧
        ∀ d i, ((d ≠ e ∧ d ≠ e + 1) ∨ t ≤ i ∨ isPiv i = true) → y (d, i) = x (d, i))
      (f := fun i co => if isPiv i then co else swapAt (e + 1, i) (e, i) co) (s := x) (n := m)
      ⟨fun i hi => by omega, fun i hi => by omega, fun _ _ _ => rfl⟩ (by
        rintro t y ht ⟨q1, q2, q3⟩
        by_cases hp : isPiv t = true
        · rw [if_pos hp]
          have hn : ∀ i, i < t + 1 → isPiv i = false → i < t := by
            intro i hi hpi
            have : i ≠ t := by rintro rfl; rw [hp] at hpi; exact absurd hpi (by simp)
            omega
          refine ⟨fun i hi hpi => q1 i (hn i hi hpi) hpi, fun i hi hpi => q2 i (hn i hi hpi) hpi, fun d i h => ?_⟩
          rcases h with h | h | h
          · exact q3 d i (Or.inl h)
          · exact q3 d i (Or.inr (Or.inl (by omega)))
          · exact q3 d i (Or.inr (Or.inr h))
        · rw [if_neg hp]
          have hp' : isPiv t = false := by simpa using hp
          have sw : ∀ z : Nat × Nat, swapAt (e + 1, t) (e, t) y z =
              if z = (e, t) then x (e + 1, t) else if z = (e + 1, t) then x (e, t) else y z := by
            intro z
            unfold swapAt
            by_cases h1 : z = (e, t)
            · rw [h1, wr_eq, if_pos rfl, q3 _ _ (Or.inr (Or.inl (le_refl t)))]
            · rw [wr_ne _ _ h1, if_neg h1]
              by_cases h2 : z = (e + 1, t)
              · rw [h2, wr_eq, if_pos rfl, q3 _ _ (Or.inr (Or.inl (le_refl t)))]
              · rw [wr_ne _ _ h2, if_neg h2]
          refine ⟨fun i hi hpi => ?_, fun i hi hpi => ?_, fun d i h => ?_⟩
          · rw [sw, if_neg (fun h => by have := (Prod.mk.inj h).1; omega)]
            by_cases h4 : i = t
            · subst h4; rw [if_pos rfl]
            · rw [if_neg (fun h => h4 (Prod.mk.inj h).2)]; exact q1 i (by omega) hpi
          · rw [sw]
            by_cases h4 : i = t
            · subst h4; rw [if_pos rfl]
            · rw [if_neg (fun h => h4 (Prod.mk.inj h).2), if_neg (fun h => h4 (Prod.mk.inj h).2)]; exact q2 i (by omega) hpi
          · have hne : (d, i) ≠ (e, t) ∧ (d, i) ≠ (e + 1, t) := by
              constructor <;> intro h' <;> obtain ⟨h5, h6⟩ := Prod.mk.inj h'
              · rcases h with h | h | h
                · exact h.1 h5
                · omega
                · rw [h6, hp'] at h; exact absurd h (by simp)
              · rcases h with h | h | h
                · exact h.2 h5
                · omega
                · rw [h6, hp'] at h; exact absurd h (by simp)
            rw [sw, if_neg hne.1, if_neg hne.2]
            rcases h with h | h | h
            · exact q3 d i (Or.inl h)
            · exact q3 d i (Or.inr (Or.inl (by omega)))
            · exact q3 d i (Or.inr (Or.inr h)))
    exact this
  have key := forN_inv (P := fun (t : Nat) (y : Nat × Nat → Nat → F) =>
      (∀ d i, hi - t ≤ d → d < hi → i < m → isPiv i = false → y (d + 1, i) = co (d, i)) ∧
      (∀ i, i < m → isPiv i = false → y (hi - t, i) = co (hi, i)) ∧
      (∀ d i, (d < hi - t ∨ hi < d ∨ m ≤ i ∨ isPiv i = true) → y (d, i) = co (d, i)))
    (f := fun t => forN m fun i co => if isPiv i then co else swapAt (hi - 1 - t + 1, i) (hi - 1 - t, i) co) (s := co) (n := hi - lo)
    ⟨fun d i h1 h2 => by omega, fun _ _ _ => rfl, fun _ _ _ => rfl⟩ (by
      rintro t y ht ⟨q1, q2, q3⟩
      obtain ⟨i1, i2, i3⟩ := inner (hi - 1 - t) y
      have e0 : hi - (t + 1) = hi - 1 - t := by omega
      have e1 : hi - 1 - t + 1 = hi - t := by omega
      rw [e0]
      refine ⟨fun d i h1 h2 hm hp => ?_, fun i hm hp => ?_, fun d i h => ?_⟩
      · by_cases h3 : d = hi - 1 - t
        · rw [h3, i1 i hm hp, q3 _ _ (Or.inl (by omega))]
        · rw [i3 _ _ (Or.inl (by omega))]
          exact q1 d i (by omega) h2 hm hp
      · rw [i2 i hm hp, e1, q2 i hm hp]
      · rcases h with h | h | h
        · rw [i3 _ _ (Or.inl (by omega))]; exact q3 d i (Or.inl (by omega))
        · rw [i3 _ _ (Or.inl (by omega))]; exact q3 d i (Or.inr (Or.inl h))
        · rw [i3 _ _ (Or.inr h)]; exact q3 d i (Or.inr (Or.inr h)))
  obtain ⟨q1, q2, q3⟩ := key
  rw [show hi - (hi - lo) = lo by omega] at q1 q2 q3
  exact ⟨q1, q2, q3⟩

/-- The polynomial of a row of the state. -/
noncomputable def State.poly (s : State F) (i l : Nat) : F[X] := ofCoeffs s.len fun d => s.co (d, i) l

/-- The invariant on the state: the length is the degree plus one. -/
structure SOk (m n : Nat) (A : Nat → Nat → F[X]) (s0 : Nat → Int) (ord : Nat) (s : State F) : Prop where
  len : s.len = s.degA + 1
  deg : s.degA ≤ ord
  good : Good m n A s0 ord s.shift s.poly

theorem start_ok (m n : Nat) (A : Nat → Nat → F[X]) (s0 : Nat → Int) : SOk m n A s0 0 (start m s0) := by
  refine ⟨rfl, le_refl _, Good.one m n A s0 fun i l _ _ => ?_⟩
  ext k
  unfold State.poly start
  dsimp only
  rw [ofCoeffs_coeff]
  by_cases hk : k < 1
  · have : k = 0 := by omega
    subst this
    rw [if_pos hk]
    split_ifs with h1 h2 h2
    · rw [coeff_one, if_pos rfl]
    · exact absurd h1.2 h2
    · exact absurd ⟨rfl, h2⟩ h1
    · rw [coeff_zero]
  · rw [if_neg hk]
    split_ifs
    · rw [coeff_one, if_neg (by omega)]
    · rw [coeff_zero]

/-- The usual case. -/
theorem usual_ok {m n ord k : Nat} {A : Nat → Nat → F[X]} {s0 : Nat → Int} {s : State F} {R : Nat → Nat → F} {b : Base F}
    (h : SOk m n A s0 ord s) (hR : ∀ i j, i < m → j < n → R i j = resid m s.poly A ord i j) (hb : BaseOk m n R s.shift k b)
    (hip : ∀ i, s.isPiv i = false) :
    SOk m n A s0 (ord + 1) (usual m k b s) ∧
    (∀ t, (usual m k b s).isPiv t = false ↔ ∀ i, i < k → b.pos i ≠ t) ∧
    (∀ t, (restore k b (usual m k b s)).isPiv t = false) ∧
    (∀ i l, i < k → l < m → (usual m k b s).poly (b.pos i) l = ∑ t ∈ Finset.range m, C (b.kerbas.e (i, t)) * s.poly t l) ∧
    (∀ t l, t < m → l < m → (∀ i, i < k → b.pos i ≠ t) → (usual m k b s).poly t l = X * s.poly t l) := by
  have hmark : ∀ t, (forN k (fun i => write (b.piv.getD i 0) true) s.isPiv t = false ↔ ∀ i, i < k → b.pos i ≠ t) := by
    intro t
    obtain ⟨m1, m2⟩ := marks k (fun a => b.piv.getD a 0) true s.isPiv t
    constructor
    · intro hf i hi e
      rw [m1 _ (hb.rows i hi) e] at hf
      exact absurd hf (by simp)
    · intro hf
      rw [m2 ((hb.is_piv t).2 hf), hip t]
  have hrest : ∀ t, (restore k b (usual m k b s)).isPiv t = false := by
    intro t
    unfold restore usual
    dsimp only
    obtain ⟨m1, m2⟩ := marks k (fun a => b.piv.getD a 0) false (forN k (fun i => write (b.piv.getD i 0) true) s.isPiv) t
    by_cases hex : ∃ a, a < k ∧ b.piv.getD a 0 = t
    · obtain ⟨a, ha, e⟩ := hex
      exact m1 a ha e
    · rw [m2 fun a ha e => hex ⟨a, ha, e⟩]
      exact (hmark t).2 ((hb.is_piv t).1 fun a ha e => hex ⟨a, ha, e⟩)
  -- the update
  generalize hIP : forN k (fun i => write (b.piv.getD i 0) true) s.isPiv = isPiv at hmark
  obtain ⟨b1, b2⟩ := bump_spec m isPiv s.co s.degA s.shift
  generalize hU : bump m isPiv s.co s.degA s.shift = u at b1 b2
  have hlen := h.len
  -- the new coefficients before the replacement of rows
  let co0 : Nat × Nat → Nat → F := if u.2.1 = s.len then fun di => if di.1 = u.2.1 then fun _ => 0 else s.co di else s.co
  have hco0 : ∀ d i l, d ≤ u.2.1 → co0 (d, i) l = (s.poly i l).coeff d := by
    intro d i l hd
    unfold State.poly
    rw [ofCoeffs_coeff]
    show (if u.2.1 = s.len then fun di : Nat × Nat => if di.1 = u.2.1 then fun _ => 0 else s.co di else s.co) (d, i) l = _
    by_cases hu : u.2.1 = s.len
    · rw [if_pos hu]
      by_cases hd' : d = u.2.1
      · dsimp only; rw [if_pos hd', if_neg (by omega)]
      · dsimp only; rw [if_neg hd', if_pos (by omega)]
    · rw [if_neg hu, if_pos]
      rcases b2 with b2 | b2
      · omega
      · omega
  have htop : ∀ t l, t < m → l < m → isPiv t = false → co0 (u.2.1, t) l = 0 := by
    intro t l ht hl hp
    rcases b2 with b2 | ⟨b2, b3⟩
    · show (if u.2.1 = s.len then fun di : Nat × Nat => if di.1 = u.2.1 then fun _ => 0 else s.co di else s.co) (u.2.1, t) l = _
      rw [if_pos (by omega)]
      dsimp only
      rw [if_pos rfl]
    · rw [hco0 _ _ _ (le_refl _)]
      unfold State.poly
      rw [ofCoeffs_coeff, if_pos (by omega), b2]
      exact b3 t ht hp l hl
  obtain ⟨r1, r2⟩ := replaceRows_spec (m := m) b.kerbas b.piv b.rows b.pos (fun i _ => rfl) hb.inj 0 (u.2.1 + 1) co0
  generalize hC1 : replaceRows m k b.kerbas b.piv b.rows 0 (u.2.1 + 1) co0 = co1 at r1 r2
  obtain ⟨v1, v2, v3⟩ := moveRows_spec m 0 u.2.1 isPiv co1 (Nat.zero_le _)
  have hdef : usual m k b s = ⟨moveRows m 0 u.2.1 isPiv co1, if u.2.1 = s.len then u.2.1 + 1 else s.len, u.2.1, u.1,
      b.pPiv ++ s.pPiv.drop k, isPiv, b.kerbas⟩ := by
    unfold usual
    dsimp only
    rw [hIP, hU, hC1]
  have hlen' : (if u.2.1 = s.len then u.2.1 + 1 else s.len) = u.2.1 + 1 := by
    split_ifs with hu
    · rfl
    · rcases b2 with b2 | b2 <;> omega
  have hcoeff0 : ∀ i l d, u.2.1 < d → (s.poly i l).coeff d = 0 := by
    intro i l d hd
    unfold State.poly
    rw [ofCoeffs_coeff, if_neg]
    rcases b2 with b2 | b2 <;> omega
  have hpiv : ∀ i l, i < k → l < m → (usual m k b s).poly (b.pos i) l = ∑ t ∈ Finset.range m, C (b.kerbas.e (i, t)) * s.poly t l := by
    intro i l hi hl
    ext d
    rw [hdef]
    unfold State.poly
    dsimp only
    rw [hlen', ofCoeffs_coeff, finsetSum_coeff]
    have hp : isPiv (b.pos i) = true := by
      by_contra hf
      exact (hmark (b.pos i)).1 (by simpa using hf) i hi rfl
    change _ = ∑ t ∈ Finset.range m, (C (b.kerbas.e (i, t)) * s.poly t l).coeff d
    simp only [coeff_C_mul]
    by_cases hd : d < u.2.1 + 1
    · rw [if_pos hd, v3 d _ (Or.inr (Or.inr (Or.inr hp))), r1 d i l (Nat.zero_le _) (by omega) hi]
      exact Finset.sum_congr rfl fun t _ => by rw [hco0 d t l (by omega)]
    · rw [if_neg hd]
      exact (Finset.sum_eq_zero fun t _ => by rw [hcoeff0 t l d (by omega), mul_zero]).symm
  have hnp : ∀ t l, t < m → l < m → (∀ i, i < k → b.pos i ≠ t) → (usual m k b s).poly t l = X * s.poly t l := by
    intro t l ht hl hn
    have hp := (hmark t).2 hn
    ext d
    rw [hdef]
    conv_lhs => unfold State.poly
    dsimp only
    rw [hlen', ofCoeffs_coeff]
    cases d with
    | zero =>
      rw [if_pos (by omega), v2 t ht hp, r2 _ _ (Or.inr (Or.inr hn)), htop t l ht hl hp, coeff_X_mul_zero]
    | succ d =>
      rw [coeff_X_mul]
      by_cases hd : d + 1 < u.2.1 + 1
      · rw [if_pos hd, v1 d t (Nat.zero_le _) (by omega) ht hp, r2 _ _ (Or.inr (Or.inr hn)), hco0 d t l (by omega)]
      · rw [if_neg hd]
        by_cases hd2 : d = u.2.1
        · rw [hd2, ← hco0 _ _ _ (le_refl _), htop t l ht hl hp]
        · rw [hcoeff0 t l d (by omega)]
  have hdeg := h.deg
  refine ⟨⟨by rw [hdef]; exact hlen', by rw [hdef]; dsimp only; rcases b2 with b2 | b2 <;> omega, ?_⟩, fun t => by rw [hdef]; exact hmark t,
    hrest, hpiv, hnp⟩
  refine Good.step h.good hR hb (fun i hi => ⟨?_, fun l hl => hpiv i l hi hl⟩) fun t ht hn => ⟨?_, fun l hl => hnp t l ht hl hn⟩
  · rw [hdef]
    dsimp only
    have hp : isPiv (b.piv.getD (b.rows.getD i 0) 0) ≠ false := fun hf => (hmark _).1 hf i hi rfl
    rw [b1, if_neg (fun h => hp h.2)]
  · rw [hdef]
    dsimp only
    rw [b1, if_pos ⟨ht, (hmark t).2 hn⟩]

theorem SOk.restore {m n ord k : Nat} {A : Nat → Nat → F[X]} {s0 : Nat → Int} {s : State F} {b : Base F} (h : SOk m n A s0 ord s) :
    SOk m n A s0 ord (restore k b s) := ⟨h.len, h.deg, h.good⟩

theorem SOk.full {m n ord : Nat} {A : Nat → Nat → F[X]} {s0 : Nat → Int} {s : State F} (h : SOk m n A s0 ord s)
    (hR : ∀ i j, i < m → j < n → resid m s.poly A ord i j = 0) : SOk m n A s0 (ord + 1) s :=
  ⟨h.len, Nat.le_succ_of_le h.deg, h.good.full hR⟩

theorem toPoly_spec {m n ord : Nat} {A : Nat → Nat → F[X]} {s0 : Nat → Int} {s : State F} (h : SOk m n A s0 ord s) (app0 : PMat F[X]) :
    (toPoly m app0 s).rows = m ∧ (toPoly m app0 s).cols = m ∧ ∀ i l, i < m → l < m → (toPoly m app0 s).e (i, l) = s.poly i l := by
  obtain ⟨h1, h2, h3⟩ := (C65_conv_from_coeffs app0 s.len m m fun d ij => s.co (d, ij.1) ij.2).2 (by rw [h.len]; omega)
  refine ⟨h1, h2, fun i l hi hl => ?_⟩
  ext k
  unfold State.poly
  rw [ofCoeffs_coeff]
  exact h3 i l hi hl k

theorem early_spec {m n ord : Nat} {A : Nat → Nat → F[X]} {s0 : Nat → Int} {s : State F} (h : SOk m n A s0 ord s) {R X' : Nat → Nat → F}
    (hR : ∀ i j, i < m → j < n → R i j = resid m s.poly A ord i j) (hs : Spans m n R 0 X') (e : Nat) :
    (early m e s).1.rows = m ∧ (early m e s).1.cols = m ∧ Good m n A s0 (ord + e) (early m e s).2 fun i j => (early m e s).1.e (i, j) := by
  obtain ⟨t1, t2, t3⟩ := toPoly_spec h ⟨0, 0, fun _ => 0⟩
  obtain ⟨l1, l2, l3⟩ := leftShift_spec (toPoly m ⟨0, 0, fun _ => 0⟩ s) e
  refine ⟨l1.trans t1, l2.trans t2, Good.zero h.good hR hs e (fun i hi => ?_) fun i l hi hl => ?_⟩
  · unfold early; dsimp only; rw [add_loop, if_pos hi]
  · unfold early; dsimp only
    rw [l3 i l (by omega) (by omega), t3 i l hi hl]

/-- The residual of `mbasis_rescomp`. -/
theorem resSum_spec {m n order ord : Nat} {A : Nat → Nat → F[X]} {s0 : Nat → Int} {s : State F} (h : SOk m n A s0 ord s)
    (hord : ord < order) (pc : Nat × (Nat × Nat) → F) (hpc : ∀ d i j, d < order → i < m → j < n → pc (d, (i, j)) = (A i j).coeff d)
    (res : Nat → Nat → F) :
    ∃ r, resSum m order ord s.co s.degA pc res = some r ∧ ∀ i j, i < m → j < n → r i j = res i j + resid m s.poly A ord i j := by
  have hd := h.deg
  unfold resSum
  dsimp only
  rw [if_neg (by omega)]
  refine ⟨_, rfl, fun i j hi hj => ?_⟩
  have := forN_inv (P := fun (t : Nat) (x : Nat → Nat → F) => ∀ i j, x i j = res i j + ∑ u ∈ Finset.range t,
      ∑ l ∈ Finset.range m, s.co (ord + 1 - order + u, i) l * pc (ord - (ord + 1 - order + u), (l, j)))
    (f := fun t r i j => r i j + ∑ l ∈ Finset.range m, s.co (ord + 1 - order + t, i) l * pc (ord - (ord + 1 - order + t), (l, j)))
    (s := res) (n := s.degA + 1 - (ord + 1 - order)) (fun i j => by rw [Finset.range_zero, Finset.sum_empty, add_zero]) (by
      intro t x _ hx i j
      rw [hx i j, Finset.sum_range_succ, add_assoc])
  rw [this i j]
  congr 1
  rw [show ord + 1 - order = 0 by omega, Nat.sub_zero]
  have hlen := h.len
  generalize hD : s.degA + 1 = D at *
  unfold resid
  rw [finsetSum_coeff]
  simp only [coeff_mul_range]
  rw [Finset.sum_comm (s := Finset.range m), show ord + 1 = D + (ord + 1 - D) by omega, Finset.sum_range_add,
    Finset.sum_eq_zero (s := Finset.range (ord + 1 - D)), add_zero]
  · refine Finset.sum_congr rfl fun t ht => Finset.sum_congr rfl fun l hl => ?_
    have ht := Finset.mem_range.1 ht
    rw [Nat.zero_add, hpc _ _ _ (by omega) (Finset.mem_range.1 hl) hj]
    unfold State.poly
    rw [ofCoeffs_coeff, hlen, if_pos ht]
  · intro t _
    refine Finset.sum_eq_zero fun l _ => ?_
    unfold State.poly
    rw [ofCoeffs_coeff, hlen, if_neg (by omega), zero_mul]

end PML.Ntl.Mbasis
