import Verif.Ntl.AppbasSpec
import Verif.Ntl.MbasisPlain
import Verif.Ntl.MbasisState
import Verif.Approx.Orders

/-!
# The loop of `appbas_iterative`
-/

namespace PML.Ntl.Appbas

open Polynomial PML.Ntl.Utils PML.Ntl.Inv PML.Ntl.Solve PML.Ntl.Mbasis PML.Approx PML.Approx.Spec PML.Forms.Spec

variable {F : Type} [Field F] [DecidableEq F]

/-! ### Choice of the column and of the pivot -/

theorem maxIndex_lt (l : List Nat) (h : l ≠ []) : maxIndex l < l.length := by
  obtain ⟨a, l, rfl⟩ : ∃ a l', l = a :: l' := List.exists_cons_of_ne_nil h
  have key : ∀ (l : List Nat) (x : Nat × Nat × Nat), x.2.1 ≤ x.1 →
      (l.foldl (fun (x : Nat × Nat × Nat) b => if x.2.2 < b then (x.1 + 1, x.1 + 1, b) else (x.1 + 1, x.2)) x).2.1 ≤
        x.1 + l.length := by
    intro l
    induction l with
    | nil => intro x hx; simpa using hx
    | cons b l ih =>
      intro x hx
      rw [List.foldl_cons]
      refine le_trans (ih _ ?_) ?_
      · split_ifs
        · exact le_refl _
        · exact Nat.le_succ_of_le hx
      · rw [List.length_cons]
        split_ifs <;> simp only <;> omega
  have := key l (0, 0, a) (le_refl _)
  rw [List.length_cons]
  simp only [Nat.zero_add] at this
  exact Nat.lt_succ_of_le this

theorem getD_some (l : List Int) (i : Nat) (h : i < l.length) : l[i]? = some (l.getD i 0) := by
  rw [List.getD_eq_getElem?_getD, List.getElem?_eq_getElem h]
  rfl

theorem findPiv_spec (r : Nat → F) (shift : List Int) : ∀ m, m ≤ shift.length →
    (findPiv r shift m = some none ∧ ∀ i, i < m → r i = 0) ∨
    ∃ p, p < m ∧ findPiv r shift m = some (some p) ∧ r p ≠ 0 ∧
      ∀ i, i < m → r i ≠ 0 → shift.getD p 0 < shift.getD i 0 ∨ (shift.getD p 0 = shift.getD i 0 ∧ p ≤ i)
  | 0, _ => Or.inl ⟨rfl, fun i hi => absurd hi (by omega)⟩
  | m + 1, hm => by
    rcases findPiv_spec r shift m (by omega) with ⟨h1, h2⟩ | ⟨p, hp, h1, h2, h3⟩
    · unfold findPiv
      rw [h1]
      dsimp only
      by_cases hr : r m = 0
      · refine Or.inl ⟨by rw [if_pos hr], fun i hi => ?_⟩
        by_cases e : i = m
        · rw [e]; exact hr
        · exact h2 i (by omega)
      · refine Or.inr ⟨m, by omega, by rw [if_neg hr], hr, fun i hi hi2 => ?_⟩
        have : i = m := by
          by_contra e
          exact hi2 (h2 i (by omega))
        rw [this]; exact Or.inr ⟨rfl, le_refl _⟩
    · right
      unfold findPiv
      rw [h1]
      dsimp only
      by_cases hr : r m = 0
      · refine ⟨p, by omega, by rw [if_pos hr], h2, fun i hi hi2 => ?_⟩
        exact h3 i (by have : i ≠ m := fun e => hi2 (e ▸ hr); omega) hi2
      · rw [if_neg hr, getD_some shift m (by omega), getD_some shift p (by omega)]
        dsimp only
        by_cases hlt : shift.getD m 0 < shift.getD p 0
        · refine ⟨m, by omega, by rw [if_pos hlt], hr, fun i hi hi2 => ?_⟩
          by_cases e : i = m
          · rw [e]; exact Or.inr ⟨rfl, le_refl _⟩
          · rcases h3 i (by omega) hi2 with h | h
            · left; omega
            · left; omega
        · refine ⟨p, by omega, by rw [if_neg hlt], h2, fun i hi hi2 => ?_⟩
          by_cases e : i = m
          · rw [e]; omega
          · exact h3 i (by omega) hi2

/-! ### The operations on rows -/

theorem eliminate_spec (m n : Nat) (r : Nat → F) (piv : Nat) (x : Nat × Nat → F[X]) (u v : Nat) :
    eliminate m n r piv x (u, v) = if u < m ∧ v < n ∧ r u ≠ 0 ∧ u ≠ piv then x (u, v) + C (-(r u) / r piv) * x (piv, v)
      else x (u, v) := by
  unfold eliminate
  refine forN_inv (P := fun (m : Nat) (t : Nat × Nat → F[X]) => ∀ u v, t (u, v) =
    if u < m ∧ v < n ∧ r u ≠ 0 ∧ u ≠ piv then x (u, v) + C (-(r u) / r piv) * x (piv, v) else x (u, v))
    (fun u v => by rw [if_neg (by omega)]) ?_ u v
  intro row t _ ht u v
  by_cases hr : r row ≠ 0 ∧ row ≠ piv
  · rw [if_pos hr]
    have key := forN_inv (P := fun (n' : Nat) (y : Nat × Nat → F[X]) => ∀ u v, y (u, v) =
        if u = row ∧ v < n' then t (row, v) + C (-(r row) / r piv) * t (piv, v) else t (u, v))
      (f := fun k y => write (row, k) (y (row, k) + C (-(r row) / r piv) * y (piv, k)) y) (s := t) (n := n)
      (fun u v => by rw [if_neg (by omega)]) (by
        intro k y _ hy u v
        by_cases e : u = row ∧ v = k
        · obtain ⟨rfl, rfl⟩ := e
          rw [wr_eq, if_pos (by omega), hy, if_neg (by omega), hy, if_neg (by omega)]
        · rw [wr_ne _ _ (by intro h; exact e ⟨congrArg Prod.fst h, congrArg Prod.snd h⟩), hy]
          by_cases e2 : u = row ∧ v < k
          · rw [if_pos e2, if_pos (by omega)]
          · rw [if_neg e2, if_neg (by omega)]) u v
    rw [key]
    by_cases e : u = row
    · subst e
      have e1 : t (u, v) = x (u, v) := by rw [ht, if_neg (by omega)]
      have e2 : ∀ v, t (piv, v) = x (piv, v) := fun v => by rw [ht, if_neg (by simp)]
      by_cases hv : v < n
      · rw [if_pos ⟨rfl, hv⟩, if_pos ⟨by omega, hv, hr.1, hr.2⟩, e1, e2]
      · rw [if_neg (by omega), if_neg (by omega), e1]
    · rw [if_neg (fun h => e h.1), ht]
      by_cases h : u < row ∧ v < n ∧ r u ≠ 0 ∧ u ≠ piv
      · rw [if_pos h, if_pos ⟨by omega, h.2⟩]
      · rw [if_neg h, if_neg (fun h' => h ⟨by omega, h'.2⟩)]
  · rw [if_neg hr, ht]
    by_cases h : u < row ∧ v < n ∧ r u ≠ 0 ∧ u ≠ piv
    · rw [if_pos h, if_pos ⟨by omega, h.2⟩]
    · rw [if_neg h, if_neg]
      rintro ⟨h1, h2, h3, h4⟩
      by_cases e : u = row
      · exact hr ⟨e ▸ h3, e ▸ h4⟩
      · exact h ⟨by omega, h2, h3, h4⟩

/-- Without the case distinction on zero entries. -/
theorem eliminate_at (m n : Nat) (r : Nat → F) (piv : Nat) (x : Nat × Nat → F[X]) (u v : Nat) (hu : u < m) (hv : v < n) :
    eliminate m n r piv x (u, v) = if u = piv then x (u, v) else x (u, v) + C (-(r u) / r piv) * x (piv, v) := by
  rw [eliminate_spec]
  by_cases h : u = piv
  · rw [if_pos h, if_neg (fun h' => h'.2.2.2 h)]
  · rw [if_neg h]
    by_cases h2 : r u = 0
    · rw [if_neg (fun h' => h'.2.2.1 h2), h2]
      simp
    · rw [if_pos ⟨hu, hv, h2, h⟩]

theorem shiftResidual_spec (n piv : Nat) (order remIndex : List Nat) (x : Nat × Nat → F[X]) (u v : Nat) :
    shiftResidual n piv order remIndex x (u, v) =
      if u = piv ∧ v < n then ptrunc (X * x (piv, v)) (order.getD (remIndex.getD v 0) 0) else x (u, v) := by
  unfold shiftResidual
  refine forN_inv (P := fun (n' : Nat) (y : Nat × Nat → F[X]) => ∀ u v, y (u, v) =
    if u = piv ∧ v < n' then ptrunc (X * x (piv, v)) (order.getD (remIndex.getD v 0) 0) else x (u, v))
    (fun u v => by rw [if_neg (by omega)]) ?_ u v
  intro k y _ hy u v
  by_cases e : u = piv ∧ v = k
  · obtain ⟨rfl, rfl⟩ := e
    rw [wr_eq, if_pos (by omega), hy, if_neg (by omega), pshift_one]
  · rw [wr_ne _ _ (by intro h; exact e ⟨congrArg Prod.fst h, congrArg Prod.snd h⟩), hy]
    by_cases e2 : u = piv ∧ v < k
    · rw [if_pos e2, if_pos (by omega)]
    · rw [if_neg e2, if_neg (by omega)]

theorem dropColumn_spec (j n : Nat) (res : PMat F[X]) (hj : j < res.cols) (hn : n + 1 = res.cols) :
    (dropColumn j n res).rows = res.rows ∧ (dropColumn j n res).cols = n ∧
      ∀ u v, u < res.rows → v < n → (dropColumn j n res).e (u, v) = res.e (u, if v < j then v else v + 1) := by
  refine ⟨rfl, rfl, fun u v hu hv => ?_⟩
  have key := forN_inv (P := fun (m : Nat) (t : Nat × Nat → F[X]) => ∀ u v, u < m → v < n →
      t (u, v) = res.e (u, if v < j then v else v + 1))
    (f := fun i x =>
      let x := forN j (fun k => write (i, k) (res.e (i, k))) x
      forN (res.cols - (j + 1)) (fun k => write (i, j + 1 + k - 1) (res.e (i, j + 1 + k))) x)
    (s := (res.setDims res.rows n).e) (n := res.rows) (fun u v h => absurd h (by omega)) (by
      intro i t _ ht u v hu hv
      dsimp only
      have k1 := forN_inv (P := fun (j' : Nat) (y : Nat × Nat → F[X]) => ∀ u v, y (u, v) =
          if u = i ∧ v < j' then res.e (i, v) else t (u, v))
        (f := fun k => write (i, k) (res.e (i, k))) (s := t) (n := j)
        (fun u v => by rw [if_neg (by omega)]) (by
          intro k y _ hy u v
          by_cases e : u = i ∧ v = k
          · obtain ⟨rfl, rfl⟩ := e
            rw [wr_eq, if_pos (by omega)]
          · rw [wr_ne _ _ (by intro h; exact e ⟨congrArg Prod.fst h, congrArg Prod.snd h⟩), hy]
            by_cases e2 : u = i ∧ v < k
            · rw [if_pos e2, if_pos (by omega)]
            · rw [if_neg e2, if_neg (by omega)])
      generalize forN j (fun k => write (i, k) (res.e (i, k))) t = t1 at k1 ⊢
      have k2 := forN_inv (P := fun (j' : Nat) (y : Nat × Nat → F[X]) => ∀ u v, y (u, v) =
          if u = i ∧ j ≤ v ∧ v < j + j' then res.e (i, v + 1) else t1 (u, v))
        (f := fun k => write (i, j + 1 + k - 1) (res.e (i, j + 1 + k))) (s := t1) (n := res.cols - (j + 1))
        (fun u v => by rw [if_neg (by omega)]) (by
          intro k y _ hy u v
          by_cases e : u = i ∧ v = j + 1 + k - 1
          · obtain ⟨rfl, rfl⟩ := e
            rw [wr_eq, if_pos (by omega), show j + 1 + k - 1 + 1 = j + 1 + k by omega]
          · rw [wr_ne _ _ (by intro h; exact e ⟨congrArg Prod.fst h, congrArg Prod.snd h⟩), hy]
            by_cases e2 : u = i ∧ j ≤ v ∧ v < j + k
            · rw [if_pos e2, if_pos (by omega)]
            · rw [if_neg e2, if_neg (by omega)]) u v
      rw [k2]
      by_cases e : u = i
      · subst e
        by_cases hvj : v < j
        · rw [if_neg (by omega), k1, if_pos ⟨rfl, hvj⟩, if_pos hvj]
        · rw [if_pos (by omega), if_neg hvj]
      · rw [if_neg (fun h => e h.1), k1, if_neg (fun h => e h.1), ht u v (by omega) hv])
  exact key u v hu hv

/-! ### Invariants -/

/-- `appbas` is a basis at the orders `o` reached so far. -/
structure Core (pmat : PMat F[X]) (order : List Nat) (s0 : List Int) (o : Nat → Nat) (st : St F) : Prop where
  arows : st.app.rows = pmat.rows
  acols : st.app.cols = pmat.rows
  rrows : st.res.rows = pmat.rows
  slen : st.shift.length = pmat.rows
  gen : GenBy (IsApproximantO (mat pmat.rows pmat.cols pmat) (fun j => o j)) (mat pmat.rows pmat.rows st.app)
  piv : ∃ d, DiagPivots d (fun i : Fin pmat.rows => entryOf s0 i) (mat pmat.rows pmat.rows st.app)
    (fun i : Fin pmat.rows => entryOf st.shift i)
  resid : ∀ i k, i < pmat.rows → k < st.remIndex.length → X ^ order.getD (st.remIndex.getD k 0) 0 ∣
    st.res.e (i, k) - ∑ l ∈ Finset.range pmat.rows, st.app.e (i, l) * pmat.e (l, st.remIndex.getD k 0)

/-- What remains to be done. -/
structure Lists (n : Nat) (order : List Nat) (o : Nat → Nat) (st : St F) : Prop where
  llen : st.remIndex.length = st.remOrder.length
  rcols : st.remOrder ≠ [] → st.res.cols = st.remOrder.length
  idx : ∀ k, k < st.remOrder.length → st.remIndex.getD k 0 < n
  ord : ∀ k, k < st.remOrder.length → 0 < st.remOrder.getD k 0 ∧
    o (st.remIndex.getD k 0) + st.remOrder.getD k 0 = order.getD (st.remIndex.getD k 0) 0
  nodup : st.remIndex.Nodup
  other : ∀ c, c < n → c ∉ st.remIndex → o c = order.getD c 0

omit [DecidableEq F] in
theorem sum_mat (pmat : PMat F[X]) (app : PMat F[X]) (i : Fin pmat.rows) (c : Fin pmat.cols) :
    (mat pmat.rows pmat.rows app * mat pmat.rows pmat.cols pmat) i c =
      ∑ l ∈ Finset.range pmat.rows, app.e (i, l) * pmat.e (l, c) := by
  rw [Matrix.mul_apply, Finset.sum_range]; rfl

omit [DecidableEq F] in
theorem coeff_of_dvd_sub {p q : F[X]} {d k : Nat} (h : X ^ d ∣ p - q) (hk : k < d) : p.coeff k = q.coeff k := by
  have := PML.Approx.coeff_of_dvd h hk
  rwa [coeff_sub, sub_eq_zero] at this

theorem update_ok {pmat : PMat F[X]} {order : List Nat} {s0 : List Int} {o : Nat → Nat} {st : St F}
    (h : Core pmat order s0 o st) (hlen : st.remIndex.length = st.res.cols)
    (hidx : ∀ k, k < st.remIndex.length → st.remIndex.getD k 0 < order.length) (j : Nat) (hj : j < st.remIndex.length)
    (hjn : st.remIndex.getD j 0 < pmat.cols)
    (ho : o (st.remIndex.getD j 0) < order.getD (st.remIndex.getD j 0) 0) (piv : Nat) (hp : piv < pmat.rows)
    (hpiv : (st.res.e (piv, j)).coeff (o (st.remIndex.getD j 0)) ≠ 0)
    (hmin : ∀ i, i < pmat.rows → (st.res.e (i, j)).coeff (o (st.remIndex.getD j 0)) ≠ 0 →
      st.shift.getD piv 0 < st.shift.getD i 0 ∨ (st.shift.getD piv 0 = st.shift.getD i 0 ∧ piv ≤ i)) :
    ∃ st', update order (fun i => (st.res.e (i, j)).coeff (o (st.remIndex.getD j 0))) piv st = .ok st' ∧
      st'.remIndex = st.remIndex ∧ st'.remOrder = st.remOrder ∧ st'.res.cols = st.res.cols ∧
      Core pmat order s0 (Function.update o (st.remIndex.getD j 0) (o (st.remIndex.getD j 0) + 1)) st' := by
  set c := st.remIndex.getD j 0 with hc
  set r : Nat → F := fun i => (st.res.e (i, j)).coeff (o c) with hr
  set m := pmat.rows with hm
  have hsl := h.slen
  unfold update
  rw [h.rrows]
  dsimp only
  rw [if_neg (by omega)]
  set app1 : PMat F[X] := ⟨st.app.rows, st.app.cols, eliminate m m r piv st.app.e⟩ with happ1
  obtain ⟨app2, e1, e2, e3, e4⟩ := C65_shift_row true app1 app1 piv 1 (by show piv < st.app.rows; rw [h.arows]; exact hp)
  rw [e1]
  dsimp only
  have hall : (List.range st.res.cols).all (fun k => decide (k < st.remIndex.length ∧ st.remIndex.getD k 0 < order.length)) = true := by
    rw [List.all_eq_true]
    intro k hk
    have hk' := List.mem_range.1 hk
    exact decide_eq_true ⟨by omega, hidx k (by omega)⟩
  rw [if_pos hall]
  -- the rows of the new basis
  have happ2 : ∀ i l, i < m → l < m → app2.e (i, l) =
      if i = piv then X * st.app.e (piv, l) else st.app.e (i, l) + C (-(r i) / r piv) * st.app.e (piv, l) := by
    intro i l hi hl
    ext k
    rw [e4 i l (by show i < st.app.rows; rw [h.arows]; exact hi) (by show l < st.app.cols; rw [h.acols]; exact hl)]
    show (if i = piv then (if (1 : Int) ≤ k then (eliminate m m r piv st.app.e (i, l)).coeff ((k : Int) - 1).toNat else 0)
      else (eliminate m m r piv st.app.e (i, l)).coeff k) = _
    rw [eliminate_at m m r piv _ i l hi hl]
    by_cases e : i = piv
    · rw [if_pos e, if_pos e, if_pos e, e]
      cases k with
      | zero => rw [if_neg (by simp), coeff_X_mul_zero]
      | succ k =>
        rw [if_pos (by push_cast; omega), coeff_X_mul]
        congr 1
        push_cast
        omega
    · rw [if_neg e, if_neg e, if_neg e]
  have hresc : ∀ i, i < m → r i = (∑ l ∈ Finset.range m, st.app.e (i, l) * pmat.e (l, c)).coeff (o c) := fun i hi =>
    coeff_of_dvd_sub (h.resid i j hi hj) ho
  have hrm : ∀ i : Fin m, ((mat m m st.app * mat m pmat.cols pmat) i ⟨c, hjn⟩).coeff (o c) = r i := by
    intro i
    rw [sum_mat, hresc i i.2]
  refine ⟨_, rfl, rfl, rfl, rfl, ?_⟩
  refine ⟨?_, ?_, h.rrows, ?_, ?_, ?_, ?_⟩
  · show app2.rows = _
    rw [e2]; exact h.arows
  · show app2.cols = _
    rw [e3]; exact h.acols
  · show (st.shift.set piv _).length = _
    rw [List.length_set]; exact h.slen
  · -- generation
    have hstep := approx_step (P' := mat m m app2) h.gen ⟨c, hjn⟩ ⟨piv, hp⟩ (by
        show ((mat m m st.app * mat m pmat.cols pmat) ⟨piv, hp⟩ ⟨c, hjn⟩).coeff (o c) ≠ 0
        rw [hrm]; exact hpiv)
      (fun l => by
        show app2.e (piv, l) = X * st.app.e (piv, l)
        rw [happ2 piv l hp l.2, if_pos rfl])
      (fun i hi l => by
        show app2.e (i, l) = st.app.e (i, l) + C (-((mat m m st.app * mat m pmat.cols pmat) i ⟨c, hjn⟩).coeff (o c) /
          ((mat m m st.app * mat m pmat.cols pmat) ⟨piv, hp⟩ ⟨c, hjn⟩).coeff (o c)) * st.app.e (piv, l)
        rw [hrm, hrm, happ2 i l i.2 l.2, if_neg (fun e => hi (Fin.ext e))])
    have eo : (fun k : Fin pmat.cols => Function.update o c (o c + 1) k) =
        Function.update (fun k : Fin pmat.cols => o k) ⟨c, hjn⟩ (o c + 1) := by
      funext k
      by_cases e : (k : Nat) = c
      · have : k = ⟨c, hjn⟩ := Fin.ext e
        rw [this, Function.update_self, Function.update_self]
      · rw [Function.update_of_ne e, Function.update_of_ne (fun h => e (congrArg Fin.val h))]
    rw [eo]
    exact hstep
  · -- pivots
    obtain ⟨d, hd⟩ := h.piv
    refine ⟨d + 1, Step.diagPivots (R := Matrix.of fun i (_ : Fin 1) => r i) (T := {⟨piv, hp⟩})
      (c := fun i t => -(r i) / r t) (s := fun i : Fin m => entryOf st.shift i) (P := mat m m st.app) ?_ hd⟩
    refine ⟨fun ν hν t ht => ?_, fun i hi k => ?_, fun i hi t ht hct => ?_, fun t ht l => ?_, fun i hi l => ?_,
      fun t ht => ?_, fun i hi => ?_⟩
    · have := hν 0
      rw [Finset.sum_singleton] at this
      rw [Finset.mem_singleton.1 ht]
      exact (mul_eq_zero.1 this).resolve_right hpiv
    · rw [Finset.sum_singleton, Matrix.of_apply, Matrix.of_apply]
      have : r piv ≠ 0 := hpiv
      field_simp
      ring
    · rw [Finset.mem_singleton.1 ht] at hct ⊢
      rw [Finset.mem_singleton] at hi
      have hri : r i ≠ 0 := by
        intro e
        apply hct
        show -(r i) / r piv = 0
        rw [e]; simp
      have hne : (i : Nat) ≠ piv := fun e => hi (Fin.ext e)
      rcases hmin i i.2 hri with h1 | ⟨h1, h2⟩
      · exact Or.inl h1
      · exact Or.inr ⟨h1, Fin.lt_def.2 (show piv < (i : Nat) by omega)⟩
    · rw [Finset.mem_singleton.1 ht]
      show app2.e (piv, l) = X * st.app.e (piv, l)
      rw [happ2 piv l hp l.2, if_pos rfl]
    · rw [Finset.sum_singleton]
      show app2.e (i, l) = st.app.e (i, l) + C (-(r i) / r piv) * st.app.e (piv, l)
      rw [happ2 i l i.2 l.2, if_neg (fun e => hi (Finset.mem_singleton.2 (Fin.ext e)))]
    · rw [Finset.mem_singleton.1 ht]
      show (st.shift.set piv (st.shift.getD piv 0 + 1)).getD piv 0 = st.shift.getD piv 0 + 1
      rw [List.getD_eq_getElem?_getD, List.getElem?_set_self (by omega)]
      rfl
    · show (st.shift.set piv (st.shift.getD piv 0 + 1)).getD i 0 = st.shift.getD i 0
      rw [List.getD_eq_getElem?_getD, List.getElem?_set_ne (fun e => hi (Finset.mem_singleton.2 (Fin.ext e.symm))),
        ← List.getD_eq_getElem?_getD]
  · -- residual
    intro i k hi hk
    have hkc : k < st.res.cols := by rw [← hlen]; exact hk
    show X ^ order.getD (st.remIndex.getD k 0) 0 ∣ shiftResidual st.res.cols piv order st.remIndex
      (eliminate m st.res.cols r piv st.res.e) (i, k) - ∑ l ∈ Finset.range m, app2.e (i, l) * pmat.e (l, st.remIndex.getD k 0)
    set ck := st.remIndex.getD k 0
    rw [shiftResidual_spec]
    have hri := h.resid i k hi hk
    have hrp := h.resid piv k hp hk
    by_cases e : i = piv
    · rw [if_pos ⟨e, hkc⟩, eliminate_at m _ r piv _ piv k hp hkc, if_pos rfl]
      have e5 : ∑ l ∈ Finset.range m, app2.e (i, l) * pmat.e (l, ck) =
          X * ∑ l ∈ Finset.range m, st.app.e (piv, l) * pmat.e (l, ck) := by
        rw [Finset.mul_sum]
        refine Finset.sum_congr rfl fun l hl => ?_
        rw [happ2 i l hi (Finset.mem_range.1 hl), if_pos e, mul_assoc]
      rw [e5]
      have e6 : X ^ order.getD ck 0 ∣ ptrunc (X * st.res.e (piv, k)) (order.getD ck 0) - X * st.res.e (piv, k) := by
        rw [X_pow_dvd_iff]
        intro d hd
        rw [coeff_sub, ptrunc_coeff, if_pos hd, sub_self]
      have e7 := dvd_add e6 (Dvd.dvd.mul_left hrp X)
      convert e7 using 1
      ring
    · rw [if_neg (fun h => e h.1), eliminate_at m _ r piv _ i k hi hkc, if_neg e]
      have e5 : ∑ l ∈ Finset.range m, app2.e (i, l) * pmat.e (l, ck) =
          ∑ l ∈ Finset.range m, st.app.e (i, l) * pmat.e (l, ck) +
          C (-(r i) / r piv) * ∑ l ∈ Finset.range m, st.app.e (piv, l) * pmat.e (l, ck) := by
        rw [Finset.mul_sum, ← Finset.sum_add_distrib]
        refine Finset.sum_congr rfl fun l hl => ?_
        rw [happ2 i l hi (Finset.mem_range.1 hl), if_neg e]
        ring
      rw [e5]
      have e7 := dvd_add hri (Dvd.dvd.mul_left hrp (C (-(r i) / r piv)))
      convert e7 using 1
      ring

end PML.Ntl.Appbas
