import Verif.Ntl.KerbasLemmas

/-!
# Kernel bases: the Zhou-Labahn-Storjohann algorithm
-/

namespace PML.Ntl.Kerbas

open Polynomial PML.Ntl.Utils PML.Ntl.Inv PML.Ntl.Solve PML.Ntl.Forms PML.Ntl.Mbasis PML.Ntl.MatMul PML.Approx PML.Approx.Spec
  PML.Kernel PML.Kernel.Spec PML.Forms.Spec

set_option linter.unusedSectionVars false

variable {F : Type} [Field F] [DecidableEq F]

/-- The call returns a value with the property `Q`, or, if `cf` holds, it may raise an error. -/
def Post {α : Type} (cf : Prop) (Q : α → Prop) : Out α → Prop
  | .ok a => Q a
  | .error => cf
  | .ub => False
  | .loops => False

theorem Post.andThen {α β : Type} {cf : Prop} {Q : α → Prop} {R : β → Prop} {x : Out α} {f : α → Out β} (h : Post cf Q x)
    (hf : ∀ a, Q a → Post cf R (f a)) : Post cf R (andThen x f) := by
  cases x with
  | ok a => exact hf a h
  | error => exact h
  | ub => exact h
  | loops => exact h

theorem Post.mono {α : Type} {cf cf' : Prop} {Q R : α → Prop} {x : Out α} (h : Post cf Q x) (hc : cf → cf') (hf : ∀ a, Q a → R a) :
    Post cf' R x := by
  cases x with
  | ok a => exact hf a h
  | error => exact hc h
  | ub => exact h
  | loops => exact h

/-- What is returned for the shift `sh`. -/
structure Ret (pmat : PMat F[X]) (sh : List Int) (K : PMat F[X]) (sh' : List Int) : Prop where
  cols : K.cols = pmat.rows
  len : sh'.length = K.rows
  zero : ∀ i, Matrix.vecMul (mat K.rows pmat.rows K i) (mat pmat.rows pmat.cols pmat) = 0
  indep : ∀ u, Matrix.vecMul u (mat K.rows pmat.rows K) = 0 → u = 0
  basis : (pmat.cols ≤ 2 ∨ pmat.rows ≤ 5 ∨ pmat.cols ≤ 4 ∧ pmat.rows < 2 * pmat.cols) → IsKernelBasis (mat pmat.rows pmat.cols pmat) (mat K.rows pmat.rows K)
  piv : pmat.cols ≤ 3 → ∃ t ρ, Pivots (fun i : Fin pmat.rows => vec sh i) (mat K.rows pmat.rows K) t ρ
  uni : pmat.cols ≤ 1 → ∃ (c : Int) (ρ : Fin K.rows → Fin pmat.rows),
    Pivots (fun i : Fin pmat.rows => vec sh i) (mat K.rows pmat.rows K) (fun i => vec sh' i + c) ρ

/-- The same for a basis in the right form. -/
theorem Ret.of_pivots {pmat K : PMat F[X]} {sh sh' : List Int} (hc : K.cols = pmat.rows) (hl : sh'.length = K.rows)
    (hb : IsKernelBasis (mat pmat.rows pmat.cols pmat) (mat K.rows pmat.rows K)) {c : Int} {ρ : Fin K.rows → Fin pmat.rows}
    (hp : Pivots (fun i : Fin pmat.rows => vec sh i) (mat K.rows pmat.rows K) (fun i => vec sh' i + c) ρ) : Ret pmat sh K sh' :=
  ⟨hc, hl, row_mem hb, hb.independent, fun _ => hb, fun _ => ⟨_, _, hp⟩, fun _ => ⟨c, ρ, hp⟩⟩

theorem Ret.rows_le {pmat K : PMat F[X]} {sh sh' : List Int} (h : Ret pmat sh K sh') : K.rows ≤ pmat.rows := by
  have hli : LinearIndependent F[X] (mat K.rows pmat.rows K).row := by
    rw [← Matrix.vecMul_injective_iff]
    intro u v huv
    have := h.indep (u - v) (by rw [Matrix.sub_vecMul]; exact sub_eq_zero.2 huv)
    exact sub_eq_zero.1 this
  have := hli.fintype_card_le_finrank
  rwa [Module.finrank_fin_fun, Fintype.card_fin] at this

/-- The identity. -/
theorem ret_one {pmat : PMat F[X]} {sh : List Int} (hl : sh.length = pmat.rows) (h0 : mat pmat.rows pmat.cols pmat = 0) :
    Ret pmat sh (one pmat.rows) sh := by
  obtain ⟨h1, h2, h3⟩ := one_spec (F := F) pmat.rows
  have key : ∀ (k : Nat) (hk : k = pmat.rows), IsKernelBasis (mat pmat.rows pmat.cols pmat) (mat k pmat.rows (one pmat.rows : PMat F[X])) ∧
      ∃ ρ, Pivots (fun i : Fin pmat.rows => vec sh i) (mat k pmat.rows (one pmat.rows : PMat F[X])) (fun i => vec sh i + 0) ρ := by
    rintro k rfl
    rw [h3]
    refine ⟨isKernelBasis_one h0, id, ?_⟩
    have := pivots_one (K := F) fun i : Fin pmat.rows => vec sh i
    simpa using this
  obtain ⟨hb, ρ, hp⟩ := key _ h1
  exact Ret.of_pivots h2 (hl.trans h1.symm) hb hp

/-- No row. -/
theorem ret_none {pmat : PMat F[X]} {sh : List Int} (h : ∀ v, Matrix.vecMul v (mat pmat.rows pmat.cols pmat) = 0 → v = 0) :
    Ret pmat sh (noRows pmat.rows) [] :=
  Ret.of_pivots (c := 0) (ρ := fun i => i.elim0) rfl rfl (isKernelBasis_zero h) (pivots_empty _ _ _ _)

/-- What is required of the computation of the basis. -/
def BackendOk (cf : Prop) (be : PMat F[X] → List Int → Nat → Out (Base F)) : Prop :=
  ∀ (pmat : PMat F[X]) (s : List Int) (order : Nat), 0 < pmat.rows → 0 < order → s.length = pmat.rows →
    Post cf (fun b => match b with
      | .done K sh => Ret pmat s K sh
      | .basis P t res => P.rows = pmat.rows ∧ P.cols = pmat.rows ∧ ∃ f : F[X], f.natDegree = order ∧
        Pre (mat pmat.rows pmat.cols pmat) f (mat pmat.rows pmat.rows P) (fun i => vec s i) (fun i => t i) ∧
        ∀ (idx : List Nat) (hidx : ∀ x ∈ idx, x < pmat.rows),
          (∃ i, Matrix.vecMul (mat pmat.rows pmat.rows P (sel idx hidx i)) (mat pmat.rows pmat.cols pmat) ≠ 0) →
          ∃ R, res (rowsAt P idx) = .ok R ∧ R.rows = idx.length ∧ R.cols = pmat.cols ∧
            ∀ i j, (Matrix.vecMul (mat pmat.rows pmat.rows P (sel idx hidx i)) (mat pmat.rows pmat.cols pmat)) j =
              f * mat idx.length pmat.cols R i j) (be pmat s order)

theorem mat_mul {a b c : PMat F[X]} (h : IsProduct a b c) :
    mat a.rows b.cols c = mat a.rows a.cols a * mat a.cols b.cols b := by
  refine Matrix.ext fun i j => ?_
  rw [Matrix.mul_apply]
  refine (h.2.2 i j i.2 j.2).trans ?_
  rw [Finset.sum_range]
  rfl

theorem mat_mul' {a b c : PMat F[X]} (h : IsProduct a b c) {m k n : Nat} (hm : a.rows = m) (hk : a.cols = k) (hn : b.cols = n) :
    mat m n c = mat m k a * mat k n b := by
  subst hm hk hn; exact mat_mul h

/-- Splitting the columns. -/
theorem split_cols {m n n1 : Nat} (hn : n1 ≤ n) {pmat : PMat F[X]} (v : Fin m → F[X]) :
    Matrix.vecMul v (mat m n pmat) = 0 ↔
      Matrix.vecMul v (mat m n1 (colsAt pmat 0 n1)) = 0 ∧ Matrix.vecMul v (mat m (n - n1) (colsAt pmat n1 (n - n1))) = 0 := by
  constructor
  · intro h
    constructor
    · funext j
      have := congrFun h ⟨j, by omega⟩
      refine Eq.trans ?_ this
      show ∑ l, v l * pmat.e (l, 0 + j) = ∑ l, v l * pmat.e (l, j)
      rw [Nat.zero_add]
    · funext j
      exact congrFun h ⟨n1 + j, by omega⟩
  · rintro ⟨h1, h2⟩
    funext j
    rcases Nat.lt_or_ge j n1 with hj | hj
    · have := congrFun h1 ⟨j, hj⟩
      refine Eq.trans ?_ this
      show ∑ l, v l * pmat.e (l, j) = ∑ l, v l * pmat.e (l, 0 + j)
      rw [Nat.zero_add]
    · have := congrFun h2 ⟨j - n1, by omega⟩
      refine Eq.trans ?_ this
      show ∑ l, v l * pmat.e (l, j) = ∑ l, v l * pmat.e (l, n1 + (j - n1))
      rw [Nat.add_sub_cancel' hj]

/-- Two calls, on the columns of the two halves. -/
theorem ret_split {pmat K1 G K2 K : PMat F[X]} {sh sh1 sh2 : List Int} {n1 : Nat} (hn : n1 ≤ pmat.cols)
    (h1 : Ret (colsAt pmat 0 n1) sh K1 sh1) (hG : IsProduct K1 (colsAt pmat n1 (pmat.cols - n1)) G) (h2 : Ret G sh1 K2 sh2)
    (hK : IsProduct K2 K1 K) :
    K.cols = pmat.rows ∧ sh2.length = K.rows ∧
    (∀ i, Matrix.vecMul (mat K.rows pmat.rows K i) (mat pmat.rows pmat.cols pmat) = 0) ∧
    (∀ u, Matrix.vecMul u (mat K.rows pmat.rows K) = 0 → u = 0) ∧
    (((n1 ≤ 2 ∧ pmat.cols - n1 ≤ 2) ∨ pmat.rows ≤ 5) → IsKernelBasis (mat pmat.rows pmat.cols pmat) (mat K.rows pmat.rows K)) ∧
    ((n1 ≤ 1 ∧ pmat.cols - n1 ≤ 2) → ∃ t ρ, Pivots (fun i : Fin pmat.rows => vec sh i) (mat K.rows pmat.rows K) t ρ) := by
  obtain ⟨g1, g2, -⟩ := id hG
  obtain ⟨k1, k2, -⟩ := id hK
  have hc1 : K1.cols = pmat.rows := h1.cols
  have hc2 : K2.cols = K1.rows := h2.cols.trans g1
  have hmG := mat_mul hG
  have hmK := mat_mul hK
  have hrle := h1.rows_le
  obtain ⟨c1, l1, z1, i1, b1, p1, u1⟩ := h1
  obtain ⟨c2, l2, z2, i2, b2, p2, u2⟩ := h2
  change G.cols = pmat.cols - n1 at g2
  dsimp only [colsAt] at *
  rcases G with ⟨gr, gc, ge⟩
  rcases K with ⟨kr, kc, ke⟩
  dsimp only at *
  subst g1 g2 k1
  rw [hc1] at hmG hmK k2
  rw [hc2] at hmK
  have hker : ∀ v : Fin pmat.rows → F[X], Matrix.vecMul v (mat pmat.rows pmat.cols pmat) = 0 ↔
      Matrix.vecMul v (mat pmat.rows n1 (colsAt pmat 0 n1)) = 0 ∧
      Matrix.vecMul v (mat pmat.rows (pmat.cols - n1) (colsAt pmat n1 (pmat.cols - n1))) = 0 := fun v => split_cols hn v
  refine ⟨k2, l2, fun i => ?_, fun u hu => ?_, fun hcond => ?_, fun hcond => ?_⟩
  · have hrow : mat K2.rows pmat.rows ⟨K2.rows, kc, ke⟩ i = Matrix.vecMul (mat K2.rows K1.rows K2 i) (mat K1.rows pmat.rows K1) := by
      rw [hmK]; rfl
    rw [hrow]
    have hz1 : mat K1.rows pmat.rows K1 * mat pmat.rows n1 (colsAt pmat 0 n1) = 0 :=
      Matrix.ext fun a b => congrFun (z1 a) b
    refine (hker _).2 ⟨?_, ?_⟩
    · rw [Matrix.vecMul_vecMul, hz1, Matrix.vecMul_zero]
    · have := z2 i
      rw [hmG] at this
      rw [Matrix.vecMul_vecMul]
      exact this
  · rw [hmK, ← Matrix.vecMul_vecMul] at hu
    exact i2 u (i1 _ hu)
  · rw [hmK]
    refine isKernelBasis_mul hker (b1 ?_) ?_
    · omega
    · have := b2 (by omega)
      rw [hmG] at this
      exact this
  · rw [hmK]
    obtain ⟨c, ρ, hp⟩ := u1 (by omega)
    obtain ⟨t2, ρ2, hp2⟩ := p2 (by omega)
    exact ⟨_, _, Pivots.mul hp (Pivots.add hp2 c)⟩

/-- The rows of the basis whose degree is low. -/
theorem ret_rows {pmat P : PMat F[X]} {shift s : List Int} {diff : Int} (hsd : ∀ i : Fin pmat.rows, vec shift i = vec s i + diff)
    (hPc : P.cols = pmat.rows) (hnm : 2 * pmat.cols ≤ pmat.rows) {f : F[X]} {t : Nat → Int}
    (h : Pre (mat pmat.rows pmat.cols pmat) f (mat pmat.rows pmat.rows P) (fun i => vec s i) (fun i => t i))
    {idx : List Nat} (hidx : ∀ x ∈ idx, x < pmat.rows) (hsort : idx.Pairwise (· < ·))
    (hker : ∀ i, Matrix.vecMul (mat pmat.rows pmat.rows P (sel idx hidx i)) (mat pmat.rows pmat.cols pmat) = 0)
    (hb : pmat.cols ≤ 2 → ∀ v, Matrix.vecMul v (mat pmat.rows pmat.cols pmat) = 0 → ∀ D π,
      HasPivot (fun i : Fin pmat.rows => vec s i) v D π → ∃ i, sel idx hidx i = π) :
    Ret pmat shift (rowsAt P idx) (idx.map t) := by
  have hP : Pivots (fun i : Fin pmat.rows => vec s i) ((mat pmat.rows pmat.rows P).submatrix (sel idx hidx) id)
      (fun i => t (sel idx hidx i)) (sel idx hidx) := ⟨fun i => h.piv.row (sel idx hidx i), sel_mono hidx hsort⟩
  have hP' := Kerbas.Pivots.add hP diff
  have he : (fun i : Fin pmat.rows => vec s i + diff) = fun i : Fin pmat.rows => vec shift i := funext fun i => (hsd i).symm
  rw [he] at hP'
  have hm : mat (rowsAt P idx).rows pmat.rows (rowsAt P idx) = (mat pmat.rows pmat.rows P).submatrix (sel idx hidx) id :=
    mat_rowsAt idx hidx
  refine ⟨hPc, List.length_map _, fun i => ?_, fun u hu => ?_, fun hc => ?_, fun _ => ⟨fun i => t (sel idx hidx i) + diff, sel idx hidx, ?_⟩,
    fun _ => ⟨diff, sel idx hidx, ?_⟩⟩
  · rw [hm]; exact hker i
  · rw [hm] at hu; exact hP.independent u hu
  · rw [hm]
    exact (h.sub (sel_mono hidx hsort) hker (hb (by omega))).1
  · rw [hm]; exact hP'
  · rw [hm]
    have ht : (fun i : Fin (rowsAt P idx).rows => vec (idx.map t) i + diff) = fun i : Fin idx.length => t (sel idx hidx i) + diff := by
      funext i
      have hi : (i : Nat) < idx.length := i.2
      show (idx.map t).getD i 0 + diff = t (idx[(i : Nat)]) + diff
      rw [getD_eq 0 (by rw [List.length_map]; exact hi), List.getElem_map]
    rw [ht]
    exact hP'

theorem mem_zipIdx_lt {α : Type} {l : List α} {a : α × Nat} (h : a ∈ l.zipIdx) : a.2 < l.length := by
  have := List.mk_mem_zipIdx_iff_getElem?.1 (show (a.1, a.2) ∈ l.zipIdx from h)
  exact (List.getElem?_eq_some_iff.1 this).1

theorem mem_zipIdx_getD {α : Type} {l : List α} {a : α × Nat} (d : α) (h : a ∈ l.zipIdx) : l.getD a.2 d = a.1 := by
  have := List.mk_mem_zipIdx_iff_getElem?.1 (show (a.1, a.2) ∈ l.zipIdx from h)
  rw [List.getD_eq_getElem?_getD, this, Option.getD_some]

theorem zipIdx_pairwise {α : Type} [LT α] {l : List α} (h : l.Pairwise (· < ·)) : l.zipIdx.Pairwise fun a b => a.1 < b.1 := by
  refine List.pairwise_iff_getElem.2 fun i j hi hj hij => ?_
  rw [List.getElem_zipIdx, List.getElem_zipIdx]
  exact List.pairwise_iff_getElem.1 h i j _ _ hij

theorem filter_cover {m : Nat} (p : Nat → Bool) :
    Function.Bijective (Sum.elim (sel ((List.range m).filter p) (filter_sorted m p).2)
      (sel ((List.range m).filter fun i => !p i) (filter_sorted m fun i => !p i).2)) := by
  have hmem : ∀ (q : Nat → Bool) (j : Fin m), q j = true → ∃ i, sel ((List.range m).filter q) (filter_sorted m q).2 i = j := by
    intro q j hj
    have : (j : Nat) ∈ (List.range m).filter q := List.mem_filter.2 ⟨List.mem_range.2 j.2, hj⟩
    obtain ⟨i, hi, he⟩ := List.mem_iff_getElem.1 this
    exact ⟨⟨i, hi⟩, Fin.ext he⟩
  have hq : ∀ (q : Nat → Bool) i, q (sel ((List.range m).filter q) (filter_sorted m q).2 i) = true := fun q i =>
    (List.mem_filter.1 (List.getElem_mem (l := (List.range m).filter q) i.2)).2
  refine split_bij (sel_mono _ (filter_sorted m p).1) (sel_mono _ (filter_sorted m _).1) (fun j => ?_) fun i i' he => ?_
  · cases hp : p j
    · exact Or.inr (hmem (fun i => !p i) j (by simp [hp]))
    · exact Or.inl (hmem p j hp)
  · have h1 := hq p i
    have h2 := hq (fun i => !p i) i'
    rw [← he] at h2
    simp [h1] at h2

/-- The rows of the basis whose degree is low, with those that the two recursive calls on the residual give. -/
theorem ret_merge {pmat P R K1 g K2 tmp new : PMat F[X]} {shift s sh1 sh2 : List Int} {diff : Int}
    (hsd : ∀ i : Fin pmat.rows, vec shift i = vec s i + diff) (hsl : s.length = pmat.rows) (hm0 : 0 < pmat.rows)
    (hPc : P.cols = pmat.rows) (hnm : 2 * pmat.cols ≤ pmat.rows) (hn2 : 2 ≤ pmat.cols) {f : F[X]} {t : Nat → Int}
    (h : Pre (mat pmat.rows pmat.cols pmat) f (mat pmat.rows pmat.rows P) (fun i => vec s i) (fun i => t i))
    {p : Nat → Bool} {I1 I2 : List Nat} (hI1 : I1 = (List.range pmat.rows).filter p)
    (hI2 : I2 = (List.range pmat.rows).filter fun i => !p i)
    (hidx1 : ∀ x ∈ I1, x < pmat.rows) (hidx2 : ∀ x ∈ I2, x < pmat.rows)
    (hker : ∀ i, Matrix.vecMul (mat pmat.rows pmat.rows P (sel I1 hidx1 i)) (mat pmat.rows pmat.cols pmat) = 0)
    (hRr : R.rows = I2.length) (hRc : R.cols = pmat.cols)
    (hR : ∀ i j, (Matrix.vecMul (mat pmat.rows pmat.rows P (sel I2 hidx2 i)) (mat pmat.rows pmat.cols pmat)) j =
              f * mat I2.length pmat.cols R i j)
    (h1 : Ret (colsAt R 0 (pmat.cols / 2)) (I2.map t) K1 sh1)
    (hg : IsProduct K1 (colsAt R (pmat.cols / 2) (pmat.cols - pmat.cols / 2)) g) (h2 : Ret g sh1 K2 sh2) :
    (K2.rows = 0 → Ret pmat shift (rowsAt P I1) (I1.map t)) ∧
    (IsProduct K1 (rowsAt P I2) tmp → IsProduct K2 tmp new → ∃ pv, pivots true new (some s) = .ok pv ∧
      ∀ idx, idx = merge I1.zipIdx pv.1.zipIdx →
      Ret pmat shift ⟨idx.length, pmat.rows, fun ij =>
                        if (idx.getD ij.1 (true, 0)).1 then P.e (I1.getD (idx.getD ij.1 (true, 0)).2 0, ij.2)
                        else new.e ((idx.getD ij.1 (true, 0)).2, ij.2)⟩
        (idx.map fun x => (if x.1 then (I1.map t).getD x.2 0 else sh2.getD x.2 0) + diff)) := by
  have hbij : Function.Bijective (Sum.elim (sel I1 hidx1) (sel I2 hidx2)) := by
    subst hI1 hI2; exact filter_cover p
  have hs1 : I1.Pairwise (· < ·) := hI1 ▸ (filter_sorted _ _).1
  have hs2 : I2.Pairwise (· < ·) := hI2 ▸ (filter_sorted _ _).1
  rcases R with ⟨rr, rc, re⟩
  dsimp only at hRr hRc
  subst hRr hRc
  set R : PMat F[X] := ⟨I2.length, pmat.cols, re⟩ with hRdef
  obtain ⟨Np, hNp⟩ : ∃ Np, IsProduct K2 K1 Np :=
    ⟨⟨K2.rows, K1.cols, fun ij => ∑ k ∈ Finset.range K2.cols, K2.e (ij.1, k) * K1.e (k, ij.2)⟩, rfl, rfl, fun _ _ _ _ => rfl⟩
  obtain ⟨sc, sl, sz, si, sb, sp⟩ := ret_split (pmat := R) (n1 := pmat.cols / 2) (show pmat.cols / 2 ≤ pmat.cols by omega) h1 hg h2 hNp
  have hK2c : K2.cols = K1.rows := h2.cols.trans hg.1
  have hK1c : K1.cols = I2.length := h1.cols
  have hNr := hNp.1
  rcases Np with ⟨nr, nc, ne⟩
  dsimp only at hNr
  subst hNr
  set Np : PMat F[X] := ⟨K2.rows, nc, ne⟩ with hNdef
  change ∀ i, Matrix.vecMul (mat K2.rows I2.length Np i) (mat I2.length pmat.cols R) = 0 at sz
  change ∀ u, Matrix.vecMul u (mat K2.rows I2.length Np) = 0 → u = 0 at si
  have sb' : pmat.cols ≤ 2 → PML.Kernel.Spec.IsKernelBasis (mat I2.length pmat.cols R) (mat K2.rows I2.length Np) := fun hc =>
    sb (Or.inl ⟨by omega, show pmat.cols - pmat.cols / 2 ≤ 2 by omega⟩)
  have sp' : pmat.cols ≤ 3 → ∃ t' ρ, Pivots (fun i : Fin I2.length => vec (I2.map t) i) (mat K2.rows I2.length Np) t' ρ := fun hc =>
    sp ⟨by omega, show pmat.cols - pmat.cols / 2 ≤ 2 by omega⟩
  have ht : (fun i : Fin I2.length => vec (I2.map t) i) = fun i => t (sel I2 hidx2 i) := by
    funext i
    show (I2.map t).getD i 0 = t (I2[(i : Nat)])
    rw [getD_eq 0 (by rw [List.length_map]; exact i.2), List.getElem_map]
  constructor
  · intro hk
    refine ret_rows hsd hPc hnm h hidx1 hs1 hker fun hc v hv D π hp => ?_
    obtain ⟨u, rfl, hu, -⟩ := h.min hv hp
    obtain ⟨w, hw⟩ := ((sb' hc).generates _).1 (h.rest hbij hker hR hv)
    have hw0 : w = 0 := funext fun a => absurd a.2 (by omega)
    rw [hw0, Matrix.zero_vecMul] at hw
    obtain ⟨a | b, hab⟩ := hbij.2 π
    · exact ⟨a, hab⟩
    · exfalso
      have h3 : u π = 0 := by
        rw [← hab]; exact congrFun hw b
      exact hu.lead (by rw [h3, coeff_zero])
  · intro htmp hnew
    have hmN : mat K2.rows I2.length Np = mat K2.rows K1.rows K2 * mat K1.rows I2.length K1 := mat_mul' hNp rfl hK2c hK1c
    have hmt : mat K1.rows pmat.rows tmp = mat K1.rows I2.length K1 * mat I2.length pmat.rows (rowsAt P I2) :=
      mat_mul' htmp rfl hK1c hPc
    have htc : tmp.cols = pmat.rows := htmp.2.1.trans hPc
    have hmn : mat K2.rows pmat.rows new = mat K2.rows K1.rows K2 * mat K1.rows pmat.rows tmp := mat_mul' hnew rfl hK2c htc
    have hnewN : mat K2.rows pmat.rows new = mat K2.rows I2.length Np * (mat pmat.rows pmat.rows P).submatrix (sel I2 hidx2) id := by
      rw [hmn, hmt, hmN, Matrix.mul_assoc, mat_rowsAt I2 hidx2]
    have hnr := hnew.1
    obtain ⟨pi, pd, hpv, hpl, hpiv⟩ := row_pivots hm0 (hnew.2.1.trans htc) hsl
    refine ⟨(pi, pd), hpv, fun idx hidx => ?_⟩
    rw [hnr] at hpl
    dsimp only at hidx
    have hperm : idx.Perm (((List.range I1.length).map fun a => (true, a)) ++ (List.range K2.rows).map fun b => (false, b)) := by
      rw [hidx]
      refine (merge_perm _ _).trans ?_
      rw [zipIdx_map, zipIdx_map, hpl]
    obtain ⟨e, he⟩ := merge_equiv hperm
    have hmat : mat idx.length pmat.rows (⟨idx.length, pmat.rows, fun ij =>
                        if (idx.getD ij.1 (true, 0)).1 then P.e (I1.getD (idx.getD ij.1 (true, 0)).2 0, ij.2)
                        else new.e ((idx.getD ij.1 (true, 0)).2, ij.2)⟩ : PMat F[X]) =
        merged (mat pmat.rows pmat.rows P) (sel I1 hidx1) (sel I2 hidx2) (mat K2.rows I2.length Np) e := by
      refine Matrix.ext fun i j => ?_
      show (if (idx.getD i (true, 0)).1 then P.e (I1.getD (idx.getD i (true, 0)).2 0, j) else new.e ((idx.getD i (true, 0)).2, j)) =
        Sum.elim (fun a => mat pmat.rows pmat.rows P (sel I1 hidx1 a))
          (fun b => (mat K2.rows I2.length Np * (mat pmat.rows pmat.rows P).submatrix (sel I2 hidx2) id) b) (e i) j
      rw [he i, ← hnewN]
      rcases e i with a | b
      · show P.e (I1.getD a 0, j) = P.e (I1[(a : Nat)], j)
        rw [getD_eq 0 a.2]
      · rfl
    have hz : ∀ i, Matrix.vecMul (merged (mat pmat.rows pmat.rows P) (sel I1 hidx1) (sel I2 hidx2) (mat K2.rows I2.length Np) e i)
        (mat pmat.rows pmat.cols pmat) = 0 := by
      intro i
      unfold merged
      rcases e i with a | b
      · exact hker a
      · exact split_rows hR sz b
    refine ⟨rfl, List.length_map _, fun i => ?_, fun u hu => ?_, fun hc => ?_, fun hc => ?_, fun hc => ?_⟩
    · rw [hmat]; exact hz i
    · rw [hmat] at hu; exact merged_independent h.piv hbij si e u hu
    · rw [hmat]; exact h.merged_basis hbij hker hR (sb' (by omega)) e
    · rw [hmat]
      obtain ⟨t', ρ, hp⟩ := sp' (by omega)
      rw [ht] at hp
      have hP2 : Pivots (fun i : Fin pmat.rows => vec s i) ((mat pmat.rows pmat.rows P).submatrix (sel I2 hidx2) id)
          (fun i => t (sel I2 hidx2 i)) (sel I2 hidx2) := ⟨fun i => h.piv.row (sel I2 hidx2 i), sel_mono hidx2 hs2⟩
      have hPn := hP2.mul hp
      have hpi : ∀ b : Fin K2.rows, pi.getD b 0 = ((sel I2 hidx2 (ρ b) : Fin pmat.rows) : Nat) := by
        intro b
        have hb := hPn.row b
        rw [← hnewN] at hb
        exact hpiv ⟨b, by rw [hnr]; exact b.2⟩ _ _ hb
      let κ : Bool × Nat → Int := fun x => if x.1 then (I1.getD x.2 0 : Int) else pi.getD x.2 0
      have hsorted : idx.Pairwise fun x y => κ x < κ y := by
        rw [hidx]
        refine merge_sorted κ _ _ (fun a ha => ?_) (fun b hb => ?_) ?_ ?_ fun a ha b hb => ?_
        · show ((I1.getD a.2 0 : Nat) : Int) = a.1
          rw [mem_zipIdx_getD 0 ha]
        · exact mem_zipIdx_getD 0 hb
        · exact zipIdx_pairwise hs1
        · refine zipIdx_pairwise (List.pairwise_iff_getElem.2 fun i j hi hj hij => ?_)
          rw [← getD_eq 0 hi, ← getD_eq 0 hj]
          have h3 := hpi ⟨i, hpl ▸ hi⟩
          have h4 := hpi ⟨j, hpl ▸ hj⟩
          dsimp only at h3 h4
          rw [h3, h4]
          have h5 := hPn.mono (show (⟨i, hpl ▸ hi⟩ : Fin K2.rows) < ⟨j, hpl ▸ hj⟩ from hij)
          exact_mod_cast h5
        · have hal : a.2 < I1.length := mem_zipIdx_lt ha
          have hbl : b.2 < K2.rows := hpl ▸ mem_zipIdx_lt hb
          have h3 := mem_zipIdx_getD 0 ha
          have h4 := mem_zipIdx_getD 0 hb
          have h5 := hpi ⟨b.2, hbl⟩
          dsimp only at h5
          rw [← h3, ← h4, h5, getD_eq 0 hal]
          intro hc
          have h6 : sel I1 hidx1 ⟨a.2, hal⟩ = sel I2 hidx2 (ρ ⟨b.2, hbl⟩) := Fin.ext (by exact_mod_cast hc)
          have h7 := hbij.1 (show Sum.elim (sel I1 hidx1) (sel I2 hidx2) (.inl ⟨a.2, hal⟩) =
            Sum.elim (sel I1 hidx1) (sel I2 hidx2) (.inr (ρ ⟨b.2, hbl⟩)) from h6)
          exact nomatch h7
      have hall : Pivots (fun i : Fin pmat.rows => vec s i)
          (merged (mat pmat.rows pmat.rows P) (sel I1 hidx1) (sel I2 hidx2) (mat K2.rows I2.length Np) e)
          (fun i => Sum.elim (fun a => t (sel I1 hidx1 a)) t' (e i))
          (fun i => Sum.elim (sel I1 hidx1) (fun b => sel I2 hidx2 (ρ b)) (e i)) := by
        have hκ : ∀ i : Fin idx.length, κ (idx[(i : Nat)]) =
            ((Sum.elim (sel I1 hidx1) (fun b => sel I2 hidx2 (ρ b)) (e i) : Fin pmat.rows) : Nat) := by
          intro i
          rw [← getD_eq (true, 0) i.2, he i]
          rcases e i with a | b
          · show ((I1.getD a 0 : Nat) : Int) = ((I1[(a : Nat)] : Nat) : Int)
            rw [getD_eq 0 a.2]
          · exact hpi b
        refine ⟨fun i => ?_, fun i j hij => ?_⟩
        · unfold merged
          rcases e i with a | b
          · exact h.piv.row _
          · exact hPn.row b
        · have h3 := List.pairwise_iff_getElem.1 hsorted i j i.2 j.2 hij
          rw [hκ i, hκ j] at h3
          exact Fin.lt_def.2 (by exact_mod_cast h3)
      have hall' := Kerbas.Pivots.add hall diff
      have hes : (fun i : Fin pmat.rows => vec s i + diff) = fun i : Fin pmat.rows => vec shift i := funext fun i => (hsd i).symm
      rw [hes] at hall'
      exact ⟨_, _, hall'⟩
    · omega

theorem mat_zero_iff (pmat : PMat F[X]) : mat pmat.rows pmat.cols pmat = 0 ↔ isZero pmat = true := by
  rw [C65_is_zero]
  constructor
  · intro h i j hi hj
    exact congrFun (congrFun h ⟨i, hi⟩) ⟨j, hj⟩
  · intro h
    exact Matrix.ext fun i j => h i j i.2 j.2

theorem ret_shift {pmat K : PMat F[X]} {shift s sh : List Int} {diff : Int}
    (hsd : ∀ i : Fin pmat.rows, vec shift i = vec s i + diff) (h : Ret pmat s K sh) : Ret pmat shift K sh := by
  have he : (fun i : Fin pmat.rows => vec s i + diff) = fun i : Fin pmat.rows => vec shift i := funext fun i => (hsd i).symm
  refine ⟨h.cols, h.len, h.zero, h.indep, h.basis, fun hc => ?_, fun hc => ?_⟩
  · obtain ⟨t, ρ, hp⟩ := h.piv hc
    have := Kerbas.Pivots.add hp diff
    rw [he] at this
    exact ⟨_, _, this⟩
  · obtain ⟨c, ρ, hp⟩ := h.uni hc
    have := Kerbas.Pivots.add hp diff
    rw [he] at this
    refine ⟨c + diff, ρ, ?_⟩
    simpa only [add_assoc] using this

theorem ofOpt_mul {mul : PMat F[X] → PMat F[X] → Option (PMat F[X])} (hmul : MulOk mul) {cf : Prop} {a b : PMat F[X]} (h : a.cols = b.rows)
    (h0 : 0 < a.cols) : Post cf (IsProduct a b) (ofOpt (mul a b)) := by
  obtain ⟨c, hc, hp⟩ := hmul a b h h0
  rw [hc]
  exact hp

/-- Some row of a basis does not cancel the matrix. -/
theorem Pre.exists_ne {m n : Nat} {A : Matrix (Fin m) (Fin n) F[X]} {f : F[X]} {P : Matrix (Fin m) (Fin m) F[X]} {s t : Fin m → Int}
    (h : Pre A f P s t) (hA : A ≠ 0) : ∃ i, Matrix.vecMul (P i) A ≠ 0 := by
  by_contra hc
  push Not at hc
  apply hA
  have h1 : P * A = 0 := Matrix.ext fun i j => congrFun (hc i) j
  have h2 : P.det ≠ 0 := fun h0 => by
    obtain ⟨v, hv, hz⟩ := Matrix.exists_vecMul_eq_zero_iff.2 h0
    exact hv (h.piv.independent v hz)
  have h3 : P.adjugate * (P * A) = P.det • A := by rw [← Matrix.mul_assoc, Matrix.adjugate_mul, Matrix.smul_mul, Matrix.one_mul]
  rw [h1, Matrix.mul_zero] at h3
  refine Matrix.ext fun i j => ?_
  have h4 := congrFun (congrFun h3 i) j
  exact (mul_eq_zero.1 h4.symm).resolve_left h2

theorem rank0_zero {pmat : PMat F[X]} (h : pmat.rows = 0) : rank0 pmat = 0 := by
  have h1 : rank0 pmat ≤ pmat.rows := (Matrix.rank_le_card_height _).trans (le_of_eq (Fintype.card_fin _))
  omega

/-- The algorithm. -/
theorem zls_ret {mul : PMat F[X] → PMat F[X] → Option (PMat F[X])} (hmul : MulOk mul) {cf : Prop}
    {be : PMat F[X] → List Int → Nat → Out (Base F)} (hbe : BackendOk cf be) : ∀ (fuel : Nat) (pmat : PMat F[X]) (shift : List Int),
    pmat.cols < fuel → shift.length = pmat.rows → Post cf (fun r => Ret pmat shift r.1 r.2) (zls mul be fuel pmat shift)
  | 0, _, _, h, _ => absurd h (Nat.not_lt_zero _)
  | fuel + 1, pmat, shift, hf, hl => by
    have ih := zls_ret hmul hbe fuel
    rw [zls]
    dsimp only
    split
    · rename_i h1
      split
      · rename_i h2
        have h0 : mat pmat.rows pmat.cols pmat ≠ 0 := fun h => h2 ((mat_zero_iff pmat).1 h)
        have : Ret pmat shift (noRows pmat.rows) [] := ret_none (by
          rcases pmat with ⟨m, n, e⟩
          dsimp only at h1
          subst h1
          exact kernel_row h0)
        rw [h1] at this
        exact this
      · rename_i h2
        have := ret_one hl ((mat_zero_iff pmat).2 (not_not.1 h2))
        rw [h1] at this
        exact this
    · rename_i h1
      split
      · rename_i h2
        exact ret_none (rank0_full h2.2)
      · rename_i h2
        have hm0 : 2 ≤ pmat.rows := by
          by_contra hc
          have h0 : pmat.rows = 0 := by omega
          refine h2 ⟨by omega, ?_⟩
          rw [h0]
          exact rank0_zero h0
        obtain ⟨rdeg, hrd, hrl, hrle, hrpos, hrneg⟩ := rdeg_spec pmat
        rw [hrd]
        show Post cf _ (match maxElement rdeg with | none => _ | some mx => _)
        obtain ⟨mx, hmx, hmem, hmax⟩ := maxElement_spec rdeg (by intro h; rw [h] at hrl; simp at hrl; omega)
        rw [hmx]
        dsimp only
        have hrmem : ∀ i : Fin pmat.rows, rdeg.getD i 0 ∈ rdeg := fun i => by
          rw [getD_eq 0 (by rw [hrl]; exact i.2)]; exact List.getElem_mem _
        split
        · rename_i h3
          refine ret_one hl (Matrix.ext fun i j => ?_)
          by_contra hne
          have h4 := hrpos i ⟨j, hne⟩
          have h5 := hmax _ (hrmem i)
          omega
        · rename_i h3
          have hA : mat pmat.rows pmat.cols pmat ≠ 0 := by
            intro h0
            obtain ⟨i, hi, he⟩ := List.mem_iff_getElem.1 hmem
            have h4 := hrneg ⟨i, by omega⟩ fun c => congrFun (congrFun h0 _) c
            rw [getD_eq 0 hi, he] at h4
            exact h3 h4
          obtain ⟨j0, c0, hjc⟩ := exists_ne_of_ne hA
          have hn0 : 0 < pmat.cols := lt_of_le_of_lt (Nat.zero_le _) c0.2
          split
          · rename_i h4
            refine Post.andThen (ih (colsAt pmat 0 (pmat.cols / 2)) shift (show pmat.cols / 2 < fuel by omega) hl) fun k1 hk1 => ?_
            split
            · rename_i h5
              show Ret pmat shift (noRows pmat.rows) []
              refine ⟨rfl, rfl, fun i => i.elim0, fun u _ => funext fun i => i.elim0, fun hc => ?_, fun _ => ⟨fun i => i.elim0, fun i => i.elim0, pivots_empty _ _ _ _⟩,
                fun hc => by omega⟩
              refine isKernelBasis_zero fun v hv => ?_
              have hb := hk1.basis (show pmat.cols / 2 ≤ 2 ∨ pmat.rows ≤ 5 ∨ pmat.cols / 2 ≤ 4 ∧ pmat.rows < 2 * (pmat.cols / 2) by omega)
              obtain ⟨w, hw⟩ := (hb.generates v).1 ((split_cols (show pmat.cols / 2 ≤ pmat.cols by omega) v).1 hv).1
              have hw0 : w = 0 := funext fun a => absurd a.2 (by omega)
              exact hw.trans (by rw [hw0]; exact Matrix.zero_vecMul _)
            · rename_i h5
              refine Post.andThen (ofOpt_mul hmul hk1.cols (by rw [hk1.cols]; show 0 < pmat.rows; omega)) fun g hg => ?_
              refine Post.andThen (ih g k1.2 (by rw [hg.2.1]; show pmat.cols - pmat.cols / 2 < fuel; omega) (by rw [hg.1]; exact hk1.len))
                fun k2 hk2 => ?_
              refine Post.andThen (ofOpt_mul hmul (hk2.cols.trans hg.1) (by rw [hk2.cols, hg.1]; omega)) fun K hK => ?_
              obtain ⟨a1, a2, a3, a4, a5, a6⟩ := ret_split (show pmat.cols / 2 ≤ pmat.cols by omega) hk1 hg hk2 hK
              exact ⟨a1, a2, a3, a4, fun hc => a5 (by omega), fun hc => a6 (by omega), fun hc => by omega⟩
          · rename_i h4
            have hlen : ((List.range pmat.rows).map fun i => shift.getD i 0 - rdeg.getD i 0) ≠ [] := by
              intro h
              have := congrArg List.length h
              simp at this
              omega
            obtain ⟨diff, hdf, -, hmin⟩ := minElement_spec _ hlen
            rw [hdf]
            dsimp only
            set s := shift.map fun x => x - diff with hs
            have hsl : s.length = pmat.rows := by rw [hs, List.length_map, hl]
            have hsv : ∀ i : Fin pmat.rows, vec s i = vec shift i - diff := fun i => by
              have hi : (i : Nat) < shift.length := by rw [hl]; exact i.2
              show s.getD i 0 = shift.getD i 0 - diff
              rw [getD_eq 0 (by rw [hsl]; exact i.2), getD_eq 0 hi]
              simp only [hs, List.getElem_map]
            have hsd : ∀ i : Fin pmat.rows, vec shift i = vec s i + diff := fun i => by rw [hsv i]; omega
            have hsr : ∀ i : Fin pmat.rows, rdeg.getD i 0 ≤ vec s i := fun i => by
              have := hmin _ (List.mem_map.2 ⟨i, List.mem_range.2 i.2, rfl⟩)
              rw [hsv i]
              show _ ≤ shift.getD i 0 - diff
              omega
            have hr1 : ∀ i : Fin pmat.rows, -1 ≤ rdeg.getD i 0 := fun i => by
              by_cases hz : ∀ c, mat pmat.rows pmat.cols pmat i c = 0
              · rw [hrneg i hz]
              · push Not at hz
                have := hrpos i hz
                omega
            have hsmem : ∀ x ∈ s, ∃ i : Fin pmat.rows, vec s i = x := fun x hx => by
              obtain ⟨i, hi, he⟩ := List.mem_iff_getElem.1 hx
              exact ⟨⟨i, by omega⟩, (getD_eq 0 hi).trans he⟩
            have hmems : ∀ i : Fin pmat.rows, vec s i ∈ s := fun i => by
              show s.getD i 0 ∈ s
              rw [getD_eq 0 (by rw [hsl]; exact i.2)]; exact List.getElem_mem _
            have hord : 1 ≤ zlsOrder pmat.rows pmat.cols s := order_pos hsl hn0 (by omega)
              (fun x hx => by
                obtain ⟨i, rfl⟩ := hsmem x hx
                have := hsr i
                have := hr1 i
                omega)
              ⟨vec s j0, hmems j0, by
                have := hsr j0
                have := hrpos j0 ⟨c0, hjc⟩
                omega⟩
            set order := zlsOrder pmat.rows pmat.cols s with horder
            have hlow1 : pmat.cols = 1 → ∀ i : Fin pmat.rows, 2 * vec s i < order := fun hc i => by
              rw [horder, hc]; exact order_one hsl (by omega) (hmems i)
            have hlow2 : pmat.cols = 2 → ∀ i j : Fin pmat.rows, i ≠ j → vec s i + vec s j < order := fun hc i j hij => by
              rw [horder, hc]; exact order_two hsl (by omega) i.2 j.2 fun h => hij (Fin.ext h)
            refine Post.andThen (hbe pmat s order.toNat (by omega) (by omega) hsl) fun b hb => ?_
            rcases b with ⟨K, sh⟩ | ⟨P, t, res⟩
            · exact ret_shift hsd hb
            · obtain ⟨hPr, hPc, f, hfd, hpre, hres⟩ := hb
              have hfo : (f.natDegree : Int) = order := by rw [hfd]; omega
              set I1 := (List.range pmat.rows).filter fun i => decide (t i < order) with hI1
              set I2 := (List.range pmat.rows).filter fun i => !decide (t i < order) with hI2
              have hx1 : ∀ x ∈ I1, x < pmat.rows := (filter_sorted _ _).2
              have hx2 : ∀ x ∈ I2, x < pmat.rows := (filter_sorted _ _).2
              have hs1 : I1.Pairwise (· < ·) := (filter_sorted _ _).1
              have hrow : ∀ i : Fin pmat.rows, t i < order →
                  Matrix.vecMul (mat pmat.rows pmat.rows P i) (mat pmat.rows pmat.cols pmat) = 0 := fun i hi =>
                hpre.row_kernel (fun j c hne => (hrle j c hne).trans (hsr j)) (by rw [hfo]; exact hi)
              have hlt1 : ∀ i, t (sel I1 hx1 i) < order := fun i => by
                have := (List.mem_filter.1 (List.getElem_mem (l := I1) i.2)).2
                exact of_decide_eq_true this
              have hker : ∀ i, Matrix.vecMul (mat pmat.rows pmat.rows P (sel I1 hx1 i)) (mat pmat.rows pmat.cols pmat) = 0 := fun i =>
                hrow _ (hlt1 i)
              have hin : ∀ π : Fin pmat.rows, t π < order → ∃ i, sel I1 hx1 i = π := fun π hπ => by
                have : (π : Nat) ∈ I1 := List.mem_filter.2 ⟨List.mem_range.2 π.2, decide_eq_true hπ⟩
                obtain ⟨i, hi, he⟩ := List.mem_iff_getElem.1 this
                exact ⟨⟨i, hi⟩, Fin.ext he⟩
              dsimp only
              split
              · rename_i h5
                refine ret_rows hsd hPc (by omega) hpre hx1 hs1 hker fun hc v hv D π hp => hin π ?_
                rcases h5 with h5 | h5 | h5
                · have hsumP : (I1.map fun i => pdeg (P.e (i, i))).sum =
                      ∑ i ∈ (Finset.univ : Finset (Fin pmat.rows)).filter (fun i : Fin pmat.rows => decide (t i < order) = true), (t i - vec s i) := by
                    rw [hI1, sum_filter pmat.rows (fun i => decide (t i < order)) fun i => pdeg (P.e (i, i))]
                    refine Finset.sum_congr rfl fun i _ => ?_
                    have h6 := (hpre.piv.row i).natDegree
                    have h7 := (hpre.piv.row i).entry_ne
                    have h8 := hpre.ge i
                    simp only [id] at h6 h7
                    have h9 := pdeg_ne _ h7
                    refine h9.trans ?_
                    rw [h6]
                    omega
                  have hsumR : (I2.map fun i => rdeg.getD i 0).sum =
                      ∑ i ∈ (Finset.univ : Finset (Fin pmat.rows)).filter (fun i : Fin pmat.rows => (!decide (t i < order)) = true), rdeg.getD i 0 := by
                    rw [hI2, sum_filter pmat.rows (fun i => !decide (t i < order)) fun i => rdeg.getD i 0]
                  rw [hsumP, hsumR] at h5
                  have hcompl : ((Finset.univ : Finset (Fin pmat.rows)).filter (fun i : Fin pmat.rows => (!decide (t i < order)) = true)) =
                      ((Finset.univ : Finset (Fin pmat.rows)).filter (fun i : Fin pmat.rows => decide (t i < order) = true))ᶜ := by
                    ext i; simp
                  rw [hcompl] at h5
                  have := hpre.early (rd := fun i => rdeg.getD i 0) hrle hrpos hsr (order := order) (fun π j hπj h0 => ?_) ⟨j0, c0, hjc⟩
                    ((Finset.univ : Finset (Fin pmat.rows)).filter (fun i : Fin pmat.rows => decide (t i < order) = true)) (fun i => by simp)
                    (fun i hi => hrow i (by simpa using hi)) h5 hv hp
                  · simpa using this
                  · rcases Nat.lt_or_ge pmat.cols 2 with h6 | h6
                    · have := hlow1 (by omega) π
                      omega
                    · have := hlow2 (by omega) π j hπj
                      omega
                · refine hpre.one_column (by omega) (rd := fun i => rdeg.getD i 0) hrle hrpos hsr (order := order) (fun π j _ => ?_) (fun π => ?_) hv hp
                  · have h6 := hlow1 h5 π
                    have h7 := hlow1 h5 j
                    omega
                  · have h6 := hlow1 h5 π
                    omega
                · have h6 : ∀ x ∈ List.range pmat.rows, decide (t x < order) = true := by
                    rw [← List.length_filter_eq_length_iff, List.length_range]
                    exact h5
                  exact of_decide_eq_true (h6 π (List.mem_range.2 π.2))
              · rename_i h5
                push Not at h5
                have hn2 : 2 ≤ pmat.cols := by omega
                have hsomeI : ∃ i, Matrix.vecMul (mat pmat.rows pmat.rows P (sel I2 hx2 i)) (mat pmat.rows pmat.cols pmat) ≠ 0 := by
                  obtain ⟨π, hπ⟩ := hpre.exists_ne hA
                  have hni : ¬ t π < order := fun h => hπ (hrow π h)
                  have : (π : Nat) ∈ I2 := List.mem_filter.2 ⟨List.mem_range.2 π.2, by simp [hni]⟩
                  obtain ⟨i, hi, he⟩ := List.mem_iff_getElem.1 this
                  refine ⟨⟨i, hi⟩, ?_⟩
                  rw [show sel I2 hx2 ⟨i, hi⟩ = π from Fin.ext he]
                  exact hπ
                have hI2pos : 0 < I2.length := by
                  obtain ⟨i, -⟩ := hsomeI
                  exact lt_of_le_of_lt (Nat.zero_le _) i.2
                obtain ⟨R, hR, hRr, hRc, hRe⟩ := hres I2 hx2 hsomeI
                rw [hR]
                show Post cf _ (andThen (zls mul be fuel (colsAt R 0 (pmat.cols / 2)) (I2.map t)) _)
                refine Post.andThen (ih (colsAt R 0 (pmat.cols / 2)) (I2.map t) (show pmat.cols / 2 < fuel by omega)
                  (by rw [List.length_map]; exact hRr.symm)) fun k1 hk1 => ?_
                have hk1c : k1.1.cols = I2.length := hk1.cols.trans hRr
                refine Post.andThen (ofOpt_mul hmul hk1.cols (by rw [hk1c]; exact hI2pos)) fun g hg => ?_
                refine Post.andThen (ih g k1.2 (by rw [hg.2.1]; show pmat.cols - pmat.cols / 2 < fuel; omega) (by rw [hg.1]; exact hk1.len))
                  fun k2 hk2 => ?_
                split
                · rename_i h6
                  exact (ret_merge (tmp := R) (new := R) hsd hsl (by omega) hPc (by omega) hn2 hpre hI1 hI2 hx1 hx2 hker hRr hRc hRe hk1 hg hk2).1 h6
                · rename_i h6
                  refine Post.andThen (ofOpt_mul hmul hk1c (by rw [hk1c]; exact hI2pos)) fun tmp htmp => ?_
                  have hk1r : 0 < k1.1.rows := by
                    have := hk2.rows_le
                    rw [hg.1] at this
                    omega
                  refine Post.andThen (ofOpt_mul hmul (by rw [hk2.cols, hg.1, htmp.1]) (by rw [hk2.cols, hg.1]; exact hk1r)) fun new hnew => ?_
                  obtain ⟨pv, hpv, hret⟩ := (ret_merge hsd hsl (by omega) hPc (by omega) hn2 hpre hI1 hI2 hx1 hx2 hker hRr hRc hRe hk1 hg hk2).2 htmp hnew
                  rw [hpv]
                  exact hret _ rfl

end PML.Ntl.Kerbas
