import Verif.Ntl.MosaicSolve

/-!
# Mosaic matrices: inversion (C105)
-/

namespace PML.Ntl.Mosaic

open Polynomial PML.Ntl.Utils PML.Ntl.Inv PML.Ntl.Solve PML.Ntl.Middle PML.Ntl.Struct PML.Ntl.CLike PML.Ntl.Geom

variable {p : Nat} [Fact p.Prime] {k : Kind} {g : Grid p} {nb mb : Nat} {R C : Nat → Nat} {A : Nat → Nat → NVec (ZMod p)} {M : Mosaic p}
  {E : Nat → Nat → ZMod p}

/-- `F` is the inverse of the `n` by `n` matrix `E`. -/
def IsInv (n : Nat) (E F : Nat → Nat → ZMod p) : Prop :=
  (∀ i j, i < n → j < n → ∑ l ∈ Finset.range n, E i l * F l j = if i = j then 1 else 0) ∧
  ∀ i j, i < n → j < n → ∑ l ∈ Finset.range n, F i l * E l j = if i = j then 1 else 0

/-- The object returned by `inv` represents the `n` by `n` matrix `F`: `to_dense` and `mul_right` of `hankel_like_minus_lzz_p`, or
    of `toeplitz_like_minus_lzz_p`. -/
def Represents (k : Kind) (t : Like p) (n : Nat) (F : Nat → Nat → ZMod p) : Prop :=
  match k with
  | .hankel => IsMat (t.denseHM newMat) n n F ∧ ∀ cross (v : NVec (ZMod p)), v.len = n → IsRight (t.rightHM cross v) n n F v.e
  | .toeplitz => IsMat (t.denseTM newMat) n n F ∧ ∀ cross (v : NVec (ZMod p)), v.len = n → IsRight (t.rightTM cross v) n n F v.e

/-! ### Inverses of products -/

/-- A square matrix. -/
def asMat (n : Nat) (X : Nat → Nat → ZMod p) : Matrix (Fin n) (Fin n) (ZMod p) := Matrix.of fun i j => X i j

theorem asMat_mul {n : Nat} (X Y : Nat → Nat → ZMod p) : asMat n X * asMat n Y = asMat n fun i j => ∑ l ∈ Finset.range n, X i l * Y l j := by
  ext i j
  rw [Matrix.mul_apply]
  show _ = ∑ l ∈ Finset.range n, X i l * Y l j
  rw [Finset.sum_range fun l => X i l * Y l j]
  rfl

theorem asMat_one {n : Nat} {X : Nat → Nat → ZMod p} : asMat n X = 1 ↔ ∀ i j, i < n → j < n → X i j = if i = j then 1 else 0 := by
  constructor
  · intro h i j hi hj
    have h2 := congrFun (congrFun h ⟨i, hi⟩) ⟨j, hj⟩
    rw [Matrix.one_apply] at h2
    simp only [Fin.mk.injEq] at h2
    exact h2
  · intro h
    ext i j
    rw [Matrix.one_apply]
    show X i j = _
    rw [h i j i.2 j.2]
    simp only [Fin.ext_iff]

theorem inv_comm {n : Nat} {X Y : Nat → Nat → ZMod p}
    (h : ∀ i j, i < n → j < n → ∑ l ∈ Finset.range n, X i l * Y l j = if i = j then 1 else 0) : IsInv n X Y := by
  refine ⟨h, ?_⟩
  have h1 := asMat_one.2 h
  rw [← asMat_mul, mul_eq_one_comm, asMat_mul] at h1
  exact asMat_one.1 h1

/-- If `A W B K = 1`, the inverse of `W` is `B K A`. -/
theorem inv_product {n : Nat} {X W Y K T : Nat → Nat → ZMod p}
    (hT : ∀ i j, i < n → j < n → T i j = ∑ s ∈ Finset.range n, X i s * ∑ t ∈ Finset.range n, W s t * Y t j)
    (h : ∀ i j, i < n → j < n → ∑ l ∈ Finset.range n, T i l * K l j = if i = j then 1 else 0) :
    IsInv n W fun i j => ∑ l ∈ Finset.range n, Y i l * ∑ l' ∈ Finset.range n, K l l' * X l' j := by
  have mT : asMat n T = asMat n X * (asMat n W * asMat n Y) := by
    rw [asMat_mul, asMat_mul]; ext i j; exact hT i j i.2 j.2
  have h1 := asMat_one.2 h
  rw [← asMat_mul, mT, Matrix.mul_assoc, mul_eq_one_comm, Matrix.mul_assoc, Matrix.mul_assoc, asMat_mul, asMat_mul, asMat_mul] at h1
  exact inv_comm (asMat_one.1 h1)

/-! ### The displacement of the inverse -/

theorem sum_ite_range {n a : Nat} (f : Nat → ZMod p) (ha : a < n) : ∑ l ∈ Finset.range n, f l * (if l = a then 1 else 0) = f a := by
  rw [Finset.sum_eq_single_of_mem a (Finset.mem_range.2 ha) (fun l _ h => by rw [if_neg h, mul_zero]), if_pos rfl, mul_one]

/-- The matrix, shifted by one row. -/
def Kind.low (k : Kind) (n : Nat) (F : Nat → Nat → ZMod p) (i j : Nat) : ZMod p :=
  match k with
  | .hankel => if i + 1 = n then 0 else F (i + 1) j
  | .toeplitz => if i = 0 then 0 else F (i - 1) j

/-- `F (Z_1 E - E Z) F = F Z_1 - Z F`. -/
theorem disp_inv {n : Nat} {F : Nat → Nat → ZMod p} (hI : IsInv n E F) {i j : Nat} (hi : i < n) (hj : j < n) :
    ∑ l ∈ Finset.range n, ∑ l' ∈ Finset.range n, F i l * k.dd n n E l l' * F l' j =
      F i (if j + 1 = n then 0 else j + 1) - k.low n F i j := by
  -- the matrix without the corner
  let Q : Nat → Nat → ZMod p := fun l l' => match k with
    | .hankel => if l' = 0 then 0 else E l (l' - 1)
    | .toeplitz => if l' + 1 = n then 0 else E l (l' + 1)
  have hdd : ∀ l l', k.dd n n E l l' = E (if l = 0 then n - 1 else l - 1) l' - Q l l' := fun _ _ => rfl
  have h1 : ∑ l ∈ Finset.range n, ∑ l' ∈ Finset.range n, F i l * E (if l = 0 then n - 1 else l - 1) l' * F l' j =
      F i (if j + 1 = n then 0 else j + 1) := by
    have : ∀ l, l < n → ∑ l' ∈ Finset.range n, F i l * E (if l = 0 then n - 1 else l - 1) l' * F l' j =
        F i l * if l = (if j + 1 = n then 0 else j + 1) then 1 else 0 := by
      intro l hl
      rw [Finset.sum_congr rfl fun l' _ => mul_assoc _ _ _, ← Finset.mul_sum, hI.1 _ _ (by split <;> omega) hj]
      congr 1
      refine if_congr ?_ rfl rfl
      split_ifs <;> omega
    rw [Finset.sum_congr rfl fun l hl => this l (Finset.mem_range.1 hl), sum_ite_range _ (by split <;> omega)]
  have h2 : ∀ l', l' < n → ∑ l ∈ Finset.range n, F i l * Q l l' * F l' j =
      (match (generalizing := false) k with
        | .hankel => if l' = 0 then 0 else if i = l' - 1 then 1 else 0
        | .toeplitz => if l' + 1 = n then 0 else if i = l' + 1 then (1 : ZMod p) else 0) * F l' j := by
    intro l' hl'
    rw [← Finset.sum_mul]
    congr 1
    cases k
    · show ∑ l ∈ Finset.range n, F i l * (if l' = 0 then 0 else E l (l' - 1)) = _
      by_cases h0 : l' = 0
      · simp [h0]
      · rw [Finset.sum_congr rfl fun l _ => by rw [if_neg h0], hI.2 i _ hi (by omega)]
        exact (if_neg h0).symm
    · show ∑ l ∈ Finset.range n, F i l * (if l' + 1 = n then 0 else E l (l' + 1)) = _
      by_cases h0 : l' + 1 = n
      · simp [h0]
      · rw [Finset.sum_congr rfl fun l _ => by rw [if_neg h0], hI.2 i _ hi (by omega)]
        exact (if_neg h0).symm
  have h3 : ∑ l ∈ Finset.range n, ∑ l' ∈ Finset.range n, F i l * Q l l' * F l' j =
      k.low n F i j := by
    rw [Finset.sum_comm, Finset.sum_congr rfl fun l' hl' => h2 l' (Finset.mem_range.1 hl')]
    cases k
    · show ∑ l' ∈ Finset.range n, (if l' = 0 then 0 else if i = l' - 1 then (1 : ZMod p) else 0) * F l' j = if i + 1 = n then 0 else F (i + 1) j
      by_cases h0 : i + 1 = n
      · rw [if_pos h0]
        refine Finset.sum_eq_zero fun l' hl' => ?_
        have := Finset.mem_range.1 hl'
        by_cases h4 : l' = 0
        · rw [if_pos h4, zero_mul]
        · rw [if_neg h4, if_neg (by omega), zero_mul]
      · rw [if_neg h0, Finset.sum_eq_single_of_mem (i + 1) (Finset.mem_range.2 (by omega)), if_neg (by omega), if_pos (by omega), one_mul]
        intro l' hl' h4
        by_cases h5 : l' = 0
        · rw [if_pos h5, zero_mul]
        · rw [if_neg h5, if_neg (by omega), zero_mul]
    · show ∑ l' ∈ Finset.range n, (if l' + 1 = n then 0 else if i = l' + 1 then (1 : ZMod p) else 0) * F l' j = if i = 0 then 0 else F (i - 1) j
      by_cases h0 : i = 0
      · rw [if_pos h0]
        refine Finset.sum_eq_zero fun l' hl' => ?_
        by_cases h4 : l' + 1 = n
        · rw [if_pos h4, zero_mul]
        · rw [if_neg h4, if_neg (by omega), zero_mul]
      · rw [if_neg h0, Finset.sum_eq_single_of_mem (i - 1) (Finset.mem_range.2 (by omega)), if_neg (by omega), if_pos (by omega), one_mul]
        intro l' hl' h4
        by_cases h5 : l' + 1 = n
        · rw [if_pos h5, zero_mul]
        · rw [if_neg h5, if_neg (by omega), zero_mul]
  rw [← h1, ← h3, ← Finset.sum_sub_distrib]
  refine Finset.sum_congr rfl fun l _ => ?_
  rw [← Finset.sum_sub_distrib]
  exact Finset.sum_congr rfl fun l' _ => by rw [hdd]; ring

/-- The displacement operator for the inverse. -/
def Kind.dispInv (k : Kind) : Nat → Nat → (Nat → Nat → ZMod p) → Nat → Nat → ZMod p :=
  match k with
  | .hankel => dispHM
  | .toeplitz => dispTM

theorem inverse_gens {n α : Nat} {F : Nat → Nat → ZMod p} (hI : IsInv n E F) {G H iG iH : Nat × Nat → ZMod p}
    (hGH : ∀ i j, i < n → j < n → ∑ t ∈ Finset.range α, G (i, t) * H (j, t) = k.dd n n E i j)
    (hG : ∀ i t, i < n → t < α → iG (i, t) = -∑ l ∈ Finset.range n, F i l * G (l, t))
    (hH : ∀ j t, j < n → t < α → iH (j, t) = ∑ l ∈ Finset.range n, H (l, t) * F l j) :
    HasGens k.dispInv ⟨n, α, iG⟩ ⟨n, α, iH⟩ F := by
  intro i j hi hj
  replace hi : i < n := hi
  replace hj : j < n := hj
  show k.dispInv n n F i j = ∑ t ∈ Finset.range α, iG (i, t) * iH (j, t)
  have h1 : ∑ t ∈ Finset.range α, iG (i, t) * iH (j, t) =
      -∑ l ∈ Finset.range n, ∑ l' ∈ Finset.range n, F i l * k.dd n n E l l' * F l' j := by
    rw [Finset.sum_congr rfl fun t ht => by rw [hG i t hi (Finset.mem_range.1 ht), hH j t hj (Finset.mem_range.1 ht), neg_mul, Finset.sum_mul_sum],
      Finset.sum_neg_distrib]
    congr 1
    rw [Finset.sum_comm]
    refine Finset.sum_congr rfl fun l hl => ?_
    rw [Finset.sum_comm]
    refine Finset.sum_congr rfl fun l' hl' => ?_
    rw [← hGH l l' (Finset.mem_range.1 hl) (Finset.mem_range.1 hl'), Finset.mul_sum, Finset.sum_mul]
    exact Finset.sum_congr rfl fun t _ => by ring
  rw [h1, disp_inv hI hi hj, neg_sub]
  cases k
  · exact dispHM_eq n n F i j hi hj
  · exact dispTM_eq n n F i j hi hj

/-! ### The loops of `inv` -/

theorem neg_loop {n : Nat} {f : Nat → ZMod p} {u : Nat → ZMod p} (i : Nat) :
    forN n (fun i u => write i (-(u i * f i)) u) u i = if i < n then -(u i * f i) else u i := by
  have := forN_inv (n := n) (P := fun n (w : Nat → ZMod p) => ∀ i, w i = if i < n then -(u i * f i) else u i) (s := u)
    (f := fun i u => write i (-(u i * f i)) u) (fun i => by rw [if_neg (by omega)]) (by
      intro l w hl hP i
      unfold write
      by_cases h : i = l
      · rw [h, Function.update_self, if_pos (by omega), hP, if_neg (by omega)]
      · rw [Function.update_of_ne h, hP]
        by_cases h2 : i < l
        · rw [if_pos h2, if_pos (by omega)]
        · rw [if_neg h2, if_neg (by omega)])
  exact this i

variable {S : Env p} {n : Nat} {W : Nat → Nat → ZMod p} {P : Pre p} {U V : PMat (ZMod p)} {c b : ZMod p}

/-- The inverse of `W`, from the inverse `K` of the Cauchy-like matrix. -/
def back (P : Pre p) (n : Nat) (c b : ZMod p) (K : Nat → Nat → ZMod p) (i j : Nat) : ZMod p :=
  ∑ l ∈ Finset.range n, (P.f l * (c * b ^ l) ^ i) * ∑ l' ∈ Finset.range n, K l l' * (P.e l' * (b ^ l') ^ j)

theorem back_inverse (hP : PreOK S n n W P U V c b) {K : Nat → Nat → ZMod p}
    (h : ∀ i j, i < n → j < n → ∑ l ∈ Finset.range n, clMat U V 1 c b i l * K l j = if i = j then 1 else 0) :
    IsInv n W (back P n c b K) := by
  refine inv_product (X := fun i s => P.e i * (b ^ i) ^ s) (Y := fun t j => P.f j * (c * b ^ j) ^ t) (fun i j hi hj => ?_) h
  rw [hP.entry i j hi hj]
  unfold bivar
  simp only [Finset.mul_sum, Finset.sum_mul]
  exact Finset.sum_congr rfl fun s _ => Finset.sum_congr rfl fun t _ => by ring

/-- A column of `iG`. -/
theorem colG (hn : 0 < n) (hred : RedOK S.red) (hP : PreOK S n n W P U V c b) {Y Z : PMat (ZMod p)} {d : CLike p}
    (hd : CLike.make Y Z c 1 b = .ok d) (hY : Y.rows = n) (hZ : Z.rows = n) (hg : Z.cols = Y.cols) (hno : NoOverflow p S.cross n n n)
    (v : Nat → ZMod p) (iG : Nat × Nat → ZMod p) (j : Nat) :
    ∃ x : Nat → ZMod p, andThen (ofOpt (Geom.mulRight S.mp P.X v)) (fun bp =>
        let bp := forN n (fun i bp => write i (bp i * P.e i) bp) bp
        andThen (d.right S.red S.cross ⟨n, bp⟩) fun x =>
        if x.len < n then .ub
        else
          let x := forN n (fun i x => write i (-(x i * P.f i)) x) x.e
          andThen (ofOpt (Geom.mulLeft S.mp P.Y x)) fun b =>
          .ok (forN n (fun i => write (i, j) (b (k.flip n i))) iG)) = .ok (forN n (fun i => write (i, j) (x (k.flip n i))) iG) ∧
      ∀ t, t < n → x t = -∑ l ∈ Finset.range n, back P n c b (clMat Y Z c 1 b) t l * v l := by
  obtain ⟨bp, e1, h1⟩ := hP.mulX.mul_right v
  rw [e1]
  obtain ⟨y, e2, h2, h3⟩ := C99_right_partial hred hd (by omega) (by omega) hg S.cross ⟨n, forN n (fun i bp => write i (bp i * P.e i) bp) bp⟩ hZ.symm
    (by rw [hY, hZ]; exact hno)
  obtain ⟨x, e3, h4⟩ := hP.mulY.mul_left (forN n (fun i x => write i (-(x i * P.f i)) x) y.e)
  refine ⟨x, ?_, fun t ht => ?_⟩
  · show andThen (d.right S.red S.cross _) _ = _
    rw [e2, andThen_ok', if_neg (by omega)]
    dsimp only
    rw [e3]
    rfl
  · rw [h4 t ht]
    unfold back
    rw [hY, hZ] at h3
    have hy : ∀ l, l < n → y.e l = ∑ l' ∈ Finset.range n, clMat Y Z c 1 b l l' * ((∑ s ∈ Finset.range n, v s * (b ^ l') ^ s) * P.e l') := by
      intro l hl
      rw [h3 l hl]
      exact Finset.sum_congr rfl fun l' hl' => by
        dsimp only
        rw [mul_loop, if_pos (Finset.mem_range.1 hl'), h1 l' (Finset.mem_range.1 hl')]
    rw [Finset.sum_congr rfl fun l hl => by rw [neg_loop, if_pos (Finset.mem_range.1 hl), hy l (Finset.mem_range.1 hl), neg_mul],
      Finset.sum_neg_distrib]
    congr 1
    rw [Finset.sum_congr rfl fun l _ => Finset.sum_mul _ _ (v l), Finset.sum_comm]
    refine Finset.sum_congr rfl fun l _ => ?_
    simp only [Finset.mul_sum, Finset.sum_mul]
    rw [Finset.sum_comm]
    exact Finset.sum_congr rfl fun s _ => Finset.sum_congr rfl fun l' _ => by ring

/-- A column of `iH`. -/
theorem colH (hn : 0 < n) (hred : RedOK S.red) (hP : PreOK S n n W P U V c b) {Y Z : PMat (ZMod p)} {d : CLike p}
    (hd : CLike.make Y Z c 1 b = .ok d) (hY : Y.rows = n) (hZ : Z.rows = n) (hg : Z.cols = Y.cols) (hno : NoOverflow p S.cross n n n)
    (v : Nat → ZMod p) (iH : Nat × Nat → ZMod p) (j : Nat) :
    ∃ x : Nat → ZMod p, andThen (ofOpt (Geom.mulRight S.mp P.Y v)) (fun bp =>
        let bp := forN n (fun i bp => write i (bp i * P.f i) bp) bp
        andThen (d.left S.red S.cross ⟨n, bp⟩) fun x =>
        if x.len < n then .ub
        else
          let x := forN n (fun i x => write i (x i * P.e i) x) x.e
          andThen (ofOpt (Geom.mulLeft S.mp P.X x)) fun b =>
          .ok (forN n (fun i => write (i, j) (b i)) iH)) = .ok (forN n (fun i => write (i, j) (x i)) iH) ∧
      ∀ t, t < n → x t = ∑ l ∈ Finset.range n, v l * back P n c b (clMat Y Z c 1 b) l t := by
  obtain ⟨bp, e1, h1⟩ := hP.mulY.mul_right v
  rw [e1]
  obtain ⟨y, e2, h2, h3⟩ := C99_left_partial hred hd (by omega) (by omega) hg S.cross ⟨n, forN n (fun i bp => write i (bp i * P.f i) bp) bp⟩ hY.symm
    (by rw [hY, hZ]; exact hno)
  obtain ⟨x, e3, h4⟩ := hP.mulX.mul_left (forN n (fun i x => write i (x i * P.e i) x) y.e)
  refine ⟨x, ?_, fun t ht => ?_⟩
  · show andThen (d.left S.red S.cross _) _ = _
    rw [e2, andThen_ok', if_neg (by omega)]
    dsimp only
    rw [e3]
    rfl
  · rw [h4 t ht]
    unfold back
    rw [hY, hZ] at h3
    have hy : ∀ l, l < n → y.e l = ∑ l' ∈ Finset.range n, ((∑ s ∈ Finset.range n, v s * (c * b ^ l') ^ s) * P.f l') * clMat Y Z c 1 b l' l := by
      intro l hl
      rw [h3 l hl]
      exact Finset.sum_congr rfl fun l' hl' => by
        dsimp only
        rw [mul_loop, if_pos (Finset.mem_range.1 hl'), h1 l' (Finset.mem_range.1 hl')]
    rw [Finset.sum_congr rfl fun l hl => by rw [mul_loop, if_pos (Finset.mem_range.1 hl), hy l (Finset.mem_range.1 hl)]]
    simp only [Finset.mul_sum, Finset.sum_mul]
    -- l, l', s on the left, s, l', l on the right
    rw [Finset.sum_comm]
    rw [Finset.sum_congr rfl fun l' _ => Finset.sum_comm]
    rw [Finset.sum_comm]
    exact Finset.sum_congr rfl fun s _ => Finset.sum_congr rfl fun l' _ => Finset.sum_congr rfl fun l _ => by ring

/-! ### The theorem -/

theorem makeMinus_ok' {n α : Nat} (hn : 0 < n) (iG iH : Nat × Nat → ZMod p) {F : Nat → Nat → ZMod p} (h : HasGens k.dispInv ⟨n, α, iG⟩ ⟨n, α, iH⟩ F) :
    ∃ t, k.makeMinus ⟨n, α, iG⟩ ⟨n, α, iH⟩ = .ok t ∧ Represents k t n F := by
  haveI : Fact (1 < p) := ⟨(Fact.out : p.Prime).one_lt⟩
  have hc := C84_constructor ⟨n, α, iG⟩ ⟨n, α, iH⟩ hn hn le_rfl
  cases k
  · obtain ⟨t, e, -⟩ := hc Like.makeHM (by simp)
    obtain ⟨N, h1, h2, -, h3⟩ := C84_hankel_minus_partial e hn hn
    have huniq := C84_unique (Or.inr (Or.inr (Or.inr ⟨h1, h⟩)))
    refine ⟨t, e, ?_, fun cross v hv => ?_⟩
    · obtain ⟨w, ew, a1, a2, a3⟩ := h2 newMat (Or.inr fun _ _ _ _ => rfl)
      exact ⟨w, ew, a1, a2, fun i j hi hj => by rw [a3 i j hi hj, huniq i j hi hj]⟩
    · obtain ⟨w, ew, a1, a2⟩ := h3 cross v hv
      exact ⟨w, ew, a1, fun i hi => by rw [a2 i hi]; exact Finset.sum_congr rfl fun j hj => by rw [huniq i j hi (Finset.mem_range.1 hj)]⟩
  · obtain ⟨t, e, -⟩ := hc Like.makeTM (by simp)
    obtain ⟨N, h1, h2, -, h3⟩ := C84_toeplitz_minus_partial e hn hn
    have huniq := C84_unique (Or.inr (Or.inl ⟨h1, h⟩))
    refine ⟨t, e, ?_, fun cross v hv => ?_⟩
    · obtain ⟨w, ew, a1, a2, a3⟩ := h2 newMat (Or.inr fun _ _ _ _ => rfl)
      exact ⟨w, ew, a1, a2, fun i j hi hj => by rw [a3 i j hi hj, huniq i j hi hj]⟩
    · obtain ⟨w, ew, a1, a2⟩ := h3 cross v hv
      exact ⟨w, ew, a1, fun i hi => by rw [a2 i hi]; exact Finset.sum_congr rfl fun j hj => by rw [huniq i j hi (Finset.mem_range.1 hj)]⟩

theorem turn_inv {N : Nat → Nat → ZMod p} (h : IsInv n (k.turn n E) N) : IsInv n E fun i j => N (k.flip n i) j := by
  constructor
  · intro i j hi hj
    rw [← h.1 i j hi hj, ← sum_flip (k := k) n]
    exact Finset.sum_congr rfl fun l hl => by dsimp only; rw [flip_flip (Finset.mem_range.1 hl)]; rfl
  · intro i j hi hj
    have := h.2 (k.flip n i) (k.flip n j) (flip_lt hi) (flip_lt hj)
    unfold Kind.turn at this
    rw [flip_flip hj] at this
    rw [this]
    refine if_congr ⟨fun e => ?_, fun e => by rw [e]⟩ rfl rfl
    rw [← flip_flip (k := k) hi, e, flip_flip hj]

/-- The steps of `inv` after the inversion of the Cauchy-like matrix. -/
theorem inv_steps (hB : Built M nb mb R C A) (hF : Full nb mb R C) (hE : IsMosaic k nb mb R C A E) (hsq : off C mb = off R nb)
    (hred : RedOK S.red) (D : Draws p) (hT : M.toCauchy k S D = .ok (some P))
    (hP : PreOK S (off R nb) (off C mb) (k.turn (off C mb) E) P U V c b)
    (hno : ∀ a b s, s ≤ max (off R nb) (off C mb) → NoOverflow p S.cross a b s) (rnd : Nat → Nat → ZMod p) (ta : Int) :
    ∃ o, P.CL.invert S.red S.cross rnd ta = .ok o ∧
      (GenericRankProfile (off R nb) (off C mb) (clMat U V 1 c b) → ∃ d r, o = some d ∧ d.C.m = r ∧ r ≤ off R nb ∧
        Spanned (off R nb) (off C mb) r (clMat U V 1 c b)) ∧
      ((∀ d, o = some d → d.C.m ≠ off R nb) ∧ M.inv k S D rnd ta = .ok none ∨
        (∃ d, o = some d ∧ d.C.m = off R nb) ∧
          ∃ t F, M.inv k S D rnd ta = .ok (some t) ∧ IsInv (off R nb) E F ∧ Represents k t (off R nb) F) := by
  have hn := hF.n_pos hB.tiled.nb_pos
  rw [hsq] at hP hno ⊢
  obtain ⟨o, eo, ho1, ho2⟩ := C100_invert_partial (c := P.CL) hred hP.make (by rw [hP.rows]; exact hn) (by rw [hP.cols]; exact hn) hP.gens S.cross rnd ta
    (Or.inl hP.gens_pos) (hP.len_min _ hP.distinct_x) (hP.len_min _ hP.distinct_y)
    (fun a b s hs => hno a b s (by rw [hP.rows, hP.cols] at hs; exact hs))
  rw [hP.rows, hP.cols] at ho1 ho2
  refine ⟨o, eo, fun hg => ?_, ?_⟩
  · obtain ⟨d, r, e, h1, h2, ⟨Y, Z, -, -, -, -, h3, -⟩, h4⟩ := ho2 hg
    exact ⟨d, r, e, h3, h1, h4⟩
  · unfold Mosaic.inv
    rw [if_neg (by rw [hB.m, hB.n]; omega), hT, andThen_ok']
    dsimp only
    rw [eo, andThen_ok', hB.n]
    match o, ho1 with
    | none, _ => exact Or.inl ⟨fun d e => (by cases e), rfl⟩
    | some d, ho1 =>
      dsimp only
      by_cases hd : d.C.m = off R nb
      · refine Or.inr ⟨⟨d, rfl, hd⟩, ?_⟩
        obtain ⟨r, -, -, Y, Z, h1, h2, h3, h4, h5, -, h6⟩ := ho1 d rfl
        obtain rfl : off R nb = r := hd.symm.trans h5
        rw [if_neg (not_not.2 hd)]
        obtain ⟨G, H, eG, hG1, hH1, hG2, hH2, hGH⟩ := gens_spec hB hF hE newMat newMat
        rw [eG, andThen_ok']
        rw [hsq] at hGH
        have hN := back_inverse hP h6
        have hI := turn_inv hN
        have hno' := hno (off R nb) (off R nb) (off R nb) (by omega)
        obtain ⟨iG, eiG, hiG⟩ := loopOut_inv (k := G.cols) (fun cc (iG : Nat × Nat → ZMod p) => ∀ i t, i < off R nb → t < cc → iG (i, t) =
            -∑ l ∈ Finset.range (off R nb), back P (off R nb) c b (clMat Y Z c 1 b) (k.flip (off R nb) i) l * G.e (l, t))
          (f := fun j iG => andThen (ofOpt (Geom.mulRight S.mp P.X fun i => G.e (i, j))) fun bp =>
            let bp := forN (off R nb) (fun i bp => write i (bp i * P.e i) bp) bp
            andThen (d.right S.red S.cross ⟨off R nb, bp⟩) fun x =>
            if x.len < off R nb then .ub
            else
              let x := forN (off R nb) (fun i x => write i (-(x i * P.f i)) x) x.e
              andThen (ofOpt (Geom.mulLeft S.mp P.Y x)) fun b =>
              .ok (forN (off R nb) (fun i => write (i, j) (b (k.flip (off R nb) i))) iG)) (s := fun _ => 0)
          (fun i t _ ht => absurd ht (by omega)) (by
            intro j iG hj hP'
            obtain ⟨x, ex, hx⟩ := colG (k := k) hn hred hP h1 h2 h3 h4 hno' (fun i => G.e (i, j)) iG j
            rw [ex]
            refine ⟨_, rfl, fun i t hi ht => ?_⟩
            rw [col_fill (f := fun i => x (k.flip (off R nb) i))]
            by_cases htj : t = j
            · rw [if_pos ⟨hi, htj⟩, hx _ (flip_lt hi), htj]
            · rw [if_neg (by omega), hP' i t hi (by omega)])
        rw [eiG, andThen_ok']
        obtain ⟨iH, eiH, hiH⟩ := loopOut_inv (k := G.cols) (fun cc (iH : Nat × Nat → ZMod p) => ∀ i t, i < off R nb → t < cc → iH (i, t) =
            ∑ l ∈ Finset.range (off R nb), H.e (k.flip (off R nb) l, t) * back P (off R nb) c b (clMat Y Z c 1 b) l i)
          (f := fun j iH => andThen (ofOpt (Geom.mulRight S.mp P.Y fun i => H.e (k.flip (off R nb) i, j))) fun bp =>
            let bp := forN (off R nb) (fun i bp => write i (bp i * P.f i) bp) bp
            andThen (d.left S.red S.cross ⟨off R nb, bp⟩) fun x =>
            if x.len < off R nb then .ub
            else
              let x := forN (off R nb) (fun i x => write i (x i * P.e i) x) x.e
              andThen (ofOpt (Geom.mulLeft S.mp P.X x)) fun b =>
              .ok (forN (off R nb) (fun i => write (i, j) (b i)) iH)) (s := fun _ => 0)
          (fun i t _ ht => absurd ht (by omega)) (by
            intro j iH hj hP'
            obtain ⟨x, ex, hx⟩ := colH hn hred hP h1 h2 h3 h4 hno' (fun i => H.e (k.flip (off R nb) i, j)) iH j
            rw [ex]
            refine ⟨_, rfl, fun i t hi ht => ?_⟩
            rw [col_fill (f := fun i => x i)]
            by_cases htj : t = j
            · rw [if_pos ⟨hi, htj⟩, hx _ hi, htj]
            · rw [if_neg (by omega), hP' i t hi (by omega)])
        rw [eiH, andThen_ok']
        have hgens := inverse_gens (k := k) hI (G := G.e) (H := H.e) (iG := iG) (iH := iH) (α := G.cols)
          (fun i j hi hj => by rw [hG2]; exact hGH i j hi hj) hiG (fun j t hj ht => by
            rw [hiH j t hj ht, ← sum_flip (k := k) (off R nb) (fun l => H.e (l, t) * _)]
            exact Finset.sum_congr rfl fun l hl => by rw [flip_flip (Finset.mem_range.1 hl)])
        obtain ⟨t, et, ht⟩ := makeMinus_ok' hn iG iH hgens
        rw [et, andThen_ok']
        exact ⟨t, _, rfl, hI, ht⟩
      · exact Or.inl ⟨fun d' e => by cases e; exact hd, if_pos hd⟩

/-- **C105**. If `inv` returns 1, the matrix is invertible and the result represents its inverse: this is true for all random choices.
    Partial: no overflow in the products by Toeplitz matrices is assumed (see C83, C100). -/
theorem C105_inverse_partial (h : Tiled g nb mb R C A) (hM : Mosaic.make g = .ok M) (hF : Full nb mb R C) (hE : IsMosaic k nb mb R C A E)
    (S : Env p) (D : Draws p) (hred : RedOK S.red) (hmp : MidOK S.mp (off R nb)) (hmp' : MidOK S.mp (off C mb))
    (hno : ∀ a b s, s ≤ max (off R nb) (off C mb) → NoOverflow p S.cross a b s) (rnd : Nat → Nat → ZMod p) (ta : Int) (t : Like p)
    (ht : M.inv k S D rnd ta = .ok (some t)) :
    off C mb = off R nb ∧ ∃ F, IsInv (off R nb) E F ∧ Represents k t (off R nb) F := by
  have hB := built_of_make h hM
  by_cases hsq : off C mb = off R nb
  · refine ⟨hsq, ?_⟩
    have hmn : ¬M.m ≠ M.n := by rw [hB.n, hB.m]; omega
    rcases toCauchy_spec hB hF hE S D hmp hmp' with ⟨-, e⟩ | ⟨-, ⟨e, -⟩ | ⟨e, -⟩ | ⟨P, U, V, c, b, e, hP, -⟩⟩
    · unfold Mosaic.inv at ht; rw [if_neg hmn, e] at ht; cases ht
    · unfold Mosaic.inv at ht; rw [if_neg hmn, e] at ht; cases ht
    · unfold Mosaic.inv at ht; rw [if_neg hmn, e] at ht; cases ht
    · obtain ⟨o, -, -, ⟨-, e3⟩ | ⟨-, t', F, e3, h4, h5⟩⟩ := inv_steps hB hF hE hsq hred D e hP hno rnd ta
      · rw [e3] at ht; cases ht
      · rw [e3] at ht; cases ht; exact ⟨F, h4, h5⟩
  · unfold Mosaic.inv at ht
    rw [if_pos (by rw [hB.n, hB.m]; omega)] at ht
    cases ht

/-- The Cauchy-like matrix is invertible. -/
theorem pre_inverse (hP : PreOK S n n (k.turn n E) P U V c b) (he : ∀ i, i < n → P.e i ≠ 0) (hf : ∀ j, j < n → P.f j ≠ 0) {F : Nat → Nat → ZMod p}
    (hI : IsInv n E F) {l : Nat} (hl : l < n) :
    ∃ w : Nat → ZMod p, ∀ i, i < n → ∑ j ∈ Finset.range n, clMat U V 1 c b i j * w j = if i = l then 1 else 0 := by
  -- the right-hand side
  let u : Nat → ZMod p := invMulRight P.X fun i => if i = l then 1 / P.e l else 0
  have hu : ∀ i, i < n → ∑ s ∈ Finset.range n, u s * (b ^ i) ^ s = if i = l then 1 / P.e l else 0 := fun i hi => hP.mulX.inv_mul_right _ i hi
  let x : Nat → ZMod p := fun j => ∑ s ∈ Finset.range n, F j s * u s
  have hx : ∀ i, i < n → ∑ j ∈ Finset.range n, E i j * x j = u i := by
    intro i hi
    have h1 : ∑ j ∈ Finset.range n, E i j * x j = ∑ s ∈ Finset.range n, u s * ∑ j ∈ Finset.range n, E i j * F j s := by
      simp only [x, Finset.mul_sum]
      rw [Finset.sum_comm]
      exact Finset.sum_congr rfl fun s _ => Finset.sum_congr rfl fun j _ => by ring
    rw [h1, Finset.sum_congr rfl fun s hs => by rw [hI.1 i s hi (Finset.mem_range.1 hs)], Finset.sum_eq_single_of_mem i (Finset.mem_range.2 hi)
      (fun s _ hs => by rw [if_neg hs.symm, mul_zero]), if_pos rfl, mul_one]
  obtain ⟨w, -, -, hw⟩ := solution_forth hP hf (rhs := ⟨n, u⟩) (z := ⟨n, fun i => (∑ s ∈ Finset.range n, u s * (b ^ i) ^ s) * P.e i⟩) rfl
    (fun i hi => rfl) hx
  rw [hP.rows, hP.cols] at hw
  refine ⟨w.e, fun i hi => ?_⟩
  rw [hw i hi]
  dsimp only
  rw [hu i hi]
  by_cases hil : i = l
  · rw [if_pos hil, if_pos hil, hil, div_mul_cancel₀ _ (he l hl)]
  · rw [if_neg hil, if_neg hil, zero_mul]

/-- **C105**. If the matrix is invertible, the draws `e`, `f` are not zero, and the Cauchy-like matrix of `to_cauchy_grp` has generic rank
    profile, `inv` returns 1. -/
theorem C105_succeeds_partial (h : Tiled g nb mb R C A) (hM : Mosaic.make g = .ok M) (hF : Full nb mb R C) (hE : IsMosaic k nb mb R C A E)
    (hsq : off C mb = off R nb) {F : Nat → Nat → ZMod p} (hI : IsInv (off R nb) E F) (S : Env p) (D : Draws p) (hred : RedOK S.red)
    (hno : ∀ a b s, s ≤ max (off R nb) (off C mb) → NoOverflow p S.cross a b s)
    (hT : M.toCauchy k S D = .ok (some P)) (hP : PreOK S (off R nb) (off C mb) (k.turn (off C mb) E) P U V c b)
    (he : ∀ i, i < off R nb → P.e i ≠ 0) (hf : ∀ j, j < off C mb → P.f j ≠ 0)
    (hgr : GenericRankProfile (off R nb) (off C mb) (clMat U V 1 c b)) (rnd : Nat → Nat → ZMod p) (ta : Int) :
    ∃ t, M.inv k S D rnd ta = .ok (some t) ∧ Represents k t (off R nb) F := by
  have hB := built_of_make h hM
  obtain ⟨o, -, h2, h3⟩ := inv_steps hB hF hE hsq hred D hT hP hno rnd ta
  obtain ⟨d, r, rfl, hr, hrn, hs⟩ := h2 hgr
  have hrn' : r = off R nb := by
    by_contra hne
    rw [hsq] at hP hf hs
    obtain ⟨w, hw⟩ := pre_inverse hP he hf hI (show r < off R nb by omega)
    obtain ⟨q, hq⟩ := hs r (by omega)
    have h4 := hw r (by omega)
    have h5 : ∀ l, l < r → ∑ j ∈ Finset.range (off R nb), q l * clMat U V 1 c b l j * w j = 0 := by
      intro l hl
      rw [Finset.sum_congr rfl fun j _ => mul_assoc _ _ _, ← Finset.mul_sum, hw l (by omega), if_neg (by omega), mul_zero]
    rw [if_pos rfl, Finset.sum_congr rfl fun j hj => by rw [hq j (Finset.mem_range.1 hj), Finset.sum_mul], Finset.sum_comm,
      Finset.sum_eq_zero fun l hl => h5 l (Finset.mem_range.1 hl)] at h4
    exact zero_ne_one h4
  rcases h3 with ⟨h4, -⟩ | ⟨-, t, F', e, h5, h6⟩
  · exact absurd (hr.trans hrn') (h4 d rfl)
  · refine ⟨t, e, ?_⟩
    have hFF : ∀ i j, i < off R nb → j < off R nb → F' i j = F i j := by
      intro i j hi hj
      have h7 : ∑ l ∈ Finset.range (off R nb), ∑ l' ∈ Finset.range (off R nb), F' i l * E l l' * F l' j = F i j := by
        rw [Finset.sum_comm, Finset.sum_congr rfl fun l' hl' => by rw [← Finset.sum_mul, h5.2 i l' hi (Finset.mem_range.1 hl')],
          Finset.sum_eq_single_of_mem i (Finset.mem_range.2 hi) (fun l' _ hl' => by rw [if_neg hl'.symm, zero_mul]), if_pos rfl, one_mul]
      have h8 : ∑ l ∈ Finset.range (off R nb), ∑ l' ∈ Finset.range (off R nb), F' i l * E l l' * F l' j = F' i j := by
        rw [Finset.sum_congr rfl fun l hl => by
          rw [Finset.sum_congr rfl fun l' _ => mul_assoc _ _ _, ← Finset.mul_sum, hI.1 l j (Finset.mem_range.1 hl) hj],
          Finset.sum_eq_single_of_mem j (Finset.mem_range.2 hj) (fun l _ hl => by rw [if_neg hl, mul_zero]), if_pos rfl, mul_one]
      rw [← h8, h7]
    have hmat : ∀ {r : Out (PMat (ZMod p))}, IsMat r (off R nb) (off R nb) F' → IsMat r (off R nb) (off R nb) F := by
      rintro r ⟨w, ew, a1, a2, a3⟩
      exact ⟨w, ew, a1, a2, fun i j hi hj => by rw [a3 i j hi hj, hFF i j hi hj]⟩
    have hright : ∀ {r : Out (NVec (ZMod p))} {v : Nat → ZMod p}, IsRight r (off R nb) (off R nb) F' v → IsRight r (off R nb) (off R nb) F v := by
      rintro r v ⟨w, ew, a1, a2⟩
      exact ⟨w, ew, a1, fun i hi => by rw [a2 i hi]; exact Finset.sum_congr rfl fun j hj => by rw [hFF i j hi (Finset.mem_range.1 hj)]⟩
    cases k
    · exact ⟨hmat h6.1, fun cross v hv => hright (h6.2 cross v hv)⟩
    · exact ⟨hmat h6.1, fun cross v hv => hright (h6.2 cross v hv)⟩

/-- **C105**. `inv` rejects matrices which are not square. -/
theorem C105_square (h : Tiled g nb mb R C A) (hM : Mosaic.make g = .ok M) (k : Kind) (hsq : off C mb ≠ off R nb) (S : Env p) (D : Draws p)
    (rnd : Nat → Nat → ZMod p) (ta : Int) : M.inv k S D rnd ta = .error := by
  have hB := built_of_make h hM
  unfold Mosaic.inv
  rw [if_pos (by rw [hB.n, hB.m]; exact hsq)]

end PML.Ntl.Mosaic
