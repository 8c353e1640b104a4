import Verif.Ntl.VillardModel
import Verif.Ntl.BivarRes
import Verif.Ntl.SylvBlockProps

/-!
# C113: resultants of bivariate polynomials by Villard's algorithm
-/

namespace PML.Ntl.Bivar

open Polynomial PML.Ntl.Utils PML.Ntl.Inv PML.Ntl.Solve PML.Ntl.Struct PML.Ntl.Series

variable {p : Nat} [Fact p.Prime]

/-- What NTL documents, for evaluation with `n` points. -/
structure Env.Ok (v : Env p) (n : Nat) : Prop where
  mid : Geom.MidOK v.T.mp n
  xgcd : XgcdOK v.x
  pit : PlainInvTruncOK v.pit
  co : 5 ≤ v.co

/-- `B` is the matrix of the first `m` rows and last `m` columns of the inverse of the Sylvester matrix of `a` and `b`, which are coprime. -/
def IsBlock (m : Nat) (a b : (ZMod p)[X]) (B : PMat (ZMod p)) : Prop :=
  IsCoprime a b ∧ B.rows = m ∧ B.cols = m ∧ ∀ N, IsInv (a.natDegree + b.natDegree) (sylvEntry a b) N →
    ∀ i j, i < m → j < m → B.e (i, j) = N i (a.natDegree + b.natDegree - m + j)

theorem topRight_block {g : Xgcd p} (hg : XgcdOK g) {pit : (ZMod p)[X] → Nat → (ZMod p)[X]} (hpit : PlainInvTruncOK pit) {co : Nat} (hc : 5 ≤ co)
    {a b : (ZMod p)[X]} (ha : 0 < a.natDegree) (hb : 0 < b.natDegree) {m : Nat} (hm : m ≤ a.natDegree + b.natDegree) {B : PMat (ZMod p)}
    (h : (Sylv.make a b).topRight g pit co m = .ok (some B)) : IsBlock m a b B := by
  have ha0 : a ≠ 0 := fun e => by simp [e] at ha
  have hb0 : b ≠ 0 := fun e => by simp [e] at hb
  have hco : IsCoprime a b := by
    by_contra hn
    rw [(C112_refused hg pit co ha0 hb0 .make m).2 hm (by rw [C86_invertible ha0 hb0]; exact hn)] at h
    cases h
  have key : ∀ N, IsInv (a.natDegree + b.natDegree) (sylvEntry a b) N → B.rows = m ∧ B.cols = m ∧
      ∀ i j, i < m → j < m → B.e (i, j) = N i (a.natDegree + b.natDegree - m + j) := by
    intro N hN
    obtain ⟨h1, h2⟩ := C112_block_partial hg hpit hc ha hb hco .make hm hN
    by_cases h0 : N (b.natDegree - 1) 0 = 0
    · rw [h2 h0] at h
      cases h
    · obtain ⟨B', e, h3⟩ := h1 h0
      rw [e] at h
      cases h
      exact h3
  obtain ⟨N, hN⟩ := coprime_inv ha0 hb0 hco
  exact ⟨hco, (key N hN).1, (key N hN).2.1, fun N hN => (key N hN).2.2⟩

theorem blockLoop_ok {v : Env p} {m dl : Nat} {vf vg : Nat → (ZMod p)[X]} {B : Nat → PMat (ZMod p)} (h : blockLoop v m dl vf vg = .ok (some B)) {i : Nat} (hi : i < dl) :
    (Sylv.make (vf i) (vg i)).topRight v.x v.pit v.co m = .ok (some (B i)) := by
  refine loopOut_of_ok (fun k (st : Option (Nat → PMat (ZMod p))) => ∀ B, st = some B → ∀ i, i < k →
    (Sylv.make (vf i) (vg i)).topRight v.x v.pit v.co m = .ok (some (B i))) h (fun B _ i hi => absurd hi (Nat.not_lt_zero i)) ?_ B rfl i hi
  intro k t u hk e ih B hB j hj
  cases t with
  | none =>
    cases e
    cases hB
  | some B' =>
    obtain ⟨r, e1, e2⟩ := andThen_eq_ok e
    cases r with
    | none => cases e2; cases hB
    | some b =>
      cases e2
      cases hB
      by_cases hjk : j = k
      · subst hjk
        rw [e1]
        exact congrArg (fun x => Out.ok (some x)) (Function.update_self (β := fun _ => PMat (ZMod p)) j b B').symm
      · rw [ih B' rfl j (by omega)]
        exact congrArg (fun x => Out.ok (some x)) (Function.update_of_ne (β := fun _ => PMat (ZMod p)) hjk b B').symm

/-- The values of the blocks. -/
theorem blocks_ok {v : Env p} {f g : PVec (ZMod p)} {nf ng : Nat} (hf : f.len = nf + 1) (hg : g.len = ng + 1) (hv : v.Ok (max f.degX g.degX + 1).toNat)
    (h0f : 0 < nf) (h0g : 0 < ng) {m dl : Nat} (hm : m ≤ nf + ng) {draw : Nat → ZMod p} {a0 : ZMod p} {B : Nat → PMat (ZMod p)}
    (h : villardBlocks v m dl draw f g = .ok (some (a0, B))) :
    (∃ k, k < 4 ∧ a0 = draw k) ∧ ∀ i, i < dl → (f.at' nf).eval (a0 ^ (2 * i)) ≠ 0 ∧ (g.at' ng).eval (a0 ^ (2 * i)) ≠ 0 ∧
      IsBlock m (f.poly.map (evalRingHom (a0 ^ (2 * i)))) (g.poly.map (evalRingHom (a0 ^ (2 * i)))) (B i) := by
  obtain ⟨⟨nb, ⟨r, s⟩, o, vf, vg⟩, e1, h⟩ := andThen_eq_ok h
  obtain ⟨h1, h2, hd, b, e2, h3⟩ := attempts_ok 5 0 _ rfl e1
  dsimp only at h1 h2 hd e2 h3 h
  obtain ⟨good, hon, hdf, hdg, hvf, hvg, hb⟩ := tryPoints_ok hf hg hv.mid e2
  split at h
  · cases h
  · rename_i h5
    obtain ⟨pf, e3, h⟩ := andThen_eq_ok h
    obtain ⟨pg, e4, h⟩ := andThen_eq_ok h
    obtain ⟨R, e5, h⟩ := andThen_eq_ok h
    have hbt := hb.1 (h3.resolve_right h5)
    obtain ⟨pf', e3', k3⟩ := values_spec (T := v.T) good (by rw [hon]; exact hv.mid) f nf dl hf hdf vf hvf
    obtain ⟨pg', e4', k4⟩ := values_spec (T := v.T) good (by rw [hon]; exact hv.mid) g ng dl hg hdg vg hvg
    rw [e3] at e3'
    rw [e4] at e4'
    cases e3'
    cases e4'
    cases R with
    | none => cases h
    | some B' =>
      cases h
      have hr : a0 = draw (nb - 1) := congrArg Prod.fst hd
      have hs : s = 1 := congrArg Prod.snd hd
      subst hs
      simp only [one_mul] at hvf hvg k3 k4
      refine ⟨⟨nb - 1, by omega, hr⟩, fun i hi => ?_⟩
      have hlf : (f.at' nf).eval (a0 ^ (2 * i)) ≠ 0 := hvf i hi ▸ (hbt i hi).1
      have hlg : (g.at' ng).eval (a0 ^ (2 * i)) ≠ 0 := hvg i hi ▸ (hbt i hi).2
      refine ⟨hlf, hlg, ?_⟩
      have h6 := blockLoop_ok e5 hi
      rw [k3 i hi, k4 i hi] at h6
      have d1 := (map_natDegree hf hlf).1
      have d2 := (map_natDegree hg hlg).1
      exact topRight_block hv.xgcd hv.pit hv.co (by omega) (by omega) (by omega) h6

/-- Coprime values at a point where the leading coefficients do not vanish: the resultant is not zero. -/
theorem resultant_ne {f g : PVec (ZMod p)} (hf : f.Normal) (hg : g.Normal) {nf ng : Nat} (hfl : f.len = nf + 1) (hgl : g.len = ng + 1) {t : ZMod p}
    (h1 : (f.at' nf).eval t ≠ 0) (h2 : (g.at' ng).eval t ≠ 0) (h : IsCoprime (f.poly.map (evalRingHom t)) (g.poly.map (evalRingHom t))) :
    (Polynomial.resultant f.poly g.poly).eval t ≠ 0 := by
  obtain ⟨a1, a2⟩ := map_natDegree hfl h1
  obtain ⟨b1, b2⟩ := map_natDegree hgl h2
  have := resultant_ne_zero _ _ h
  rw [a1, b1, resultant_map_map, ← natDegree_poly hf hfl, ← natDegree_poly hg hgl] at this
  exact this

/-- The integer part of the cubic root. -/
def CbrtOK (cbrt : Nat → Nat) : Prop := ∀ n, cbrt n ^ 3 ≤ n ∧ n < (cbrt n + 1) ^ 3

theorem CbrtOK.le {cbrt : Nat → Nat} (h : CbrtOK cbrt) (n : Nat) : cbrt n ≤ n := by
  refine le_trans ?_ (h n).1
  rcases Nat.eq_zero_or_pos (cbrt n) with h0 | h0
  · rw [h0]; exact Nat.zero_le _
  · exact Nat.le_self_pow (by norm_num) _

theorem end_ok {v : Env p} {rest : Nat → Nat → ZMod p → (Nat → PMat (ZMod p)) → Out (ZMod p)[X]} {m dl : Nat} {draw : Nat → ZMod p} {f g : PVec (ZMod p)} {R : (ZMod p)[X]}
    (h : villardEnd v rest m dl draw f g = .ok (some R)) : ∃ a0 B, villardBlocks v m dl draw f g = .ok (some (a0, B)) ∧ rest m dl a0 B = .ok R := by
  obtain ⟨r, e, h⟩ := andThen_eq_ok h
  cases r with
  | none => cases h
  | some aB =>
    obtain ⟨R', e', h⟩ := andThen_eq_ok h
    cases h
    exact ⟨aB.1, aB.2, e, e'⟩

/-- **C113**. When `resultant_villard` returns 1 for two polynomials of positive degree in `Y`: one of the first four random elements `a0` was used; at all the points
    `a0^(2i)` the leading coefficients are not zero and the resultant is not zero; and the matrices given to the reconstruction are the blocks of the first `m`
    rows and last `m` columns of the inverses of the Sylvester matrices at these points. -/
theorem C113_blocks_partial {v : Env p} {f g : PVec (ZMod p)} (hf : f.Normal) (hg : g.Normal) {nf ng d : Nat} (hfl : f.len = nf + 1) (hgl : g.len = ng + 1)
    (hd : max f.degX g.degX = d) (hv : v.Ok (d + 1)) (h0f : 0 < nf) (h0g : 0 < ng) {cbrt : Nat → Nat} (hc : CbrtOK cbrt)
    {rest : Nat → Nat → ZMod p → (Nat → PMat (ZMod p)) → Out (ZMod p)[X]} {draw : Nat → ZMod p} {R : (ZMod p)[X]} (h : villard v cbrt rest draw f g = .ok (some R)) :
    ∃ k B m, k < 4 ∧ m = cbrt (max nf ng) ∧ 0 < m ∧ rest m (4 * d * ((max nf ng + m - 1) / m) + 2) (draw k) B = .ok R ∧ ∀ i, i < 4 * d * ((max nf ng + m - 1) / m) + 2 →
      (f.at' nf).eval (draw k ^ (2 * i)) ≠ 0 ∧ (g.at' ng).eval (draw k ^ (2 * i)) ≠ 0 ∧ (Polynomial.resultant f.poly g.poly).eval (draw k ^ (2 * i)) ≠ 0 ∧
      IsBlock m (f.poly.map (evalRingHom (draw k ^ (2 * i)))) (g.poly.map (evalRingHom (draw k ^ (2 * i)))) (B i) := by
  have hA : f.degY = (nf : Int) := by rw [PVec.degY, hfl]; push_cast; ring
  have hB : g.degY = (ng : Int) := by rw [PVec.degY, hgl]; push_cast; ring
  have hn : (max f.degY g.degY).toNat = max nf ng := by rw [hA, hB]; omega
  unfold villard at h
  dsimp only at h
  rw [hn, hd, Int.toNat_natCast] at h
  split at h
  · cases h
  · rename_i hm
    obtain ⟨a0, B, e, e'⟩ := end_ok h
    have hle := hc.le (max nf ng)
    obtain ⟨⟨k, hk, rfl⟩, h1⟩ := blocks_ok hfl hgl (by rw [hd]; exact hv) h0f h0g (by omega) e
    refine ⟨k, B, _, hk, rfl, by omega, e', fun i hi => ?_⟩
    obtain ⟨a, b, c⟩ := h1 i (by exact hi)
    exact ⟨a, b, resultant_ne hf hg hfl hgl a b c.1, c⟩

/-- **C113**. The same for `resultant_villard_tdeg`, where `m` is at most the degrees in `Y`. -/
theorem C113_blocks_tdeg_partial {v : Env p} {f g : PVec (ZMod p)} (hf : f.Normal) (hg : g.Normal) {nf ng d t : Nat} (hfl : f.len = nf + 1) (hgl : g.len = ng + 1)
    (hd : max f.degX g.degX = d) (ht : f.tdeg * g.tdeg = t) (hv : v.Ok (d + 1)) {cbrt : Nat → Nat}
    {rest : Nat → Nat → ZMod p → (Nat → PMat (ZMod p)) → Out (ZMod p)[X]} {draw : Nat → ZMod p} {R : (ZMod p)[X]} (h : villardTdeg v cbrt rest draw f g = .ok (some R)) :
    ∃ k B m, k < 4 ∧ m = cbrt ((nf + ng) / 2) ∧ 0 < m ∧ m ≤ nf ∧ m ≤ ng ∧ rest m (1 + nf + ng + 2 * (t + m - 1) / m) (draw k) B = .ok R ∧ ∀ i, i < 1 + nf + ng + 2 * (t + m - 1) / m →
      (f.at' nf).eval (draw k ^ (2 * i)) ≠ 0 ∧ (g.at' ng).eval (draw k ^ (2 * i)) ≠ 0 ∧ (Polynomial.resultant f.poly g.poly).eval (draw k ^ (2 * i)) ≠ 0 ∧
      IsBlock m (f.poly.map (evalRingHom (draw k ^ (2 * i)))) (g.poly.map (evalRingHom (draw k ^ (2 * i)))) (B i) := by
  have hA : f.degY = (nf : Int) := by rw [PVec.degY, hfl]; push_cast; ring
  have hB : g.degY = (ng : Int) := by rw [PVec.degY, hgl]; push_cast; ring
  unfold villardTdeg at h
  dsimp only at h
  rw [hA, hB, ht, Int.toNat_natCast, Int.toNat_natCast, Int.toNat_natCast] at h
  split at h
  · cases h
  · rename_i hm
    split at h
    · cases h
    · rename_i hm2
      obtain ⟨a0, B, e, e'⟩ := end_ok h
      obtain ⟨⟨k, hk, rfl⟩, h1⟩ := blocks_ok hfl hgl (by rw [hd]; exact hv) (by omega) (by omega) (by omega) e
      refine ⟨k, B, _, hk, rfl, by omega, by omega, by omega, e', fun i hi => ?_⟩
      obtain ⟨a, b, c⟩ := h1 i hi
      exact ⟨a, b, resultant_ne hf hg hfl hgl a b c.1, c⟩

/-- **C113**. When the resultant is zero, neither function returns 1. -/
theorem C113_zero_resultant {v : Env p} {f g : PVec (ZMod p)} (hf : f.Normal) (hg : g.Normal) {nf ng d t : Nat} (hfl : f.len = nf + 1) (hgl : g.len = ng + 1)
    (hd : max f.degX g.degX = d) (ht : f.tdeg * g.tdeg = t) (hv : v.Ok (d + 1)) (h0f : 0 < nf) (h0g : 0 < ng) {cbrt : Nat → Nat} (hc : CbrtOK cbrt)
    (rest : Nat → Nat → ZMod p → (Nat → PMat (ZMod p)) → Out (ZMod p)[X]) (draw : Nat → ZMod p) (hR : Polynomial.resultant f.poly g.poly = 0) (R : (ZMod p)[X]) :
    villard v cbrt rest draw f g ≠ .ok (some R) ∧ villardTdeg v cbrt rest draw f g ≠ .ok (some R) := by
  constructor
  · intro h
    obtain ⟨k, B, m, -, -, -, -, h1⟩ := C113_blocks_partial hf hg hfl hgl hd hv h0f h0g hc h
    have := (h1 0 (by omega)).2.2.1
    rw [hR, eval_zero] at this
    exact this rfl
  · intro h
    obtain ⟨k, B, m, -, -, -, -, -, -, h1⟩ := C113_blocks_tdeg_partial hf hg hfl hgl hd ht hv h
    have := (h1 0 (Nat.lt_of_lt_of_le (show 0 < 1 + nf + ng by omega) (Nat.le_add_right _ _))).2.2.1
    rw [hR, eval_zero] at this
    exact this rfl

/-- **C113**. The size of the blocks can be zero, and then both functions divide by it: `resultant_villard` when both polynomials are constant in `Y`,
    `resultant_villard_tdeg` when the sum of the degrees in `Y` is at most 1. -/
theorem C113_division_by_zero (v : Env p) {f g : PVec (ZMod p)} {nf ng : Nat} (hfl : f.len = nf + 1) (hgl : g.len = ng + 1) {cbrt : Nat → Nat} (hc : CbrtOK cbrt)
    (rest : Nat → Nat → ZMod p → (Nat → PMat (ZMod p)) → Out (ZMod p)[X]) (draw : Nat → ZMod p) :
    (nf = 0 → ng = 0 → villard v cbrt rest draw f g = .ub) ∧ (nf + ng ≤ 1 → villardTdeg v cbrt rest draw f g = .ub) := by
  have hA : f.degY = (nf : Int) := by rw [PVec.degY, hfl]; push_cast; ring
  have hB : g.degY = (ng : Int) := by rw [PVec.degY, hgl]; push_cast; ring
  have h0 : cbrt 0 = 0 := by have := hc.le 0; omega
  constructor
  · rintro rfl rfl
    unfold villard
    dsimp only
    rw [hA, hB]
    exact if_pos h0
  · intro h
    unfold villardTdeg
    dsimp only
    rw [hA, hB, Int.toNat_natCast, Int.toNat_natCast, show (nf + ng) / 2 = 0 by omega]
    exact if_pos h0

/-! ### Success -/

/-- The matrix is invertible, and the call of `top_right_block_inverse` is defined (C112). -/
def Regular (a b : (ZMod p)[X]) : Prop := ∃ N, IsInv (a.natDegree + b.natDegree) (sylvEntry a b) N ∧ N (b.natDegree - 1) 0 ≠ 0

theorem blockLoop_run {v : Env p} (hx : XgcdOK v.x) (hpit : PlainInvTruncOK v.pit) (hco : 5 ≤ v.co) {m dl : Nat} {vf vg : Nat → (ZMod p)[X]}
    (h : ∀ i, i < dl → 0 < (vf i).natDegree ∧ 0 < (vg i).natDegree ∧ m ≤ (vf i).natDegree + (vg i).natDegree ∧ Regular (vf i) (vg i)) :
    ∃ B, blockLoop v m dl vf vg = .ok (some B) := by
  obtain ⟨u, e, B, rfl⟩ := PML.Ntl.Struct.loopOut_inv (fun _ (st : Option (Nat → PMat (ZMod p))) => ∃ B, st = some B) (k := dl) (s := some fun _ => ⟨0, 0, fun _ => 0⟩)
    (f := fun i st =>
      match st with
      | none => .ok none
      | some B => andThen ((Sylv.make (vf i) (vg i)).topRight v.x v.pit v.co m) fun r => .ok (r.map fun b => write i b B)) ⟨_, rfl⟩ (by
      rintro i _ hi ⟨B, rfl⟩
      obtain ⟨h1, h2, h3, N, hN, hne⟩ := h i hi
      have ha0 : vf i ≠ 0 := fun e => by simp [e] at h1
      have hb0 : vg i ≠ 0 := fun e => by simp [e] at h2
      obtain ⟨b, e, -⟩ := (C112_block_partial hx hpit hco h1 h2 ((C86_invertible ha0 hb0).1 ⟨N, hN⟩) .make h3 hN).1 hne
      refine ⟨some (write i b B), ?_, _, rfl⟩
      show andThen ((Sylv.make (vf i) (vg i)).topRight v.x v.pit v.co m) _ = _
      rw [e]
      rfl)
  exact ⟨B, e⟩

/-- **C113**. If the first random element gives enough distinct points, and at each of them no leading coefficient vanishes and the block of the inverse is
    defined, then `resultant_villard` goes on to the reconstruction, with the blocks of the
    inverses, and returns 1 if this returns. -/
theorem C113_success_partial {v : Env p} {f g : PVec (ZMod p)} (hf : f.Normal) {nf ng d : Nat} (hfl : f.len = nf + 1) (hgl : g.len = ng + 1)
    (hd : max f.degX g.degX = d) (hv : v.Ok (d + 1)) (h0f : 0 < nf) (h0g : 0 < ng) {cbrt : Nat → Nat} (hc : CbrtOK cbrt)
    (rest : Nat → Nat → ZMod p → (Nat → PMat (ZMod p)) → Out (ZMod p)[X]) (draw : Nat → ZMod p) (hp : Points (d + 1) (draw 0, 1))
    (hl : ∀ i, (f.at' nf).eval (draw 0 ^ (2 * i)) ≠ 0 ∧ (g.at' ng).eval (draw 0 ^ (2 * i)) ≠ 0 ∧
      Regular (f.poly.map (evalRingHom (draw 0 ^ (2 * i)))) (g.poly.map (evalRingHom (draw 0 ^ (2 * i))))) :
    ∃ B, villard v cbrt rest draw f g = andThen (rest (cbrt (max nf ng)) (4 * d * ((max nf ng + cbrt (max nf ng) - 1) / cbrt (max nf ng)) + 2) (draw 0) B) (fun R => .ok (some R)) ∧
      ∀ i, i < 4 * d * ((max nf ng + cbrt (max nf ng) - 1) / cbrt (max nf ng)) + 2 →
        IsBlock (cbrt (max nf ng)) (f.poly.map (evalRingHom (draw 0 ^ (2 * i)))) (g.poly.map (evalRingHom (draw 0 ^ (2 * i)))) (B i) := by
  have hA : f.degY = (nf : Int) := by rw [PVec.degY, hfl]; push_cast; ring
  have hB : g.degY = (ng : Int) := by rw [PVec.degY, hgl]; push_cast; ring
  have hn : (max f.degY g.degY).toNat = max nf ng := by rw [hA, hB]; omega
  have hN : (max f.degX g.degX + 1).toNat = d + 1 := by rw [hd]; omega
  have hle := hc.le (max nf ng)
  have hm0 : cbrt (max nf ng) ≠ 0 := by
    intro e
    have := (hc (max nf ng)).2
    rw [e] at this
    omega
  unfold villard
  dsimp only
  rw [hn, hd, Int.toNat_natCast, if_neg hm0]
  show ∃ B, villardEnd v rest _ (4 * d * ((max nf ng + cbrt (max nf ng) - 1) / cbrt (max nf ng)) + 2) draw f g = _ ∧ _
  generalize 4 * d * ((max nf ng + cbrt (max nf ng) - 1) / cbrt (max nf ng)) + 2 = dl
  have hmp' : Geom.MidOK v.T.mp (max f.degX g.degX + 1).toNat := by rw [hN]; exact hv.mid
  obtain ⟨b, o, vf, vg, e⟩ := tryPoints_run v.T dl hfl hgl hf hmp' (r := draw 0) (s := 1) (by rw [hN]; exact hp)
  obtain ⟨good, hon, hdf, hdg, hvf, hvg, hb⟩ := tryPoints_ok hfl hgl hmp' e
  have hbt : b = true := hb.2 fun j hj => by
    rw [hvf j hj, hvg j hj, one_mul]
    exact ⟨(hl j).1, (hl j).2.1⟩
  have ea : attempts v.T (fun i => (draw i, 1)) f g dl 5 0 = .ok (1, (draw 0, 1), o, vf, vg) := by
    rw [attempts, e, andThen_ok]
    dsimp only
    rw [hbt, if_neg (by simp)]
  obtain ⟨pf, e3, k3⟩ := values_spec (T := v.T) good (by rw [hon]; exact hmp') f nf dl hfl hdf vf hvf
  obtain ⟨pg, e4, k4⟩ := values_spec (T := v.T) good (by rw [hon]; exact hmp') g ng dl hgl hdg vg hvg
  obtain ⟨B, e5⟩ := blockLoop_run hv.xgcd hv.pit hv.co (m := cbrt (max nf ng)) (dl := dl) (vf := pf) (vg := pg) (by
    intro i hi
    obtain ⟨h1, h2, h3⟩ := hl i
    have d1 := (map_natDegree hfl h1).1
    have d2 := (map_natDegree hgl h2).1
    rw [k3 i hi, k4 i hi, one_mul]
    exact ⟨by omega, by omega, by omega, h3⟩)
  refine ⟨B, ?_, fun i hi => ?_⟩
  swap
  · have h6 := blockLoop_ok e5 hi
    rw [k3 i hi, k4 i hi, one_mul] at h6
    have d1 := (map_natDegree hfl (hl i).1).1
    have d2 := (map_natDegree hgl (hl i).2.1).1
    exact topRight_block hv.xgcd hv.pit hv.co (by omega) (by omega) (by omega) h6
  unfold villardEnd villardBlocks
  rw [ea, andThen_ok]
  dsimp only
  rw [if_neg (by omega), e3, andThen_ok, e4, andThen_ok, e5]
  rfl

/-! ### Examples -/

theorem exists_cbrt : ∃ cbrt, CbrtOK cbrt := by
  have : ∀ n : Nat, ∃ k : Nat, k ^ 3 ≤ n ∧ n < (k + 1) ^ 3 := by
    intro n
    induction n with
    | zero => exact ⟨0, by norm_num, by norm_num⟩
    | succ n ih =>
      obtain ⟨k, h1, h2⟩ := ih
      by_cases h : n + 1 < (k + 1) ^ 3
      · exact ⟨k, by omega, h⟩
      · have : (k + 1) ^ 3 < (k + 1 + 1) ^ 3 := Nat.pow_lt_pow_left (by omega) (by norm_num)
        exact ⟨k + 1, by omega, by omega⟩
  choose c hc using this
  exact ⟨c, hc⟩

theorem exists_env (n : Nat) : ∃ v : Env p, v.Ok n := by
  obtain ⟨g, hg⟩ := xgcd_exists (p := p)
  obtain ⟨pit, hpit⟩ := exists_plainInvTrunc (K := ZMod p)
  obtain ⟨mp, hmp⟩ := Geom.exists_midOK (K := ZMod p) n
  exact ⟨⟨⟨mp, fun _ => true, fun _ => true⟩, g, pit, 5⟩, hmp, hg, hpit, le_rfl⟩

/-- The polynomial `Y + c`. -/
noncomputable def yPlus (c : (ZMod p)[X]) : PVec (ZMod p) := ⟨2, fun i => if i = 0 then c else 1⟩

theorem yPlus_normal (c : (ZMod p)[X]) : (yPlus c).Normal := by
  intro n hn
  have : n = 1 := by have : (yPlus c).len = 2 := rfl; omega
  subst this
  exact one_ne_zero

theorem yPlus_map (c : (ZMod p)[X]) (t : ZMod p) : (yPlus c).poly.map (evalRingHom t) = X + C (c.eval t) := by
  ext i
  rw [coeff_map, poly_coeff, coeff_add, coeff_X, coeff_C]
  show evalRingHom t (if i < 2 then (if i = 0 then c else 1) else 0) = _
  rcases i with _ | _ | i
  · simp
  · simp
  · rw [if_neg (by omega), if_neg (by omega), if_neg (by omega), map_zero, add_zero]

/-- `Y` and `Y + 1`, with the draw 1: the resultant is 1. -/
example {v : Env p} (hv : v.Ok 1) {cbrt : Nat → Nat} (hc : CbrtOK cbrt) (rest : Nat → Nat → ZMod p → (Nat → PMat (ZMod p)) → Out (ZMod p)[X]) :
    ∃ B, villard v cbrt rest (fun _ => 1) (yPlus 0) (yPlus 1) = andThen (rest (cbrt 1) (4 * 0 * ((1 + cbrt 1 - 1) / cbrt 1) + 2) 1 B) fun R => .ok (some R) := by
  have hd : max (yPlus (0 : (ZMod p)[X])).degX (yPlus (1 : (ZMod p)[X])).degX = ((0 : Nat) : Int) := by
    have h1 : (yPlus (1 : (ZMod p)[X])).degX ≤ 0 := (degX_le _ _).2 ⟨by omega, fun i _ => by
      show pdeg (if i = 0 then (1 : (ZMod p)[X]) else 1) ≤ 0
      rw [ite_self]; simp [pdeg]⟩
    have h2 : (yPlus (0 : (ZMod p)[X])).degX ≤ 0 := (degX_le _ _).2 ⟨by omega, fun i _ => by
      show pdeg (if i = 0 then (0 : (ZMod p)[X]) else 1) ≤ 0
      split <;> simp [pdeg]⟩
    have h3 := degX_nonneg (yPlus_normal (1 : (ZMod p)[X])) (by show 2 ≠ 0; omega)
    omega
  refine Exists.imp (fun B h => h.1) (C113_success_partial (yPlus_normal 0) (nf := 1) (ng := 1) rfl rfl hd hv one_pos one_pos hc rest _ ⟨one_ne_zero, one_ne_zero, fun i h1 h2 => by omega⟩ fun i => ?_)
  refine ⟨by show eval _ (1 : (ZMod p)[X]) ≠ 0; simp, by show eval _ (1 : (ZMod p)[X]) ≠ 0; simp, ?_⟩
  rw [yPlus_map, yPlus_map, eval_zero, eval_one, C_0, add_zero]
  have d2 : (X + C 1 : (ZMod p)[X]).natDegree = 1 := natDegree_X_add_C 1
  have d1 : (X : (ZMod p)[X]).natDegree = 1 := natDegree_X
  have e : (-1 : (ZMod p)[X]) * X + 1 * (X + C 1) = 1 := by rw [C_1]; ring
  obtain ⟨N, hN⟩ := coprime_inv X_ne_zero (fun h => by rw [h] at d2; simp at d2) ⟨-1, 1, e⟩
  refine ⟨N, hN, ?_⟩
  rw [inv_col hN (F := -1) (G := 1) (fun i hi => ?_) (fun i hi => ?_) (k := 0) (by omega) (by rw [e, pow_zero]) (by omega), if_pos (by omega), d2]
  · rw [coeff_neg, coeff_one, if_pos rfl]
    exact neg_ne_zero.2 one_ne_zero
  · rw [coeff_neg, coeff_one, if_neg (by omega), neg_zero]
  · rw [coeff_one, if_neg (by omega)]

/-- The resultant of `Y + c` with itself is zero. -/
example (c : (ZMod p)[X]) : (yPlus c).Normal ∧ (yPlus c).len = 1 + 1 ∧ Polynomial.resultant (yPlus c).poly (yPlus c).poly = 0 := by
  refine ⟨yPlus_normal c, rfl, resultant_self_eq_zero _ ?_⟩
  rw [natDegree_poly (yPlus_normal c) (n := 1) rfl]
  exact one_ne_zero

example : ∃ (v : Env 5) (cbrt : Nat → Nat), v.Ok 1 ∧ CbrtOK cbrt := by
  obtain ⟨v, hv⟩ := exists_env (p := 5) 1
  obtain ⟨c, hc⟩ := exists_cbrt
  exact ⟨v, c, hv, hc⟩

end PML.Ntl.Bivar
