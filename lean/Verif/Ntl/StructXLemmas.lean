import Verif.Ntl.StructXSpec
import Verif.Ntl.BivarRes
import Verif.Ntl.FftPoints

/-! # Lemmas on the structured matrices over `K[X]`: loops, Kronecker products -/

namespace PML.Ntl.StructX

open Polynomial PML.Ntl.Utils PML.Ntl.Inv PML.Ntl.Solve PML.Ntl.Struct PML.Ntl.Bivar PML.Ntl.FftPoints

variable {F : Type} [Field F]

theorem get_ok' {v : PVec F} {i : Nat} (h : i < v.len) : v.get (i : Int) = .ok (v.at' i) := by
  have hc : (0 : Int) ≤ i ∧ (i : Int) < v.len := by omega
  simp only [PVec.get, hc, if_true, Int.toNat_natCast, and_self]

theorem put_ok' {v : PVec F} {i : Nat} (x : F[X]) (h : i < v.len) : v.put (i : Int) x = .ok { v with at' := write i x v.at' } := by
  have hc : (0 : Int) ≤ i ∧ (i : Int) < v.len := by omega
  simp only [PVec.put, hc, if_true, Int.toNat_natCast, and_self]

theorem loopPut_ok {lo n : Nat} {f : Nat → PVec F → Out F[X]} {r : PVec F} (x : Nat → F[X]) (hlen : lo + n ≤ r.len)
    (hf : ∀ i, i < n → ∀ r' : PVec F, r'.len = r.len → (∀ k, r'.at' k = if lo ≤ k ∧ k < lo + i then x k else r.at' k) →
      f i r' = .ok (x (lo + i))) :
    ∃ w, loopPut lo n f r = .ok w ∧ w.len = r.len ∧ ∀ k, w.at' k = if lo ≤ k ∧ k < lo + n then x k else r.at' k := by
  refine loopOut_inv (fun i (r' : PVec F) => r'.len = r.len ∧ ∀ k, r'.at' k = if lo ≤ k ∧ k < lo + i then x k else r.at' k) n ?_ ?_
  · refine ⟨rfl, fun k => ?_⟩
    rw [if_neg (by omega)]
  · rintro i t hi ⟨h1, h2⟩
    rw [hf i hi t h1 h2, Bivar.andThen_ok, put_ok' _ (by omega)]
    refine ⟨_, rfl, h1, fun k => ?_⟩
    by_cases hk : k = lo + i
    · subst hk
      dsimp only
      rw [Bivar.write_self, if_pos (by omega)]
    · dsimp only
      rw [Bivar.write_ne _ _ hk, h2]
      by_cases hc : lo ≤ k ∧ k < lo + i
      · rw [if_pos hc, if_pos (by omega)]
      · rw [if_neg hc, if_neg (by omega)]

theorem zeros_ok (r : PVec F) (n : Nat) : ∃ w, zeros r n = .ok w ∧ w.len = n ∧ ∀ i, i < n → w.at' i = 0 := by
  obtain ⟨w, h1, h2, h3⟩ := loopPut_ok (lo := 0) (n := n) (f := fun _ _ => .ok 0) (r := { r with len := n }) (fun _ => 0)
    (by simp) (fun _ _ _ _ _ => rfl)
  exact ⟨w, h1, h2, fun i hi => by rw [h3, if_pos (by omega)]⟩

theorem part_ok {t v : PVec F} {off n : Nat} (h : off + n ≤ v.len) :
    ∃ w, part t v off n = .ok w ∧ w.len = n ∧ ∀ i, i < n → w.at' i = v.at' (i + off) := by
  obtain ⟨w, h1, h2, h3⟩ := loopPut_ok (lo := 0) (n := n) (f := fun i _ => v.get ((i + off : Nat) : Int)) (r := { t with len := n })
    (fun i => v.at' (i + off)) (by simp) (fun i hi _ _ _ => by rw [get_ok' (by omega), Nat.zero_add])
  exact ⟨w, h1, h2, fun i hi => by rw [h3, if_pos (by omega)]⟩

theorem rev_ok {t v : PVec F} {n : Nat} (h : n ≤ v.len) :
    ∃ w, rev t v n = .ok w ∧ w.len = n ∧ ∀ i, i < n → w.at' i = v.at' (n - 1 - i) := by
  obtain ⟨w, h1, h2, h3⟩ := loopPut_ok (lo := 0) (n := n) (f := fun i _ => v.get ((n : Int) - 1 - i)) (r := { t with len := n })
    (fun i => v.at' (n - 1 - i)) (by simp) (fun i hi _ _ _ => by
      rw [show (n : Int) - 1 - i = ((n - 1 - i : Nat) : Int) by omega, get_ok' (by omega), Nat.zero_add])
  exact ⟨w, h1, h2, fun i hi => by rw [h3, if_pos (by omega)]⟩

/-! ### Degrees -/

theorem degs_spec (v : PVec F) : (degs v).1 = v.degX ∧ -1 ≤ (degs v).2 ∧ (degs v).2 < v.len ∧
    (∀ i : Nat, i < v.len → (degs v).2 < i → v.at' i = 0) ∧ (0 ≤ (degs v).2 → v.at' (degs v).2.toNat ≠ 0) := by
  unfold degs PVec.degX
  generalize v.len = n
  induction n with
  | zero => simp [forN]
  | succ n ih =>
    simp only [forN]
    obtain ⟨h1, h2, h3, h4, h5⟩ := ih
    refine ⟨?_, ?_, ?_, ?_, ?_⟩
    · rw [h1]
      split
      · rename_i h; exact (max_eq_right h).symm
      · rename_i h; exact (max_eq_left (by omega)).symm
    · split
      · omega
      · exact h2
    · split
      · omega
      · omega
    · intro i hi hlt
      split at hlt
      · omega
      · rename_i h
        by_cases he : i = n
        · subst he
          simpa using h
        · exact h4 i (by omega) hlt
    · split
      · rename_i h
        intro _
        simpa using h
      · exact h5

theorem degX_ge (v : PVec F) : -1 ≤ v.degX := ((degX_le v v.degX).1 (le_refl _)).1

theorem degX_neg {v : PVec F} (h : v.degX = -1) {i : Nat} (hi : i < v.len) : v.at' i = 0 := by
  have := degX_get v hi
  by_contra h0
  have := Bivar.pdeg_nonneg h0
  omega

theorem degX_pos {v : PVec F} {i : Nat} (hi : i < v.len) (h : v.at' i ≠ 0) : 0 ≤ v.degX :=
  (Bivar.pdeg_nonneg h).trans (degX_get v hi)

theorem search_spec (p : NVec Int) (d : Int) : search p d = -1 ∨ ∃ i, i < p.len ∧ search p d = (i : Int) ∧ d ≤ p.e i := by
  unfold search
  generalize p.len = n
  induction n with
  | zero => left; rfl
  | succ n ih =>
    simp only [forN]
    split
    · rename_i h
      right
      exact ⟨n, by omega, rfl, by omega⟩
    · rcases ih with h | ⟨i, h1, h2, h3⟩
      · left; exact h
      · right; exact ⟨i, by omega, h2, h3⟩

/-! ### Products through the Kronecker substitution -/

theorem mulFrom_ok {K : Nat} {a b : F[X]} (h : Int) (hd : ∀ t, 2 ^ K ≤ t → (a * b).coeff t = 0) :
    mulFrom K a (toR K b) h = .ok (slice (a * b) 0 h.toNat) := by
  unfold mulFrom toR
  rw [if_neg (by simp)]
  have hK : 0 < 2 ^ K := Nat.pos_of_ne_zero (by positivity)
  congr 1
  ext t
  rw [slice_coeff, slice_coeff, Nat.zero_add]
  split
  · unfold mulRep toRepAll
    rw [cyc_mul hK]
    by_cases ht : t < 2 ^ K
    · rw [cyc_coeff_eq ht fun n hn => hd n (by omega)]
    · rw [cyc_coeff_high hK _ (by omega), hd t (by omega)]
  · rfl

/-- The first entries of a vector, completed by zeros, are the `L` first coefficients of `P`. -/
def Blocks (v : PVec F) (L : Nat) (P : Polynomial F[X]) : Prop :=
  v.len ≤ L ∧ ∀ k, k < L → (if k < v.len then v.at' k else 0) = P.coeff k

theorem eval_coeff_high {P : Polynomial F[X]} {D : Nat} (hD : DegXLe P D) {L : Nat} (hL : ∀ k, L ≤ k → P.coeff k = 0) (t : Nat)
    (ht : L * (D + 1) ≤ t) : (P.eval (X ^ (D + 1))).coeff t = 0 := by
  have h := kron_coeff P (D + 1) (fun i j hj => hD i j (by omega)) (t / (D + 1)) (t % (D + 1)) (Nat.mod_lt _ (by omega))
  rw [Nat.div_add_mod'] at h
  rw [h, hL _ ((Nat.le_div_iff_mul_le (by omega)).2 ht), coeff_zero]

theorem fromKron_blocks (ce0 : Nat → Nat → F) (old : PVec F) {P : Polynomial F[X]} {D : Nat} (hD : DegXLe P D) (L : Nat) {A : F[X]}
    (hA : ∀ t, A.coeff t = if t < L * (D + 1) then (P.eval (X ^ (D + 1))).coeff t else 0) :
    ∃ v, fromKron ce0 old A D = .ok v ∧ Blocks v L P := by
  obtain ⟨v, h1, h2, h3, h4⟩ := C89_from_kronecker ce0 old A D
  have key : ∀ k, v.poly.coeff k = if k < L then P.coeff k else 0 := by
    intro k
    ext j
    by_cases hj : j < D + 1
    · rw [← kron_coeff v.poly (D + 1) (fun i j hj => h3 i j (by omega)) k j hj, h2, hA]
      by_cases hk : k < L
      · have : (k + 1) * (D + 1) ≤ L * (D + 1) := Nat.mul_le_mul_right _ hk
        rw [Nat.add_mul, Nat.one_mul] at this
        rw [if_pos (by omega), if_pos hk, kron_coeff P (D + 1) (fun i j hj => hD i j (by omega)) k j hj]
      · have : L * (D + 1) ≤ k * (D + 1) := Nat.mul_le_mul_right _ (by omega)
        rw [if_neg (by omega), if_neg hk, coeff_zero]
    · rw [h3 k j (by omega)]
      split
      · rw [hD k j (by omega)]
      · rw [coeff_zero]
  refine ⟨v, h1, ?_, fun k hk => ?_⟩
  · by_contra hc
    obtain ⟨n, hn⟩ : ∃ n, v.len = n + 1 := ⟨v.len - 1, by omega⟩
    have := key n
    rw [poly_coeff, if_pos (by omega), if_neg (by omega)] at this
    exact h4 n hn this
  · have := key k
    rw [poly_coeff, if_pos hk] at this
    exact this

theorem fill_ok {v : PVec F} {L n : Nat} {P : Polynomial F[X]} (h : Blocks v L P) (hL : L ≤ n) (hz : ∀ k, L ≤ k → k < n → P.coeff k = 0) :
    ∃ w, fill v n = .ok w ∧ w.len = n ∧ ∀ k, k < n → w.at' k = P.coeff k := by
  obtain ⟨h0, h⟩ := h
  obtain ⟨w, h1, h2, h3⟩ := loopPut_ok (lo := v.len) (n := n - v.len) (f := fun _ _ => .ok 0) (r := { v with len := n }) (fun _ => 0)
    (by dsimp only; omega) (fun _ _ _ _ _ => rfl)
  refine ⟨w, h1, h2, fun k hk => ?_⟩
  rw [h3]
  dsimp only
  by_cases hkL : k < L
  · have := h k hkL
    by_cases hc : k < v.len
    · rw [if_neg (by omega), ← this, if_pos hc]
    · rw [if_pos (by omega), ← this, if_neg hc]
  · rw [if_pos (by omega), hz k (by omega) hk]

theorem truncFill_ok {v : PVec F} {L n s : Nat} {P : Polynomial F[X]} (h : Blocks v L P) (hL : L ≤ n) (hz : ∀ k, L ≤ k → k < n → P.coeff k = 0) :
    ∃ w, truncFill s v n = .ok w ∧ w.len = n ∧ ∀ k, k < n → w.at' k = ptrunc (P.coeff k) s := by
  obtain ⟨h0, h⟩ := h
  have p0 : ptrunc (0 : F[X]) s = 0 := by ext t; rw [ptrunc_coeff]; simp
  obtain ⟨u, g1, g2, g3⟩ := loopPut_ok (lo := 0) (n := v.len) (f := fun i (v : PVec F) => andThen (v.get (i : Int)) fun x => .ok (ptrunc x s))
    (r := { v with len := n }) (fun k => ptrunc (v.at' k) s) (by dsimp only; omega) (fun i hi r' e1 e2 => by
      dsimp only at e1
      rw [get_ok' (by omega), Bivar.andThen_ok, e2, if_neg (by omega), Nat.zero_add])
  obtain ⟨w, h1, h2, h3⟩ := loopPut_ok (lo := v.len) (n := n - v.len) (f := fun _ _ => .ok 0) (r := u) (fun _ => 0)
    (by rw [g2]; dsimp only; omega) (fun _ _ _ _ _ => rfl)
  refine ⟨w, ?_, by rw [h2, g2], fun k hk => ?_⟩
  · unfold truncFill
    rw [g1, Bivar.andThen_ok, h1]
  · rw [h3, g3]
    dsimp only
    by_cases hkL : k < L
    · have := h k hkL
      by_cases hc : k < v.len
      · rw [if_neg (by omega), if_pos (by omega), ← this, if_pos hc]
      · rw [if_pos (by omega), ← this, if_neg hc, p0]
    · rw [if_pos (by omega), hz k (by omega) hk, p0]

/-! ### Coefficients of products -/

theorem mul_coeff (u v : PVec F) (t : Nat) : (u.poly * v.poly).coeff t =
    ∑ j ∈ Finset.range v.len, (if j ≤ t ∧ t - j < u.len then u.at' (t - j) else 0) * v.at' j := by
  conv_lhs => rw [PVec.poly, PVec.poly, Finset.mul_sum]
  rw [finsetSum_coeff]
  refine Finset.sum_congr rfl fun j _ => ?_
  rw [mul_left_comm, coeff_C_mul, coeff_mul_X_pow']
  have := poly_coeff u (t - j)
  rw [PVec.poly] at this
  by_cases h : j ≤ t
  · rw [if_pos h, this]
    by_cases h2 : t - j < u.len
    · rw [if_pos h2, if_pos ⟨h, h2⟩, mul_comm]
    · rw [if_neg h2, if_neg (by omega), mul_comm]
  · rw [if_neg h, if_neg (by omega), mul_zero, zero_mul]

theorem mul_coeff_high {u v : PVec F} {a b : Nat} (ha : ∀ i, i < u.len → a ≤ i → u.at' i = 0) (hb : ∀ i, i < v.len → b ≤ i → v.at' i = 0)
    {t : Nat} (ht : a + b ≤ t + 1) : (u.poly * v.poly).coeff t = 0 := by
  rw [mul_coeff]
  refine Finset.sum_eq_zero fun j hj => ?_
  rw [Finset.mem_range] at hj
  by_cases hjb : b ≤ j
  · rw [hb j hj hjb, mul_zero]
  · split
    · rw [ha _ (by omega) (by omega), zero_mul]
    · rw [zero_mul]

theorem toKron_ok (e0 : Nat → F) {u : PVec F} {D : Nat} (h : u.degX ≤ D) : toKron e0 u (D : Int) = .ok (u.poly.eval (X ^ (D + 1))) :=
  (C89_to_kronecker e0 u D (degX_poly h)).1

theorem ptrunc_mod (f : F[X]) (s : Nat) : ptrunc f s = f %ₘ X ^ s := by
  ext t
  rw [ptrunc_coeff, coeff_mod_X_pow]

theorem mod_congr {f g : F[X]} {s : Nat} (h : X ^ s ∣ f - g) : f %ₘ X ^ s = g %ₘ X ^ s := by
  have := (modByMonic_eq_zero_iff_dvd (monic_X_pow s)).2 h
  rw [sub_modByMonic] at this
  exact sub_eq_zero.1 this

theorem dvd_sub_mod (f : F[X]) (s : Nat) : X ^ s ∣ f - f %ₘ X ^ s :=
  ⟨f /ₘ X ^ s, by linear_combination -(modByMonic_add_div f (q := (X ^ s : F[X])))⟩

theorem sum_trunc {s k : Nat} (a b : Nat → F[X]) :
    (∑ j ∈ Finset.range k, (a j %ₘ X ^ s) * (b j %ₘ X ^ s)) %ₘ X ^ s = (∑ j ∈ Finset.range k, a j * b j) %ₘ X ^ s := by
  refine (mod_congr ?_).symm
  rw [← Finset.sum_sub_distrib]
  refine Finset.dvd_sum fun j _ => ?_
  obtain ⟨x, hx⟩ := dvd_sub_mod (a j) s
  obtain ⟨y, hy⟩ := dvd_sub_mod (b j) s
  exact ⟨x * b j + y * (a j %ₘ X ^ s), by linear_combination b j * hx + (a j %ₘ X ^ s) * hy⟩

end PML.Ntl.StructX
