import Verif.Ntl.StructSpec
import Verif.Ntl.MatUtilsLemmas
import Verif.Ntl.MiddleProps
import Verif.Ntl.InvProps

/-!
# Structured matrices: lemmas
-/

namespace PML.Ntl.Struct

open Polynomial PML.Ntl.Utils PML.Ntl.Inv PML.Ntl.Solve PML.Ntl.Middle

variable {p : Nat} [NeZero p]

section
variable {R : Type} [CommRing R]

/-- Coefficients of a product of two coefficient arrays. -/
theorem ofCoeffs_mul_coeff (a b : Nat) (f g : Nat → R) (k : Nat) :
    (ofCoeffs a f * ofCoeffs b g).coeff k = ∑ j ∈ Finset.range b, if j ≤ k ∧ k - j < a then f (k - j) * g j else 0 := by
  conv_lhs => rw [show ofCoeffs b g = ∑ i ∈ Finset.range b, C (g i) * X ^ i from rfl]
  rw [Finset.mul_sum, finsetSum_coeff]
  refine Finset.sum_congr rfl fun j _ => ?_
  rw [← mul_assoc, coeff_mul_X_pow', coeff_mul_C, ofCoeffs_coeff]
  by_cases h1 : j ≤ k
  · by_cases h2 : k - j < a
    · rw [if_pos h1, if_pos h2, if_pos ⟨h1, h2⟩]
    · rw [if_pos h1, if_neg h2, zero_mul, if_neg (fun h => h2 h.2)]
  · rw [if_neg h1, if_neg (fun h => h1 h.1)]

theorem ofCoeffs_mul_coeff_high (a b : Nat) (f g : Nat → R) (k : Nat) (h : a + b - 1 ≤ k) :
    (ofCoeffs a f * ofCoeffs b g).coeff k = 0 := by
  rw [ofCoeffs_mul_coeff]
  refine Finset.sum_eq_zero fun j hj => ?_
  have := Finset.mem_range.1 hj
  rw [if_neg (by omega)]

/-- A product through the FFT, without wrap-around in the coefficients which are read. -/
theorem fft_coeff [Nontrivial R] (K lo up a b : Nat) (f g : Nat → R) (i : Nat) (hi : lo + i ≤ up) (hK : up + 1 ≤ 2 ^ K)
    (hw : a + b - 1 ≤ lo + i + 2 ^ K) :
    (fromRep lo up (mulRep K (toRepAll K (ofCoeffs a f)) (toRepAll K (ofCoeffs b g)))).coeff i =
      (ofCoeffs a f * ofCoeffs b g).coeff (lo + i) := by
  unfold fromRep mulRep toRepAll
  rw [slice_coeff, if_pos (by omega), cyc_mul (by positivity)]
  exact cyc_coeff_eq (by omega) fun n hn => ofCoeffs_mul_coeff_high _ _ _ _ _ (by omega)

end

/-! ### Toeplitz and Hankel -/

/-- What the constructor establishes. -/
structure Made (t : Band p) (a : Nat → ZMod p) : Prop where
  pos : 0 < t.n + t.m
  len : t.n + t.m - 1 ≤ t.data.len
  data : ∀ i, i < t.n + t.m - 1 → t.data.e i = a i
  rev : ∀ i, i < t.n + t.m - 1 → t.rev i = a (t.n + t.m - 2 - i)
  fft : t.fft = toRepAll (nextPow2 (t.n + t.m - 1)) (ofCoeffs (t.n + t.m - 1) t.rev)

theorem make_made (input : NVec (ZMod p)) (n m : Nat) (h0 : 0 < n + m) (hl : n + m - 1 ≤ input.len) :
    ∃ t, Band.make input n m = .ok t ∧ t.n = n ∧ t.m = m ∧ Made t input.e := by
  unfold Band.make
  rw [if_neg (by omega), if_neg (by omega)]
  exact ⟨_, rfl, rfl, rfl, h0, hl, fun _ _ => rfl, fun _ _ => rfl, rfl⟩

theorem core_spec [Fact (1 < p)] {red : Nat → ZMod p} (hred : RedOK red) {t : Band p} {a : Nat → ZMod p} (ht : Made t a)
    (cross sb sa : Nat) (hs : sa + sb = t.n + t.m) (hmax : max sa sb = max t.n t.m) (kar inX : Nat → ZMod p)
    (hx : ∀ i, i < sa → inX i = kar (sa - 1 - i)) (hno : NoOverflow p cross t.n t.m sa) :
    ∃ r, t.core red cross sb sa kar inX = .ok r ∧
      ∀ j, j < sb → r j = ∑ i ∈ Finset.range sa, kar i * a (t.n + t.m - 2 - (i + j)) := by
  have hpos := ht.pos
  have hrev : ∀ j, j < sb → conv kar t.rev sa j = ∑ i ∈ Finset.range sa, kar i * a (t.n + t.m - 2 - (i + j)) := by
    intro j hj
    refine Finset.sum_congr rfl fun i hi => ?_
    have := Finset.mem_range.1 hi
    rw [ht.rev _ (by omega)]
  unfold Band.core
  by_cases hk : min t.n t.m ≤ 2 * cross / 4
  · rw [if_pos hk, if_neg (by omega)]
    have hsafe : Safe (useLong p) p sa := fun hu => hno hk hu
    obtain ⟨b, e, hb⟩ : ∃ b, tKar red (useLong p) (t.n + t.m + 1) 0 sb kar sa t.rev (t.n + t.m - 1)
        (karStkSize (max t.n t.m)) = some b ∧ ∀ j, b j = if j < sb then conv kar t.rev sa j else 0 := by
      by_cases h1 : 1 ≤ sa ∧ 1 ≤ sb
      · refine tKar_spec hred _ _ 0 sb kar sa t.rev _ _ (by omega) h1.1 h1.2 (by omega) ?_ hsafe
        rw [hmax]; exact need_le _
      · unfold tKar
        rw [if_pos (by unfold KARX; omega)]
        exact tPlainMul2_spec hred 0 kar t.rev sa sb _ _ (fun i j hi hj => by omega) hsafe
    rw [e]
    refine ⟨b, rfl, fun j hj => ?_⟩
    rw [hb, if_pos hj, hrev j hj]
  · rw [if_neg hk]
    have hmn : 0 < t.n ∧ 0 < t.m := by omega
    have hsa : 0 < sa := by omega
    refine ⟨_, rfl, fun j hj => ?_⟩
    have hK := le_nextPow2 (t.n + t.m - 1)
    rw [ht.fft, fft_coeff _ _ _ _ _ _ _ _ (by omega) (by omega) (by omega), mul_comm, ofCoeffs_mul_coeff, ← hrev j hj]
    unfold conv
    rw [← Finset.sum_range_reflect]
    refine Finset.sum_congr rfl fun i hi => ?_
    have := Finset.mem_range.1 hi
    rw [if_pos (by omega), hx _ (by omega), mul_comm]
    congr 2 <;> omega

theorem swapLoop_spec (n : Nat) (r : Nat → ZMod p) : ∀ i, i < n → swapLoop n r i = r (n - 1 - i) := by
  have h : ∀ x, x < n → swapLoop n r x = if x < (n + 1) / 2 ∨ n - 1 - x < (n + 1) / 2 then r (n - 1 - x) else r x := by
    unfold swapLoop
    refine forN_inv (P := fun (k : Nat) (y : Nat → ZMod p) =>
      ∀ x, x < n → y x = if x < k ∨ n - 1 - x < k then r (n - 1 - x) else r x)
      (fun x _ => by rw [if_neg (by omega)]) ?_
    intro i y hi hy x hx
    unfold write
    have y1 : y i = r i := by rw [hy i (by omega), if_neg (by omega)]
    have y2 : y (n - 1 - i) = r (n - 1 - i) := by rw [hy _ (by omega), if_neg (by omega)]
    by_cases e1 : x = n - 1 - i
    · rw [e1, Function.update_self, y1, if_pos (by omega), show n - 1 - (n - 1 - i) = i by omega]
    · rw [Function.update_of_ne e1]
      by_cases e2 : x = i
      · rw [e2, Function.update_self, y2, if_pos (by omega)]
      · rw [Function.update_of_ne e2, hy x hx]
        by_cases e3 : x < i ∨ n - 1 - x < i
        · rw [if_pos e3, if_pos (by omega)]
        · rw [if_neg e3, if_neg (by omega)]
  intro i hi
  rw [h i hi]
  by_cases e : i < (n + 1) / 2 ∨ n - 1 - i < (n + 1) / 2
  · rw [if_pos e]
  · omega

theorem loopOut_inv {σ : Type} (P : Nat → σ → Prop) {f : Nat → σ → Out σ} {s : σ} :
    ∀ {k : Nat}, P 0 s → (∀ i t, i < k → P i t → ∃ u, f i t = .ok u ∧ P (i + 1) u) → ∃ u, loopOut k f s = .ok u ∧ P k u
  | 0, h0, _ => ⟨s, rfl, h0⟩
  | k + 1, h0, h => by
    obtain ⟨u, e, hu⟩ := loopOut_inv P (k := k) h0 fun i t hi => h i t (by omega)
    obtain ⟨w, ew, hw⟩ := h k u (by omega) hu
    refine ⟨w, ?_, hw⟩
    show andThen (loopOut k f s) (f k) = _
    rw [e]; exact ew

/-- One column of the result. -/
theorem col_write (n i : Nat) (v : Nat → ZMod p) (g : Nat → Nat) (hg : ∀ j, j < n → g (g j) = j ∧ g j < n)
    (y : Nat × Nat → ZMod p) (a b : Nat) :
    forN n (fun j => write (g j, i) (v j)) y (a, b) = if a < n ∧ b = i then v (g a) else y (a, b) := by
  have h : ∀ a b, forN n (fun j => write (g j, i) (v j)) y (a, b) = if (a < n ∧ g a < n) ∧ b = i then v (g a) else y (a, b) := by
    refine forN_inv (n := n) (P := fun (k : Nat) (x : Nat × Nat → ZMod p) =>
      ∀ a b, x (a, b) = if (a < n ∧ g a < k) ∧ b = i then v (g a) else y (a, b)) (fun a b => by rw [if_neg (by omega)]) ?_
    intro k x hk hx a b
    unfold write
    by_cases e : (a, b) = (g k, i)
    · obtain ⟨rfl, rfl⟩ := Prod.mk.inj e
      rw [Function.update_self, if_pos ⟨⟨(hg k hk).2, by rw [(hg k hk).1]; omega⟩, rfl⟩, (hg k hk).1]
    · rw [Function.update_of_ne e, hx]
      by_cases h1 : (a < n ∧ g a < k) ∧ b = i
      · rw [if_pos h1, if_pos ⟨⟨h1.1.1, by omega⟩, h1.2⟩]
      · rw [if_neg h1, if_neg]
        rintro ⟨⟨h2, h3⟩, h4⟩
        refine h1 ⟨⟨h2, ?_⟩, h4⟩
        by_contra h5
        have h6 : g a = k := by omega
        exact e (by rw [← h6, (hg a h2).1, h4])
  rw [h]
  by_cases h1 : a < n ∧ b = i
  · rw [if_pos h1, if_pos ⟨⟨h1.1, (hg a h1.1).2⟩, h1.2⟩]
  · rw [if_neg h1, if_neg (fun h => h1 ⟨h.1.1, h.2⟩)]

/-- One row of the result. -/
theorem row_write (m i : Nat) (v : Nat → ZMod p) (y : Nat × Nat → ZMod p) (a b : Nat) :
    forN m (fun j => write (i, j) (v j)) y (a, b) = if a = i ∧ b < m then v b else y (a, b) := by
  refine forN_inv (n := m) (P := fun (k : Nat) (x : Nat × Nat → ZMod p) =>
    x (a, b) = if a = i ∧ b < k then v b else y (a, b)) (by rw [if_neg (by omega)]) ?_
  intro k x hk hx
  unfold write
  by_cases e : (a, b) = (i, k)
  · obtain ⟨rfl, rfl⟩ := Prod.mk.inj e
    rw [Function.update_self, if_pos ⟨rfl, by omega⟩]
  · rw [Function.update_of_ne e, hx]
    by_cases h1 : a = i ∧ b < k
    · rw [if_pos h1, if_pos ⟨h1.1, by omega⟩]
    · rw [if_neg h1, if_neg]
      rintro ⟨h2, h3⟩
      exact h1 ⟨h2, by by_contra h5; exact e (by rw [h2, show b = k by omega])⟩

/-! ### Circulant matrices -/

/-- `(i - k) mod d` -/
def cmod (d i k : Nat) : Nat := (((i : Int) - k) % d).toNat

theorem cmod_le {d i k : Nat} (hi : i < d) (hk : k ≤ i) : cmod d i k = i - k := by
  unfold cmod
  rw [Int.emod_eq_of_lt (by omega) (by omega)]; omega

theorem cmod_gt {d i k : Nat} (hi : i < d) (hk : i < k) (hd : k < d) : cmod d i k = i + d - k := by
  unfold cmod
  rw [← Int.add_emod_right, Int.emod_eq_of_lt (by omega) (by omega)]; omega

theorem cmod_shift (d i k r : Nat) : cmod d i (k + r * d) = cmod d i k := by
  unfold cmod
  congr 1
  have : (i : Int) - ((k + r * d : Nat) : Int) = (i : Int) - k + d * (-r : Int) := by push_cast; ring
  rw [this, Int.add_mul_emod_self_left]

theorem cmod_left (d i k r : Nat) : cmod d (i + r * d) k = cmod d i k := by
  unfold cmod
  congr 1
  have : ((i + r * d : Nat) : Int) - k = (i : Int) - k + d * (r : Int) := by push_cast; ring
  rw [this, Int.add_mul_emod_self_left]

/-- Folding a product of polynomials modulo `x^d - 1`. -/
theorem fold_coeff (d l : Nat) (b v : Nat → ZMod p) (hl : l ≤ d) (i : Nat) (hi : i < d) :
    (ofCoeffs d b * ofCoeffs l v).coeff i + (ofCoeffs d b * ofCoeffs l v).coeff (i + d) =
      ∑ k ∈ Finset.range l, b (cmod d i k) * v k := by
  rw [ofCoeffs_mul_coeff, ofCoeffs_mul_coeff, ← Finset.sum_add_distrib]
  refine Finset.sum_congr rfl fun k hk => ?_
  have := Finset.mem_range.1 hk
  by_cases h : k ≤ i
  · rw [if_pos (by omega), if_neg (by omega), add_zero, cmod_le hi h]
  · rw [if_neg (by omega), if_pos (by omega), zero_add, cmod_gt hi (by omega) (by omega)]

/-- The array `out`, where the last entry is set to zero. -/
theorem out_coeff [Fact (1 < p)] (K d l : Nat) (hd : 0 < d) (hl : 0 < l) (hK : d + l - 1 ≤ 2 ^ K) (b v : Nat → ZMod p) (i : Nat)
    (hi : i < d + l) :
    write (d + l - 1) 0 (fun i => (fromRep 0 (d + l - 2)
      (mulRep K (toRepAll K (ofCoeffs d b)) (toRepAll K (ofCoeffs l v)))).coeff i) i =
      (ofCoeffs d b * ofCoeffs l v).coeff i := by
  unfold write
  by_cases e : i = d + l - 1
  · rw [e, Function.update_self, ofCoeffs_mul_coeff_high _ _ _ _ _ (by omega)]
  · rw [Function.update_of_ne e, fft_coeff _ _ _ _ _ _ _ _ (by omega) (by omega) (by omega), Nat.zero_add]

/-- The product by chunks. -/
theorem chunks_spec [Fact (1 < p)] (d q : Nat) (hd : 0 < d) (hq : 0 < q) (b v : Nat → ZMod p) :
    ∃ r, chunks (toRepAll (nextPow2 (d + (if q % d = 0 then d else q % d) - 1)) (ofCoeffs d b))
        (toRepAll (nextPow2 (d + d - 1)) (ofCoeffs d b)) d q v = .ok r ∧
      ∀ i, i < d → r i = ∑ k ∈ Finset.range q, b (cmod d i k) * v k := by
  have hdiv := Nat.div_add_mod q d
  have hmod := Nat.mod_lt q hd
  have hnz : ¬(q % d = 0 ∧ q / d = 0) := by
    rintro ⟨h1, h2⟩
    rw [h1, h2] at hdiv; omega
  unfold chunks
  rw [if_neg (by omega)]
  dsimp only
  rw [if_neg hnz]
  obtain ⟨l, hl⟩ : ∃ l, (if q % d = 0 then d else q % d) = l := ⟨_, rfl⟩
  obtain ⟨nb, hnb⟩ : ∃ nb, (if q % d = 0 then q / d - 1 else q / d) = nb := ⟨_, rfl⟩
  rw [hl, hnb]
  have hl0 : 0 < l ∧ l ≤ d ∧ nb * d + l = q := by
    by_cases h : q % d = 0
    · rw [if_pos h] at hl hnb
      obtain ⟨c, hc⟩ : ∃ c, q / d = c + 1 := Nat.exists_eq_succ_of_ne_zero fun e => hnz ⟨h, e⟩
      subst hl
      refine ⟨hd, le_refl _, ?_⟩
      rw [← hnb, hc, Nat.add_sub_cancel]
      rw [hc, h] at hdiv
      linarith [Nat.mul_comm c d, Nat.mul_add d c 1]
    · rw [if_neg h] at hl hnb
      subst hl hnb
      refine ⟨by omega, by omega, ?_⟩
      rw [Nat.mul_comm]; exact hdiv
  refine ⟨_, rfl, ?_⟩
  have hfin := forN_inv (n := nb) (P := fun (R : Nat) (res : Nat → ZMod p) => ∀ i, i < d → res i =
    ∑ k ∈ Finset.range l, b (cmod d i k) * v (k + nb * d) + ∑ k ∈ Finset.range (R * d), b (cmod d i k) * v k)
    (s := fun i => if i < l then
        write (d + l - 1) 0 (fun i => (fromRep 0 (d + l - 2) (mulRep (nextPow2 (d + l - 1))
          (toRepAll (nextPow2 (d + l - 1)) (ofCoeffs d b)) (toRepAll (nextPow2 (d + l - 1))
          (ofCoeffs l fun i => v (i + nb * d))))).coeff i) i +
        write (d + l - 1) 0 (fun i => (fromRep 0 (d + l - 2) (mulRep (nextPow2 (d + l - 1))
          (toRepAll (nextPow2 (d + l - 1)) (ofCoeffs d b)) (toRepAll (nextPow2 (d + l - 1))
          (ofCoeffs l fun i => v (i + nb * d))))).coeff i) (i + d)
      else write (d + l - 1) 0 (fun i => (fromRep 0 (d + l - 2) (mulRep (nextPow2 (d + l - 1))
          (toRepAll (nextPow2 (d + l - 1)) (ofCoeffs d b)) (toRepAll (nextPow2 (d + l - 1))
          (ofCoeffs l fun i => v (i + nb * d))))).coeff i) i)
    (f := fun r res =>
      let K := nextPow2 (2 * d - 1)
      let o := fromRep 0 (d + d - 2) (mulRep K (toRepAll (nextPow2 (d + d - 1)) (ofCoeffs d b))
        (toRepAll K (ofCoeffs d fun i => v (i + r * d))))
      let out := write (d + d - 1) 0 fun i => o.coeff i
      fun i => if i < d then res i + (out i + out (i + d)) else res i) ?_ ?_
  · intro i hi
    refine (hfin i hi).trans ?_
    rw [← hl0.2.2, Finset.sum_range_add, add_comm]
    congr 1
    refine Finset.sum_congr rfl fun k _ => ?_
    rw [Nat.add_comm (nb * d) k, cmod_shift]
  · intro i hi
    rw [Nat.zero_mul, Finset.sum_range_zero, add_zero, ← fold_coeff d l b _ hl0.2.1 i hi,
      out_coeff _ d l hd hl0.1 (le_nextPow2 _) b _ i (by omega)]
    by_cases h : i < l
    · rw [if_pos h, out_coeff _ d l hd hl0.1 (le_nextPow2 _) b _ (i + d) (by omega)]
    · rw [if_neg h, ofCoeffs_mul_coeff_high _ _ _ _ (i + d) (by omega), add_zero]
  · intro R res hR hres i hi
    dsimp only
    rw [if_pos hi, hres i hi, two_mul, out_coeff _ d d hd hd (le_nextPow2 _) b _ i (by omega),
      out_coeff _ d d hd hd (le_nextPow2 _) b _ (i + d) (by omega), fold_coeff d d b _ (le_refl _) i hi,
      Nat.add_mul, Nat.one_mul, Finset.sum_range_add, add_assoc]
    congr 2
    refine Finset.sum_congr rfl fun k _ => ?_
    rw [Nat.add_comm (R * d) k, cmod_shift]

theorem repeatLoop_spec (d q : Nat) (hd : 0 < d) (G : Nat → ZMod p) (hG : ∀ i, G (i + d) = G i) :
    ∀ (fuel done left : Nat) (res : Nat → ZMod p), left ≤ fuel → 0 < left → d ≤ done → done + left = q →
      (∀ i, i < done → res i = G i) → ∃ r, repeatLoop d fuel done left res = .ok r ∧ ∀ i, i < q → r i = G i := by
  intro fuel
  induction fuel with
  | zero => intro done left res h1 h2; omega
  | succ fuel ih =>
    intro done left res h1 h2 h3 h4 h5
    unfold repeatLoop
    dsimp only
    have h6 : ∀ x, x < done + min left d →
        forN (min left d) (fun i r => write (done + i) (r (done + i - d)) r) res x = G x := by
      refine forN_inv (P := fun (k : Nat) (r : Nat → ZMod p) => ∀ x, x < done + k → r x = G x) (fun x hx => h5 x hx) ?_
      intro k r hk hr x hx
      unfold write
      by_cases e : x = done + k
      · subst e
        rw [Function.update_self, hr _ (by omega), ← hG]
        congr 1; omega
      · rw [Function.update_of_ne e, hr x (by omega)]
    by_cases hl : left - min left d ≥ 1
    · rw [if_pos hl]
      exact ih _ _ _ (by omega) (by omega) (by omega) (by omega) h6
    · rw [if_neg hl]
      exact ⟨_, rfl, fun i hi => h6 i (by omega)⟩

/-- The product by one period. -/
theorem period_spec [Fact (1 < p)] (d q slen : Nat) (hd : 0 < d) (hs : d ≤ slen) (b v : Nat → ZMod p) :
    ∃ r, period (toRepAll (nextPow2 (d + d - 1)) (ofCoeffs d b)) d q slen v = .ok r ∧
      ∀ i, i < q → r i = ∑ k ∈ Finset.range d, b (cmod d i k) * v k := by
  unfold period
  rw [if_neg (by omega), if_neg (by omega)]
  dsimp only
  have hin : (ofCoeffs slen fun i => if i < d then v i else 0) = ofCoeffs d v := by
    ext k
    rw [ofCoeffs_coeff, ofCoeffs_coeff]
    by_cases h : k < d
    · rw [if_pos (by omega), if_pos h]
    · rw [if_neg h]; simp
  rw [hin, two_mul]
  have hres : ∀ i, i < min q d → (if i < min q d then
      write (d + d - 1) 0 (fun i => (fromRep 0 (d + d - 2) (mulRep (nextPow2 (d + d - 1))
        (toRepAll (nextPow2 (d + d - 1)) (ofCoeffs d b)) (toRepAll (nextPow2 (d + d - 1)) (ofCoeffs d v)))).coeff i) i +
      write (d + d - 1) 0 (fun i => (fromRep 0 (d + d - 2) (mulRep (nextPow2 (d + d - 1))
        (toRepAll (nextPow2 (d + d - 1)) (ofCoeffs d b)) (toRepAll (nextPow2 (d + d - 1)) (ofCoeffs d v)))).coeff i) (i + d)
      else 0) = ∑ k ∈ Finset.range d, b (cmod d i k) * v k := by
    intro i hi
    rw [if_pos hi, out_coeff _ d d hd hd (le_nextPow2 _) b _ i (by omega),
      out_coeff _ d d hd hd (le_nextPow2 _) b _ (i + d) (by omega), fold_coeff d d b _ (le_refl _) i (by omega)]
  by_cases h : d < q
  · rw [if_pos h]
    refine repeatLoop_spec d q hd (fun i => ∑ k ∈ Finset.range d, b (cmod d i k) * v k) (fun i => ?_) q d (q - d) _
      (by omega) (by omega) (le_refl _) (by omega) (fun i hi => hres i (by omega))
    refine Finset.sum_congr rfl fun k _ => ?_
    have := cmod_left d i k 1
    rw [Nat.one_mul] at this
    rw [this]
  · rw [if_neg h]
    exact ⟨_, rfl, fun i hi => hres i (by omega)⟩

theorem emod_unique {x : Int} {d c : Nat} (q : Int) (hc : c < d) (h : x = d * q + c) : (x % d).toNat = c := by
  rw [h, Int.add_comm, Int.add_mul_emod_self_left, Int.emod_eq_of_lt (by omega) (by omega)]; omega

theorem cmod_exists (d i k : Nat) (hd : 0 < d) : cmod d i k < d ∧ ∃ q : Int, (i : Int) - k = d * q + cmod d i k := by
  unfold cmod
  have h1 := Int.emod_nonneg ((i : Int) - k) (show (d : Int) ≠ 0 by omega)
  have h2 := Int.emod_lt_of_pos ((i : Int) - k) (show (0 : Int) < d by omega)
  refine ⟨by omega, ((i : Int) - k) / d, ?_⟩
  have := Int.mul_ediv_add_emod ((i : Int) - k) d
  omega

/-- `i - j - 1` and `j - i`. -/
theorem pred_neg (d i j : Nat) (hd : 0 < d) : (((i : Int) - j - 1) % d).toNat = d - 1 - cmod d j i := by
  obtain ⟨h1, q, h2⟩ := cmod_exists d j i hd
  refine emod_unique (-q - 1) (by omega) ?_
  have h3 : ((d - 1 - cmod d j i : Nat) : Int) = d - 1 - cmod d j i := by omega
  rw [h3]; linear_combination -h2

/-- `i - j - 1` and `i - j`. -/
theorem pred_mod (d i j : Nat) (hd : 0 < d) :
    (((i : Int) - j - 1) % d).toNat = if cmod d i j = 0 then d - 1 else cmod d i j - 1 := by
  obtain ⟨h1, q, h2⟩ := cmod_exists d i j hd
  by_cases h : cmod d i j = 0
  · rw [if_pos h]
    refine emod_unique (q - 1) (by omega) ?_
    have h3 : ((d - 1 : Nat) : Int) = d - 1 := by omega
    rw [h] at h2
    rw [h3]; push_cast at h2; linear_combination h2
  · rw [if_neg h]
    refine emod_unique q (by omega) ?_
    have h3 : ((cmod d i j - 1 : Nat) : Int) = cmod d i j - 1 := by omega
    rw [h3]; linear_combination h2

/-- `i - j` and `j - i`. -/
theorem neg_mod (d i j : Nat) (hd : 0 < d) : cmod d i j = if cmod d j i = 0 then 0 else d - 1 - (cmod d j i - 1) := by
  obtain ⟨h1, q, h2⟩ := cmod_exists d j i hd
  by_cases h : cmod d j i = 0
  · rw [if_pos h]
    refine emod_unique (-q) (by omega) ?_
    rw [h] at h2
    push_cast at h2 ⊢; linear_combination -h2
  · rw [if_neg h]
    refine emod_unique (-q - 1) (by omega) ?_
    have h3 : ((d - 1 - (cmod d j i - 1) : Nat) : Int) = d - cmod d j i := by omega
    rw [h3]; linear_combination -h2

end PML.Ntl.Struct
