import Verif.WordCrt.Lemmas

/-!
# Properties of word-size Chinese remaindering and reduction
-/

namespace PML.WordCrt

open PML.Word PML.Crt.Spec PML.Crt Finset

/-! ### Loops -/

theorem tailLoop_spec (f : Nat → Option Nat) (i0 : Nat) (out : Nat → Nat) (k i : Nat) :
    tailLoop f i0 out k i = if i0 ≤ i ∧ i < i0 + k then (f i).getD (out i) else out i := by
  induction k with
  | zero => rw [if_neg (by omega)]; rfl
  | succ k ih =>
    unfold tailLoop store
    by_cases hik : i = i0 + k
    · subst hik
      rw [if_pos (by omega)]
      cases h : f (i0 + k) with
      | none => simp only [ih]; rw [if_neg (by omega)]; rfl
      | some x => simp
    · cases h : f (i0 + k) with
      | none => simp only [ih]; congr 1; simp only [eq_iff_iff]; omega
      | some x =>
        simp only [Function.update_of_ne hik, ih]; congr 1; simp only [eq_iff_iff]; omega

theorem store_eq (f : Nat → Option Nat) (k : Nat) (out : Nat → Nat) (i : Nat) :
    store f k out i = if i = k then (f i).getD (out i) else out i := by
  unfold store
  by_cases h : i = k
  · subst h
    rw [if_pos rfl]
    cases f i <;> simp
  · rw [if_neg h]
    cases f k <;> simp [h]

theorem vecLoop_spec (f : Nat → Option Nat) (out : Nat → Nat) (k i : Nat) :
    vecLoop f out k i = if i < 4 * k then (f i).getD (out i) else out i := by
  induction k with
  | zero => rw [if_neg (by omega)]; rfl
  | succ k ih =>
    simp only [vecLoop, store_eq, ih]
    split_ifs <;> first | rfl | omega

theorem loops_spec (f : Nat → Option Nat) (nb : Nat) (out : Nat → Nat) (i : Nat) :
    loops f nb out i = if i < nb then (f i).getD (out i) else out i := by
  unfold loops
  rw [tailLoop_spec, vecLoop_spec]
  split_ifs <;> first | rfl | omega

/-! ### Entries -/

theorem smallEntry_spec {v : VecOps} (hv : VecOK v) {C : Crt} {p : Nat} (hC : Consts C p) (hp : 0 < p)
    (hp' : p < 2 ^ 50) (hCp : C.p = p) {r : Nat → Nat} (hk1 : 1 ≤ C.num) (hk4 : C.num ≤ 4)
    (hr : ∀ j, j < C.num → r j < prime j) {V : Int} (hV : IsCrt prime C.num r V) :
    smallEntry v C r = some (V % p) := by
  have hpi : (0 : Int) < p := by exact_mod_cast hp
  have hpi' : (p : Int) < 2 ^ 50 := by exact_mod_cast hp'
  have hVe := isCrt_unique (prime_moduli C.num hk4) hV (mixed_isCrt hv hC C.num hk1 hk4 hr)
  have h0 := hr 0 (by omega)
  have hlt : ∀ x : Int, 0 ≤ x % (p : Int) ∧ x % (p : Int) < p := fun x =>
    ⟨Int.emod_nonneg _ (by omega), Int.emod_lt_of_pos _ hpi⟩
  have pl : ∀ j, (prime j : Int) < 2 ^ 50 := fun j => by exact_mod_cast prime_lt j
  have q0 := pl 0
  have q1 := pl 1
  have q2 := pl 2
  have q3 := pl 3
  have z0 : redz v (r 0) p = (r 0 : Int) % p := redz_eq hv hpi hpi' (by omega) (by omega)
  -- products by reduced constants
  have hm : ∀ a c : Int, 0 ≤ a → a < 2 ^ 50 → mulz v (v.redPm a p) (c % p) p = a * c % p := by
    intro a c ha ha'
    obtain ⟨h1, h2, h3⟩ := hv.redPm a p hpi hpi' ha ha'
    rw [mulz_eq hv hpi hpi' (by omega) (by omega) (hlt c).1 (hlt c).2, Int.mul_emod, h3, Int.emod_emod,
      ← Int.mul_emod]
  have hadd : ∀ a b : Int, addmod (a % p) (b % p) p = (a + b) % p := fun a b => by
    rw [addmod_eq (hlt a).1 (hlt a).2 (hlt b).1 (hlt b).2, ← Int.add_emod]
  have hk : C.num = 1 ∨ C.num = 2 ∨ C.num = 3 ∨ C.num = 4 := by omega
  unfold smallEntry
  simp only [hCp]
  rcases hk with hk | hk | hk | hk <;> rw [hk] at hVe hr
  · rw [if_pos hk, z0, hVe]
    rfl
  · obtain ⟨a1, a2⟩ := alpha1_range hv hC h0 (hr 1 (by omega))
    rw [if_neg (by omega), if_pos hk, z0, redz_eq hv hpi hpi' a1 (by omega), hC.p0]
    have e : mulz v (alpha1 v C r % p) ((prime 0 : Int) % p) p = (prime 0 * alpha1 v C r) % p := by
      have b1 := hlt (alpha1 v C r)
      rw [mulz_eq hv hpi hpi' (by omega) (by omega) (hlt _).1 (hlt _).2, ← Int.mul_emod, mul_comm]
    rw [e, hadd, hVe]
    rfl
  · obtain ⟨a1, a2⟩ := alpha1_range hv hC h0 (hr 1 (by omega))
    obtain ⟨b1, b2⟩ := alpha2_range hv hC h0 (hr 1 (by omega)) (hr 2 (by omega))
    rw [if_neg (by omega), if_neg (by omega), if_pos hk, z0, hC.p0, hC.p01, hm _ _ a1 (by omega),
      hm _ _ b1 (by omega), hadd, hadd, hVe]
    congr 2
    show _ = (r 0 : Int) + prime 0 * alpha1 v C r + prime 0 * prime 1 * alpha2 v C r
    ring
  · obtain ⟨a1, a2⟩ := alpha1_range hv hC h0 (hr 1 (by omega))
    obtain ⟨b1, b2⟩ := alpha2_range hv hC h0 (hr 1 (by omega)) (hr 2 (by omega))
    obtain ⟨c1, c2⟩ := alpha3_range hv hC h0 (hr 1 (by omega)) (hr 2 (by omega)) (hr 3 (by omega))
    rw [if_neg (by omega), if_neg (by omega), if_neg (by omega), if_pos hk, z0, hC.p0, hC.p01, hC.p012,
      hm _ _ a1 (by omega), hm _ _ b1 (by omega), hm _ _ c1 (by omega), hadd, hadd, hadd, hVe]
    congr 2
    show _ = (r 0 : Int) + prime 0 * alpha1 v C r + prime 0 * prime 1 * alpha2 v C r +
      prime 0 * prime 1 * prime 2 * alpha3 v C r
    ring

theorem init_large {avx : Bool} {p : Nat} (h : ¬(avx = true ∧ p < 2 ^ 50)) (v : VecOps) (w : WordOps) {k : Nat}
    (hk : k ≠ 0) : (init avx v w p k).num = k ∧ (init avx v w p k).p = p ∧
    (init avx v w p k).prod = modProd prime k ∧
    (∀ i, (init avx v w p k).cofactor i = modProd prime k / prime i) ∧
    (∀ i, (init avx v w p k).inverse_cofactors i =
      w.inv (modProd prime k / prime i % prime i) (prime i)) := by
  have e : init avx v w p k = _ := if_neg h
  rw [e]
  have e2 : prodTo k = modProd prime k := prodLoop_eq _ _
  simp only [if_neg hk, e2]
  exact ⟨trivial, trivial, trivial, fun _ => trivial, fun _ => trivial⟩

theorem bigSum_isCrt {avx : Bool} {p : Nat} (h : ¬(avx = true ∧ p < 2 ^ 50)) (v : VecOps) {w : WordOps}
    (hw : WordOK w) {k : Nat} (hk1 : 1 ≤ k) (hk4 : k ≤ 4) {r : Nat → Nat} (hr : ∀ j, j < k → r j < prime j) :
    IsCrt prime k r ((bigSum (init avx v w p k) r k % modProd prime k : Nat) : Int) := by
  obtain ⟨-, -, -, i4, i5⟩ := init_large h v w (k := k) (by omega)
  have hm := prime_moduli k hk4
  have hs : ∀ n, n ≤ k → bigSum (init avx v w p k) r n = ∑ j ∈ range n,
      (r j * w.inv (cofactor prime k j % prime j) (prime j) % prime j) * (modProd prime k / prime j) := by
    intro n
    induction n with
    | zero => intro _; rfl
    | succ n ih =>
      intro hn
      rw [bigSum, ih (by omega), sum_range_succ, i4, i5, modProd_div hm (by omega : n < k)]
      congr 1
      rw [mul_comm, mul_comm (r n)]
  have hcs := combSum_eq hm (fun i => r i * w.inv (cofactor prime k i % prime i) (prime i) % prime i)
  have hb : bigSum (init avx v w p k) r k = combSum prime
      (fun i => r i * w.inv (cofactor prime k i % prime i) (prime i) % prime i) k := hs k (le_refl _)
  rw [hb]
  push_cast
  rw [hcs]
  refine crt_correct hm r (fun i => w.inv (cofactor prime k i % prime i) (prime i)) hr fun i hi => ?_
  have := inv_facts hw (hm.two_le i hi) (cofactor_coprime hm hi)
  exact_mod_cast this.2.2

theorem limbs_two (s : Nat) (h : s < W ^ 2) : limb s 1 * W + limb s 0 = s := by
  unfold limb
  have e : s / W ^ 1 < W := by
    rw [pow_one]; exact Nat.div_lt_of_lt_mul (by rw [← pow_two]; exact h)
  rw [Nat.mod_eq_of_lt e, pow_one, pow_zero, Nat.div_one, mul_comm]
  exact Nat.div_add_mod _ _

theorem limbs_three (s : Nat) (h : s < W ^ 3) : limb s 2 * W ^ 2 + limb s 1 * W + limb s 0 = s := by
  have e1 : s / W ^ 2 < W := Nat.div_lt_of_lt_mul (by rw [← pow_succ]; exact h)
  have e2 : limb s 2 = s / W ^ 2 := Nat.mod_eq_of_lt e1
  have e3 : limb s 1 = limb (s % W ^ 2) 1 := by
    unfold limb
    rw [pow_one, pow_two, Nat.mod_mul_right_div_self, Nat.mod_mod]
  have e4 : limb s 0 = limb (s % W ^ 2) 0 := by
    unfold limb
    rw [pow_zero, Nat.div_one, Nat.div_one, pow_two, Nat.mod_mul_right_mod]
  have := limbs_two (s % W ^ 2) (Nat.mod_lt _ (by norm_num [W]))
  rw [e2, e3, e4, add_assoc, this, mul_comm]
  exact Nat.div_add_mod _ _

theorem largeEntry_spec {avx : Bool} {p : Nat} (h : ¬(avx = true ∧ p < 2 ^ 50)) (hp : 0 < p) (hp' : p < 2 ^ 64)
    (v : VecOps) {w : WordOps} (hw : WordOK w) {k : Nat} (hk1 : 1 ≤ k) (hk4 : k ≤ 4) {r : Nat → Nat}
    (hr : ∀ j, j < k → r j < prime j) {V : Int} (hV : IsCrt prime k r V)
    (hb : k ≤ 2 ∨ V < p * 2 ^ 128) : largeEntry w (init avx v w p k) r = some (V % p).toNat := by
  obtain ⟨i1, i2, i3, -, -⟩ := init_large h v w (k := k) (by omega)
  have hs := bigSum_isCrt h v hw hk1 hk4 hr
  have hVe := isCrt_unique (prime_moduli k hk4) hV hs
  unfold largeEntry
  simp only [i1, i2, i3]
  generalize bigSum (init avx v w p k) r k % modProd prime k = s at hs hVe
  subst hVe
  have et : ((s : Int) % p).toNat = s % p := by
    have : ((s : Int) % p) = ((s % p : Nat) : Int) := by push_cast; rfl
    rw [this]; rfl
  rw [et]
  have hlim : ∀ j, limb s j < 2 ^ 64 := fun j => by unfold limb; exact Nat.mod_lt _ (by norm_num [W])
  have three : s < p * 2 ^ 128 → w.red3 (limb s 2) (limb s 1) (limb s 0) p = s % p := by
    intro hsb
    have hW : W = 2 ^ 64 := rfl
    have hlt3 : s < W ^ 3 := by
      have : p * 2 ^ 128 ≤ 2 ^ 64 * 2 ^ 128 := Nat.mul_le_mul_right _ (by omega)
      rw [hW]; omega
    have hhi : limb s 2 < p := by
      refine lt_of_le_of_lt (Nat.mod_le _ _) (Nat.div_lt_of_lt_mul ?_)
      rw [hW, mul_comm]; exact hsb
    rw [hw.red3 _ _ _ _ hhi hp' (hlim 1) (hlim 0), limbs_three s hlt3]
  have hk : k = 1 ∨ k = 2 ∨ k = 3 ∨ k = 4 := by omega
  rcases hk with rfl | rfl | rfl | rfl
  · rw [if_pos rfl]
    congr 2
    have h1 := hs.residue 0 (by omega)
    have h2 := hs.lt
    simp only [modProd, prod_range_succ, prod_range_zero, one_mul] at h2
    rw [Int.emod_eq_of_lt (by omega) h2] at h1
    omega
  · rw [if_neg (by omega), if_pos rfl, limbs_two]
    have h2 := hs.lt
    simp only [modProd, prod_range_succ, prod_range_zero, one_mul] at h2
    have : prime 0 * prime 1 < W ^ 2 := by decide
    push_cast at h2
    have h3 : s < prime 0 * prime 1 := by exact_mod_cast h2
    omega
  · rw [if_neg (by omega), if_neg (by omega), if_pos rfl, three]
    rcases hb with hb | hb
    · omega
    · exact_mod_cast hb
  · rw [if_neg (by omega), if_neg (by omega), if_neg (by omega), if_pos rfl, three]
    rcases hb with hb | hb
    · omega
    · exact_mod_cast hb

/-! ### Properties -/

/-- C45. For one to four primes, entries of the output are the residues modulo `p` of the integers
    with the given residues, and nothing else is written. Restriction: for three or four
    primes outside the AVX2 small-modulus branch, these integers must be less than `p * 2^128`. -/
theorem C45_nmod_multimod_CRT_partial {avx : Bool} {v : VecOps} (hv : VecOK v) {w : WordOps} (hw : WordOK w)
    {p : Nat} (hp : 0 < p) (hp' : p < 2 ^ 64) {k : Nat} (hk1 : 1 ≤ k) (hk4 : k ≤ 4)
    (residues : Nat → Nat → Nat) (nb : Nat) (out : Nat → Nat)
    (hr : ∀ j i, j < k → i < nb → residues j i < prime j) :
    (∀ i, i < nb → ∃ V, IsCrt prime k (fun j => residues j i) V) ∧
    (∀ i V, i < nb → IsCrt prime k (fun j => residues j i) V →
      ((avx = true ∧ p < 2 ^ 50) ∨ k ≤ 2 ∨ V < p * 2 ^ 128) →
      (crt avx v w (init avx v w p k) residues nb out i : Int) = V % p) ∧
    (∀ i, nb ≤ i → crt avx v w (init avx v w p k) residues nb out i = out i) := by
  have hpi : (p : Int) ≠ 0 := by omega
  have hp1 : (init avx v w p k).p = p := by unfold init; split_ifs <;> rfl
  have hp2 : (init avx v w p k).num = k := by unfold init; split_ifs <;> rfl
  refine ⟨fun i hi => ?_, fun i V hi hV hb => ?_, fun i hi => ?_⟩
  · exact ⟨_, bigSum_isCrt (avx := false) (p := p) (by simp) v hw hk1 hk4 fun j hj => hr j i hj hi⟩
  · unfold crt
    rw [hp1]
    by_cases h : avx = true ∧ p < 2 ^ 50
    · rw [if_pos h, loops_spec, if_pos hi]
      obtain ⟨rfl, h2⟩ := h
      rw [smallEntry_spec hv (init_consts hv hw hp h2 k) hp h2 hp1 (by omega) (by omega)
        (fun j hj => hr j i (by omega) hi) (by rw [hp2]; exact hV)]
      show (((V % (p : Int)).toNat : Nat) : Int) = _
      exact Int.toNat_of_nonneg (Int.emod_nonneg _ hpi)
    · rw [if_neg h, tailLoop_spec, if_pos (by omega), largeEntry_spec h hp hp' v hw hk1 hk4
        (fun j hj => hr j i hj hi) hV (by rcases hb with hb | hb <;> tauto)]
      show (((V % (p : Int)).toNat : Nat) : Int) = _
      exact Int.toNat_of_nonneg (Int.emod_nonneg _ hpi)
  · unfold crt
    split_ifs
    · rw [loops_spec, if_neg (by omega)]
    · rw [tailLoop_spec, if_neg (by omega)]

/-- C45: the case met by products. A sum of at most `2^64` products of two reduced residues is
    recovered, whatever the branch, as soon as it is smaller than the product of the primes. -/
theorem C45_sum_of_products {avx : Bool} {v : VecOps} (hv : VecOK v) {w : WordOps} (hw : WordOK w)
    {p : Nat} (hp : 0 < p) (hp' : p < 2 ^ 64) {k : Nat} (hk1 : 1 ≤ k) (hk4 : k ≤ 4)
    (residues : Nat → Nat → Nat) (nb : Nat) (out : Nat → Nat) (n : Nat) (hn : n ≤ 2 ^ 64)
    (a b : Nat → Nat → Nat) (ha : ∀ i t, t < n → a i t < p) (hb : ∀ i t, t < n → b i t < p)
    (hlt : ∀ i, i < nb → ∑ t ∈ range n, a i t * b i t < modProd prime k)
    (hr : ∀ j i, j < k → i < nb → residues j i = (∑ t ∈ range n, a i t * b i t) % prime j)
    {i : Nat} (hi : i < nb) :
    crt avx v w (init avx v w p k) residues nb out i = (∑ t ∈ range n, a i t * b i t) % p := by
  have hm := prime_moduli k hk4
  obtain ⟨-, h2, -⟩ := C45_nmod_multimod_CRT_partial (avx := avx) hv hw hp hp' hk1 hk4 residues nb out
    (fun j i hj hi => by
      rw [hr j i hj hi]
      exact Nat.mod_lt _ (by have := hm.two_le j hj; omega))
  have h := h2 i ((∑ t ∈ range n, a i t * b i t : Nat) : Int) hi
    ⟨Int.natCast_nonneg _, by exact_mod_cast hlt i hi, fun j hj => by
      rw [hr j i hj hi]; push_cast; rfl⟩ (by
        right; right
        have h3 : ∑ t ∈ range n, a i t * b i t ≤ n * ((p - 1) * (p - 1)) := by
          have := sum_le_card_nsmul (range n) (fun t => a i t * b i t) ((p - 1) * (p - 1)) fun t ht => by
            have h4 := ha i t (mem_range.1 ht)
            have h5 := hb i t (mem_range.1 ht)
            exact Nat.mul_le_mul (by omega) (by omega)
          simpa using this
        have h6 : n * ((p - 1) * (p - 1)) < p * 2 ^ 128 := by
          have h7 : n * (p - 1) ≤ 2 ^ 64 * 2 ^ 64 := Nat.mul_le_mul hn (by omega)
          calc n * ((p - 1) * (p - 1)) = n * (p - 1) * (p - 1) := by ring
            _ ≤ 2 ^ 64 * 2 ^ 64 * (p - 1) := Nat.mul_le_mul_right _ h7
            _ < p * 2 ^ 128 := by omega
        exact_mod_cast lt_of_le_of_lt h3 h6)
  exact_mod_cast h

/-- C45, negative part: outside of the AVX2 small-modulus branch, for four primes and every odd modulus
    `p ≥ 3` there is a valid input (the residues of an integer less than the product
    of the primes) for which the output is wrong: the most significant limb is ignored. -/
theorem C45_four_primes_wrong {avx : Bool} (v : VecOps) {w : WordOps} (hw : WordOK w) {p : Nat}
    (h : ¬(avx = true ∧ p < 2 ^ 50)) (hp : 3 ≤ p) (hodd : p % 2 = 1) (hp' : p < 2 ^ 64) (out : Nat → Nat) :
    ∃ (residues : Nat → Nat → Nat) (V : Int), (∀ j i, j < 4 → i < 1 → residues j i < prime j) ∧
      IsCrt prime 4 (fun j => residues j 0) V ∧
      (crt avx v w (init avx v w p 4) residues 1 out 0 : Int) ≠ V % p := by
  have hm := prime_moduli 4 (le_refl _)
  have hr : ∀ j, j < 4 → 2 ^ 192 % prime j < prime j := fun j hj =>
    Nat.mod_lt _ (by have := hm.two_le j hj; omega)
  have hV : IsCrt prime 4 (fun j => 2 ^ 192 % prime j) (2 ^ 192 : Int) := by
    refine ⟨by norm_num, ?_, fun i hi => by push_cast; rfl⟩
    simp only [modProd, prod_range_succ, prod_range_zero, one_mul]
    unfold prime
    norm_num
  refine ⟨fun j _ => 2 ^ 192 % prime j, 2 ^ 192, fun j i hj _ => hr j hj, hV, ?_⟩
  have hp1 : (init avx v w p 4).p = p := by unfold init; split_ifs <;> rfl
  have hs := bigSum_isCrt h v hw (k := 4) (by omega) (le_refl _) hr
  have hVe := isCrt_unique hm hV hs
  have hVe' : bigSum (init avx v w p 4) (fun j => 2 ^ 192 % prime j) 4 % modProd prime 4 = 2 ^ 192 := by
    exact_mod_cast hVe.symm
  obtain ⟨i1, i2, i3, -, -⟩ := init_large h v w (k := 4) (by omega)
  unfold crt
  rw [hp1, if_neg h, tailLoop_spec, if_pos (by omega)]
  unfold largeEntry
  simp only [i1, i2, i3, hVe']
  rw [if_neg (by omega), if_neg (by omega), if_neg (by omega), if_pos trivial]
  have l2 : limb (2 ^ 192) 2 = 0 := by decide
  have l1 : limb (2 ^ 192) 1 = 0 := by decide
  have l0 : limb (2 ^ 192) 0 = 0 := by decide
  rw [l2, l1, l0, hw.red3 _ _ _ _ (by omega) hp' (by omega) (by omega)]
  intro hc
  have hz : 2 ^ 192 % p = 0 := by
    have : (((2 ^ 192 % p : Nat)) : Int) = 0 := by
      rw [Int.natCast_mod]
      refine Eq.trans ?_ (hc.symm.trans ?_)
      · norm_cast
      · simp
    exact_mod_cast this
  have hcop : Nat.Coprime p (2 ^ 192) := by
    refine Nat.Coprime.pow_right _ ?_
    rw [Nat.coprime_comm]
    exact Nat.coprime_two_left.2 (Nat.odd_iff.2 hodd)
  have := Nat.Coprime.eq_one_of_dvd hcop (Nat.dvd_of_mod_eq_zero hz)
  omega

/-- C45: with the documented default `num_primes = 0`, nothing is computed. -/
theorem C45_default_writes_nothing (avx : Bool) (v : VecOps) (w : WordOps) (p : Nat)
    (residues : Nat → Nat → Nat) (nb : Nat) (out : Nat → Nat) :
    crt avx v w (init avx v w p 0) residues nb out = out := by
  have hp2 : (init avx v w p 0).num = 0 := by unfold init; split_ifs <;> rfl
  funext i
  unfold crt
  split_ifs
  · rw [loops_spec]
    simp only [smallEntry, hp2]
    simp
  · rw [tailLoop_spec]
    simp only [largeEntry, hp2]
    simp

/-- C53. Reduction: for `input[i] < p`, the rows hold the residues modulo the primes,
    and nothing else is written. -/
theorem C53_nmod_multimod_CRT_reduce {v : VecOps} (hv : VecOK v) {C : Crt} (hp' : C.p ≤ 2 ^ 64)
    (hk : C.num ≤ 4) (input : Nat → Nat) (nb : Nat) (hin : ∀ i, i < nb → input i < C.p)
    (residues : Nat → Nat → Nat) (j i : Nat) :
    reduce v C input nb residues C.num j i =
      if j < C.num ∧ i < nb then input i % prime j else residues j i := by
  have hrow : ∀ j res, j < 4 → reduceRow v C input nb j res i = if i < nb then input i % prime j else res i := by
    intro j res hj
    have hm := prime_moduli 4 (le_refl _)
    have h2 := hm.two_le j hj
    unfold reduceRow
    by_cases hc : C.p < prime j
    · rw [if_pos hc, tailLoop_spec]
      by_cases hi : i < nb
      · rw [if_pos (by omega), if_pos hi, Nat.mod_eq_of_lt (by have := hin i hi; omega)]
        rfl
      · rw [if_neg (by omega), if_neg hi]
    · rw [if_neg hc, loops_spec]
      by_cases hi : i < nb
      · rw [if_pos hi, if_pos hi]
        have hi' := hin i hi
        have hlo : 2 ^ 32 < prime j := by interval_cases j <;> decide
        have hlt : (prime j : Int) < 2 ^ 50 := by exact_mod_cast prime_lt j
        have b1 := Int.emod_nonneg (((input i / 2 ^ 32 : Nat) : Int) * 2 ^ 32) (by omega : (prime j : Int) ≠ 0)
        have b2 := Int.emod_lt_of_pos (((input i / 2 ^ 32 : Nat) : Int) * 2 ^ 32) (by omega : (0 : Int) < prime j)
        rw [mulz_eq hv (by omega) hlt (by omega) (by omega) (by norm_num) (by exact_mod_cast hlo),
          addmod_eq (by omega) (by omega) b1 b2]
        rw [Option.getD_some]
        have e : (((input i % 2 ^ 32 : Nat) : Int) + ((input i / 2 ^ 32 : Nat) : Int) * 2 ^ 32 % prime j) % prime j =
            ((input i % prime j : Nat) : Int) := by
          rw [Int.add_emod_emod]
          have e2 : ((input i % 2 ^ 32 : Nat) : Int) + ((input i / 2 ^ 32 : Nat) : Int) * 2 ^ 32 = (input i : Int) := by
            omega
          rw [e2]
          exact (Int.natCast_mod _ _).symm
        rw [e]
        rfl
      · rw [if_neg hi, if_neg hi]
  have hall : ∀ n, n ≤ 4 → ∀ j, reduce v C input nb residues n j i =
      if j < n ∧ i < nb then input i % prime j else residues j i := by
    intro n
    induction n with
    | zero => intro _ j; rw [if_neg (by omega)]; rfl
    | succ n ih =>
      intro hn j
      unfold reduce
      by_cases hj : j = n
      · subst hj
        simp only [Function.update_self, hrow j _ (by omega), ih (by omega)]
        split_ifs <;> first | rfl | omega
      · simp only [Function.update_of_ne hj, ih (by omega)]
        split_ifs <;> first | rfl | omega
  exact hall C.num hk j

/-! ### Concrete instances -/

/-- Entries 7 and 8 modulo 5, for two primes, in both branches. -/
example : ∃ (v : VecOps) (w : WordOps), ∀ avx, ∀ i, i < 2 →
    crt avx v w (init avx v w 5 2) (fun _ i => 7 + i) 2 (fun _ => 0) i = (7 + i) % 5 := by
  obtain ⟨v, hv⟩ := vecOK_satisfiable
  obtain ⟨w, hw⟩ := wordOK_satisfiable
  refine ⟨v, w, fun avx i hi => ?_⟩
  have h := (C45_nmod_multimod_CRT_partial (avx := avx) hv hw (p := 5) (by omega) (by omega) (k := 2)
    (by omega) (by omega) (fun _ i => 7 + i) 2 (fun _ => 0) (fun j i hj hi => by
      interval_cases j <;> (show 7 + i < _; unfold prime; norm_num; omega))).2.1 i (7 + i : Int) hi
      ⟨by omega, by
        simp only [modProd, prod_range_succ, prod_range_zero, one_mul]
        unfold prime; norm_num; omega, fun j hj => by
        have : (7 + i : Int) < prime j := by interval_cases j <;> (unfold prime; norm_num; omega)
        rw [Int.emod_eq_of_lt (by omega) this]; push_cast; rfl⟩ (by omega)
  exact_mod_cast h

/-- The hypotheses of `C45_sum_of_products` for one product. -/
example : ∃ (v : VecOps) (w : WordOps), crt true v w (init true v w 11 4) (fun _ _ => 20) 1 (fun _ => 0) 0 = 9 := by
  obtain ⟨v, hv⟩ := vecOK_satisfiable
  obtain ⟨w, hw⟩ := wordOK_satisfiable
  refine ⟨v, w, ?_⟩
  have h := C45_sum_of_products (avx := true) hv hw (p := 11) (by omega) (by omega) (k := 4) (by omega) (by omega)
    (fun _ _ => 20) 1 (fun _ => 0) 1 (by omega) (fun _ _ => 4) (fun _ _ => 5) (fun _ _ _ => by omega)
    (fun _ _ _ => by omega) (fun i _ => by
      simp only [modProd, prod_range_succ, prod_range_zero, one_mul]
      unfold prime; norm_num) (fun j i hj _ => by
        simp only [sum_range_succ, sum_range_zero]
        interval_cases j <;> rfl) (i := 0) (by omega)
  rw [h]; rfl

example : ∃ (v : VecOps) (w : WordOps), ∀ i, i < 5 →
    reduce v (init true v w (2 ^ 60 + 1) 3) (fun i => 2 ^ 60 - i) 5 (fun _ _ => 0) 3 1 i =
      (2 ^ 60 - i) % 910395627798529 := by
  obtain ⟨v, hv⟩ := vecOK_satisfiable
  obtain ⟨w, hw⟩ := wordOK_satisfiable
  refine ⟨v, w, fun i hi => ?_⟩
  have h := C53_nmod_multimod_CRT_reduce hv (C := init true v w (2 ^ 60 + 1) 3) 
    (by show 2 ^ 60 + 1 ≤ 2 ^ 64; omega) (by show 3 ≤ 4; omega)
    (fun i => 2 ^ 60 - i) 5 (fun i _ => by show 2 ^ 60 - i < 2 ^ 60 + 1; omega) (fun _ _ => 0) 1 i
  refine h.trans (if_pos ⟨by show 1 < 3; omega, hi⟩)

end PML.WordCrt
