import Verif.Crt.Props
import Verif.Crt.MatModel
import Verif.MatMul.Props
import Verif.PolyMul.Spec
import Mathlib.NumberTheory.Bertrand

/-!
# C44: the multimodular product of integer matrices is exact
-/

namespace PML.Crt

open PML.Word PML.MatOps PML.Crt.Spec Finset

/-! ### Primes -/

/-- Contract of `n_nextprime`: the least prime above its argument. (The function throws an
    error when this prime exceeds a word; the values that matter here have 30 bits, and
    `nmod_vec_primes` throws an error for larger ones.) -/
def NextPrimeOK (np : Nat → Nat) : Prop :=
  ∀ x, x < np x ∧ (np x).Prime ∧ ∀ q, q.Prime → x < q → np x ≤ q

theorem nextPrimeOK_satisfiable : ∃ np, NextPrimeOK np := by
  classical
  have hex : ∀ x : Nat, ∃ q, x < q ∧ q.Prime := fun x => by
    obtain ⟨q, h1, h2⟩ := Nat.exists_infinite_primes (x + 1)
    exact ⟨q, by omega, h2⟩
  exact ⟨fun x => Nat.find (hex x), fun x => ⟨(Nat.find_spec (hex x)).1, (Nat.find_spec (hex x)).2,
    fun q hq hx => Nat.find_min' (hex x) ⟨hx, hq⟩⟩⟩

/-- The prime numbers of 30 bits. -/
def primes30 : Finset Nat := (Ioo (2 ^ 29) (2 ^ 30)).filter Nat.Prime

variable {np : Nat → Nat}

theorem primeSeq_prime (h : NextPrimeOK np) (s i : Nat) : (primeSeq np s i).Prime := by
  cases i with
  | zero => exact (h _).2.1
  | succ i => exact (h _).2.1

theorem primeSeq_mono (h : NextPrimeOK np) (s : Nat) : StrictMono (primeSeq np s) :=
  strictMono_nat_of_lt_succ fun i => (h _).1

theorem primeSeq_low (h : NextPrimeOK np) (s i : Nat) : 2 ^ (s - 1) < primeSeq np s i :=
  lt_of_lt_of_le (h _).1 ((primeSeq_mono h s).monotone (Nat.zero_le i))

/-- No prime is missed. -/
theorem primeSeq_complete (h : NextPrimeOK np) (s q : Nat) (hq : q.Prime) (h1 : 2 ^ (s - 1) < q) :
    ∀ n, q < primeSeq np s n → ∃ i, i < n ∧ q = primeSeq np s i := by
  intro n
  induction n with
  | zero =>
    intro hn
    have := (h (2 ^ (s - 1))).2.2 q hq h1
    rw [primeSeq] at hn
    omega
  | succ n ih =>
    intro hn
    rcases lt_trichotomy q (primeSeq np s n) with hlt | heq | hgt
    · obtain ⟨i, hi, e⟩ := ih hlt
      exact ⟨i, by omega, e⟩
    · exact ⟨n, by omega, heq⟩
    · have := (h (primeSeq np s n)).2.2 q hq hgt
      rw [primeSeq] at hn
      omega

/-- The error is thrown exactly when there are too few primes. -/
theorem vecPrimes_spec (h : NextPrimeOK np) (n : Nat) (hn : 1 ≤ n) :
    (n ≤ primes30.card → vecPrimes np n 30 = some (primeSeq np 30) ∧ primeSeq np 30 (n - 1) < 2 ^ 30) ∧
    (primes30.card < n → vecPrimes np n 30 = none) := by
  have hmem : ∀ i, primeSeq np 30 i < 2 ^ 30 → primeSeq np 30 i ∈ primes30 := fun i hi =>
    mem_filter.2 ⟨mem_Ioo.2 ⟨primeSeq_low h 30 i, hi⟩, primeSeq_prime h 30 i⟩
  constructor
  · intro hc
    have hlt : primeSeq np 30 (n - 1) < 2 ^ 30 := by
      by_contra hge
      have hsub : primes30 ⊆ (range (n - 1)).image (primeSeq np 30) := by
        intro q hq
        obtain ⟨h1, h2⟩ := mem_filter.1 hq
        obtain ⟨h3, h4⟩ := mem_Ioo.1 h1
        obtain ⟨i, hi, e⟩ := primeSeq_complete h 30 q h2 h3 (n - 1) (by omega)
        exact mem_image.2 ⟨i, mem_range.2 hi, e.symm⟩
      have := (card_le_card hsub).trans card_image_le
      rw [card_range] at this
      omega
    refine ⟨?_, hlt⟩
    unfold vecPrimes
    have := Nat.size_le.2 hlt
    rw [if_neg (by omega)]
  · intro hc
    unfold vecPrimes
    rw [if_pos]
    by_contra hge
    have hlt : primeSeq np 30 (n - 1) < 2 ^ 30 := Nat.size_le.1 (by omega)
    have hsub : (range n).image (primeSeq np 30) ⊆ primes30 := by
      intro q hq
      obtain ⟨i, hi, rfl⟩ := mem_image.1 hq
      have := mem_range.1 hi
      exact hmem i (lt_of_le_of_lt ((primeSeq_mono h 30).monotone (by omega)) hlt)
    have := card_le_card hsub
    rw [card_image_of_injective _ (primeSeq_mono h 30).injective, card_range] at this
    omega

theorem primeSeq_moduli (h : NextPrimeOK np) (n : Nat) (hlt : primeSeq np 30 (n - 1) < 2 ^ 30) :
    Moduli (primeSeq np 30) n ∧ ∀ i, i < n → 2 ^ 29 < primeSeq np 30 i ∧ primeSeq np 30 i < 2 ^ 30 := by
  have hb : ∀ i, i < n → 2 ^ 29 < primeSeq np 30 i ∧ primeSeq np 30 i < 2 ^ 30 := fun i hi =>
    ⟨primeSeq_low h 30 i, lt_of_le_of_lt ((primeSeq_mono h 30).monotone (by omega)) hlt⟩
  refine ⟨⟨fun i hi => by have := (hb i hi).1; omega, fun i hi => by have := (hb i hi).2; omega,
    fun i j _ _ hij => ?_⟩, hb⟩
  exact (Nat.coprime_primes (primeSeq_prime h 30 i) (primeSeq_prime h 30 j)).2 fun e =>
    hij ((primeSeq_mono h 30).injective e)

/-! ### Bounds -/

theorem matMaxBits_spec (r c : Nat) (A : Mat Int) :
    (∀ i, i < r → ∀ j, j < c → (A i j).natAbs < 2 ^ (matMaxBits r c A).natAbs) ∧
    (0 ≤ matMaxBits r c A → ∀ i, i < r → ∀ j, j < c → 0 ≤ A i j) := by
  have hb : ∀ i, i < r → ∀ j, j < c → Nat.size (A i j).natAbs ≤
      (range r).sup fun i => (range c).sup fun j => Nat.size (A i j).natAbs := by
    intro i hi j hj
    refine le_trans ?_ (le_sup (f := fun i => (range c).sup fun j => Nat.size (A i j).natAbs)
      (mem_range.2 hi))
    exact le_sup (f := fun j => Nat.size (A i j).natAbs) (mem_range.2 hj)
  unfold matMaxBits
  simp only
  generalize (range r).sup (fun i => (range c).sup fun j => Nat.size (A i j).natAbs) = b at *
  constructor
  · intro i hi j hj
    have : Int.natAbs (if ∃ i ∈ range r, ∃ j ∈ range c, A i j < 0 then -(b : Int) else (b : Int)) = b := by
      split <;> simp
    rw [this]
    exact Nat.size_le.1 (hb i hi j hj)
  · intro hpos i hi j hj
    by_contra hneg
    rw [if_pos ⟨i, mem_range.2 hi, j, mem_range.2 hj, by omega⟩] at hpos
    have h0 := Nat.size_le.1 ((hb i hi j hj).trans (by omega : b ≤ 0))
    omega

/-- Entry of the product. -/
def prodEntry (k : Nat) (A B : Mat Int) (i j : Nat) : Int := ∑ t ∈ range k, A i t * B t j

theorem prodEntry_bound {k : Nat} {A B : Mat Int} {i j x y : Nat} (hk : 1 ≤ k)
    (hA : ∀ t, t < k → (A i t).natAbs < 2 ^ x) (hB : ∀ t, t < k → (B t j).natAbs < 2 ^ y) :
    |prodEntry k A B i j| < 2 ^ (x + y + Nat.size k) := by
  have h1 : |prodEntry k A B i j| ≤ ∑ t ∈ range k, (2 ^ x * 2 ^ y : Int) := by
    refine (abs_sum_le_sum_abs _ _).trans (sum_le_sum fun t ht => ?_)
    rw [abs_mul]
    have ha := hA t (mem_range.1 ht)
    have hb := hB t (mem_range.1 ht)
    refine mul_le_mul ?_ ?_ (abs_nonneg _) (by positivity)
    · have : ((A i t).natAbs : Int) < 2 ^ x := by exact_mod_cast ha
      rw [Int.natCast_natAbs] at this; exact le_of_lt this
    · have : ((B t j).natAbs : Int) < 2 ^ y := by exact_mod_cast hb
      rw [Int.natCast_natAbs] at this; exact le_of_lt this
  rw [sum_const, card_range, nsmul_eq_mul] at h1
  refine lt_of_le_of_lt h1 ?_
  have h2 : (k : Int) < 2 ^ Nat.size k := by exact_mod_cast Nat.lt_size_self k
  rw [pow_add, pow_add, mul_comm]
  exact mul_lt_mul_of_pos_left h2 (by positivity)

theorem modProd_big {p : Nat → Nat} (n : Nat) (h : ∀ i, i < n → 2 ^ 29 < p i) (bits : Nat)
    (hb : bits ≤ 29 * n) : 2 ^ bits ≤ modProd p n := by
  have h1 : (2 ^ 29) ^ n ≤ modProd p n := by
    unfold modProd
    have := Finset.pow_card_le_prod (s := range n) (f := p) (n := 2 ^ 29) fun i hi =>
      le_of_lt (h i (mem_range.1 hi))
    rwa [card_range] at this
  refine le_trans ?_ h1
  rw [← pow_mul]
  exact Nat.pow_le_pow_right (by norm_num) hb

/-! ### Products modulo a prime -/

theorem modProduct_spec {m k n p : Nat} (hp0 : 0 < p) (hp : p < 2 ^ 30) (hk : k ≤ 2 ^ 29) (A B : Mat Nat)
    (hA : ∀ i t, i < m → t < k → A i t < p) (hB : ∀ t j, t < k → j < n → B t j < p) (i j : Nat)
    (hi : i < m) (hj : j < n) : modProduct m k n p A B i j = (∑ t ∈ range k, A i t * B t j) % p := by
  unfold modProduct
  rw [MatMul.mul2dot, if_neg (by omega), MatMul.mul2dotDistinct]
  simp only [nmod_red]
  have key : dot2SplitOne (A i) (MatMul.transpose B j) k p (2 ^ SB % p) =
      (∑ t ∈ range k, A i t * B t j) % p :=
    dot2SplitOne_thirty _ _ k p (le_of_lt hp) hp0 (fun t ht => lt_trans (hA i t hi ht) hp)
      (fun t ht => lt_trans (hB t j ht hj) hp) hk
  rw [(MatMul.oneRows_spec (by omega) _ _ _ _ _ _).2]
  by_cases ho : (2 * (m / 2) ≤ i ∧ i < 2 * (m / 2) + m % 2) ∧ j < n
  · rw [if_pos ho, (MatMul.pairRows_spec (by omega) _ _ _ _ _ _ _).1 0 (by omega)]
    exact key
  · rw [if_neg ho, (MatMul.pairRows_spec (by omega) _ _ _ _ _ _ _).2, if_pos (by omega)]
    exact key

theorem modEq_sum {S : Finset Nat} {f g : Nat → Int} {p : Int} (h : ∀ t ∈ S, f t ≡ g t [ZMOD p]) :
    ∑ t ∈ S, f t ≡ ∑ t ∈ S, g t [ZMOD p] := by
  induction S using Finset.induction_on with
  | empty => rfl
  | insert a S ha ih =>
    rw [sum_insert ha, sum_insert ha]
    exact (h a (mem_insert_self _ _)).add (ih fun t ht => h t (mem_insert_of_mem ht))

/-! ### The symmetric lift -/

theorem lift_spec {P S x : Int} (sign : Bool) (hx : x = S % P) (hP : 0 < P)
    (h1 : sign = false → 0 ≤ S ∧ S < P) (h2 : sign = true → 2 * |S| < P) :
    (if sign = true ∧ P / 2 < x then x - P else x) = S := by
  cases sign with
  | false =>
    rw [if_neg (by simp), hx, Int.emod_eq_of_lt (h1 rfl).1 (h1 rfl).2]
  | true =>
    have h := h2 rfl
    by_cases hS : 0 ≤ S
    · rw [abs_of_nonneg hS] at h
      have : x = S := by rw [hx, Int.emod_eq_of_lt hS (by omega)]
      rw [if_neg (by omega), this]
    · rw [abs_of_neg (by omega)] at h
      have : x = S + P := by
        rw [hx, ← Int.add_emod_right, Int.emod_eq_of_lt (by omega) (by omega)]
      rw [if_pos ⟨rfl, by omega⟩, this]
      ring

theorem base_product {e : Ext} {p : Nat → Nat} {n size : Nat} (hs : 1 ≤ size) {mm : MultiCrt}
    (hmm : IsBase e size p n mm) : mm.product = (modProd p n : Int) := by
  obtain ⟨c, rfl⟩ := hmm
  show ((prodLoop (fun i => prodLoop _ _) ((n + size - 1) / size) : Nat) : Int) = _
  rw [prodLoop_eq, ← leafProd_prod (p := p) hs]
  congr 1
  unfold modProd
  refine prod_congr rfl fun i _ => ?_
  show prodLoop _ _ = _
  rw [prodLoop_eq]
  exact leaf_prod p n size i

theorem liftEntry_spec {e : Ext} (he : ExtOK e) {p : Nat → Nat} {num size : Nat} (h : Moduli p num)
    (hs : 1 ≤ size) (hn : 1 ≤ num) {mm : MultiCrt} (hi : multiInit e size p num = some mm) (sign : Bool)
    (S : Int) (r : Nat → Nat) (hr : ∀ l, l < num → (r l : Int) = S % (p l : Int))
    (h1 : sign = false → 0 ≤ S ∧ S < (modProd p num : Int))
    (h2 : sign = true → 2 * |S| < (modProd p num : Int)) : liftEntry e mm sign r = some S := by
  obtain ⟨mm', e1, hb, hinv⟩ := multiInit_spec he h hs hn
  rw [hi] at e1
  obtain rfl := Option.some.inj e1
  have hpos := modProd_pos h
  have hlt : ∀ l, l < num → r l < p l := fun l hl => by
    have := Int.emod_lt_of_pos S (b := (p l : Int)) (by have := h.two_le l hl; omega)
    rw [← hr l hl] at this
    exact_mod_cast this
  obtain ⟨X, x1, x2⟩ := multiCrt_spec he h hs hn hb hinv r hlt
  have hS : IsCrt p num r (S % (modProd p num : Int)) :=
    ⟨Int.emod_nonneg _ (by omega), Int.emod_lt_of_pos _ (by omega), fun l hl => by
      have hdvd : (p l : Int) ∣ (modProd p num : Int) := by
        exact_mod_cast dvd_prod_of_mem p (mem_range.2 hl)
      rw [Int.emod_emod_of_dvd _ hdvd, hr l hl]⟩
  have hX := isCrt_unique h x2 hS
  unfold liftEntry
  rw [x1, Option.map_some, base_product hs hb, lift_spec sign hX (by omega) h1 h2]

/-! ### The property -/

/-- Number of primes used for bit-lengths `x` and `y` of the entries of `A` and `B`. -/
def primesNeeded (sign : Bool) (x y k : Nat) : Nat :=
  (x + y + Nat.size k + (if sign then 1 else 0) + 28) / 29

/-- **C44.** `fmpz_mat_mul_multimod(C, A, B)` computes the exact product of the integer matrices
    initially in `A` and `B`, whatever the signs, when the inner dimension is at most `2^29`;
    it changes no other matrix, and `C` may be one of `A`, `B`. The only exception is when there
    are not enough primes of 30 bits: an error is thrown and nothing is written. -/
theorem C44_mul_multimod {e : Ext} (he : ExtOK e) {np : Nat → Nat} (hnp : NextPrimeOK np)
    {leafSize : Nat → Nat} (hl : ∀ x, 1 ≤ x → 1 ≤ leafSize x) (m k n c a b : Nat) (hk : k ≤ 2 ^ 29)
    (h : Nat → Mat Int) :
    let sign := decide (matMaxBits m k (h a) < 0) || decide (matMaxBits k n (h b) < 0)
    let num := primesNeeded sign (matMaxBits m k (h a)).natAbs (matMaxBits k n (h b)).natAbs k
    (num ≤ primes30.card ∨ m = 0 ∨ n = 0 ∨ k = 0 →
      ∃ h', mulMultimod e np leafSize m k n c a b h = .done h' ∧
        PolyMul.Spec.asMatrix m n (h' c) =
          PolyMul.Spec.asMatrix m k (h a) * PolyMul.Spec.asMatrix k n (h b) ∧
        (∀ i j, ¬ (i < m ∧ j < n) → h' c i j = h c i j) ∧ ∀ o, o ≠ c → h' o = h o) ∧
    (¬ (num ≤ primes30.card ∨ m = 0 ∨ n = 0 ∨ k = 0) → mulMultimod e np leafSize m k n c a b h = .throws) := by
  intro sign num
  have hmat : ∀ (M : Mat Int), (∀ i, i < m → ∀ j, j < n → M i j = prodEntry k (h a) (h b) i j) →
      PolyMul.Spec.asMatrix m n M = PolyMul.Spec.asMatrix m k (h a) * PolyMul.Spec.asMatrix k n (h b) := by
    intro M hM
    refine Matrix.ext fun i j => ?_
    rw [Matrix.mul_apply]
    show M i j = _
    rw [hM i i.2 j j.2, prodEntry, sum_range]
    rfl
  unfold mulMultimod mulMultimodCore
  by_cases hz : m < 1 ∨ n < 1 ∨ k < 1
  · simp only [if_pos hz]
    refine ⟨fun _ => ⟨_, rfl, hmat _ fun i hi j hj => ?_, fun i j hij => ?_, fun o ho => ?_⟩, fun hc => ?_⟩
    · rw [Function.update_self, if_pos ⟨hi, hj⟩]
      obtain rfl : k = 0 := by omega
      rfl
    · rw [Function.update_self, if_neg hij]
    · rw [Function.update_of_ne ho]
    · omega
  · simp only [if_neg hz]
    have hnum : ((matMaxBits m k (h a)).natAbs + (matMaxBits k n (h b)).natAbs + Nat.size k +
        (if (decide (matMaxBits m k (h a) < 0) || decide (matMaxBits k n (h b) < 0)) = true then 1 else 0)
          + 29 - 1) / 29 = num := rfl
    simp only [hnum]
    have hsz : 1 ≤ Nat.size k := Nat.size_pos.2 (by omega)
    have hnum1 : 1 ≤ num := by
      show 1 ≤ primesNeeded _ _ _ _
      unfold primesNeeded
      exact (Nat.le_div_iff_mul_le (by norm_num)).2 (by omega)
    obtain ⟨v1, v2⟩ := vecPrimes_spec hnp num hnum1
    refine ⟨fun hc => ?_, fun hc => ?_⟩
    · obtain ⟨w1, w2⟩ := v1 (by omega)
      obtain ⟨hmod, hrange⟩ := primeSeq_moduli hnp num w2
      obtain ⟨mm, hi, hb, _⟩ := multiInit_spec he hmod (hl num hnum1) hnum1
      simp only [w1, hi]
      obtain ⟨a1, a2⟩ := matMaxBits_spec m k (h a)
      obtain ⟨b1, b2⟩ := matMaxBits_spec k n (h b)
      have hres : ∀ (A : Mat Int) (l i j : Nat), l < num →
          ((residueMat e mm A l i j : Nat) : Int) = A i j % (primeSeq np 30 l : Int) := by
        intro A l i j hll
        obtain ⟨r, r1, r2⟩ := multiReduce_spec he hmod (hl num hnum1) hb (fun _ => none) (A i j) l hll
        unfold residueMat
        rw [r1]
        exact r2
      have hreslt : ∀ (A : Mat Int) (l i j : Nat), l < num → residueMat e mm A l i j < primeSeq np 30 l := by
        intro A l i j hll
        have := Int.emod_lt_of_pos (A i j) (b := (primeSeq np 30 l : Int))
          (by have := (hrange l hll).1; omega)
        rw [← hres A l i j hll] at this
        exact_mod_cast this
      have hentry : ∀ i, i < m → ∀ j, j < n →
          liftEntry e mm (decide (matMaxBits m k (h a) < 0) || decide (matMaxBits k n (h b) < 0))
            (fun l => modProduct m k n (primeSeq np 30 l) (residueMat e mm (h a) l)
              (residueMat e mm (h b) l) i j) = some (prodEntry k (h a) (h b) i j) := by
        intro i hi' j hj
        have hbound := prodEntry_bound (A := h a) (B := h b) (i := i) (j := j) (by omega)
          (fun t ht => a1 i hi' t ht) fun t ht => b1 t ht j hj
        refine liftEntry_spec he hmod (hl num hnum1) hnum1 hi _ _ _ (fun l hll => ?_) (fun hs => ?_)
          (fun hs => ?_)
        · show ((modProduct m k n _ _ _ i j : Nat) : Int) = _
          rw [modProduct_spec (by have := (hrange l hll).1; omega) (hrange l hll).2 hk _ _
            (fun i t _ _ => hreslt _ l i t hll) (fun t j _ _ => hreslt _ l t j hll) i j hi' hj]
          push_cast
          refine modEq_sum fun t _ => ?_
          rw [hres _ l i t hll, hres _ l t j hll]
          exact (Int.mod_modEq _ _).mul (Int.mod_modEq _ _)
        · simp only [Bool.or_eq_false_iff, decide_eq_false_iff_not] at hs
          refine ⟨sum_nonneg fun t ht => mul_nonneg (a2 (by omega) i hi' t (mem_range.1 ht))
            (b2 (by omega) t (mem_range.1 ht) j hj), ?_⟩
          have hbig := modProd_big num (fun l hll => (hrange l hll).1) ((matMaxBits m k (h a)).natAbs +
            (matMaxBits k n (h b)).natAbs + Nat.size k) (by
              show _ ≤ 29 * primesNeeded _ _ _ _
              unfold primesNeeded
              omega)
          have hbig' : ((2 : Int) ^ ((matMaxBits m k (h a)).natAbs + (matMaxBits k n (h b)).natAbs + Nat.size k))
            ≤ (modProd (primeSeq np 30) num : Int) := by exact_mod_cast hbig
          exact lt_of_le_of_lt (le_abs_self _) (lt_of_lt_of_le hbound hbig')
        · have hbig := modProd_big num (fun l hll => (hrange l hll).1) ((matMaxBits m k (h a)).natAbs +
            (matMaxBits k n (h b)).natAbs + Nat.size k + 1) (by
              show _ ≤ 29 * primesNeeded sign _ _ _
              have : sign = true := hs
              unfold primesNeeded
              rw [this, if_pos rfl]
              omega)
          have hbig' : ((2 : Int) ^ ((matMaxBits m k (h a)).natAbs + (matMaxBits k n (h b)).natAbs +
            Nat.size k + 1)) ≤ (modProd (primeSeq np 30) num : Int) := by exact_mod_cast hbig
          rw [pow_succ] at hbig'
          exact lt_of_lt_of_le (by omega) hbig'
      rw [if_pos fun i hi' j hj => by
        rw [hentry i (mem_range.1 hi') j (mem_range.1 hj)]; rfl]
      refine ⟨_, rfl, hmat _ fun i hi' j hj => ?_, fun i j hij => ?_, fun o ho => ?_⟩
      · rw [Function.update_self, if_pos ⟨hi', hj⟩, hentry i hi' j hj]
        rfl
      · rw [Function.update_self, if_neg hij]
      · rw [Function.update_of_ne ho]
    · simp only [v2 (by omega)]

/-- A `2 × 2` product with a negative entry, written over its first factor. -/
example : ∃ (e : Ext) (np : Nat → Nat) (h : Nat → Mat Int) (h' : Nat → Mat Int), h 0 1 1 = -5 ∧
    mulMultimod e np (fun x => x) 2 2 2 0 0 1 h = .done h' ∧
    PolyMul.Spec.asMatrix 2 2 (h' 0) = PolyMul.Spec.asMatrix 2 2 (h 0) * PolyMul.Spec.asMatrix 2 2 (h 1) := by
  obtain ⟨e, he⟩ := extOK_satisfiable
  obtain ⟨np, hnp⟩ := nextPrimeOK_satisfiable
  have hcard : 1 ≤ primes30.card := by
    obtain ⟨q, hq, h1, h2⟩ := Nat.exists_prime_lt_and_le_two_mul (2 ^ 29) (by norm_num)
    refine card_pos.2 ⟨q, mem_filter.2 ⟨mem_Ioo.2 ⟨h1, lt_of_le_of_ne (by omega) fun e => ?_⟩, hq⟩⟩
    rw [e] at hq
    exact Nat.Prime.not_prime_pow (by norm_num) hq
  have hbits : matMaxBits 2 2 (fun i j => if i = 1 ∧ j = 1 then -5 else 3) = -3 := by decide
  obtain ⟨⟨h', h1, h2, _⟩, _⟩ := And.imp_left (fun f => f (Or.inl (by
    simp only [hbits]; exact hcard))) (C44_mul_multimod he hnp (leafSize := fun x => x) (fun x hx => hx) 2 2 2 0 0 1
      (by norm_num) (fun _ i j => if i = 1 ∧ j = 1 then -5 else 3))
  exact ⟨e, np, _, h', rfl, h1, h2⟩

end PML.Crt
