import Verif.Crt.Multi
import Mathlib.RingTheory.Coprime.Lemmas
import Mathlib.Tactic.IntervalCases
import Mathlib.Tactic.Linarith

/-!
# C42, C43: integer multimodular reduction and Chinese remaindering
-/

namespace PML.Crt

open PML.Word PML.Crt.Spec Finset

variable {p : Nat → Nat} {n : Nat}

/-- Reference: there is at most one integer with given residues below the product. -/
theorem isCrt_unique (h : Moduli p n) {m : Nat → Nat} {A B : Int} (hA : IsCrt p n m A)
    (hB : IsCrt p n m B) : A = B := by
  have hdvd : ∀ s, s ⊆ range n → ((∏ i ∈ s, p i : Nat) : Int) ∣ A - B := by
    intro s
    induction s using Finset.induction_on with
    | empty => intro _; simp
    | insert a s ha ih =>
      intro hs
      have han : a < n := mem_range.1 (hs (mem_insert_self _ _))
      have h1 := ih fun x hx => hs (mem_insert_of_mem hx)
      have h2 : (p a : Int) ∣ A - B := by
        refine Int.ModEq.dvd (?_ : B ≡ A [ZMOD p a])
        show B % _ = A % _
        rw [hA.residue a han, hB.residue a han]
      rw [prod_insert ha]
      push_cast
      push_cast at h1
      refine IsCoprime.mul_dvd ?_ h2 h1
      have hc : Nat.Coprime (p a) (∏ i ∈ s, p i) := Nat.Coprime.prod_right fun i hi =>
        h.coprime a i han (mem_range.1 (hs (mem_insert_of_mem hi))) fun e => ha (e ▸ hi)
      have := Nat.isCoprime_iff_coprime.2 hc
      push_cast at this
      exact this
  obtain ⟨c, hc⟩ := hdvd (range n) (subset_refl _)
  have h1 := hA.nonneg
  have h2 := hA.lt
  have h3 := hB.nonneg
  have h4 := hB.lt
  have hc' : A - B = (modProd p n : Int) * c := hc
  generalize (modProd p n : Int) = P at *
  have hP : 0 < P := lt_of_le_of_lt h1 h2
  have : c = 0 := by
    by_contra hne
    rcases lt_or_gt_of_ne hne with hlt | hgt
    · nlinarith
    · nlinarith
  rw [this, mul_zero] at hc'
  omega

/-- **C43.** `fmpz_multimod_naive_reduce` gives the residues of `A` modulo all moduli, for every
    integer `A` (negative, larger than the product of the moduli, small or multi-limb), in
    both modes (moduli all below `2^30` or not), whatever the uninitialised memory holds. -/
theorem C43_multimod_naive_reduce (h : Moduli p n) (fresh : Nat → Nat) (A : Int) :
    ∃ out, (∀ i, i < n → naiveReduce A (naiveModInit fresh p n) i = some (out i)) ∧
      IsResidues p n A out := by
  refine ⟨fun i => (A % (p i : Int)).toNat, fun i hi => ?_, fun i hi => ?_⟩
  · obtain ⟨r, h1, h2⟩ := naiveReduce_spec h fresh A i hi
    rw [h1]
    show _ = some (A % (p i : Int)).toNat
    rw [← h2]
    rfl
  · have := h.two_le i hi
    exact Int.toNat_of_nonneg (Int.emod_nonneg _ (by omega))

/-- **C43.** `fmpz_multimod_CRT_reduce` (any number of leaves) also gives the residues. -/
theorem C43_multimod_reduce {e : Ext} (he : ExtOK e) (h : Moduli p n) {size : Nat} (hs : 1 ≤ size)
    (hn : 1 ≤ n) (out0 : Nat → Option Nat) (A : Int) :
    ∃ mm out, multiInit e size p n = some mm ∧
      (∀ i, i < n → multiReduce e mm out0 A i = some (out i)) ∧ IsResidues p n A out := by
  obtain ⟨mm, h1, h2, _⟩ := multiInit_spec he h hs hn
  refine ⟨mm, fun i => (A % (p i : Int)).toNat, h1, fun i hi => ?_, fun i hi => ?_⟩
  · obtain ⟨r, h3, h4⟩ := multiReduce_spec he h hs h2 out0 A i hi
    rw [h3]
    show _ = some (A % (p i : Int)).toNat
    rw [← h4]
    rfl
  · have := h.two_le i hi
    exact Int.toNat_of_nonneg (Int.emod_nonneg _ (by omega))

/-- **C43.** `fmpz_multimod_CRT_reduce` writes the `n` residues only. -/
theorem C43_multimod_reduce_frame {e : Ext} (he : ExtOK e) (h : Moduli p n) {size : Nat} (hs : 1 ≤ size)
    (hn : 1 ≤ n) (out0 : Nat → Option Nat) (A : Int) :
    ∃ mm, multiInit e size p n = some mm ∧ ∀ k, n ≤ k → multiReduce e mm out0 A k = out0 k := by
  obtain ⟨mm, h1, h2, _⟩ := multiInit_spec he h hs hn
  exact ⟨mm, h1, fun k hk => multiReduce_frame hs h2 out0 A k hk⟩

/-- **C42.** `fmpz_CRT_naive_CRT` returns the integer in `[0, prod)` with the given residues. -/
theorem C42_naive_CRT {inv : Nat → Nat → Nat} (hi : InvOK inv) (h : Moduli p n) (m : Nat → Nat)
    (hm : ∀ i, i < n → m i < p i) :
    ∃ A, naiveCrt (naiveCrtInit inv p n) m = some A ∧ IsCrt p n m A := by
  have hinv : ∀ i, i < n → (naiveCrtInit inv p n).inverses i * cofactor p n i % p i = 1 := by
    intro i hi'
    show inv (prodLoop p n / p i % p i) (p i) * _ % _ = 1
    rw [prodLoop_eq, modProd_div h hi']
    have hcop : Nat.Coprime (cofactor p n i % p i) (p i) := by
      have := cofactor_coprime h hi'
      unfold Nat.Coprime at *
      rw [← this, Nat.gcd_comm (cofactor p n i)]
      exact (Nat.gcd_rec _ _).symm
    have := (hi _ (p i) (h.two_le i hi') hcop).2
    rw [← this, Nat.mul_mod, Nat.mul_mod (inv _ _), Nat.mod_mod]
  unfold naiveCrt
  rw [combine_spec inv h (fun i => nmodMul (m i) ((naiveCrtInit inv p n).inverses i) ((naiveCrtInit inv p n).mod i))
    fun i hi' => Nat.mod_lt _ (show 0 < p i by have := h.two_le i hi'; omega), Option.map_some]
  refine ⟨_, rfl, ?_⟩
  rw [combSum_eq h]
  have := crt_correct h m (naiveCrtInit inv p n).inverses hm hinv
  rw [← prodLoop_eq] at this
  exact this

/-- **C42.** `fmpz_multimod_CRT_CRT` returns, after `fmpz_multimod_CRT_init`, the integer in
    `[0, prod)` with the given residues: for every number of moduli, every leaf size and every
    correct subproduct tree. -/
theorem C42_multimod_CRT {e : Ext} (he : ExtOK e) (h : Moduli p n) {size : Nat} (hs : 1 ≤ size)
    (hn : 1 ≤ n) (m : Nat → Nat) (hm : ∀ i, i < n → m i < p i) :
    ∃ mm A, multiInit e size p n = some mm ∧ multiCrt e mm m = some A ∧ IsCrt p n m A := by
  obtain ⟨mm, h1, h2, h3⟩ := multiInit_spec he h hs hn
  obtain ⟨A, h4, h5⟩ := multiCrt_spec he h hs hn h2 h3 m hm
  exact ⟨mm, A, h1, h4, h5⟩

/-- **C42, C43.** Reduction then reconstruction is the identity on `[0, prod)`. -/
theorem C42_roundtrip {e : Ext} (he : ExtOK e) (h : Moduli p n) {size : Nat} (hs : 1 ≤ size)
    (hn : 1 ≤ n) (A : Int) (h0 : 0 ≤ A) (h1 : A < modProd p n) : ∃ mm m, multiInit e size p n = some mm ∧
      (∀ i, i < n → multiReduce e mm (fun _ => none) A i = some (m i)) ∧ multiCrt e mm m = some A := by
  obtain ⟨mm, m, h2, h3, h4⟩ := C43_multimod_reduce he h hs hn (fun _ => none) A
  refine ⟨mm, m, h2, h3, ?_⟩
  have hlt : ∀ i, i < n → m i < p i := fun i hi => by
    have hp := h.two_le i hi
    have := Int.emod_lt_of_pos A (b := (p i : Int)) (by omega)
    rw [← h4 i hi] at this
    exact_mod_cast this
  obtain ⟨mm', B, h5, h6, h7⟩ := C42_multimod_CRT he h hs hn m hlt
  rw [h2] at h5
  rw [Option.some.inj h5, h6]
  congr 1
  exact isCrt_unique h h7 ⟨h0, h1, fun i hi => (h4 i hi).symm⟩

/-! ### Concrete instances -/

/-- The moduli 3, 5, 7 and 11 (the last one for all further indices). -/
def sampleModuli : Nat → Nat := fun i => if i = 0 then 3 else if i = 1 then 5 else if i = 2 then 7 else 11

theorem sampleModuli_ok : Moduli sampleModuli 4 := by
  refine ⟨fun i hi => ?_, fun i hi => ?_, fun i j hi hj hij => ?_⟩
  · interval_cases i <;> decide
  · interval_cases i <;> decide
  · interval_cases i <;> interval_cases j <;> first | omega | decide

/-- Leaves with two moduli: the tree is used. -/
example : ∃ e mm A, multiInit e 2 sampleModuli 4 = some mm ∧ multiCrt e mm (fun i => i + 1) = some A ∧
    IsCrt sampleModuli 4 (fun i => i + 1) A := by
  obtain ⟨e, he⟩ := extOK_satisfiable
  obtain ⟨mm, A, h⟩ := C42_multimod_CRT he sampleModuli_ok (size := 2) (by norm_num) (by norm_num)
    (fun i => i + 1) (fun i hi => by interval_cases i <;> decide)
  exact ⟨e, mm, A, h⟩

/-- One leaf, a negative integer beyond the product. -/
example : ∃ out, (∀ i, i < 4 → naiveReduce (-2000) (naiveModInit (fun _ => 0) sampleModuli 4) i =
    some (out i)) ∧ IsResidues sampleModuli 4 (-2000) out :=
  C43_multimod_naive_reduce sampleModuli_ok _ _

/-- One word-size modulus with its top bit set, next to a small one: the other mode. -/
example : Moduli (fun i => if i = 0 then 2 ^ 64 - 1 else 2) 2 := by
  refine ⟨fun i hi => ?_, fun i hi => ?_, fun i j hi hj hij => ?_⟩
  · interval_cases i <;> norm_num
  · interval_cases i <;> norm_num
  · interval_cases i <;> interval_cases j <;> first | omega | (simp; decide)

end PML.Crt
