import Verif.Ntl.SylvXDense
import Verif.Ntl.MiddleProps
import Verif.Ntl.StructXExamples

/-! # Sylvester matrices over `K[X]`: the inputs on which the products fail, and examples (C93) -/

namespace PML.Ntl.SylvX

open Polynomial PML.Ntl.Utils PML.Ntl.Inv PML.Ntl.Solve PML.Ntl.Struct PML.Ntl.Bivar PML.Ntl.FftPoints PML.Ntl.StructX

variable {F : Type} [Field F]

/-- No room for the product of a vector whose last entry is of maximal degree by a zero vector. -/
theorem no_room {u v : PVec F} {n : Nat} (hn : u.len = n + 1) (hl : Bivar.pdeg (u.at' n) = u.degX) (hv : ∀ i, i < v.len → v.at' i = 0) : ¬ Room u v := by
  have hz : v.degX = -1 := le_antisymm ((degX_le _ _).2 ⟨le_refl _, fun i hi => by rw [hv i hi]; simp [Bivar.pdeg]⟩) (degX_ge v)
  rintro (⟨-, h⟩ | ⟨-, -, h⟩ | ⟨-, h, -⟩)
  · omega
  · have := h n hn
    omega
  · omega

/-- **C93**. If the first part of the input is zero and the leading coefficient of `A` has the degree of `A`, or if the second part is zero and the
    leading coefficient of `B` has the degree of `B`, then `mul_right` does not return. -/
theorem C93_right_zero_part {A B : PVec F} {o : Sylv F} (ho : Made A B o) (g : Junk F) (out inp : PVec F) :
    (Bivar.pdeg (A.at' (A.len - 1)) = A.degX → (∀ i, i < B.len - 1 → inp.at' i = 0) → ∀ w, o.mulRight g out inp ≠ .ok w) ∧
    (Bivar.pdeg (B.at' (B.len - 1)) = B.degX → (∀ i, B.len - 1 ≤ i → i < o.n → inp.at' i = 0) → ∀ w, o.mulRight g out inp ≠ .ok w) := by
  have h := made_inv ho
  have la := h.la
  have lb := h.lb
  have hn := h.n
  refine ⟨fun hd hz w hw => ?_, fun hd hz w hw => ?_⟩
  · by_cases hl : inp.len = o.n
    · exact (C93_right ho g out inp).2.1 hl (fun hr => no_room (v := firstPart inp (B.len - 1)) (n := A.len - 1) (by omega) hd (fun i hi => hz i hi) hr.1) w hw
    · rw [(C93_right ho g out inp).2.2 hl] at hw
      exact absurd hw (by simp)
  · by_cases hl : inp.len = o.n
    · refine (C93_right ho g out inp).2.1 hl (fun hr => no_room (v := secondPart inp (B.len - 1) (A.len - 1)) (n := B.len - 1) (by omega) hd
        (fun i hi => hz (i + (B.len - 1)) (by omega) ?_) hr.2) w hw
      have : i < A.len - 1 := hi
      omega
    · rw [(C93_right ho g out inp).2.2 hl] at hw
      exact absurd hw (by simp)

/-- **C93**. If the input is zero and the constant coefficient of `A` or of `B` has the degree of the polynomial, then `mul_left` does not return. -/
theorem C93_left_zero {A B : PVec F} {o : Sylv F} (ho : Made A B o) (g : Junk F) {mp : F[X] → F[X] → Int → Int → Out F[X]} (hmp : MidOK mp)
    (out inp : PVec F) (hd : Bivar.pdeg (A.at' 0) = A.degX ∨ Bivar.pdeg (B.at' 0) = B.degX) (hz : ∀ i, i < o.n → inp.at' i = 0) (w : PVec F) :
    o.mulLeft g mp out inp ≠ .ok w := by
  have h := made_inv ho
  have la := h.la
  have lb := h.lb
  intro hw
  by_cases hl : inp.len = o.n
  · refine (C93_left ho g hmp out inp).2.1 hl (fun hr => ?_) w hw
    rcases hd with hd | hd
    · refine no_room (u := reversed A) (n := o.dAy) la ?_ (fun i hi => hz i (by omega)) hr.1
      rw [reversed_degX, ← hd]
      show Bivar.pdeg (A.at' (A.len - 1 - o.dAy)) = _
      rw [show A.len - 1 - o.dAy = 0 by omega]
    · refine no_room (u := reversed B) (n := o.dBy) lb ?_ (fun i hi => hz i (by omega)) hr.2
      rw [reversed_degX, ← hd]
      show Bivar.pdeg (B.at' (B.len - 1 - o.dBy)) = _
      rw [show B.len - 1 - o.dBy = 0 by omega]
  · rw [(C93_left ho g hmp out inp).2.2 hl] at hw
    exact absurd hw (by simp)

theorem trunc_zero_degX (u : PVec F) : (truncV u 0).degX = -1 :=
  le_antisymm ((degX_le _ _).2 ⟨le_refl _, fun i _ => by
    have : ptrunc (u.at' i) 0 = 0 := by ext t; rw [ptrunc_coeff]; simp
    show Bivar.pdeg (ptrunc (u.at' i) 0) ≤ -1
    rw [this]
    simp [Bivar.pdeg]⟩) (degX_ge _)

/-- **C93**. The truncated products do not return for `s = 0`. -/
theorem C93_trunc_zero {A B : PVec F} {o : Sylv F} (ho : Made A B o) (g : Junk F) {mp : F[X] → F[X] → Int → Int → Out F[X]} (hmp : MidOK mp)
    (out inp : PVec F) (w : PVec F) : o.mulRightTrunc g out inp 0 ≠ .ok w ∧ o.mulLeftTrunc g mp out inp 0 ≠ .ok w := by
  have no : ∀ u v : PVec F, ¬ Room (truncV u 0) (truncV v 0) := by
    intro u v
    unfold Room
    rw [trunc_zero_degX, trunc_zero_degX]
    omega
  refine ⟨fun hw => ?_, fun hw => ?_⟩
  · by_cases hl : inp.len = o.n
    · exact (C93_right_trunc ho g out inp 0).2.1 hl (fun hr => no _ _ hr.1) w hw
    · rw [(C93_right_trunc ho g out inp 0).2.2 hl] at hw
      exact absurd hw (by simp)
  · by_cases hl : inp.len = o.n
    · exact (C93_left_trunc ho g hmp out inp 0).2.1 hl (fun hr => no _ _ hr.1) w hw
    · rw [(C93_left_trunc ho g hmp out inp 0).2.2 hl] at hw
      exact absurd hw (by simp)

/-! ### Middle products -/

/-- The function `middle_product` of C56, with the value 0 for an empty range. -/
noncomputable def midOf {p : Nat} [Fact p.Prime] (red : Nat → ZMod p) (cross : Nat) (a c : (ZMod p)[X]) (dA dB : Int) : Out (ZMod p)[X] :=
  open Classical in
  if a = 0 ∨ c = 0 ∨ dB < 0 then .ok 0
  else match Middle.middleProduct red cross a c dA.toNat dB.toNat with
    | some b => .ok b
    | none => .ub

/-- **C93**. The function `middle_product` of the library meets the contract when it does not accumulate several products in a word. -/
theorem C93_middle {p : Nat} [Fact p.Prime] {red : Nat → ZMod p} (hred : Middle.RedOK red) (cross : Nat) (hp : Middle.useLong p = false) :
    MidOK (midOf red cross) := by
  have : Fact (1 < p) := ⟨(Fact.out (p := p.Prime)).one_lt⟩
  refine ⟨fun a c dA dB h => if_pos (by tauto), fun a c dA l => ?_⟩
  unfold midOf
  by_cases h0 : a = 0 ∨ c = 0 ∨ ((l : Int) - 1) < 0
  · rw [if_pos h0]
    refine ⟨0, rfl, fun j => ?_⟩
    rcases h0 with h0 | h0 | h0
    · rw [h0]; simp
    · rw [h0]; simp
    · rw [if_neg (by omega), coeff_zero]
  · rw [if_neg h0]
    obtain ⟨b, e1, e2⟩ := Middle.C56_middle_product_partial hred cross a c dA (l - 1) (.inl hp)
    rw [Int.toNat_natCast, show ((l : Int) - 1).toNat = l - 1 by omega, e1]
    refine ⟨b, rfl, fun j => ?_⟩
    rw [e2 j]
    by_cases hj : j < l
    · rw [if_pos hj, if_pos (by omega)]
    · rw [if_neg hj, if_neg (by omega)]

/-! ### Examples -/

/-- The middle product as a part of the product. -/
noncomputable def exMid (a c : ℚ[X]) (dA dB : Int) : Out ℚ[X] :=
  .ok (ofCoeffs (dB + 1).toNat fun j => ((a %ₘ X ^ (dA.toNat + 1)) * c).coeff (dA.toNat + j))

theorem exMid_ok : MidOK exMid := by
  refine ⟨fun a c dA dB h => ?_, fun a c dA l => ⟨_, rfl, fun j => ?_⟩⟩
  · unfold exMid
    congr 1
    ext t
    rw [ofCoeffs_coeff]
    rcases h with h | h <;> simp [h]
  · rw [ofCoeffs_coeff, Int.toNat_natCast, show ((l : Int) - 1 + 1).toNat = l by omega]

/-- `A = (X + 1) Y^2 + X Y + 1`. -/
noncomputable def exA : PVec ℚ := ⟨3, fun i => if i = 0 then 1 else if i = 1 then X else X + 1⟩

/-- `B = Y + X^2`. -/
noncomputable def exB : PVec ℚ := ⟨2, fun i => if i = 0 then X ^ 2 else 1⟩

theorem X1_ne : (X + 1 : ℚ[X]) ≠ 0 := fun h => by simpa [coeff_one] using congrArg (fun f => coeff f 1) h

/-- A Sylvester matrix of dimension 3: products by `1, X, X^2`, in full and modulo `X^2`, dense matrix and generators. -/
example : ∃ o : Sylv ℚ, Sylv.make exJunk exA exB = .ok o ∧
    IsRight (o.mulRight exJunk exVec ⟨3, fun i => X ^ i⟩) 3 3 (sylvEntry exA exB) (fun i => X ^ i) ∧
    IsLeft (o.mulLeft exJunk exMid exVec ⟨3, fun i => X ^ i⟩) 3 3 (sylvEntry exA exB) (fun i => X ^ i) ∧
    IsRightMod 2 (o.mulRightTrunc exJunk exVec ⟨3, fun i => X ^ i⟩ 2) 3 3 (sylvEntry exA exB) (fun i => X ^ i) ∧
    IsLeftMod 2 (o.mulLeftTrunc exJunk exMid exVec ⟨3, fun i => X ^ i⟩ 2) 3 3 (sylvEntry exA exB) (fun i => X ^ i) ∧
    IsMat (o.toDense exU) 3 3 (sylvEntry exA exB) ∧
    (∃ G H, o.gens exU exV = .ok (G, H) ∧ ∀ i j, i < 3 → j < 3 → disp 1 0 3 3 (sylvEntry exA exB) i j = ∑ k ∈ Finset.range 2, G.e (i, k) * H.e (j, k)) ∧
    o.mulRight exJunk exVec exJunk.old = .error := by
  have na : exA.at' 2 ≠ 0 := by show (if 2 = 0 then (1 : ℚ[X]) else if 2 = 1 then X else X + 1) ≠ 0; simpa using X1_ne
  have nb : exB.at' 1 ≠ 0 := by show (if 1 = 0 then (X ^ 2 : ℚ[X]) else 1) ≠ 0; simp
  obtain ⟨o, e, hn⟩ := (C93_make exJunk exA exB).1 2 1 rfl rfl na nb
  have hn : o.n = 3 := hn
  have ho : Made exA exB o := ⟨exJunk, e⟩
  -- room: both operands are nonzero
  have pos : ∀ (u : PVec ℚ) (i : Nat), i < u.len → u.at' i ≠ 0 → 0 ≤ u.degX := fun u i hi h => degX_pos hi h
  have tr : ∀ (f : ℚ[X]), f.coeff 0 ≠ 0 → ptrunc f 2 ≠ 0 := fun f hf h0 => by
    have := congrArg (fun f => coeff f 0) h0
    simp only [ptrunc_coeff, coeff_zero] at this
    simp [hf] at this
  have tr1 : ∀ (f : ℚ[X]), f.coeff 1 ≠ 0 → ptrunc f 2 ≠ 0 := fun f hf h0 => by
    have := congrArg (fun f => coeff f 1) h0
    simp only [ptrunc_coeff, coeff_zero] at this
    simp [hf] at this
  have v0 : (X ^ 0 : ℚ[X]) ≠ 0 := by simp
  have v1 : (X ^ (0 + 1) : ℚ[X]) ≠ 0 := by simp
  have R := C93_right ho exJunk exVec (⟨3, fun i => X ^ i⟩ : PVec ℚ)
  have RT := C93_right_trunc ho exJunk exVec (⟨3, fun i => X ^ i⟩ : PVec ℚ) 2
  have L := C93_left ho exJunk exMid_ok exVec (⟨3, fun i => X ^ i⟩ : PVec ℚ)
  have LT := C93_left_trunc ho exJunk exMid_ok exVec (⟨3, fun i => X ^ i⟩ : PVec ℚ) 2
  have D := C93_dense ho exU
  have G := (C93_gens ho exU exV).1 (le_refl _)
  have E := (C93_right ho exJunk exVec exJunk.old).2.2
  rw [hn] at R RT L LT D G E
  refine ⟨o, e, ?_, ?_, ?_, ?_, D, ?_, E (by show (5 : Nat) ≠ 3; decide)⟩
  · exact R.1 rfl (.inl ⟨pos exA 2 (by decide) na, pos _ 0 (by decide) v0⟩) (.inl ⟨pos exB 1 (by decide) nb, pos _ 0 (by decide) v1⟩)
  · exact L.1 rfl (.inl ⟨pos (reversed exA) 0 (by decide) na, pos _ 0 (by decide) v0⟩) (.inl ⟨pos (reversed exB) 0 (by decide) nb, pos _ 0 (by decide) v0⟩)
  · refine RT.1 rfl (.inl ⟨pos _ 0 (by decide) (tr _ ?_), pos _ 0 (by decide) (tr _ ?_)⟩) (.inl ⟨pos _ 1 (by decide) (tr _ ?_), pos _ 0 (by decide) (tr1 _ ?_)⟩)
    · show (if 0 = 0 then (1 : ℚ[X]) else if 0 = 1 then X else X + 1).coeff 0 ≠ 0
      simp
    · show (X ^ 0 : ℚ[X]).coeff 0 ≠ 0
      simp
    · show (if 1 = 0 then (X ^ 2 : ℚ[X]) else 1).coeff 0 ≠ 0
      simp
    · show (X ^ (0 + 1) : ℚ[X]).coeff 1 ≠ 0
      simp
  · refine LT.1 rfl (.inl ⟨pos _ 2 (by decide) (tr _ ?_), pos _ 0 (by decide) (tr _ ?_)⟩) (.inl ⟨pos _ 0 (by decide) (tr _ ?_), pos _ 0 (by decide) (tr _ ?_)⟩)
    · show (if 0 = 0 then (1 : ℚ[X]) else if 0 = 1 then X else X + 1).coeff 0 ≠ 0
      simp
    · show (X ^ 0 : ℚ[X]).coeff 0 ≠ 0
      simp
    · show (if 1 = 0 then (X ^ 2 : ℚ[X]) else 1).coeff 0 ≠ 0
      simp
    · show (X ^ 0 : ℚ[X]).coeff 0 ≠ 0
      simp
  · obtain ⟨G', H', g1, -, -, -, -, g2⟩ := G
    exact ⟨G', H', g1, g2⟩

/-- The polynomials `A = B = Y + 1`, without `X`. -/
noncomputable def exC : PVec ℚ := ⟨2, fun _ => 1⟩

theorem exC_degX : exC.degX = 0 := le_antisymm ((degX_le _ _).2 ⟨by decide, fun i _ => by show Bivar.pdeg (1 : ℚ[X]) ≤ 0; simp [Bivar.pdeg]⟩)
  (degX_pos (i := 0) (by decide) (by show (1 : ℚ[X]) ≠ 0; simp))

/-- The product by a unit vector does not return, and neither does the product on the left of the zero vector. -/
example : ∃ o : Sylv ℚ, Sylv.make exJunk exC exC = .ok o ∧ o.n = 2 ∧
    (∀ w, o.mulRight exJunk exVec ⟨2, fun i => if i = 0 then 1 else 0⟩ ≠ .ok w) ∧
    (∀ w, o.mulRight exJunk exVec ⟨2, fun i => if i = 1 then 1 else 0⟩ ≠ .ok w) ∧
    (∀ w, o.mulLeft exJunk exMid exVec ⟨2, fun _ => 0⟩ ≠ .ok w) ∧
    (∀ w, o.mulRightTrunc exJunk exVec ⟨2, fun _ => 1⟩ 0 ≠ .ok w) := by
  have h1 : (1 : ℚ[X]) ≠ 0 := one_ne_zero
  obtain ⟨o, e, hn⟩ := (C93_make exJunk exC exC).1 1 1 rfl rfl h1 h1
  have hn : o.n = 2 := hn
  have ho : Made exC exC o := ⟨exJunk, e⟩
  have hd : ∀ i, Bivar.pdeg (exC.at' i) = exC.degX := fun i => by
    rw [exC_degX]
    show Bivar.pdeg (1 : ℚ[X]) = 0
    simp [Bivar.pdeg]
  refine ⟨o, e, hn, (C93_right_zero_part ho exJunk exVec _).2 (hd _) (fun i h h' => ?_), (C93_right_zero_part ho exJunk exVec _).1 (hd _) (fun i h => ?_),
    C93_left_zero ho exJunk exMid_ok exVec _ (.inl (hd 0)) (fun i _ => rfl), fun w => (C93_trunc_zero ho exJunk exMid_ok exVec _ w).1⟩
  · have h : 1 ≤ i := h
    dsimp only
    rw [if_neg (by omega)]
  · have h : i < 1 := h
    dsimp only
    rw [if_neg (by omega)]

/-- Vanishing last entries, empty vectors. -/
example : Sylv.make exJunk (⟨2, fun i => if i = 0 then 1 else 0⟩ : PVec ℚ) exC = .error ∧
    Sylv.make exJunk exC (⟨2, fun i => if i = 0 then 1 else 0⟩ : PVec ℚ) = .error ∧ Sylv.make exJunk (⟨0, fun _ => 1⟩ : PVec ℚ) exC = .ub ∧
    Sylv.make exJunk exC (⟨0, fun _ => 1⟩ : PVec ℚ) = .ub :=
  ⟨(C93_make exJunk _ exC).2.1 1 rfl (by show (if 1 = 0 then (1 : ℚ[X]) else 0) = 0; simp), (C93_make exJunk exC _).2.2.1 1 1 rfl rfl (by show (if 1 = 0 then (1 : ℚ[X]) else 0) = 0; simp), (C93_make exJunk _ exC).2.2.2.1 rfl,
    (C93_make exJunk exC _).2.2.2.2 1 rfl one_ne_zero rfl⟩

/-- The generators when `B` has degree 0 in `Y`. -/
example : ∃ o : Sylv ℚ, Sylv.make exJunk exC (⟨1, fun _ => 1⟩ : PVec ℚ) = .ok o ∧ o.gens exU exV = .ub := by
  obtain ⟨o, e, -⟩ := (C93_make exJunk exC (⟨1, fun _ => 1⟩ : PVec ℚ)).1 1 0 rfl rfl one_ne_zero one_ne_zero
  exact ⟨o, e, (C93_gens ⟨exJunk, e⟩ exU exV).2 (by decide)⟩

end PML.Ntl.SylvX
