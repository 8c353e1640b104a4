import Verif.Ntl.StructXLike

/-! # The hypotheses of the theorems of C92 are met -/

namespace PML.Ntl.StructX

open Polynomial PML.Ntl.Utils PML.Ntl.Inv PML.Ntl.Bivar

/-- Whatever the memory holds. -/
noncomputable def exJunk : Junk ℚ := ⟨fun i => i, fun i j => i + j, ⟨5, fun i => C 3 * X ^ i⟩⟩

/-- The column `1 + 1, X + 1, X^2 + 1`. -/
noncomputable def exVec : PVec ℚ := ⟨3, fun i => X ^ i + 1⟩

noncomputable def exU : PMat ℚ[X] := ⟨4, 2, fun ij => X ^ ij.1 + C (ij.2 : ℚ)⟩

noncomputable def exV : PMat ℚ[X] := ⟨3, 2, fun ij => X ^ ij.2 - C (ij.1 : ℚ)⟩

/-- A triangular matrix after two calls to `prepare_degree`: the products and the dense matrix are right, and another length is refused. -/
example : ∃ o o' : Tri ℚ, (Tri.make exVec).prepare exJunk 4 = .ok o ∧ o.prepare exJunk 1 = .ok o' ∧
    IsRight (o'.mulRight exJunk exVec exVec) 3 3 (triEntry exVec.at') exVec.at' ∧
    IsRightMod 2 (o'.mulRightTrunc exJunk exVec exVec 2) 3 3 (triEntry exVec.at') exVec.at' ∧
    IsLeft (o'.mulLeft exJunk exVec exVec) 3 3 (triEntry exVec.at') exVec.at' ∧
    IsLeftMod 2 (o'.mulLeftTrunc exJunk exVec exVec 2) 3 3 (triEntry exVec.at') exVec.at' ∧
    IsMat (.ok (o'.toDense newMat)) 3 3 (triEntry exVec.at') ∧
    o'.mulRight exJunk exVec exJunk.old = .error := by
  obtain ⟨o, e, h⟩ := C92_tri_prepare (Tri.Reach.make (v := exVec)) exJunk (d := 4) (by norm_num)
  obtain ⟨o', e', h'⟩ := C92_tri_prepare h exJunk (d := 1) (by norm_num)
  exact ⟨o, o', e, e', (C92_tri_right h' exJunk exVec exVec).1 rfl, (C92_tri_right_trunc h' exJunk exVec exVec 2).1 rfl,
    (C92_tri_left h' exJunk exVec exVec).1 rfl, (C92_tri_left_trunc h' exJunk exVec exVec 2).1 rfl,
    C92_tri_dense_partial h' newMat (.inl (by show (0 : Nat) ≠ 3; decide)), (C92_tri_right h' exJunk exVec exJunk.old).2 (by show (5 : Nat) ≠ 3; decide)⟩

/-- The output of `to_dense` holds the entry `(0, 1)` of another matrix of the same size. -/
example : ¬ IsMat (.ok ((Tri.make exVec).toDense (⟨3, 3, fun _ => 1⟩ : PMat ℚ[X]))) 3 3 (triEntry exVec.at') :=
  (C92_tri_dense_stale (Tri.Reach.make (v := exVec)) ⟨3, 3, fun _ => 1⟩ rfl (i := 0) (j := 1) (by decide) (by decide)).2 one_ne_zero

/-- A circulant matrix with seven rows, three columns and a prepared degree. -/
example : ∃ o o' : Circ ℚ, Circ.make exJunk exVec 7 = .ok o ∧ o.prepare exJunk 2 = .ok o' ∧
    IsRight (o'.mulRight exJunk exVec exVec) 7 3 (circEntry 3 exVec.at') exVec.at' ∧
    IsRightMod 2 (o'.mulRightTrunc exJunk exVec exVec 2) 7 3 (circEntry 3 exVec.at') exVec.at' ∧
    IsLeft (o'.mulLeft exJunk exVec ⟨7, fun i => X ^ i⟩) 7 3 (circEntry 3 exVec.at') (fun i => X ^ i) ∧
    IsLeftMod 2 (o'.mulLeftTrunc exJunk exVec ⟨7, fun i => X ^ i⟩ 2) 7 3 (circEntry 3 exVec.at') (fun i => X ^ i) ∧
    IsMat (.ok (o'.toDense exU)) 7 3 (circEntry 3 exVec.at') ∧ o'.mulLeft exJunk exVec exVec = .error := by
  obtain ⟨o, e, h⟩ := (C92_circ_make exJunk exVec 7).1 (by decide)
  obtain ⟨o', e', h'⟩ := C92_circ_prepare h exJunk (d := 2) (by norm_num)
  exact ⟨o, o', e, e', (C92_circ_right h' exJunk exVec exVec).1 rfl, (C92_circ_right_trunc h' exJunk exVec exVec 2).1 rfl,
    (C92_circ_left h' exJunk exVec _).1 rfl, (C92_circ_left_trunc h' exJunk exVec _ 2).1 rfl, C92_circ_dense h' exU,
    (C92_circ_left h' exJunk exVec exVec).2 (by show (3 : Nat) ≠ 7; decide)⟩

/-- The empty vector. -/
example : Circ.make exJunk (⟨0, fun _ => 0⟩ : PVec ℚ) 7 = .ub := (C92_circ_make exJunk _ 7).2 rfl

/-- A Toeplitz-like matrix of size 4 by 3 with two generators, and its products by vectors and by matrices. -/
example : ∃ (M : Nat → Nat → ℚ[X]) (o : Like ℚ), HasGens exU exV M ∧ Like.make exJunk 5 6 exU exV = .ok o ∧
    IsRight (o.mulRight exJunk exVec exVec) 4 3 M exVec.at' ∧
    IsRightMod 2 (o.mulRightTrunc exJunk exVec exVec 2) 4 3 M exVec.at' ∧
    IsLeft (o.mulLeft exJunk exVec ⟨4, fun i => X ^ i⟩) 4 3 M (fun i => X ^ i) ∧
    IsLeftMod 2 (o.mulLeftTrunc exJunk exVec ⟨4, fun i => X ^ i⟩ 2) 4 3 M (fun i => X ^ i) ∧
    IsMat (o.toDense exU) 4 3 M ∧ IsMat (o.toDense ⟨4, 3, fun _ => 1⟩) 4 3 (fun i j => 1 + M i j) ∧
    IsMat (matRight exJunk 4 3 (o.mulRight exJunk) newMat exV) 4 2 (fun i j => ∑ l ∈ Finset.range 3, M i l * exV.e (l, j)) ∧
    IsMat (matLeft exJunk 4 3 (fun r v => o.mulLeftTrunc exJunk r v 5) newMat ⟨2, 4, fun _ => X⟩) 2 3
      (fun i j => (∑ l ∈ Finset.range 4, X * M l j) %ₘ X ^ 5) := by
  obtain ⟨M, hM⟩ := (C92_unique exU exV).1
  have hm : 0 < exU.rows := by decide
  have hn : 0 < exV.rows := by decide
  obtain ⟨o, e⟩ := (C92_like_make exJunk 5 6 exU exV hm hn).1 (le_refl _)
  have hv : exU.cols ≤ exV.cols := le_refl _
  refine ⟨M, o, hM, e, (C92_like_right hM hm hn hv e exJunk exVec exVec).1 rfl, (C92_like_right_trunc hM hm hn hv e exJunk exVec exVec 2).1 rfl,
    (C92_like_left hM hm hn hv e exJunk exVec _).1 rfl, (C92_like_left_trunc hM hm hn hv e exJunk exVec _ 2).1 rfl,
    C92_like_dense_partial hM hm hn hv e exU (.inl (by show (2 : Nat) ≠ 3; decide)), C92_like_dense_stale hM hm hn hv e _ rfl, ?_, ?_⟩
  · exact (C92_mat_right exJunk (M := M) (f := o.mulRight exJunk) (fun res v hl => (C92_like_right hM hm hn hv e exJunk res v).1 hl) newMat exV).1 rfl
  · exact (C92_mat_left_trunc exJunk (M := M) (s := 5) (f := fun r v => o.mulLeftTrunc exJunk r v 5)
      (fun res v hl => (C92_like_left_trunc hM hm hn hv e exJunk res v 5).1 hl) newMat ⟨2, 4, fun _ => X⟩).1 rfl

/-- The second generator has too few columns. -/
example : Like.make exJunk 5 6 exU (⟨3, 1, fun _ => 1⟩ : PMat ℚ[X]) = .ub := (C92_like_make exJunk 5 6 exU _ (by decide) (by decide)).2 (by decide)

/-- A matrix without rows and a matrix without columns. -/
example : (∃ o, Like.make exJunk 5 6 (⟨0, 2, fun _ => 0⟩ : PMat ℚ[X]) exV = .ok o ∧ o.mulRight exJunk exVec exVec = .error) ∧
    ∃ o, Like.make exJunk 5 6 exU (⟨0, 2, fun _ => 0⟩ : PMat ℚ[X]) = .ok o ∧ o.mulRight exJunk exVec ⟨0, fun _ => 0⟩ = .ub := by
  obtain ⟨o, e, h, -⟩ := C92_like_empty exJunk exJunk 5 6 (⟨0, 2, fun _ => 0⟩ : PMat ℚ[X]) exV (by decide) (.inl rfl)
  obtain ⟨o', e', -, h'⟩ := C92_like_empty exJunk exJunk 5 6 exU (⟨0, 2, fun _ => 0⟩ : PMat ℚ[X]) (by decide) (.inr rfl)
  exact ⟨⟨o, e, h rfl _ _ (by decide) rfl⟩, o', e', h' rfl _ _ (by decide) rfl⟩

/-- The displacements of a 4 by 2 matrix. -/
example : IsMat (phi 1 0 exU) 4 2 (disp (C 1) (C 0) 4 2 fun i j => exU.e (i, j)) := (C92_phi 1 0 exU).1 (by decide) (by decide)

/-- The displacement of the dense matrix. -/
example : ∃ o D R, Like.make exJunk 5 6 exU exV = .ok o ∧ o.toDense newMat = .ok D ∧ phi 0 1 D = .ok R ∧ R.rows = 4 ∧ R.cols = 3 ∧
    ∀ i j, i < 4 → j < 3 → R.e (i, j) = ∑ k ∈ Finset.range 2, exU.e (i, k) * exV.e (j, k) :=
  C92_round_trip exU exV (by decide) (by decide) (le_refl _) exJunk 5 6

end PML.Ntl.StructX
