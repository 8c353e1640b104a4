import Verif.Ntl.CLikeExamples

/-!
# C99: operands of the wrong size, and matrices without generators
-/

namespace PML.Ntl.CLike

open PML.Ntl.Utils PML.Ntl.Inv PML.Ntl.Struct PML.Ntl.Solve

variable {p : Nat} [Fact p.Prime]

/-- **C99**. The products do not test the size of their operand: a shorter one is read out of bounds, as soon as there is a generator. -/
theorem C99_short_operand {red : Nat → ZMod p} {U V : PMat (ZMod p)} {u v rho : ZMod p} {c : CLike p} (h : CLike.make U V u v rho = .ok c)
    (hm : 0 < U.rows) (hn : 0 < V.rows) (ha : 0 < U.cols) (cross : Nat) (w : NVec (ZMod p)) (x M : PMat (ZMod p)) :
    (w.len < V.rows → c.right red cross w = .ub) ∧ (w.len < U.rows → c.left red cross w = .ub) ∧
    (0 < M.cols → M.rows < V.rows → c.rightMat red cross x M = .ub) ∧ (0 < M.rows → M.cols < U.rows → c.leftMat red cross x M = .ub) := by
  obtain ⟨C, hC, rfl⟩ := make_clike h
  obtain ⟨-, -, -, -, -, hm', hn', -, -⟩ := (cauchy_made hm hn).2.2 C hC
  refine ⟨fun h1 => ?_, fun h1 => ?_, fun h0 h1 => ?_, fun h0 h1 => ?_⟩
  · exact if_pos ⟨ha, by dsimp only; omega, .inl (by dsimp only; omega)⟩
  · exact if_pos ⟨ha, .inl (by dsimp only; omega)⟩
  · exact (if_neg (by dsimp only; omega)).trans (if_pos ⟨h0, ha, .inl (by dsimp only; omega)⟩)
  · exact (if_neg (by dsimp only; omega)).trans (if_pos ⟨h0, .inl (by dsimp only; omega)⟩)

/-- **C99**. Without generators the matrix is zero, and the products by vectors are zero and do not read their operand. -/
theorem C99_no_generator {red : Nat → ZMod p} {U V : PMat (ZMod p)} {u v rho : ZMod p} {c : CLike p} (h : CLike.make U V u v rho = .ok c)
    (hm : 0 < U.rows) (hn : 0 < V.rows) (ha : U.cols = 0) (cross : Nat) (w : NVec (ZMod p)) :
    (∃ y, c.right red cross w = .ok y ∧ y.len = U.rows ∧ ∀ i, i < U.rows → y.e i = 0) ∧
    ∃ y, c.left red cross w = .ok y ∧ y.len = V.rows ∧ ∀ i, i < V.rows → y.e i = 0 := by
  obtain ⟨C, hC, rfl⟩ := make_clike h
  obtain ⟨-, -, -, -, -, hm', hn', -, -⟩ := (cauchy_made hm hn).2.2 C hC
  constructor
  · unfold CLike.right
    dsimp only
    rw [if_neg (by omega), ha]
    refine ⟨_, rfl, hm', fun i hi => ?_⟩
    dsimp only
    rw [fill_loop, if_pos (by omega)]
  · unfold CLike.left
    dsimp only
    rw [if_neg (by omega), ha]
    refine ⟨_, rfl, hn', fun i hi => ?_⟩
    dsimp only
    rw [fill_loop, if_pos (by omega)]

/-- A product by a vector of length 1 of a matrix with 2 columns. -/
example (red : Nat → ZMod 11) : ∃ c, CLike.make ones2 ones2 1 3 2 = .ok c ∧ c.right red 0 ⟨1, fun _ => 1⟩ = .ub := by
  obtain ⟨c, e, -⟩ := (C99_constructor ones2 ones2 (1 : ZMod 11) 3 2 (by decide) (by decide)).1 ⟨by decide, ok11⟩
  exact ⟨c, e, (C99_short_operand e (by decide) (by decide) (by decide) 0 ⟨1, fun _ => 1⟩ ⟨0, 0, fun _ => 0⟩ ⟨0, 0, fun _ => 0⟩).1 (by decide)⟩

end PML.Ntl.CLike
