import Verif.Word.Spec

/-!
# Matrix-vector products modulo `n` (specification)
-/

namespace PML.N32

open PML.Word

/-- The vector that the matrix-vector products must produce: entry `i < nrows` is the dot product modulo `n` of `vec`
and of the row `mat[i stride], …, mat[i stride + len - 1]`; the other entries are those of `mv`. -/
def mdotRes (mv mat vec : Nat → Nat) (nrows len stride n : Nat) : Nat → Nat :=
  fun i => if i < nrows then dot (fun j => mat (i * stride + j)) vec len % n else mv i

end PML.N32
