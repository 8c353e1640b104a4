import Verif.Forms.Spec
import Verif.Ntl.FormsModel

/-!
# Specification: forms of polynomial matrices for ntl-extras

The shifted degrees, pivots and forms are those of `Verif/Forms/Spec.lean`, transcribed from the
documentation.  A matrix is in a column-wise form if its transpose is in the row-wise form.
-/

namespace PML.Ntl.Forms

open Polynomial PML.Ntl.Utils PML.Forms.Spec

variable {K : Type} [Field K]

/-- The rows of the matrix, as vectors. -/
def rowsOf (M : PMat K[X]) : Nat → Nat → K[X] := fun i j => M.e (i, j)

/-- The columns of the matrix, as vectors. -/
def colsOf (M : PMat K[X]) : Nat → Nat → K[X] := fun j i => M.e (i, j)

/-- The rows or the columns. -/
def linesOf (row : Bool) (M : PMat K[X]) : Nat → Nat → K[X] := if row then rowsOf M else colsOf M

/-- The lines `L 0, ..., L (r-1)` of length `n` are in the form. -/
def HasForm (r n : Nat) (s : Nat → Int) (L : Nat → Nat → K[X]) : Form → Prop
  | .none => True
  | .reduced => RowReduced r n s L
  | .weakPopov => WeakPopovLower r n s L
  | .ordWeakPopov => OrderedWeakPopovLower r n s L
  | .popov => PopovLower r n s L
  | .other => False

/-- The shift given by a vector, or no shift: the zero shift. -/
def shiftOf : Option (List Int) → Nat → Int
  | none => fun _ => 0
  | some l => fun j => l.getD j 0

/-- A valid shift: one entry for each entry of the (nonempty) lines. -/
def ValidShift (n : Nat) (s : Option (List Int)) : Prop := ∀ l, s = some l → l.length = n ∧ 0 < n

end PML.Ntl.Forms
