import Verif.Ntl.InvModel
import Verif.Ntl.MatUtilsModel
import Verif.Ntl.SolveModel
import Mathlib.LinearAlgebra.Matrix.Rank

/-!
# Model: degrees, pivots, leading matrices and reduced forms
(ntl-extras/mat_lzz_pX_extra/src/mat_lzz_pX_forms.cpp and ntl-extras/mat_lzz_pX_extra/mat_lzz_pX_forms.h)

Degrees, shifts and indices are mathematical integers.  A shift is a list; `none` stands for the overloads
without shift.  The column functions repeat the code of the row functions on columns: `row` selects one of
them.  The only place where the two texts differ is the bound of the last loop of `is_col_popov`
(line 821, 859): the model keeps it (see `offTests`).
-/

namespace PML.Ntl.Forms

open Polynomial PML.Ntl.Utils PML.Ntl.Inv PML.Ntl.Solve

/-- `enum PolMatForm` (mat_lzz_pX_forms.h:34-40); `other` stands for the other values of the underlying
    integer type. -/
inductive Form where
  | none | reduced | weakPopov | ordWeakPopov | popov | other

/-- The numbers of the `enum`, mat_lzz_pX_forms.h:34-40. -/
def Form.num : Form → Nat
  | .none => 0
  | .reduced => 1
  | .weakPopov => 2
  | .ordWeakPopov => 3
  | .popov => 4
  | .other => 5

/-- `*std::min_element(shift.begin(), shift.end())`; `none` if it dereferences `end()`. -/
def minElement : List Int → Option Int
  | [] => none
  | a :: l => some (l.foldl (fun m x => if x < m then x else m) a)

/-- `*std::minmax_element(...).second`: the last of the largest elements. -/
def maxElement : List Int → Option Int
  | [] => none
  | a :: l => some (l.foldl (fun m x => if x < m then m else x) a)

/-- `amplitude`, mat_lzz_pX_forms.h:53-66. -/
def amplitude (shift : List Int) : Out Int :=
  match minElement shift, maxElement shift with
  | some a, some b => .ok (b - a)
  | _, _ => .ub

variable {K : Type} [Field K] [DecidableEq K]

/-- Row `k` or column `k`. -/
def line (row : Bool) (M : PMat K[X]) (k : Nat) : Nat → K[X] :=
  fun j => if row then M.e (k, j) else M.e (j, k)

/-- The number of lines: `NumRows()` or `NumCols()`. -/
def num {α : Type} (row : Bool) (M : PMat α) : Nat := if row then M.rows else M.cols

/-- The length of the lines: `NumCols()` or `NumRows()`. -/
def len {α : Type} (row : Bool) (M : PMat α) : Nat := if row then M.cols else M.rows

/-- Inner loop of `row_degree`, `col_degree`: mat_lzz_pX_forms.cpp:27-30, 82-85. -/
noncomputable def degLoop (p : Nat → K[X]) : Nat → Int
  | 0 => -1
  | j + 1 => if degLoop p j < pdeg (p j) then pdeg (p j) else degLoop p j

/-- Inner loop of the shifted `row_degree`, `col_degree`: lines 56-62, 111-117. -/
noncomputable def degLoopShift (p : Nat → K[X]) (s : List Int) (min_shift : Int) : Nat → Int
  | 0 => min_shift - 1
  | j + 1 =>
    let r := degLoopShift p s min_shift j
    let d := pdeg (p j) + s.getD j 0
    if p j ≠ 0 ∧ r < d then d else r

/-- The test of the length of the shift and the call of `min_element` at the beginning of the shifted
    functions: lines 43-51, 98-106, 172-176, 250-254, 322-326, 349-353. -/
def withMin {α : Type} (s : List Int) (n : Nat) (f : Int → α) : Out α :=
  if s.length ≠ n then .error
  else
    match minElement s with
    | none => .ub
    | some m => .ok (f m)

/-- `row_degree`, `col_degree`: lines 15-119. -/
noncomputable def degrees (row : Bool) (M : PMat K[X]) : Option (List Int) → Out (List Int)
  | none => .ok ((List.range (num row M)).map fun k => degLoop (line row M k) (len row M))
  | some s => withMin s (len row M) fun m =>
      (List.range (num row M)).map fun k => degLoopShift (line row M k) s m (len row M)

/-- Inner loop of `row_pivots`, `col_pivots`, on the pair `(pivind[i], pivdeg[i])`: lines 148-158, 226-236. -/
noncomputable def pivLoop (p : Nat → K[X]) : Nat → Int × Int
  | 0 => (-1, -1)
  | j + 1 =>
    let x := pivLoop p j
    let d := pdeg (p j)
    if d > x.2 then ((j : Int), d)
    else if d = x.2 ∧ d ≥ 0 then ((j : Int), x.2)
    else x

/-- Inner loop of the shifted `row_pivots`, `col_pivots`: lines 187-200, 265-278. -/
noncomputable def pivLoopShift (p : Nat → K[X]) (s : List Int) (min_rdeg : Int) : Nat → Int × Int
  | 0 => (-1, min_rdeg)
  | j + 1 =>
    let x := pivLoopShift p s min_rdeg j
    let d := pdeg (p j) + s.getD j 0
    if d ≥ s.getD j 0 then
      if d > x.2 then ((j : Int), d)
      else if d = x.2 then ((j : Int), x.2)
      else x
    else x

/-- The end of the outer loop of the shifted `row_pivots`, `col_pivots`: lines 201-205, 279-283. -/
def unshift (s : List Int) (x : Int × Int) : Int × Int :=
  if x.1 = -1 then (x.1, -1) else (x.1, x.2 - s.getD x.1.toNat 0)

/-- `row_pivots`, `col_pivots`: lines 134-285. -/
noncomputable def pivots (row : Bool) (M : PMat K[X]) : Option (List Int) → Out (List Int × List Int)
  | none =>
    let v := (List.range (num row M)).map fun k => pivLoop (line row M k) (len row M)
    .ok (v.map Prod.fst, v.map Prod.snd)
  | some s => withMin s (len row M) fun m =>
    let v := (List.range (num row M)).map fun k =>
      unshift s (pivLoopShift (line row M k) s (m - 1) (len row M))
    (v.map Prod.fst, v.map Prod.snd)

/-- `degree_matrix`, lines 301-311 (each entry is written once). -/
noncomputable def degreeMatrix (M : PMat K[X]) : PMat Int := ⟨M.rows, M.cols, fun x => pdeg (M.e x)⟩

/-- `degree_matrix_rowshifted`, `degree_matrix_colshifted`: lines 316-365. -/
noncomputable def degreeMatrixShift (row : Bool) (M : PMat K[X]) (s : List Int) : Out (PMat Int) :=
  withMin s (len row M) fun m =>
    ⟨M.rows, M.cols, fun x =>
      if M.e x = 0 then m - 1 else pdeg (M.e x) + s.getD (if row then x.2 else x.1) 0⟩

/-- The entry of the shift that is added to the degree: none in the overloads without shift. -/
def addShift (s : Option (List Int)) (j : Nat) : Int :=
  match s with
  | none => 0
  | some s => s.getD j 0

/-- `row_leading_matrix`, `col_leading_matrix`: lines 380-457. -/
noncomputable def leadingMatrix (row : Bool) (M : PMat K[X]) (s : Option (List Int)) : Out (PMat K) :=
  andThen (degrees row M s) fun rdeg =>
    .ok ⟨M.rows, M.cols, fun x =>
      if M.e x ≠ 0 ∧ pdeg (M.e x) + addShift s (if row then x.2 else x.1) =
          rdeg.getD (if row then x.1 else x.2) 0
      then (M.e x).coeff (pdeg (M.e x)).toNat
      else 0⟩

/-- NTL `gauss`: the rank (trusted). -/
noncomputable def gauss (L : PMat K) : Nat :=
  (Matrix.of fun (i : Fin L.rows) (j : Fin L.cols) => L.e ((i : Nat), (j : Nat))).rank

/-- `is_row_reduced`, `is_col_reduced`: lines 471-510. -/
noncomputable def isReduced (row : Bool) (M : PMat K[X]) (s : Option (List Int)) : Out Bool :=
  andThen (leadingMatrix row M s) fun L => .ok (decide (gauss L = num row M))

/-- `std::adjacent_find(v.begin(), v.end(), rel) != v.end()`. -/
def adjacentFind (rel : Int → Int → Bool) : List Int → Bool
  | a :: b :: l => rel a b || adjacentFind rel (b :: l)
  | _ => false

/-- `is_row_weak_popov`, `is_col_weak_popov`: lines 524-609. -/
noncomputable def isWeakPopov (row : Bool) (M : PMat K[X]) (s : Option (List Int)) : Out Bool :=
  andThen (pivots row M s) fun p =>
    if p.1.contains (-1) then .ok false
    else if adjacentFind (fun a b => decide (a = b)) (p.1.mergeSort fun a b => decide (a ≤ b)) then .ok false
    else .ok true

/-- `is_row_ordered_weak_popov`, `is_col_ordered_weak_popov`: lines 614-695. -/
noncomputable def isOrdWeakPopov (row : Bool) (M : PMat K[X]) (s : Option (List Int)) : Out Bool :=
  andThen (pivots row M s) fun p =>
    if p.1.contains (-1) then .ok false
    else if adjacentFind (fun a b => decide (a ≥ b)) p.1 then .ok false
    else .ok true

/-- `for (i = start; ...; ++i) if (test fails) return false;` with `count` iterations. -/
def allFrom (t : Nat → Out Bool) : Nat → Nat → Out Bool
  | 0, _ => .ok true
  | count + 1, i =>
    andThen (t i) fun b => if b then allFrom t count (i + 1) else .ok false

/-- The entry at position `j` of line `k`: out of bounds outside of the matrix. -/
def entry (row : Bool) (M : PMat K[X]) (k : Nat) (j : Int) : Out K[X] :=
  if k < num row M ∧ 0 ≤ j ∧ j < (len row M : Int) then .ok (line row M k j.toNat) else .ub

/-- `is_monic(pmat[i][pivind[i]])` for all lines: lines 724-726, 761-763, 811-813, 849-851; `is_monic` is
    lzz_pX_extra.h:22-23. -/
noncomputable def monicTests (row : Bool) (M : PMat K[X]) (pivind : List Int) : Out Bool :=
  allFrom (fun k => andThen (entry row M k (pivind.getD k 0)) fun f =>
    .ok (decide (pdeg f ≥ 0 ∧ f.coeff (pdeg f).toNat = 1))) (num row M) 0

/-- The degrees of the entries which are not pivots: lines 729-737, 766-774, 816-824, 854-862.  The second
    inner loop stops at `NumRows()` in the row and in the column functions. -/
noncomputable def offTests (row : Bool) (M : PMat K[X]) (pivind pivdeg : List Int) : Out Bool :=
  allFrom (fun j =>
    let t := fun i => andThen (entry row M i (pivind.getD j 0)) fun f =>
      .ok (decide (¬ pdeg f ≥ pivdeg.getD j 0))
    andThen (allFrom t j 0) fun b => if b then allFrom t (M.rows - (j + 1)) (j + 1) else .ok false)
    (num row M) 0

/-- `is_row_popov`, `is_col_popov`: lines 708-777, 795-865. -/
noncomputable def isPopov (row : Bool) (M : PMat K[X]) (s : Option (List Int)) : Out Bool :=
  andThen (pivots row M s) fun p =>
    if p.1.contains (-1) then .ok false
    else if adjacentFind (fun a b => decide (a ≥ b)) p.1 then .ok false
    else andThen (monicTests row M p.1) fun b => if b then offTests row M p.1 p.2 else .ok false

/-- `is_row_polmatform`, `is_col_polmatform`: lines 896-982. -/
noncomputable def isForm (row : Bool) (form : Form) (M : PMat K[X]) (s : Option (List Int)) : Out Bool :=
  match form with
  | .none => .ok true
  | .reduced => isReduced row M s
  | .weakPopov => isWeakPopov row M s
  | .ordWeakPopov => isOrdWeakPopov row M s
  | .popov => isPopov row M s
  | .other => .error

/-- `get_row_polmatform`, `get_col_polmatform`: lines 1001-1062. -/
noncomputable def getForm (row : Bool) (M : PMat K[X]) (s : Option (List Int)) : Out Form :=
  andThen (isPopov row M s) fun b => if b then .ok .popov else
  andThen (isOrdWeakPopov row M s) fun b => if b then .ok .ordWeakPopov else
  andThen (isWeakPopov row M s) fun b => if b then .ok .weakPopov else
  andThen (isReduced row M s) fun b => if b then .ok .reduced else .ok .none

end PML.Ntl.Forms
