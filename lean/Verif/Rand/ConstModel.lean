import Verif.Forms.Model

/-!
# Model: random echelon forms over the base field
(flint-extras/src/nmod_mat_extra/nmod_mat_rand.c)

The generator is an arbitrary function `g` from states to a coefficient and a new state
(`n_randint`). `_perm_randtest` is a parameter `pr`, and the C library's `qsort` on
`slong`s is a parameter `qs` (contract: `QsortIntContract`).
-/

namespace PML.Rand

open PML.MatOps PML.Forms

variable {K : Type} [Field K] [DecidableEq K] {σ : Type}

/-- `_perm_randtest(tmp, n, state)`: the array and the new state. -/
abbrev PermFn (σ : Type) := Nat → σ → (Nat → Nat) × σ

/-- FLINT's contract: the array is a permutation of `0, ..., n-1`. -/
def PermOK (pr : PermFn σ) : Prop :=
  ∀ n st, (∀ i, i < n → (pr n st).1 i < n) ∧ ∀ i j, i < n → j < n → (pr n st).1 i = (pr n st).1 j → i = j

/-- `nmod_mat_entry(mat, i, j) = x`. -/
def setEntry (M : Mat K) (i j : Nat) (x : K) : Mat K := fun a b => if a = i ∧ b = j then x else M a b

/-- `for (j = j0; j < j0 + k; j++) nmod_mat_entry(mat, i, j) = n_randint(state, mat->mod.n)`. -/
def rndLoop (g : σ → K × σ) (i j0 : Nat) : Nat → Mat K × σ → Mat K × σ
  | 0, s => s
  | k + 1, s =>
    let t := rndLoop g i j0 k s
    (setEntry t.1 i (j0 + k) (g t.2).1, (g t.2).2)

/-- `for (j = j0; j < j0 + k; j++) nmod_mat_entry(mat, i, j) = 0`. -/
def zeroLoop (i j0 : Nat) : Nat → Mat K → Mat K
  | 0, M => M
  | k + 1, M => setEntry (zeroLoop i j0 k M) i (j0 + k) 0

/-- `for (i = i0; i < i0 + k; i++) nmod_mat_entry(mat, i, j) = 0`. -/
def zeroCol (j i0 : Nat) : Nat → Mat K → Mat K
  | 0, M => M
  | k + 1, M => setEntry (zeroCol j i0 k M) (i0 + k) j 0

/-- The pivots, lines 63-69, 111-117, 159-165, 207-213: the first `rank` entries of a random
    permutation, sorted. -/
def choosePivots (pr : PermFn σ) (qs : QsortIntFn) (c rank : Nat) (st : σ) : (Nat → Nat) × σ :=
  let tmp := pr c st
  let l := qs ((List.range rank).map fun i => (tmp.1 i : Int))
  (fun i => (l.getD i 0).toNat, tmp.2)

/-- Pivot entry: random, replaced by one if `unit` or if it is zero, lines 79-81, 127-129. -/
def pivotEntry (g : σ → K × σ) (unit : Bool) (M : Mat K) (i j : Nat) (st : σ) : Mat K × σ :=
  let x := g st
  let M1 := setEntry M i j x.1
  (if unit = true ∨ M1 i j = 0 then setEntry M1 i j 1 else M1, x.2)

/-- Row `i` of `nmod_mat_rand_lref`, lines 73-85. -/
def lrefRow (g : σ → K × σ) (unit : Bool) (c : Nat) (piv : Nat → Nat) (i : Nat) (s : Mat K × σ) : Mat K × σ :=
  let s1 := rndLoop g i 0 (piv i) s
  let s2 := pivotEntry g unit s1.1 i (piv i) s1.2
  (zeroLoop i (piv i + 1) (c - (piv i + 1)) s2.1, s2.2)

/-- Row `i` of `nmod_mat_rand_uref`, lines 121-134. -/
def urefRow (g : σ → K × σ) (unit : Bool) (c : Nat) (piv : Nat → Nat) (i : Nat) (s : Mat K × σ) : Mat K × σ :=
  let s2 := pivotEntry g unit (zeroLoop i 0 (piv i) s.1) i (piv i) s.2
  rndLoop g i (piv i + 1) (c - (piv i + 1)) s2

/-- Row `i` of `nmod_mat_rand_lrref`, lines 169-182. -/
def lrrefRow (g : σ → K × σ) (c rank : Nat) (piv : Nat → Nat) (i : Nat) (s : Mat K × σ) : Mat K × σ :=
  let s1 := rndLoop g i 0 (piv i) s
  let M2 := setEntry s1.1 i (piv i) 1
  let M3 := zeroLoop i (piv i + 1) (c - (piv i + 1)) M2
  (zeroCol (piv i) (i + 1) (rank - (i + 1)) M3, s1.2)

/-- Row `i` of `nmod_mat_rand_urref`, lines 217-230. -/
def urrefRow (g : σ → K × σ) (c : Nat) (piv : Nat → Nat) (i : Nat) (s : Mat K × σ) : Mat K × σ :=
  let M1 := setEntry (zeroLoop i 0 (piv i) s.1) i (piv i) 1
  let s2 := rndLoop g i (piv i + 1) (c - (piv i + 1)) (M1, s.2)
  (zeroCol (piv i) 0 i s2.1, s2.2)

/-- `for (i = 0; i < n; i++)`. -/
def upLoop (row : Nat → Mat K × σ → Mat K × σ) : Nat → Mat K × σ → Mat K × σ
  | 0, s => s
  | i + 1, s => row i (upLoop row i s)

/-- `for (i = n - 1; i >= 0; i--)`. -/
def downLoop (row : Nat → Mat K × σ → Mat K × σ) : Nat → Mat K × σ → Mat K × σ
  | 0, s => s
  | i + 1, s => downLoop row i (row i s)

/-- `for (i = rank; i < r; i++) for (j = 0; j < c; j++) entry = 0`: `k` rows. -/
def zeroRows (c i0 : Nat) : Nat → Mat K → Mat K
  | 0, M => M
  | k + 1, M => zeroLoop (i0 + k) 0 c (zeroRows c i0 k M)

/-- Common frame of the four functions; `none` is the abort for an impossible rank. -/
def randEchelon (pr : PermFn σ) (qs : QsortIntFn) (body : (Nat → Nat) → Mat K × σ → Mat K × σ) (r c : Nat) (rank : Int)
    (M : Mat K) (st : σ) : Option ((Mat K × σ) × (Nat → Nat)) :=
  if rank < 0 ∨ rank > r ∨ rank > c then none
  else
    let piv := choosePivots pr qs c rank.toNat st
    let s := body piv.1 (M, piv.2)
    some ((zeroRows c rank.toNat (r - rank.toNat) s.1, s.2), piv.1)

/-- `nmod_mat_rand_lref(mat, state, rank, unit)`, nmod_mat_rand.c:48-93. The pivots are also returned. -/
def randLref (pr : PermFn σ) (qs : QsortIntFn) (g : σ → K × σ) (r c : Nat) (rank : Int) (unit : Bool) (M : Mat K)
    (st : σ) : Option ((Mat K × σ) × (Nat → Nat)) :=
  randEchelon pr qs (fun piv => upLoop (lrefRow g unit c piv) rank.toNat) r c rank M st

/-- `nmod_mat_rand_uref(mat, state, rank, unit)`, nmod_mat_rand.c:96-142. -/
def randUref (pr : PermFn σ) (qs : QsortIntFn) (g : σ → K × σ) (r c : Nat) (rank : Int) (unit : Bool) (M : Mat K)
    (st : σ) : Option ((Mat K × σ) × (Nat → Nat)) :=
  randEchelon pr qs (fun piv => upLoop (urefRow g unit c piv) rank.toNat) r c rank M st

/-- `nmod_mat_rand_lrref(mat, state, rank)`, nmod_mat_rand.c:145-190. -/
def randLrref (pr : PermFn σ) (qs : QsortIntFn) (g : σ → K × σ) (r c : Nat) (rank : Int) (M : Mat K)
    (st : σ) : Option ((Mat K × σ) × (Nat → Nat)) :=
  randEchelon pr qs (fun piv => downLoop (lrrefRow g c rank.toNat piv) rank.toNat) r c rank M st

/-- `nmod_mat_rand_urref(mat, state, rank)`, nmod_mat_rand.c:193-238. -/
def randUrref (pr : PermFn σ) (qs : QsortIntFn) (g : σ → K × σ) (r c : Nat) (rank : Int) (M : Mat K)
    (st : σ) : Option ((Mat K × σ) × (Nat → Nat)) :=
  randEchelon pr qs (fun piv => upLoop (urrefRow g c piv) rank.toNat) r c rank M st

end PML.Rand
