import Verif.Forms.Model

/-!
# Model: random polynomial matrices
(flint-extras/src/nmod_vec_extra/nmod_vec_rand.c, nmod_poly_extra/nmod_poly_rand.c,
nmod_poly_mat_extra/randomisation.c)

A generator is an arbitrary function `g` from states to a coefficient and a new state:
`n_randint(state, mod.n)` on a state of an arbitrary type. Degrees, shifts and lengths are
mathematical integers.
-/

namespace PML.Rand

open PML.MatOps PML.Forms Polynomial

variable {K : Type} [Field K] {σ : Type}

/-- `_nmod_vec_rand(vec, state, len, mod)`, nmod_vec_rand.c:3-7, as a list. -/
def vecRand (g : σ → K × σ) : Nat → σ → List K × σ
  | 0, st => ([], st)
  | n + 1, st =>
    let x := g st
    let rest := vecRand g n x.2
    (x.1 :: rest.1, rest.2)

/-- The polynomial with the given coefficients. -/
noncomputable def ofCoeffs : List K → K[X]
  | [] => 0
  | a :: l => C a + X * ofCoeffs l

/-- `nmod_poly_rand(pol, state, len)`, nmod_poly_rand.c:11-24. -/
noncomputable def polyRand (g : σ → K × σ) (len : Int) (st : σ) : K[X] × σ :=
  if len ≤ 0 then (0, st)
  else
    let v := vecRand g len.toNat st
    (ofCoeffs v.1, v.2)

/-- `nmod_poly_rand_monic(pol, state, len)`, nmod_poly_rand.c:26-39. -/
noncomputable def polyRandMonic (g : σ → K × σ) (len : Int) (st : σ) : K[X] × σ :=
  if len ≤ 0 then (0, st)
  else
    let v := vecRand g (len.toNat - 1) st
    (ofCoeffs (v.1 ++ [1]), v.2)

/-- Write at position `j` of row or column `k`. -/
def put (row : Bool) (M : Mat K[X]) (k j : Nat) (p : K[X]) : Mat K[X] := fun a b =>
  if row then if a = k ∧ b = j then p else M a b
  else if a = j ∧ b = k then p else M a b

/-! ### Matrices with degree bounds -/

/-- One row of length `n` with the bounds `len`, randomisation.c:38-40, 47-49, 56-58. -/
noncomputable def randRow (g : σ → K × σ) (len : Nat → Int) (i : Nat) :
    Nat → Mat K[X] × σ → Mat K[X] × σ
  | 0, s => s
  | j + 1, s =>
    let t := randRow g len i j s
    let p := polyRand g (len j) t.2
    (put true t.1 i j p.1, p.2)

/-- `nmod_poly_mat_rand`, `nmod_poly_mat_rand_row_degree`, `nmod_poly_mat_rand_column_degree`,
    `nmod_poly_mat_rand_degree_matrix`, randomisation.c:26-59, with `len i j` equal to `len`, `rlen[i]`,
    `clen[j]`, `lenmat[i,j]`: the entries are visited in the order of rows. (The first one visits
    the array `mat->entries`, which is the same order.) -/
noncomputable def randMat (g : σ → K × σ) (len : Nat → Nat → Int) (c : Nat) :
    Nat → Mat K[X] × σ → Mat K[X] × σ
  | 0, s => s
  | i + 1, s => randRow g (len i) i c (randMat g len c i s)

/-! ### Popov forms -/

/-- `for (j = j0; j < j0 + k; j++) dvec[j] = f(j)`. -/
def setRange (f : Nat → Int) (j0 : Nat) : Nat → (Nat → Int) → (Nat → Int)
  | 0, d => d
  | k + 1, d => Function.update (setRange f j0 k d) (j0 + k) (f (j0 + k))

/-- Constraints from the other lines, randomisation.c:86-88, 120-122. -/
def capLoop (pivind : Nat → Nat) (pivdeg : Nat → Int) : Nat → (Nat → Int) → (Nat → Int)
  | 0, d => d
  | ii + 1, d =>
    let e := capLoop pivind pivdeg ii d
    if e (pivind ii) ≥ pivdeg ii then Function.update e (pivind ii) (pivdeg ii - 1) else e

/-- Degree constraints for line `i` among `m` lines of length `n`,
    randomisation.c:80-88, 114-122. `d` is the previous content of `dvec`, undefined for
    the first line. -/
def constraints (pivind : Nat → Nat) (pivdeg shift : Nat → Int) (m n i : Nat) (d : Nat → Int) : Nat → Int :=
  let d1 := setRange (fun j => pivdeg i + shift (pivind i) - shift j) 0 (pivind i) d
  let d2 := setRange (fun j => pivdeg i + shift (pivind i) - shift j - 1) (pivind i + 1) (n - (pivind i + 1)) d1
  capLoop pivind pivdeg m d2

/-- `for (j = j0; j < j0 + k; j++) nmod_poly_rand(entry, state, 1 + dvec[j])`. -/
noncomputable def fillLoop (row : Bool) (g : σ → K × σ) (dvec : Nat → Int) (i j0 : Nat) :
    Nat → Mat K[X] × σ → Mat K[X] × σ
  | 0, s => s
  | k + 1, s =>
    let t := fillLoop row g dvec i j0 k s
    let p := polyRand g (1 + dvec (j0 + k)) t.2
    (put row t.1 i (j0 + k) p.1, p.2)

/-- Line `i`, randomisation.c:89-98, 123-132. -/
noncomputable def fillLine (row : Bool) (g : σ → K × σ) (pivind : Nat → Nat) (pivdeg dvec : Nat → Int) (n i : Nat)
    (s : Mat K[X] × σ) : Mat K[X] × σ :=
  let s1 := fillLoop row g dvec i 0 (pivind i) s
  let p := polyRandMonic g (1 + pivdeg i) s1.2
  let s2 := (put row s1.1 i (pivind i) p.1, p.2)
  fillLoop row g dvec i (pivind i + 1) (n - (pivind i + 1)) s2

/-- `_nmod_poly_mat_rand_popov_row_lower` (`row`), `_nmod_poly_mat_rand_popov_col_upper` (not `row`),
    randomisation.c:68-134: the first `k` of `m` lines of length `n`. State: matrix, generator,
    `dvec`. -/
noncomputable def popovLoop (row : Bool) (g : σ → K × σ) (pivind : Nat → Nat) (pivdeg shift : Nat → Int) (m n : Nat) :
    Nat → (Mat K[X] × σ) × (Nat → Int) → (Mat K[X] × σ) × (Nat → Int)
  | 0, s => s
  | i + 1, s =>
    let t := popovLoop row g pivind pivdeg shift m n i s
    let dvec := constraints pivind pivdeg shift m n i t.2
    (fillLine row g pivind pivdeg dvec n i t.1, dvec)

/-- `nmod_poly_mat_rand_popov(mat, state, pivind, pivdeg, shift, orient)`, randomisation.c:136-174.
    `none` for the error of line 170. `dvec0`: the uninitialised array `dvec`. -/
noncomputable def randPopov (o : Orient) (g : σ → K × σ) (r c : Nat) (pivind : Option (Nat → Nat)) (pivdeg : Nat → Int)
    (shift : Option (Nat → Int)) (dvec0 : Nat → Int) (M : Mat K[X]) (st : σ) : Option (Mat K[X] × σ) :=
  let sshift := shift.getD fun _ => 0
  let ppivind := pivind.getD fun i => i
  if o = .rowLower then some (popovLoop true g ppivind pivdeg sshift r c r ((M, st), dvec0)).1
  else if o = .colUpper then some (popovLoop false g ppivind pivdeg sshift c r c ((M, st), dvec0)).1
  else none

end PML.Rand
