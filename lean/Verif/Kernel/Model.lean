import Verif.Pmbasis.Model
import Verif.Forms.Model

/-!
# Model: kernel bases
(flint-extras/src/nmod_poly_mat_extra/kernel.c)

Arrays of `slong` are functions `Nat → Int`, used as indices through `toNat`.
Degrees, shifts and orders are mathematical integers. `ker` is a matrix with as
many rows as `pmat` and as many columns as rows of `pmat`: `nmod_poly_mat_one` and
`nmod_poly_mat_pmbasis` write that many entries (the documentation only asks for
`nullity` rows). FLINT's `nmod_poly_mat_permute_rows(mat, act, store)` replaces row
`i` by row `act[i]` and `store[i]` by `store[act[i]]`; `nmod_mat_lu` with rank check
returns the number of rows exactly for matrices of full row rank.
-/

namespace PML.Kernel

open PML.MatOps PML.MatPoly PML.PolyMul PML.Forms PML.Pmbasis Polynomial

variable {q : Nat} [Fact q.Prime]

/-- What the functions write, and the value they return. -/
structure Res (q : Nat) where
  ker : Mat (ZMod q)[X]
  piv : Nat → Int
  shift : Nat → Int
  nullity : Nat

/-- `nmod_poly_mat_one(ker); for (i < m) pivind[i] = i; return m;`
    kernel.c:158-164, 242-245, 322-329. -/
noncomputable def identityRes (m : Nat) (ker : Mat (ZMod q)[X]) (piv shift : Nat → Int) : Res q :=
  ⟨fun i j => if i < m ∧ j < m then (if i = j then 1 else 0) else ker i j,
   fun i => if i < m then (i : Int) else piv i, shift, m⟩

/-- FLINT `nmod_poly_mat_permute_rows` on `r` rows. -/
def permuteRows {α : Type} (r : Nat) (act : Nat → Int) (M : Nat → α) : Nat → α :=
  fun i => if i < r then M (act i).toNat else M i

/-! ### Via one approximant basis -/

/-- Extremal values of the shift, kernel.c:188-198: `(min, amp)` after `i` turns. -/
def ampLoop (shift : Nat → Int) : Nat → Int × Int
  | 0 => (shift 0, shift 0)
  | i + 1 =>
    let st := ampLoop shift i
    let s := shift i
    if s < st.1 then (s, st.2) else if s > st.2 then (st.1, s) else st

/-- State of the loop of lines 210-223. -/
structure KeepState (q : Nat) where
  ker : Mat (ZMod q)[X]
  piv : Nat → Int
  shift : Nat → Int
  nullity : Nat

/-- One turn of the loop of lines 210-223: keep row `i` if it is in the kernel. -/
noncomputable def keepStep (m : Nat) (amp order d : Int) (i : Nat) (st : KeepState q) : KeepState q :=
  if st.piv i - st.shift i + amp < order - d then
    { shift := Function.update st.shift st.nullity (st.piv i)
      piv := Function.update st.piv st.nullity (i : Int)
      ker := fun a j => if j < m then
          (if a = st.nullity then st.ker i j else if a = i then st.ker st.nullity j else st.ker a j)
        else st.ker a j
      nullity := st.nullity + 1 }
  else st

/-- The first `k` turns of the loop of lines 210-223. -/
noncomputable def keepLoop (m : Nat) (amp order d : Int) (st0 : KeepState q) : Nat → KeepState q
  | 0 => st0
  | k + 1 => keepStep m amp order d k (keepLoop m amp order d st0 k)

/-- `nmod_poly_mat_kernel_via_approx(ker, pivind, shift, pmat)`, kernel.c:148-226.
    `luperm` is what `nmod_mat_lu` leaves in `pivind` (line 181). -/
noncomputable def viaApprox (e : Env q) (m n : Nat) (ker : Mat (ZMod q)[X]) (piv shift : Nat → Int)
    (luperm : Nat → Int) (pmat : Mat (ZMod q)[X]) : Outcome (Res q) :=
  let d : Int := (maxLength m n pmat : Int) - 1
  if d = -1 then Outcome.ok (identityRes m ker piv shift)
  else if m = 1 then Outcome.ok ⟨ker, piv, shift, 0⟩
  else if m ≤ n ∧ (Matrix.of fun (i : Fin m) (j : Fin n) => (pmat i j).coeff 0).rank = m then
    Outcome.ok ⟨ker, luperm, shift, 0⟩
  else
    let mm := ampLoop shift m
    let amp := mm.2 - mm.1
    let order : Int := (min m n : Nat) * d + amp + d + 1
    match pmbasis e m n (order.toNat + 1) ker shift pmat order.toNat with
    | Outcome.fail => Outcome.fail
    | Outcome.ok (ker, rdeg) =>
      -- `rdeg` is the content of `pivind` after the call
      let st := keepLoop m amp order d ⟨ker, rdeg, shift, 0⟩ m
      Outcome.ok ⟨st.ker, st.piv, st.shift, st.nullity⟩

/-! ### The Zhou-Labahn-Storjohann algorithm -/

/-- `for (i < k) piv[off+i] = piv[off+piv2[i]];`, in place. kernel.c:304-305, 443-444. -/
def composeLoop (off : Nat) (piv2 : Nat → Int) (piv : Nat → Int) : Nat → (Nat → Int)
  | 0 => piv
  | k + 1 =>
    let p := composeLoop off piv2 piv k
    Function.update p (off + k) (p (off + (piv2 k).toNat))

/-- `maxdeg` and `diff_shift`, kernel.c:333-343: after the turns `1 ≤ i < k + 1`. -/
def degShiftLoop (buf shift : Nat → Int) : Nat → Int × Int
  | 0 => (buf 0, shift 0 - buf 0)
  | k + 1 =>
    let st := degShiftLoop buf shift k
    let d := buf (k + 1)
    let diff := shift (k + 1) - d
    (if d > st.1 then d else st.1, if st.2 > diff then diff else st.2)

/-- `for (i < k) acc += f[i]`. -/
def sumLoop (f : Nat → Int) (init : Int) : Nat → Int
  | 0 => init
  | k + 1 => sumLoop f init k + f k

/-- The order for approximation, kernel.c:351-355, with the division of C. -/
def zlsOrder (m n : Nat) (shift : Nat → Int) (maxdeg diff : Int) : Int :=
  let order := sumLoop shift (-(m : Int) * diff - 1) m
  let order := 1 + order.tdiv ((m : Int) - n)
  1 + max maxdeg order

/-- State of the detection loop of lines 362-380. -/
structure DetectState where
  nullity : Nat
  sum : Int
  flag : Bool
  piv : Nat → Int
  buf : Nat → Int

/-- One turn of the detection loop. -/
noncomputable def detectStep (order diff : Int) (ker : Mat (ZMod q)[X]) (shift : Nat → Int) (i : Nat)
    (st : DetectState) : DetectState :=
  if shift i < order + diff then
    { st with piv := Function.update st.piv st.nullity (i : Int), nullity := st.nullity + 1 }
  else
    { st with
      flag := if st.buf i = 0 ∧ pdeg (ker i i) ≤ 0 then false else st.flag
      sum := st.sum + st.buf i
      buf := Function.update st.buf (i - st.nullity) (i : Int) }

/-- The first `k` turns of the detection loop, lines 362-380. -/
noncomputable def detectLoop (order diff : Int) (ker : Mat (ZMod q)[X]) (shift : Nat → Int)
    (piv buf : Nat → Int) : Nat → DetectState
  | 0 => ⟨0, 0, true, piv, buf⟩
  | k + 1 => detectStep order diff ker shift k (detectLoop order diff ker shift piv buf k)

/-- The merge of lines 449-463: `(i1, i2, buf)` after `k` turns. -/
def mergeLoop (nul nul2 : Nat) (piv : Nat → Int) (buf : Nat → Int) : Nat → Nat × Nat × (Nat → Int)
  | 0 => (0, 0, buf)
  | k + 1 =>
    let st := mergeLoop nul nul2 piv buf k
    if st.2.1 = nul2 ∨ (st.1 < nul ∧ piv st.1 < piv (nul + st.2.1)) then
      (st.1 + 1, st.2.1, Function.update st.2.2 k (st.1 : Int))
    else (st.1, st.2.1 + 1, Function.update st.2.2 k ((nul + st.2.1 : Nat) : Int))

/-- `nmod_poly_mat_kernel_zls_approx(ker, pivind, shift, pmat)`, kernel.c:230-485.
    `fuel` bounds the depth of the recursion. The function also overwrites columns
    of `pmat` (lines 279-282); these are not read afterwards, except through the
    window `residual` passed here as a matrix. `fresh` is the content of freshly
    allocated arrays. -/
noncomputable def zls (e : Env q) (fresh : Nat → Int) :
    (fuel m n : Nat) → (ker : Mat (ZMod q)[X]) → (piv shift : Nat → Int) → (pmat : Mat (ZMod q)[X]) →
      Outcome (Res q)
  | 0, _, _, _, _, _, _ => Outcome.fail
  | fuel + 1, m, n, ker, piv, shift, pmat =>
    -- lines 238-246
    if m = 0 ∨ n = 0 ∨ ((m = 1 ∨ n = 1) ∧ maxLength m n pmat = 0) then
      Outcome.ok (identityRes m ker piv shift)
    -- lines 248-250
    else if m = 1 then Outcome.ok ⟨ker, piv, shift, 0⟩
    -- lines 252-312
    else if 2 * n > m then
      match zls e fresh fuel m (n - n / 2) ker piv shift pmat with
      | Outcome.fail => Outcome.fail
      | Outcome.ok r1 =>
        if r1.nullity = 0 then Outcome.ok ⟨r1.ker, r1.piv, r1.shift, 0⟩
        else
          match multiply e.mul r1.nullity m (n / 2) pmat r1.ker (fun i j => pmat i (n - n / 2 + j)) with
          | Outcome.fail => Outcome.fail
          | Outcome.ok residual =>
            match zls e fresh fuel r1.nullity (n / 2) (fun _ _ => 0) fresh r1.shift residual with
            | Outcome.fail => Outcome.fail
            | Outcome.ok r2 =>
              match multiply e.mul r2.nullity r1.nullity m (fun _ _ => 0) r2.ker r1.ker with
              | Outcome.fail => Outcome.fail
              | Outcome.ok ker3 =>
                Outcome.ok
                  ⟨fun i j => if i < r2.nullity ∧ j < m then ker3 i j else r1.ker i j,
                   composeLoop 0 r2.piv r1.piv r2.nullity, r2.shift, r2.nullity⟩
    else
      -- lines 316-329
      let rd := lineDegreesZero true m n pmat none fresh
      if rd.2 = 0 then Outcome.ok (identityRes m ker piv shift)
      else
        -- lines 331-357
        let md := degShiftLoop rd.1 shift (m - 1)
        let maxdeg := md.1
        let diff := md.2
        let order := zlsOrder m n shift maxdeg diff
        match pmbasis e m n (order.toNat + 1) ker shift pmat order.toNat with
        | Outcome.fail => Outcome.fail
        | Outcome.ok (ker, shift) =>
          -- lines 359-384
          let det := detectLoop order diff ker shift piv rd.1 m
          let nul := det.nullity
          let piv := fun i => if nul ≤ i ∧ i < m then det.buf (i - nul) else det.piv i
          let ker := permuteRows m piv ker
          let shift := permuteRows m piv shift
          -- lines 386-404
          let sumPiv := sumLoop (fun i => pdeg (ker i (piv i).toNat)) 0 nul
          if (nul : Int) ≥ (m : Int) - n ∧ det.flag = true ∧ sumPiv = det.sum then
            Outcome.ok ⟨ker, piv, shift, nul⟩
          else
            -- lines 406-430
            let approx : Mat (ZMod q)[X] := fun i j => ker (nul + i) j
            match mulmid e.geom e.mul (m - nul) m n order.toNat (fun _ _ => 0) 3
                (order + maxdeg + 1).toNat approx pmat with
            | Outcome.fail => Outcome.fail
            | Outcome.ok residual =>
              match zls e fresh fuel (m - nul) n (fun _ _ => 0) det.buf (fun i => shift (nul + i))
                  residual with
              | Outcome.fail => Outcome.fail
              | Outcome.ok r2 =>
                let shift := fun i => if nul ≤ i then r2.shift (i - nul) else shift i
                if r2.nullity = 0 then Outcome.ok ⟨ker, piv, shift, nul⟩
                else
                  -- lines 432-484
                  match multiply e.mul r2.nullity (m - nul) m (fun _ _ => 0) r2.ker approx with
                  | Outcome.fail => Outcome.fail
                  | Outcome.ok prod =>
                    let ker : Mat (ZMod q)[X] := fun i j =>
                      if nul ≤ i ∧ i < nul + r2.nullity ∧ j < m then prod (i - nul) j else ker i j
                    let piv := composeLoop nul r2.piv piv r2.nullity
                    let buf := (mergeLoop nul r2.nullity piv r2.piv (nul + r2.nullity)).2.2
                    Outcome.ok
                      ⟨permuteRows (nul + r2.nullity) buf ker,
                       permuteRows (nul + r2.nullity) buf piv,
                       permuteRows (nul + r2.nullity) buf shift, nul + r2.nullity⟩

/-! ### The general interface -/

/-- FLINT `nmod_poly_mat_invert_rows` on `r` rows (or entries of the array). -/
def reverse {α : Type} (r : Nat) (M : Nat → α) : Nat → α :=
  fun i => if i < r then M (r - 1 - i) else M i

/-- The loop of lines 96-103: the entries are mirrored and reversed. -/
def mirrorLoop (c : Nat) (nullity : Nat) (piv : Nat → Int) : Nat → (Nat → Int)
  | 0 => piv
  | i + 1 =>
    let p := mirrorLoop c nullity piv i
    let tmp := (c : Int) - 1 - p i
    Function.update (Function.update p i ((c : Int) - 1 - p (nullity - 1 - i))) (nullity - 1 - i) tmp

/-- Lines 96-103, including the middle entry. -/
def mirror (c nullity : Nat) (piv : Nat → Int) : Nat → Int :=
  let p := mirrorLoop c nullity piv (nullity / 2)
  if nullity % 2 = 1 then Function.update p (nullity / 2) ((c : Int) - 1 - p (nullity / 2)) else p

/-- Lines 63-69 (left kernel, lower pivots) on an `m × n` matrix, or lines 85-106
    (108-136 for the transpose; upper pivots: mirror the rows, then the rows and columns of the result). -/
noncomputable def leftKernel (e : Env q) (fresh : Nat → Int) (upper : Bool) (m n : Nat)
    (ker : Mat (ZMod q)[X]) (piv shift : Nat → Int) (pmat : Mat (ZMod q)[X]) : Outcome (Res q) :=
  if upper then
    match zls e fresh (m + n + 1) m n ker piv (reverse m shift) (reverse m pmat) with
    | Outcome.fail => Outcome.fail
    | Outcome.ok r =>
      Outcome.ok
        ⟨fun i => if i < r.nullity then reverse m (reverse r.nullity r.ker i) else r.ker i,
         mirror m r.nullity r.piv, reverse r.nullity r.shift, r.nullity⟩
  else zls e fresh (m + n + 1) m n ker piv shift pmat

/-- FLINT `nmod_poly_mat_transpose` from an `r × c` matrix, into `dst`. -/
def transposeInto {α : Type} (r c : Nat) (dst src : Mat α) : Mat α :=
  fun i j => if i < c ∧ j < r then src j i else dst i j

/-- `nmod_poly_mat_kernel(ker, pivind, shift, pmat, form, orient)`, kernel.c:26-144,
    for an `r × c` matrix. `pivind` and `shift` are `none` for `NULL`; the arrays
    then used by the function are returned in `Res` but not visible to the caller.
    For column orientations the code transposes, computes a left kernel, and
    transposes back. -/
noncomputable def kernel (e : Env q) (fresh : Nat → Int) (r c : Nat) (ker : Mat (ZMod q)[X])
    (pivind shift : Option (Nat → Int)) (pmat : Mat (ZMod q)[X]) (form : Form) (orient : Orient) :
    Outcome (Res q) :=
  match form with
  | .popov | .echelon | .hermite => Outcome.fail
  | _ =>
    let piv := pivind.getD fresh
    let s := shift.getD (lineDegreesZero orient.isRow r c pmat none fresh).1
    if orient.isRow then leftKernel e fresh (orient = .rowUpper) r c ker piv s pmat
    else
      match leftKernel e fresh (orient = .colLower) c r (fun _ _ => 0) piv s
          (transposeInto r c (fun _ _ => 0) pmat) with
      | Outcome.fail => Outcome.fail
      | Outcome.ok res => Outcome.ok { res with ker := transposeInto c c ker res.ker }

end PML.Kernel
