import Verif.Ntl.MatEvalModel
import Verif.Ntl.ThreeModel
import Verif.Ntl.GeomModel
import Verif.Ntl.OrderModel

/-!
# Model of left multiplication with precomputation

`/repo/ntl-extras/mat_lzz_pX_extra/src/mat_lzz_pX_lmultiplier.cpp` and the classes of
`mat_lzz_pX_multiply.h`, lines 400-590.

An object keeps data about a matrix `a` and a degree bound `dB`; it can then be multiplied by matrices `b`.
`multiply` is a function of the object and of `b`: no field of the object is modified by it.  Except for
`FFT_direct`, which tests for it (lines 89-95), `c` is written after the last read of `b`, so it may be `b`.
The degree bound is taken to be nonnegative.  The FFT functions of NTL are as in `MatEvalModel`; the
shift `1 << idxk` of an `int` is taken to be exact.
-/

namespace PML.Ntl.LMul

open Polynomial PML.Ntl.Utils PML.Ntl.MatMul PML.Ntl.MatEval

/-- How a call ends: with a value, with an error reported by NTL, or with an access outside of an array. -/
inductive Res (α : Type) where
  | ok (x : α)
  | error
  | ub

/-- The call ended with a value. -/
def Res.isOk {α : Type} : Res α → Bool
  | .ok _ => true
  | _ => false

/-- The value. -/
def Res.getD {α : Type} : Res α → α → α
  | .ok x, _ => x
  | _, d => d

section Field

variable {F : Type} [Field F]

/-! ### FFT, without matrix multiplication -/

/-- `mat_lzz_pX_lmultiplier_FFT_direct`, and the fields of the parent class.  `len` is the length of the
    representations `vala[i][j]`.  `n0`, `nb_slices`, `first_slice`, `pr`, `red1`, `red2` are recomputed
    from `t` and the modulus by `llDot`. -/
structure Direct (F : Type) where
  s : Nat
  t : Nat
  dA : Int
  dB : Nat
  K : Nat
  len : Nat
  vala : Nat × Nat → Nat → F

/-- The constructor, lines 61-82. -/
noncomputable def mkDirect (T : FFT F) (a : PMat F[X]) (dB : Nat) : Direct F :=
  let K := nextPow2 (deg a + dB + 1).toNat
  { s := a.rows, t := a.cols, dA := deg a, dB := dB, K := K, len := T.roundUp (deg a + dB + 1).toNat K,
    vala := fun x r => (a.e x).eval (T.pt K r) }

/-- `len_actual = __dA + deg(b) + 1`, lines 132, 225. -/
noncomputable def Direct.cnt (o : Direct F) (b : PMat F[X]) : Nat := (o.dA + deg b + 1).toNat

/-- `multiply_direct`, lines 217-248.  The pointwise products have the smaller of the two lengths. -/
noncomputable def Direct.multiplyDirect (T : FFT F) (o : Direct F) (b : PMat F[X]) : Res (PMat F[X]) :=
  let m := o.s
  let n := o.t
  let p := b.cols
  if (0 < p ∧ b.rows < n) ∨ (0 < m ∧ 0 < p ∧ n = 0) then .ub
  else
    let pt := T.pt o.K
    let len := T.roundUp (o.cnt b) o.K
    .ok ⟨m, p, loop2 m p (fun k i _ =>
      let valb : Nat → Nat → F := fun j r => (b.e (j, i)).eval (pt r)
      fromEval pt (min len o.len) 0 (o.cnt b) (repDot n valb fun j => o.vala (k, j))) fun _ => 0⟩

/-- `multiply_direct_ll_type`, lines 122-215.  Entries of `tmp` from the shorter length on would not be
    initialised. -/
noncomputable def Direct.multiplyLL {pr : Nat} [Fact pr.Prime] (T : FFT (ZMod pr)) (o : Direct (ZMod pr)) (b : PMat (ZMod pr)[X]) :
    Res (PMat (ZMod pr)[X]) :=
  let m := o.s
  let n := o.t
  let p := b.cols
  let pt := T.pt o.K
  let len := T.roundUp (o.cnt b) o.K
  if b.rows < n ∨ b.rows = 0 ∨ p = 0 ∨ n = 0 ∨ (0 < m ∧ o.len < len) then .ub
  else
    .ok ⟨m, p, loop2 m p (fun k i _ =>
      let valb : Nat → Nat → ZMod pr := fun j r => (b.e (j, i)).eval (pt r)
      fromEval pt len 0 (o.cnt b) fun x =>
        ((llDot pr n fun j => (valb j x).val * (o.vala (k, j) x).val : Nat) : ZMod pr)) fun _ => 0⟩

/-- `multiply`, lines 87-119.  `SMALL_PRIME_SIZE` is 25. -/
noncomputable def Direct.multiply {pr : Nat} [Fact pr.Prime] (T : FFT (ZMod pr)) (o : Direct (ZMod pr)) (b : PMat (ZMod pr)[X]) :
    Res (PMat (ZMod pr)[X]) :=
  if deg b > o.dB then .error
  else
    let cube := o.s * o.t * b.cols
    let d := (o.dA + deg b).tdiv 2
    if Nat.size pr < 25 then
      if cube < 4 * 4 * 4 ∨ (cube ≤ 6 * 6 * 6 ∧ d > 100) then o.multiplyDirect T b else o.multiplyLL T b
    else
      if cube < 4 * 4 * 4 ∨ (cube = 4 * 4 * 4 ∧ d ≥ 90) ∨ (cube ≤ 8 * 8 * 8 ∧ d ≥ 65) then o.multiplyDirect T b
      else o.multiplyLL T b

/-! ### FFT, with matrix multiplication -/

/-- `mat_lzz_pX_lmultiplier_FFT_matmul`: `va` has length `len`, and is indexed by point, row, column. -/
structure Matmul (F : Type) where
  s : Nat
  t : Nat
  dA : Int
  dB : Nat
  idxk : Nat
  len : Nat
  va : Nat × Nat × Nat → F

/-- The constructor, lines 260-289.  `RR[kk][r]` is the value of the entry that has just been
    transformed. -/
noncomputable def mkMatmul (T : FFT F) (a : PMat F[X]) (dB : Nat) : Matmul F :=
  let s := a.rows
  let t := a.cols
  let idxk := nextPow2 (deg a + dB + 1).toNat
  let len := T.roundUp (deg a + dB + 1).toNat idxk
  { s := s, t := t, dA := deg a, dB := dB, idxk := idxk, len := len,
    va := forN s (fun i => forStep MatEval.blockSize t fun k => forN len fun r => forN (min MatEval.blockSize (t - k)) fun kk =>
      write (r, i, k + kk) ((a.e (i, k + kk)).eval (T.pt idxk r))) fun _ => 0 }

/-- `multiply`, lines 295-375.  The counters `rtu`, `jtu` are written as the products they are equal to. -/
noncomputable def Matmul.multiply (T : FFT F) (o : Matmul F) (b : PMat F[X]) : Res (PMat F[X]) :=
  let s := o.s
  let t := o.t
  let u := b.cols
  let dB := deg b
  if dB > o.dB then .error
  else
    let pt := T.pt o.idxk
    let len := T.roundUp (o.dA + dB + 1).toNat o.idxk
    if (0 < u ∧ b.rows < t) ∨ o.len < len then .ub
    else
      let tu := t * u
      let valB : Nat → F := forN t (fun i => forStep cacheLine u fun k => forN len fun r =>
        forN (min cacheLine (u - k)) fun kk => write (r * tu + i * u + k + kk) ((b.e (i, k + kk)).eval (pt r))) fun _ => 0
      let valC : Nat × Nat → F := forStep cacheLine len (fun j =>
        let vc : Nat → Nat × Nat → F := fun jj => cmul t (fun x => o.va (j + jj, x.1, x.2))
          fun x => valB ((j + jj) * tu + x.1 * u + x.2)
        forN s fun i => forStep MatEval.blockSize u fun k => forN (min cacheLine (len - j)) fun jj =>
          forN (min MatEval.blockSize (u - k)) fun kk => write (i * u + k + kk, j + jj) (vc jj (i, k + kk))) fun _ => 0
      .ok ⟨s, u, loop2 s u (fun i k _ => fromEval pt len 0 (o.dA + dB + 1).toNat fun r => valC (i * u + k, r)) fun _ => 0⟩

/-! ### Geometric points -/

/-- `mat_lzz_pX_lmultiplier_geometric`: `n` is the length of `ev`, `ev` and `ip` are its functions
    `evaluate` and `interpolate`. -/
structure Geometric (F : Type) [Field F] where
  s : Nat
  t : Nat
  dA : Int
  dB : Nat
  n : Nat
  ev : F[X] → Option (Nat → F)
  ip : (Nat → F) → Option F[X]
  va : Nat × Nat × Nat → F

open Classical in
/-- The constructor, lines 386-408, from the points on.  `none` is an error of `evaluate`. -/
noncomputable def mkGeometric (n : Nat) (ev : F[X] → Option (Nat → F)) (ip : (Nat → F) → Option F[X]) (a : PMat F[X]) (dB : Nat) :
    Option (Geometric F) :=
  let s := a.rows
  let t := a.cols
  if ∃ i k, i < s ∧ k < t ∧ ev (a.e (i, k)) = none then none
  else
    let va : Nat × Nat × Nat → F := forN s (fun i => forN t fun k => forN n fun r => write (r, i, k) (((ev (a.e (i, k))).getD fun _ => 0) r)) fun _ => 0
    some ⟨s, t, deg a, dB, n, ev, ip, va⟩

open Classical in
/-- `multiply`, lines 413-467. -/
noncomputable def Geometric.multiply (o : Geometric F) (b : PMat F[X]) : Res (PMat F[X]) :=
  let s := o.s
  let t := o.t
  let u := b.cols
  if deg b > o.dB then .error
  else if 0 < u ∧ b.rows < t then .ub
  else if ∃ i k, i < t ∧ k < u ∧ o.ev (b.e (i, k)) = none then .error
  else
    let n := o.n
    let tu := t * u
    let valB : Nat → F := forN t (fun i => forN u fun k => forN n fun r =>
      write (r * tu + i * u + k) (((o.ev (b.e (i, k))).getD fun _ => 0) r)) fun _ => 0
    let valC : Nat × Nat → F := forN n (fun j =>
      let vc := cmul t (fun x => o.va (j, x.1, x.2)) fun x => valB (j * tu + x.1 * u + x.2)
      forN s fun i => forN u fun k => write (i * u + k, j) (vc (i, k))) fun _ => 0
    if ∃ i k, i < s ∧ k < u ∧ o.ip (fun r => valC (i * u + k, r)) = none then .error
    else .ok ⟨s, u, loop2 s u (fun i k _ => (o.ip fun r => valC (i * u + k, r)).getD 0) fun _ => 0⟩

/-! ### Vandermonde matrices -/

/-- `mat_lzz_pX_lmultiplier_dense`: `valAp` is indexed by point, row, column. -/
structure Dense (F : Type) where
  s : Nat
  t : Nat
  dA : Int
  dB : Nat
  vB : Nat × Nat → F
  iV : Nat × Nat → F
  nb : Nat
  valAp : Nat × Nat × Nat → F

/-- The constructor, lines 479-508.  With a zero matrix, `vandermonde` writes outside of its arrays;
    without enough points in the field, the inversion is an error. -/
noncomputable def mkDense (inv : Nat → (Nat × Nat → F) → Option (Nat × Nat → F)) (a : PMat F[X]) (dB : Nat) : Res (Dense F) :=
  if deg a < 0 then .ub
  else
    let s := a.rows
    let t := a.cols
    let dA := (deg a).toNat
    let nb := dA + dB + 1
    let vdm := vdmFull 1 nb (fun i => (i : F))
    let vA := vdmSub 1 nb (dA + 1) vdm
    let vB := vdmSub 1 nb (dB + 1) vdm
    match inv nb vdm with
    | none => .error
    | some iv =>
      let valA := cmul (dA + 1) vA (coeffMat a fun _ => 0)
      let valAp : Nat × Nat × Nat → F :=
        forN nb (fun i => forN s fun u => forN t fun v => write (i, u, v) (valA (i, u * t + v))) fun _ => 0
      .ok ⟨s, t, deg a, dB, vB, iv, nb, valAp⟩

/-- `multiply`, lines 513-557: there is no test of the degree of `b`, and a coefficient of degree more than
    `__dB` is written outside of `tmp_mat`.  The rows of `b` that are read are the first `__t`. -/
noncomputable def Dense.multiply (o : Dense F) (b : PMat F[X]) : Res (PMat F[X]) :=
  let m := o.s
  let n := o.t
  let p := b.cols
  if (0 < p ∧ b.rows < n) ∨ deg ⟨n, p, b.e⟩ > o.dB then .ub
  else
    let tmp := coeffMat ⟨n, p, b.e⟩ fun _ => 0
    let valB := cmul (o.dB + 1) o.vB tmp
    let valC : Nat × Nat → F := forN o.nb (fun i =>
      let vc := cmul n (fun x => o.valAp (i, x.1, x.2)) fun x => valB (i, x.1 * p + x.2)
      forN m fun u => forN p fun v => write (i, u * p + v) (vc (u, v))) fun _ => 0
    let res := cmul o.nb o.iV valC
    .ok ⟨m, p, loop2 m p (fun u v _ => ofCoeffs o.nb fun i => res (i, u * p + v)) fun _ => 0⟩

end Field

/-! ### FFT multipliers, as chosen by `get_lmultiplier` for an FFT prime (lines 631-637) -/

/-- `get_lmultiplier(a, dB)` for an FFT prime, then `multiply(c, b)`. -/
noncomputable def fftMul {pr : Nat} [Fact pr.Prime] (T : FFT (ZMod pr)) (a : PMat (ZMod pr)[X]) (dB : Nat) :
    PMat (ZMod pr)[X] → Res (PMat (ZMod pr)[X]) :=
  if a.rows ≤ 100 then (mkDirect T a dB).multiply T else (mkMatmul T a dB).multiply T

/-! ### Three primes -/

open Three

/-- `mat_lzz_pX_lmultiplier_3_primes`: `muls i` is `FFT_muls[i]->multiply`, on representatives modulo the
    `i`-th FFT prime. -/
structure ThreeP where
  nb : Nat
  muls : Nat → PMat ℕ[X] → Res (PMat ℕ[X])

/-- The constructor, lines 568-581: `p` is the modulus, `q i` the `i`-th FFT prime.  `none` is an error of
    the constructor of `lzz_pX_3_primes`. -/
noncomputable def mkThree {q : Nat → Nat} [∀ i, Fact (q i).Prime] (T : ∀ i, FFT (ZMod (q i))) (p : Nat) (a : PMat ℕ[X]) (dB : Nat) :
    Option ThreeP :=
  (nbPrimes p q a.cols (rdeg a) dB).map fun nb =>
    { nb := nb
      muls := fun i b =>
        let ap := reduce (q i) a
        match fftMul (T i) (ofRep (q i) ap) dB (ofRep (q i) b) with
        | .ok c => .ok (rep c)
        | .error => .error
        | .ub => .ub }

/-- `multiply`, lines 586-621. -/
noncomputable def ThreeP.multiply (o : ThreeP) (p : Nat) (q : Nat → Nat) (b : PMat ℕ[X]) : Res (PMat ℕ[X]) :=
  let cs : Nat → Res (PMat ℕ[X]) := fun i => if p < q i then o.muls i b else o.muls i (reduce (q i) b)
  let get : Res (PMat ℕ[X]) → PMat ℕ[X] := fun r => r.getD ⟨0, 0, fun _ => 0⟩
  match (List.range o.nb).find? fun i => !(cs i).isOk with
  | some i => cs i
  | none =>
    if o.nb = 1 then .ok (reduce p (get (cs 0)))
    else match reconstruct p q o.nb fun i => get (cs i) with
      | some c => .ok c
      | none => .error

/-! ### `get_lmultiplier` -/

/-- Which class is chosen by `get_lmultiplier`, lines 626-655.  `fft`: the modulus is an FFT prime; `bits` is
    its bit length; `SMALL_PRIME_SIZE` is 25. -/
inductive Kind where
  | direct
  | matmul
  | dense
  | three
  | geometric
  deriving DecidableEq

/-- Lines 624-659. -/
def kind (fft : Bool) (bits rows : Nat) (dA : Int) : Kind :=
  if fft then (if rows ≤ 100 then .direct else .matmul)
  else if ¬bits ≤ 25 then
    if (rows ≤ 20 ∧ dA ≤ 30) ∨ (rows ≤ 40 ∧ dA ≤ 90) ∨ dA ≤ 150 then .dense
    else if rows ≤ 200 then .three
    else .geometric
  else
    if (rows ≤ 20 ∧ dA ≤ 30) ∨ (rows ≤ 40 ∧ dA ≤ 90) ∨ dA ≤ 150 then .dense else .three

/-- What `get_lmultiplier` depends on: whether the modulus is an FFT prime, the functions of NTL, the FFT
    primes, and the multipoint object of length `n` (`n`, `evaluate`, `interpolate`; `none` if
    `get_geometric_points` reports an error). -/
structure Env (p : Nat) (q : Nat → Nat) where
  fft : Bool
  T : FFT (ZMod p)
  Tq : ∀ i, FFT (ZMod (q i))
  inv : Nat → (Nat × Nat → ZMod p) → Option (Nat × Nat → ZMod p)
  geom : Nat → Option ((((ZMod p)[X] → Option (Nat → ZMod p)) × ((Nat → ZMod p) → Option (ZMod p)[X])))

/-- The objects: all that can be done with them is to multiply. -/
noncomputable def getLMultiplier {p : Nat} [Fact p.Prime] {q : Nat → Nat} [∀ i, Fact (q i).Prime] (E : Env p q)
    (a : PMat (ZMod p)[X]) (dB : Nat) : Res (PMat (ZMod p)[X] → Res (PMat (ZMod p)[X])) :=
  match kind E.fft (Nat.size p) a.rows (deg a) with
  | .direct => .ok ((mkDirect E.T a dB).multiply E.T)
  | .matmul => .ok ((mkMatmul E.T a dB).multiply E.T)
  | .dense => match mkDense E.inv a dB with
    | .ok o => .ok o.multiply
    | .error => .error
    | .ub => .ub
  | .three => match mkThree E.Tq p (rep a) dB with
    | some o => .ok fun b => match o.multiply p q (rep b) with
      | .ok c => .ok (ofRep p c)
      | .error => .error
      | .ub => .ub
    | none => .error
  | .geometric =>
    let n := (deg a + dB + 1).toNat
    match E.geom n with
    | none => .error
    | some ei => match mkGeometric n ei.1 ei.2 a dB with
      | some o => .ok o.multiply
      | none => .error

end PML.Ntl.LMul
