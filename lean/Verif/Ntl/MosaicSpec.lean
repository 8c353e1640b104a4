import Verif.Ntl.StructSpec
import Verif.Ntl.MosaicModel

/-!
# Specification of mosaic Hankel and mosaic Toeplitz matrices (C102, C103, C104, C105)
-/

namespace PML.Ntl.Mosaic

open PML.Ntl.Utils PML.Ntl.Inv PML.Ntl.Struct

variable {p : Nat} [Fact p.Prime]

/-- The first row, or column, of the block `k`, if the blocks have the sizes `s 0, s 1, …`. -/
def off (s : Nat → Nat) (k : Nat) : Nat := ∑ i ∈ Finset.range k, s i

/-- The entries of a Hankel or Toeplitz block with the data `a`. -/
def Kind.entry (k : Kind) (a : Nat → ZMod p) (n m i j : Nat) : ZMod p :=
  match k with
  | .hankel => hankelEntry a n m i j
  | .toeplitz => toeplitzEntry a m i j

/-- A rectangular array of `nb` by `mb` blocks; the block `(a, b)` has `R a` rows and `C b` columns, and was built from the vector
    `A a b`. -/
structure Tiled (g : Grid p) (nb mb : Nat) (R C : Nat → Nat) (A : Nat → Nat → NVec (ZMod p)) : Prop where
  nb_pos : 0 < nb
  mb_pos : 0 < mb
  nb_eq : g.nb = nb
  len : ∀ a, a < nb → g.len a = mb
  block : ∀ a b, a < nb → b < mb → Band.make (A a b) (R a) (C b) = .ok (g.b a b)

/-- `M` is the matrix with these blocks: the entry `(i, j)` of the block `(a, b)` is at `(off R a + i, off C b + j)`. -/
def IsMosaic (k : Kind) (nb mb : Nat) (R C : Nat → Nat) (A : Nat → Nat → NVec (ZMod p)) (M : Nat → Nat → ZMod p) : Prop :=
  ∀ a b i j, a < nb → b < mb → i < R a → j < C b → M (off R a + i) (off C b + j) = k.entry (A a b).e (R a) (C b) i j

end PML.Ntl.Mosaic
