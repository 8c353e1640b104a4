import Verif.CrtMem.Model

/-!
# Specification for C110: memory of the objects for Chinese remaindering
-/

namespace PML.CrtMem

/-- Moduli which are positive and pairwise coprime. -/
structure GoodModuli (p : Nat → Nat) (n : Nat) : Prop where
  pos : ∀ i, i < n → 0 < p i
  coprime : ∀ i j, i < n → j < n → i ≠ j → Nat.Coprime (p i) (p j)

/-- The calls which the documentation allows: a variable is initialised before it is used, it is not initialised again before it is cleared, it is
    cleared once; moduli are positive and, for Chinese remaindering, pairwise coprime. -/
def Allowed (op : Op) (s : Store) : Prop :=
  match op with
  | .mmodInit d p n => s d = none ∧ ∀ i, i < n → 0 < p i
  | .naiveInit d p n => s d = none ∧ GoodModuli p n
  | .treeInit d big p n => s d = none ∧ GoodModuli p n ∧ 0 < n ∧ 0 < big
  | .wordInit d _ num => s d = none ∧ 1 ≤ num ∧ num ≤ 4
  | .clear d => s d ≠ none

/-- All calls of the sequence are allowed, when they are reached from the store `s` and the heap `h`. -/
def AllowedRun (avx2 : Bool) : List Op → Store → Heap → Prop
  | [], _, _ => True
  | op :: ops, s, h => Allowed op s ∧ ∀ s' h', exec avx2 op s h = .ok (s', h') → AllowedRun avx2 ops s' h'

/-- No block is allocated. -/
def Heap.empty : Heap := ⟨fun _ => none, 0⟩

end PML.CrtMem
