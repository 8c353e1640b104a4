import Mathlib.Logic.Function.Basic
import Mathlib.Data.Set.Basic
import Mathlib.Data.Set.Insert
import Mathlib.Tactic.ByContra
import Mathlib.Algebra.BigOperators.Group.Finset.Basic
import Mathlib.Algebra.BigOperators.Intervals

/-!
# Counting loops that write into arrays

`forN n f s` is `for (i = 0; i < n; i++) s = f(i, s)`, and `forStep b n f s` is
`for (k = 0; k < n; k += b) s = f(k, s)`.  An array is a function of its index; `Fills S v f` says
that the statement `f` writes `v x` at every index `x` of `S` and nothing elsewhere.
-/

universe u v

namespace PML

/-- `for (i = 0; i < n; i++) s = f(i, s)`. -/
def forN {σ : Type u} : Nat → (Nat → σ → σ) → σ → σ
  | 0, _, s => s
  | n + 1, f, s => f n (forN n f s)

/-- `for (k = 0; k < n; k += b) s = f(k, s)`. -/
def forStep {σ : Type u} (b n : Nat) (f : Nat → σ → σ) (s : σ) : σ :=
  forN ((n + b - 1) / b) (fun q => f (q * b)) s

/-- `a[x] = w`. -/
def write {ι : Type u} {α : Type v} [DecidableEq ι] (x : ι) (w : α) (a : ι → α) : ι → α := Function.update a x w

/-- The statement `f` writes `v x` at every index `x` of `S`, and nothing elsewhere. -/
def Fills {ι : Type u} {α : Type v} (S : Set ι) (v : ι → α) (f : (ι → α) → ι → α) : Prop :=
  ∀ a x, (x ∈ S → f a x = v x) ∧ (x ∉ S → f a x = a x)

variable {ι : Type u} {α : Type v}

theorem Fills.write [DecidableEq ι] {v : ι → α} (x : ι) (w : α) (h : v x = w) : Fills {x} v (write x w) := by
  intro a y
  unfold PML.write
  constructor
  · intro hy
    rw [Set.mem_singleton_iff] at hy
    subst hy
    rw [Function.update_self, h]
  · intro hy
    rw [Set.mem_singleton_iff] at hy
    rw [Function.update_of_ne hy]

theorem Fills.forN {v : ι → α} {f : Nat → (ι → α) → ι → α} {S : Nat → Set ι} :
    ∀ {n : Nat}, (∀ i, i < n → Fills (S i) v (f i)) → Fills {x | ∃ i, i < n ∧ x ∈ S i} v (PML.forN n f)
  | 0, _ => by
    intro a x
    refine ⟨fun h => ?_, fun _ => rfl⟩
    obtain ⟨i, hi, _⟩ := h
    omega
  | n + 1, h => by
    intro a x
    have ih := Fills.forN (n := n) (S := S) (v := v) (f := f) fun i hi => h i (by omega)
    obtain ⟨h1, h2⟩ := ih a x
    obtain ⟨h3, h4⟩ := h n (by omega) (PML.forN n f a) x
    show (_ → f n (PML.forN n f a) x = v x) ∧ (_ → f n (PML.forN n f a) x = a x)
    constructor
    · rintro ⟨i, hi, hx⟩
      by_cases hn : x ∈ S n
      · exact h3 hn
      · rw [h4 hn]
        refine h1 ⟨i, ?_, hx⟩
        by_contra hc
        exact hn ((show i = n by omega) ▸ hx)
    · intro hx
      rw [h4 fun hn => hx ⟨n, by omega, hn⟩]
      exact h2 fun ⟨i, hi, hxi⟩ => hx ⟨i, by omega, hxi⟩

theorem Fills.forStep {v : ι → α} {f : Nat → (ι → α) → ι → α} {S : Nat → Set ι} {b n : Nat}
    (hb : 0 < b) (h : ∀ k, k < n → Fills (S k) v (f k)) :
    Fills {x | ∃ q, q * b < n ∧ x ∈ S (q * b)} v (PML.forStep b n f) := by
  have key : ∀ q, q < (n + b - 1) / b ↔ q * b < n := by
    intro q
    rw [← Nat.succ_le_iff, Nat.le_div_iff_mul_le hb, Nat.succ_mul]
    omega
  have := Fills.forN (n := (n + b - 1) / b) (S := fun q => S (q * b)) (v := v) (f := fun q => f (q * b))
    fun q hq => h _ ((key q).1 hq)
  intro a x
  obtain ⟨h1, h2⟩ := this a x
  refine ⟨fun ⟨q, hq, hx⟩ => h1 ⟨q, (key q).2 hq, hx⟩, fun hx => h2 fun ⟨q, hq, hxq⟩ => hx ⟨q, (key q).1 hq, hxq⟩⟩

theorem Fills.comp {v : ι → α} {f g : (ι → α) → ι → α} {S T : Set ι} (hf : Fills S v f) (hg : Fills T v g) :
    Fills (S ∪ T) v (fun a => g (f a)) := by
  intro a x
  obtain ⟨h1, h2⟩ := hf a x
  obtain ⟨h3, h4⟩ := hg (f a) x
  constructor
  · rintro (hs | ht)
    · by_cases ht : x ∈ T
      · exact h3 ht
      · exact (h4 ht).trans (h1 hs)
    · exact h3 ht
  · intro hx
    exact (h4 fun ht => hx (Or.inr ht)).trans (h2 fun hs => hx (Or.inl hs))

theorem Fills.mono {v w : ι → α} {f : (ι → α) → ι → α} {S : Set ι} (hf : Fills S v f) (h : ∀ x ∈ S, v x = w x) :
    Fills S w f := by
  intro a x
  obtain ⟨h1, h2⟩ := hf a x
  exact ⟨fun hx => by rw [h1 hx, h x hx], h2⟩

/-- The blocks of length `b` cover all the indices below `n`. -/
theorem block_cover {b n k : Nat} (hb : 0 < b) (hk : k < n) :
    ∃ q kk, q * b < n ∧ kk < min b (n - q * b) ∧ k = q * b + kk := by
  have h1 := Nat.div_add_mod k b
  have h2 := Nat.mod_lt k hb
  have h3 : b * (k / b) = k / b * b := Nat.mul_comm _ _
  exact ⟨k / b, k % b, by omega, by omega, by omega⟩

/-- A loop with an invariant. -/
theorem forN_inv {σ : Type u} (P : Nat → σ → Prop) {f : Nat → σ → σ} {s : σ} :
    ∀ {n : Nat}, P 0 s → (∀ i t, i < n → P i t → P (i + 1) (f i t)) → P n (forN n f s)
  | 0, h0, _ => h0
  | n + 1, h0, h => h n _ (by omega) (forN_inv P h0 fun i t hi => h i t (by omega))

/-- The statement `f` replaces `a[x]` by `g x a[x]` at every index `x` of `S`, and changes nothing
    elsewhere. -/
def Maps {ι : Type u} {α : Type v} (S : Set ι) (g : ι → α → α) (f : (ι → α) → ι → α) : Prop :=
  ∀ a x, (x ∈ S → f a x = g x (a x)) ∧ (x ∉ S → f a x = a x)

theorem Maps.write [DecidableEq ι] {g : ι → α → α} (x : ι) (w : (ι → α) → α) (h : ∀ a, w a = g x (a x)) :
    Maps {x} g (fun a => PML.write x (w a) a) := by
  intro a y
  unfold PML.write
  show (_ → Function.update a x (w a) y = _) ∧ (_ → Function.update a x (w a) y = _)
  constructor
  · intro hy
    rw [Set.mem_singleton_iff] at hy
    subst hy
    rw [Function.update_self, h]
  · intro hy
    rw [Set.mem_singleton_iff] at hy
    rw [Function.update_of_ne hy]

theorem Maps.comp {g : ι → α → α} {f f' : (ι → α) → ι → α} {S T : Set ι} (hf : Maps S g f) (hg : Maps T g f')
    (hd : ∀ x, x ∈ S → x ∉ T) : Maps (S ∪ T) g (fun a => f' (f a)) := by
  intro a x
  obtain ⟨h1, h2⟩ := hf a x
  obtain ⟨h3, h4⟩ := hg (f a) x
  constructor
  · rintro (hs | ht)
    · exact (h4 (hd x hs)).trans (h1 hs)
    · exact (h3 ht).trans (by rw [h2 fun hs => hd x hs ht])
  · intro hx
    exact (h4 fun ht => hx (Or.inr ht)).trans (h2 fun hs => hx (Or.inl hs))

theorem Maps.forN {g : ι → α → α} {f : Nat → (ι → α) → ι → α} {S : Nat → Set ι} :
    ∀ {n : Nat}, (∀ i, i < n → Maps (S i) g (f i)) → (∀ i j, i < j → j < n → ∀ x, x ∈ S i → x ∉ S j) →
      Maps {x | ∃ i, i < n ∧ x ∈ S i} g (PML.forN n f)
  | 0, _, _ => by
    intro a x
    refine ⟨fun h => ?_, fun _ => rfl⟩
    obtain ⟨i, hi, _⟩ := h
    omega
  | n + 1, h, hd => by
    have ih := Maps.forN (n := n) (S := S) (g := g) (f := f) (fun i hi => h i (by omega))
      fun i j hij hj => hd i j hij (by omega)
    have := ih.comp (h n (by omega)) fun x ⟨i, hi, hx⟩ => hd i n hi (by omega) x hx
    intro a x
    obtain ⟨h1, h2⟩ := this a x
    constructor
    · rintro ⟨i, hi, hx⟩
      refine h1 ?_
      by_cases hin : i = n
      · exact Or.inr (hin ▸ hx)
      · exact Or.inl ⟨i, by omega, hx⟩
    · intro hx
      refine h2 ?_
      rintro (⟨i, hi, hxi⟩ | hxn)
      · exact hx ⟨i, by omega, hxi⟩
      · exact hx ⟨n, by omega, hxn⟩

theorem Maps.congr {g : ι → α → α} {f : (ι → α) → ι → α} {S T : Set ι} (h : Maps S g f) (hS : ∀ x, x ∈ S ↔ x ∈ T) :
    Maps T g f := by
  intro a x
  obtain ⟨h1, h2⟩ := h a x
  exact ⟨fun hx => h1 ((hS x).2 hx), fun hx => h2 fun hs => hx ((hS x).1 hs)⟩

/-- A component of the state that does not depend on the others. -/
theorem forN_proj {σ τ : Type*} (π : σ → τ) {f : Nat → σ → σ} {g : Nat → τ → τ} :
    ∀ {n : Nat}, (∀ i s, i < n → π (f i s) = g i (π s)) → ∀ s, π (forN n f s) = forN n g (π s)
  | 0, _, _ => rfl
  | n + 1, h, s => by
    show π (f n (forN n f s)) = g n (forN n g (π s))
    rw [h n _ (by omega), forN_proj π (fun i s hi => h i s (by omega)) s]

/-- A loop that accumulates a sum. -/
theorem forN_add {M : Type*} [AddCommMonoid M] (v : Nat → M) (x : M) :
    ∀ n, forN n (fun k acc => acc + v k) x = x + ∑ k ∈ Finset.range n, v k
  | 0 => by simp [forN]
  | n + 1 => by
    show forN n _ x + v n = _
    rw [forN_add v x n, Finset.sum_range_succ, add_assoc]

end PML
