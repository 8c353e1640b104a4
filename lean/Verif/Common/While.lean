/-!
# While loops

`whileLoop c b n s` runs `while (c) s = b(s)` from state `s` for at most `n`
iterations; `none` means that the fuel ran out (the loop did not stop within
`n` iterations). Every termination claim about a C loop is stated as: with
enough fuel the result is `some _`.
-/

universe u

namespace PML

/-- C `while (c) b`, with a bound `n` on the number of iterations. -/
def whileLoop {σ : Type u} (c : σ → Bool) (b : σ → σ) : Nat → σ → Option σ
  | 0, s => if c s then none else some s
  | n + 1, s => if c s then whileLoop c b n (b s) else some s

theorem whileLoop_mono {σ : Type u} {c : σ → Bool} {b : σ → σ} :
    ∀ {n : Nat} {s r : σ}, whileLoop c b n s = some r →
      ∀ m, n ≤ m → whileLoop c b m s = some r := by
  intro n
  induction n with
  | zero =>
    intro s r h m hm
    simp only [whileLoop] at h
    cases m with
    | zero => simpa [whileLoop] using h
    | succ m =>
      simp only [whileLoop]
      split at h
      · simp at h
      · rename_i hc; simp [hc]; simpa using h
  | succ n ih =>
    intro s r h m hm
    cases m with
    | zero => omega
    | succ m =>
      simp only [whileLoop] at h ⊢
      split
      · rename_i hc
        simp only [hc, if_true] at h
        exact ih h m (by omega)
      · rename_i hc
        simp only [hc] at h
        simpa using h

/-- Total-correctness rule: invariant plus decreasing measure. -/
theorem whileLoop_spec {σ : Type u} {c : σ → Bool} {b : σ → σ}
    (Inv : σ → Prop) (μ : σ → Nat)
    (hb : ∀ s, Inv s → c s = true → Inv (b s) ∧ μ (b s) < μ s) :
    ∀ n s, Inv s → μ s ≤ n →
      ∃ s', whileLoop c b n s = some s' ∧ Inv s' ∧ c s' = false := by
  intro n
  induction n with
  | zero =>
    intro s hs hμ
    by_cases hc : c s = true
    · have := (hb s hs hc).2; omega
    · exact ⟨s, by simp [whileLoop, hc], hs, by simpa using hc⟩
  | succ n ih =>
    intro s hs hμ
    by_cases hc : c s = true
    · obtain ⟨h1, h2⟩ := hb s hs hc
      obtain ⟨s', h3, h4, h5⟩ := ih (b s) h1 (by omega)
      exact ⟨s', by simp [whileLoop, hc, h3], h4, h5⟩
    · exact ⟨s, by simp [whileLoop, hc], hs, by simpa using hc⟩

/-- Partial-correctness rule: if the loop stopped, the invariant holds. -/
theorem whileLoop_partial {σ : Type u} {c : σ → Bool} {b : σ → σ}
    (Inv : σ → Prop) (hb : ∀ s, Inv s → c s = true → Inv (b s)) :
    ∀ n s r, Inv s → whileLoop c b n s = some r → Inv r ∧ c r = false := by
  intro n
  induction n with
  | zero =>
    intro s r hs h
    simp only [whileLoop] at h
    split at h
    · simp at h
    · rename_i hc
      simp at h; subst h; exact ⟨hs, by simpa using hc⟩
  | succ n ih =>
    intro s r hs h
    simp only [whileLoop] at h
    split at h
    · rename_i hc; exact ih _ _ (hb s hs hc) h
    · rename_i hc
      simp at h; subst h; exact ⟨hs, by simpa using hc⟩

/-- `n`-fold iteration of a loop body. -/
def iter {σ : Type u} (b : σ → σ) : Nat → σ → σ
  | 0, s => s
  | n + 1, s => iter b n (b s)

/-- If the test fails after `k` iterations, the loop stops within `k` iterations,
on some iterate. -/
theorem whileLoop_of_iter {σ : Type u} {c : σ → Bool} {b : σ → σ} :
    ∀ k s, c (iter b k s) = false →
      ∃ j, j ≤ k ∧ whileLoop c b k s = some (iter b j s) ∧ c (iter b j s) = false := by
  intro k
  induction k with
  | zero => intro s h; exact ⟨0, by omega, by simp [whileLoop, iter] at *; simp [h], h⟩
  | succ k ih =>
    intro s h
    by_cases hc : c s = true
    · obtain ⟨j, hj, h1, h2⟩ := ih (b s) h
      exact ⟨j + 1, by omega, by simp [whileLoop, hc, h1, iter], h2⟩
    · exact ⟨0, by omega, by simp [whileLoop, hc, iter], by simpa [iter] using hc⟩

theorem iter_succ_apply {σ : Type u} (b : σ → σ) : ∀ n s, iter b (n + 1) s = b (iter b n s) := by
  intro n
  induction n with
  | zero => intro s; rfl
  | succ n ih => intro s; rw [iter, ih, iter]

/-- The computation `f`, with the bound on iterations as argument, ends with result
    `a`: every large enough bound gives `a`. -/
def Ends {α : Type u} (f : Nat → Option α) (a : α) : Prop :=
  ∃ N, ∀ fuel, N ≤ fuel → f fuel = some a

theorem Ends.pure {α : Type u} {f : Nat → Option α} {a : α} (h : ∀ fuel, f fuel = some a) : Ends f a :=
  ⟨0, fun fuel _ => h fuel⟩

theorem Ends.map {α β : Type u} {f : Nat → Option α} {a : α} (h : Ends f a) (g : α → β) :
    Ends (fun fuel => (f fuel).map g) (g a) := by
  obtain ⟨N, hN⟩ := h
  exact ⟨N, fun fuel hf => by simp [hN fuel hf]⟩

theorem Ends.congr {α : Type u} {f g : Nat → Option α} {a : α} (h : Ends f a)
    (e : ∀ fuel, f fuel = some a → g fuel = some a) : Ends g a := by
  obtain ⟨N, hN⟩ := h
  exact ⟨N, fun fuel hf => e fuel (hN fuel hf)⟩

theorem Ends.bind {α β : Type u} {f : Nat → Option α} {a : α} (h : Ends f a) {g : Nat → α → Option β} {b : β}
    (h' : Ends (fun fuel => g fuel a) b) : Ends (fun fuel => (f fuel).bind (g fuel)) b := by
  obtain ⟨N, hN⟩ := h
  obtain ⟨N', hN'⟩ := h'
  refine ⟨max N N', fun fuel hf => ?_⟩
  simp only
  rw [hN fuel (by omega)]
  exact hN' fuel (by omega)

theorem Ends.unique {α : Type u} {f : Nat → Option α} {a b : α} (h : Ends f a) (h' : Ends f b) : a = b := by
  obtain ⟨N, hN⟩ := h
  obtain ⟨N', hN'⟩ := h'
  have h1 := hN (max N N') (by omega)
  have h2 := hN' (max N N') (by omega)
  rw [h1] at h2
  exact Option.some.inj h2

/-- Total-correctness rule, with the result. -/
theorem whileLoop_ends {σ : Type u} {c : σ → Bool} {b : σ → σ}
    (Inv : σ → Prop) (μ : σ → Nat)
    (hb : ∀ s, Inv s → c s = true → Inv (b s) ∧ μ (b s) < μ s) (s : σ) (hs : Inv s) :
    ∃ s', Ends (fun fuel => whileLoop c b fuel s) s' ∧ Inv s' ∧ c s' = false := by
  obtain ⟨s', h1, h2, h3⟩ := whileLoop_spec Inv μ hb (μ s) s hs (Nat.le_refl _)
  exact ⟨s', ⟨μ s, fun fuel hf => whileLoop_mono h1 fuel hf⟩, h2, h3⟩

end PML
