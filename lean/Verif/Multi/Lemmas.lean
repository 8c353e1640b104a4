import Verif.Multi.Model
import Verif.Word.Props

/-! # Several dot products with a common left operand (lemmas) -/

namespace PML.Multi

open PML.Word Finset

theorem whileM_spec {σ : Type} {c : σ → Bool} {f : σ → Option σ} (Inv : σ → Prop) (μ : σ → Nat)
    (hf : ∀ s, Inv s → c s = true → ∃ t, f s = some t ∧ Inv t ∧ μ t < μ s) :
    ∀ n s, Inv s → μ s ≤ n → ∃ s', whileM c f n s = some s' ∧ Inv s' ∧ c s' = false := by
  intro n
  induction n with
  | zero =>
    intro s hs hμ
    by_cases hc : c s = true
    · obtain ⟨t, _, _, h⟩ := hf s hs hc; omega
    · exact ⟨s, by simp [whileM, hc], hs, by simpa using hc⟩
  | succ n ih =>
    intro s hs hμ
    by_cases hc : c s = true
    · obtain ⟨t, ht, hi, h⟩ := hf s hs hc
      obtain ⟨s', h1, h2, h3⟩ := ih t hi (by omega)
      exact ⟨s', by simp [whileM, hc, ht, h1], h2, h3⟩
    · exact ⟨s, by simp [whileM, hc], hs, by simpa using hc⟩

/-- a loop that replaces each of the entries `lo, …, lo+n-1` -/
theorem forN_entries {α : Type} (g : Nat → α → α) (lo n : Nat) (a : Nat → α) (j : Nat) :
    forN n (fun q a => write (lo + q) (g (lo + q) (a (lo + q))) a) a j =
      if lo ≤ j ∧ j < lo + n then g j (a j) else a j := by
  induction n with
  | zero => simp only [forN]; rw [if_neg (by omega)]
  | succ n ih =>
    have e : forN (n + 1) (fun q a => write (lo + q) (g (lo + q) (a (lo + q))) a) a =
      write (lo + n) (g (lo + n) (forN n (fun q a => write (lo + q) (g (lo + q) (a (lo + q))) a) a (lo + n)))
        (forN n (fun q a => write (lo + q) (g (lo + q) (a (lo + q))) a) a) := rfl
    rw [e, write]
    by_cases h : j = lo + n
    · subst h
      rw [Function.update_self]
      have : forN n (fun q a => write (lo + q) (g (lo + q) (a (lo + q))) a) a (lo + n) = a (lo + n) := by
        rw [ih, if_neg (by omega)]
      rw [this, if_pos (by omega)]
    · rw [Function.update_of_ne h, ih]
      by_cases h2 : lo ≤ j ∧ j < lo + n
      · rw [if_pos h2, if_pos (by omega)]
      · rw [if_neg h2, if_neg (by omega)]

theorem forN_all {α : Type} (g : Nat → α → α) (n : Nat) (a : Nat → α) (j : Nat) :
    forN n (fun q a => write q (g q (a q)) a) a j = if j < n then g j (a j) else a j := by
  have := forN_entries g 0 n a j
  simpa using this

/-- the loops on the columns replace each of the first `k` entries once -/
theorem cols_spec {α : Type} (B k : Nat) (hB : 0 < B) (hB2 : B ≤ 2 ^ 61) (hk : k ≤ 2 ^ 61) (g : Nat → α → α)
    (fuel : Nat) (hf : k ≤ fuel) (a : Nat → α) :
    cols B k g fuel a = some fun j => if j < k then g j (a j) else a j := by
  unfold cols
  let P : Nat × (Nat → α) → Prop := fun s =>
    s.1 ≤ k ∧ ∀ j, s.2 j = if j < s.1 then g j (a j) else a j
  obtain ⟨s, hs, hP, _⟩ := whileLoop_spec (c := fun s : Nat × (Nat → α) => decide ((s.1 + (B - 1)) % W < k))
    (b := fun s => (s.1 + B, forN B (fun q a => write (s.1 + q) (g (s.1 + q) (a (s.1 + q))) a) s.2))
    P (fun s => k - s.1) (by
      rintro ⟨m, b⟩ ⟨h1, h2⟩ hc
      simp only [decide_eq_true_eq] at hc h1 h2
      have hmod : (m + (B - 1)) % W = m + (B - 1) := Nat.mod_eq_of_lt (by simp only [W]; omega)
      rw [hmod] at hc
      refine ⟨⟨by simp only; omega, ?_⟩, by simp only; omega⟩
      intro j
      simp only
      rw [forN_entries, h2]
      by_cases h3 : m ≤ j ∧ j < m + B
      · rw [if_pos h3, if_neg (show ¬ j < m by omega), if_pos (show j < m + B by omega)]
      · rw [if_neg h3]
        by_cases h4 : j < m
        · rw [if_pos h4, if_pos (show j < m + B by omega)]
        · rw [if_neg h4, if_neg (show ¬ j < m + B by omega)]) fuel (0, a)
    ⟨by simp, by simp⟩ (by simpa using hf)
  rw [hs, Option.bind_some]
  obtain ⟨t, ht, ⟨hQ1, hQ2⟩, hQ⟩ := whileLoop_spec (c := fun s : Nat × (Nat → α) => decide (s.1 < k))
    (b := fun s => (s.1 + 1, write s.1 (g s.1 (s.2 s.1)) s.2))
    P (fun s => k - s.1) (by
      rintro ⟨m, b⟩ ⟨h1, h2⟩ hc
      simp only [decide_eq_true_eq] at hc h1 h2
      refine ⟨⟨by simp only; omega, ?_⟩, by simp only; omega⟩
      intro j
      simp only [write]
      by_cases h3 : j = m
      · subst h3
        rw [Function.update_self, h2, if_neg (by omega), if_pos (by omega)]
      · rw [Function.update_of_ne h3, h2]
        by_cases h4 : j < m
        · rw [if_pos h4, if_pos (by omega)]
        · rw [if_neg h4, if_neg (by omega)]) fuel s hP (by have := hP.1; omega)
  simp only [decide_eq_false_iff_not] at hQ
  rw [ht, Option.map_some]
  congr 1
  funext j
  rw [hQ2, show t.1 = k by omega]

/-- the loops on the rows: an invariant on each of the first `k` entries, indexed by the number of
rows treated -/
theorem rows_spec {α : Type} (A c B len k : Nat) (hA : 0 < A) (hc : A ≤ c + 1) (hc2 : c < 2 ^ 61) (hB : 0 < B)
    (hB2 : B ≤ 2 ^ 61)
    (hlen : len ≤ 2 ^ 61) (hk : k ≤ 2 ^ 61) (g : Nat → Nat → Nat → α → α) (fuel : Nat) (hf : k ≤ fuel)
    (hf2 : len ≤ fuel) (a : Nat → α) (P : Nat → Nat → α → Prop) (h0 : ∀ j, j < k → P 0 j (a j))
    (hA' : ∀ i j x, i + A ≤ len → j < k → P i j x → P (i + A) j (g A i j x))
    (h1 : ∀ i j x, i + 1 ≤ len → j < k → P i j x → P (i + 1) j (g 1 i j x)) :
    ∃ b, rows A c B len k g fuel a = some b ∧ (∀ j, j < k → P len j (b j)) ∧ ∀ j, k ≤ j → b j = a j := by
  unfold rows
  let Q : Nat × (Nat → α) → Prop := fun s =>
    s.1 ≤ len ∧ (∀ j, j < k → P s.1 j (s.2 j)) ∧ ∀ j, k ≤ j → s.2 j = a j
  obtain ⟨s, hs, hQ, _⟩ := whileM_spec (c := fun s : Nat × (Nat → α) => decide ((s.1 + c) % W < len))
    (f := fun s => (cols B k (g A s.1) fuel s.2).map fun a => (s.1 + A, a)) Q (fun s => len - s.1) (by
      rintro ⟨m, b⟩ ⟨q1, q2, q3⟩ hcc
      simp only [decide_eq_true_eq] at hcc q1 q2 q3
      have hmod : (m + c) % W = m + c := Nat.mod_eq_of_lt (by simp only [W]; omega)
      rw [hmod] at hcc
      refine ⟨_, by rw [cols_spec B k hB hB2 hk _ fuel hf]; rfl, ⟨by simp only; omega, ?_, ?_⟩, by simp only; omega⟩
      · intro j hj
        simp only [if_pos hj]
        exact hA' m j _ (by omega) hj (q2 j hj)
      · intro j hj
        simp only [if_neg (show ¬ j < k by omega)]
        exact q3 j hj) fuel (0, a) ⟨by simp, h0, fun _ _ => rfl⟩ (by simpa using hf2)
  rw [hs, Option.bind_some]
  obtain ⟨t, ht, ⟨t1, t2, t3⟩, hT⟩ := whileM_spec (c := fun s : Nat × (Nat → α) => decide (s.1 < len))
    (f := fun s => (cols B k (g 1 s.1) fuel s.2).map fun a => (s.1 + 1, a)) Q (fun s => len - s.1) (by
      rintro ⟨m, b⟩ ⟨q1, q2, q3⟩ hcc
      simp only [decide_eq_true_eq] at hcc q1 q2 q3
      refine ⟨_, by rw [cols_spec B k hB hB2 hk _ fuel hf]; rfl, ⟨by simp only; omega, ?_, ?_⟩, by simp only; omega⟩
      · intro j hj
        simp only [if_pos hj]
        exact h1 m j _ (by omega) hj (q2 j hj)
      · intro j hj
        simp only [if_neg (show ¬ j < k by omega)]
        exact q3 j hj) fuel s hQ (by have := hQ.1; omega)
  simp only [decide_eq_false_iff_not] at hT
  have e : t.1 = len := by omega
  rw [ht]
  exact ⟨t.2, rfl, by rw [← e]; exact t2, t3⟩

theorem zero_at (k : Nat) (uv : Nat → Nat) (j : Nat) : zero k uv j = if j < k then 0 else uv j :=
  forN_all (fun _ _ => 0) k uv j

theorem zero2_at (k : Nat) (uv : Nat → Nat) (j : Nat) : zero2 k uv j = if j < k then (0, 0) else (0, uv j) :=
  forN_all (fun _ _ => (0, 0)) k _ j

theorem red2_at (k n : Nat) (a : Nat → Nat × Nat) (j : Nat) :
    red2 k n a j = if j < k then nmod2_red2 (a j) n else (a j).2 :=
  forN_all (fun j _ => nmod2_red2 (a j) n) k (fun j => (a j).2) j

theorem dot_mono (v1 v2 : Nat → Nat) {m len : Nat} (h : m ≤ len) : dot v1 v2 m ≤ dot v1 v2 len := by
  obtain ⟨d, rfl⟩ := Nat.exists_eq_add_of_le h
  rw [dot_split]; omega

/-- one limb: adding `A` products -/
theorem add1_val (u : Nat → Nat) (v : Nat → Nat → Nat) (len A i j : Nat) (hi : i + A ≤ len)
    (hd : dot u (fun i => v i j) len < W) (x : Nat) (hx : x = dot u (fun i => v i j) i) :
    add1 u v A i j x = dot u (fun i => v i j) (i + A) := by
  have hm := dot_mono u (fun i => v i j) hi
  rw [dot_split] at hm
  rw [add1, acc1_val _ _ _ _ _ (by omega), zero_add, hx, ← dot_split, Nat.mod_eq_of_lt]
  rw [dot_split]; omega

/-- two limbs: adding `A` products -/
theorem add2_val' (u : Nat → Nat) (v : Nat → Nat → Nat) (len A i j : Nat) (hi : i + A ≤ len)
    (hw : ∀ i, i < len → u i < W ∧ v i j < W) (hd : dot u (fun i => v i j) len < W ^ 2) (x : Nat × Nat)
    (hx : val2 x = dot u (fun i => v i j) i) :
    val2 (add2 u v A i j x) = dot u (fun i => v i j) (i + A) := by
  have hm := dot_mono u (fun i => v i j) hi
  rw [dot_split] at hm
  have := accFrom_val u (fun i => v i j) i A 0 x (fun q hq => hw _ (by omega)) (by rw [hx]; simp only [add_zero]; omega)
  rw [add2, this, hx, add_zero, dot_split]

theorem multi1_spec (A c B : Nat) (hA : 0 < A) (hc : A ≤ c + 1) (hc2 : c < 2 ^ 61) (hB : 0 < B) (hB2 : B ≤ 2 ^ 61)
    (fuel : Nat) (uv u : Nat → Nat) (v : Nat → Nat → Nat) (len k n : Nat) (hlen : len ≤ 2 ^ 61) (hk : k ≤ 2 ^ 61)
    (hf : k ≤ fuel) (hf2 : len ≤ fuel) (hd : ∀ j, j < k → dot u (fun i => v i j) len < 2 ^ 64) :
    multi1 A c B fuel uv u v len k n =
      some fun j => if j < k then dot u (fun i => v i j) len % n else uv j := by
  obtain ⟨b, hb, h1, h2⟩ := rows_spec A c B len k hA hc hc2 hB hB2 hlen hk (add1 u v) fuel hf hf2 (zero k uv)
    (fun i j x => x = dot u (fun i => v i j) i) (fun j hj => by rw [zero_at, if_pos hj]; simp [dot])
    (fun i j x hi hj hx => add1_val u v len A i j hi (hd j hj) x hx)
    (fun i j x hi hj hx => add1_val u v len 1 i j hi (hd j hj) x hx)
  rw [multi1, hb, Option.map_some]
  congr 1
  funext j
  rw [forN_all (fun _ x => nmod_red x n)]
  by_cases hj : j < k
  · rw [if_pos hj, if_pos hj, h1 j hj, nmod_red]
  · rw [if_neg hj, if_neg hj, h2 j (by omega), zero_at, if_neg hj]

theorem multi2_spec (A c B : Nat) (hA : 0 < A) (hc : A ≤ c + 1) (hc2 : c < 2 ^ 61) (hB : 0 < B) (hB2 : B ≤ 2 ^ 61)
    (fuel : Nat) (uv u : Nat → Nat) (v : Nat → Nat → Nat) (len k n : Nat) (hlen : len ≤ 2 ^ 61) (hk : k ≤ 2 ^ 61)
    (hf : k ≤ fuel) (hf2 : len ≤ fuel) (hw : ∀ i j, i < len → j < k → u i < 2 ^ 64 ∧ v i j < 2 ^ 64)
    (hd : ∀ j, j < k → dot u (fun i => v i j) len < 2 ^ 128) :
    multi2 A c B fuel uv u v len k n =
      some fun j => if j < k then dot u (fun i => v i j) len % n else uv j := by
  have hd' : ∀ j, j < k → dot u (fun i => v i j) len < W ^ 2 := fun j hj => by
    have := hd j hj; norm_num [W] at this ⊢; exact this
  obtain ⟨b, hb, h1, h2⟩ := rows_spec A c B len k hA hc hc2 hB hB2 hlen hk (add2 u v) fuel hf hf2 (zero2 k uv)
    (fun i j x => val2 x = dot u (fun i => v i j) i) (fun j hj => by rw [zero2_at, if_pos hj]; simp [dot, val2])
    (fun i j x hi hj hx => add2_val' u v len A i j hi (fun i hi => hw i j hi hj) (hd' j hj) x hx)
    (fun i j x hi hj hx => add2_val' u v len 1 i j hi (fun i hi => hw i j hi hj) (hd' j hj) x hx)
  rw [multi2, hb, Option.map_some]
  congr 1
  funext j
  rw [red2_at]
  by_cases hj : j < k
  · rw [if_pos hj, if_pos hj, nmod2_red2, ← h1 j hj, val2]
  · rw [if_neg hj, if_neg hj, h2 j (by omega), zero2_at, if_neg hj]

theorem multi_2_spec (uv u : Nat → Nat) (v : Nat → Nat → Nat) (len k n : Nat)
    (hw : ∀ i j, i < len → j < k → u i < 2 ^ 64 ∧ v i j < 2 ^ 64)
    (hd : ∀ j, j < k → dot u (fun i => v i j) len < 2 ^ 128) (j : Nat) :
    multi_2 uv u v len k n j = if j < k then dot u (fun i => v i j) len % n else uv j := by
  have hd' : ∀ j, j < k → dot u (fun i => v i j) len < W ^ 2 := fun j hj => by
    have := hd j hj; norm_num [W] at this ⊢; exact this
  have key := forN_inv (n := len) (f := fun i a => forN k (fun j a => write j (add2 u v 1 i j (a j)) a) a)
    (s := zero2 k uv) (fun i (b : Nat → Nat × Nat) => (∀ j, j < k → val2 (b j) = dot u (fun i => v i j) i) ∧
      ∀ j, k ≤ j → b j = (0, uv j))
    ⟨fun j hj => by rw [zero2_at, if_pos hj]; simp [dot, val2], fun j hj => by rw [zero2_at, if_neg (by omega)]⟩
    (by
      rintro i b hi ⟨h1, h2⟩
      refine ⟨fun j hj => ?_, fun j hj => ?_⟩
      · rw [forN_all (fun j x => add2 u v 1 i j x), if_pos hj]
        exact add2_val' u v len 1 i j (by omega) (fun i hi => hw i j hi hj) (hd' j hj) _ (h1 j hj)
      · rw [forN_all (fun j x => add2 u v 1 i j x), if_neg (by omega), h2 j hj])
  rw [multi_2, red2_at]
  by_cases hj : j < k
  · rw [if_pos hj, if_pos hj, nmod2_red2, ← key.1 j hj, val2]
  · rw [if_neg hj, if_neg hj, key.2 j (by omega)]

/-- each column of the 26-bit variant is the single 26-bit dot product -/
theorem multi_2_split26_eq (uv u : Nat → Nat) (v : Nat → Nat → Nat) (len k n j : Nat) :
    multi_2_split26 uv u v len k n j = if j < k then dotSplit26 u (fun i => v i j) len n else uv j := by
  have key := forN_inv (n := len)
    (f := fun i a => forN k (fun j a => write j (add26 (u i) (v i j) (a j)) a) a)
    (s := forN k (fun j a => write j (0, 0, 0) a) fun j => (uv j, 0, 0))
    (fun i (b : Nat → Nat × Nat × Nat) => (∀ j, j < k → b j = split26Acc u (fun i => v i j) i) ∧
      ∀ j, k ≤ j → b j = (uv j, 0, 0))
    ⟨fun j hj => by rw [forN_all (fun _ _ => (0, 0, 0)), if_pos hj]; rfl,
     fun j hj => by rw [forN_all (fun _ _ => (0, 0, 0)), if_neg (by omega)]⟩
    (by
      rintro i b hi ⟨h1, h2⟩
      refine ⟨fun j hj => ?_, fun j hj => ?_⟩
      · rw [forN_all (fun j x => add26 (u i) (v i j) x), if_pos hj, h1 j hj]; rfl
      · rw [forN_all (fun j x => add26 (u i) (v i j) x), if_neg (by omega), h2 j hj])
  simp only [multi_2_split26]
  generalize hG : forN len (fun i a => forN k (fun j a => write j (add26 (u i) (v i j) (a j)) a) a) _ = b at key ⊢
  rw [forN_all (fun j _ => nmod2_red2 (split26Combine (b j)) n)]
  by_cases hj : j < k
  · rw [if_pos hj, if_pos hj, key.1 j hj, dotSplit26]
  · rw [if_neg hj, if_neg hj, key.2 j (by omega)]

/-! ### three limbs -/

theorem last3_spec (u : Nat → Nat) (v : Nat → Nat → Nat) (len k n i : Nat) (a : Nat → Nat × Nat × Nat)
    (r : Nat → Nat)
    (h : ∀ j, j < k → nmod_red3 (nmod_red (add_sssaaaaaa (a j)
        (0, (tailSum u (fun i => v i j) i (len - i)).1, (tailSum u (fun i => v i j) i (len - i)).2)).1 n,
      (add_sssaaaaaa (a j)
        (0, (tailSum u (fun i => v i j) i (len - i)).1, (tailSum u (fun i => v i j) i (len - i)).2)).2.1,
      (add_sssaaaaaa (a j)
        (0, (tailSum u (fun i => v i j) i (len - i)).1, (tailSum u (fun i => v i j) i (len - i)).2)).2.2) n
      = some (r j)) :
    last3 u v len k n i a = some fun j => if j < k then r j else (a j).2.2 := by
  unfold last3
  have key := forN_inv (n := k) (f := fun j r => r.bind fun r =>
    let s := tailSum u (fun i => v i j) i (len - i)
    let t := add_sssaaaaaa (a j) (0, s.1, s.2)
    (nmod_red3 (nmod_red t.1 n, t.2.1, t.2.2) n).map fun x => write j x r) (s := some fun j => (a j).2.2)
    (fun m (o : Option (Nat → Nat)) => o = some fun j => if j < m then r j else (a j).2.2) (by simp)
    (by
      rintro m o hm rfl
      simp only [Option.bind_some]
      rw [h m hm, Option.map_some]
      congr 1
      funext j
      simp only [write]
      by_cases hj : j = m
      · subst hj; rw [Function.update_self, if_pos (by omega)]
      · rw [Function.update_of_ne hj]
        by_cases h4 : j < m
        · rw [if_pos h4, if_pos (by omega)]
        · rw [if_neg h4, if_neg (by omega)])
  exact key

/-- the blocked loop of the three-limb kernel, for any block size and loop test that leaves at most
`numTerms` rows and only runs with a full block left -/
theorem loop3 (uv u : Nat → Nat) (v : Nat → Nat → Nat) (len k b1 b2 n nt c : Nat) (h1 : b1 ≤ 64) (h2 : b2 ≤ 64)
    (hlen : len ≤ 2 ^ 61) (hn : 0 < n) (hb1 : Bits u len b1) (hb2 : ∀ j, j < k → Bits (fun i => v i j) len b2)
    (hnt : 0 < nt) (hle : nt ≤ numTerms b1 b2) (hc : nt ≤ c + 1) (hc2 : c ≤ numTerms b1 b2) (hc3 : c < 2 ^ 61)
    (fuel : Nat) (hf : len ≤ fuel) :
    ((whileLoop (fun s : Nat × (Nat → Nat × Nat × Nat) => decide ((s.1 + c) % W < len))
      (fun s => (s.1 + nt, block3 u v k nt s.1 s.2)) fuel
        (0, forN k (fun j a => write j (0, 0, 0) a) fun j => (0, 0, uv j))).bind fun s =>
          last3 u v len k n s.1 s.2) =
      some fun j => if j < k then dot u (fun i => v i j) len % n else uv j := by
  have hlen' : len < W := by simp only [W]; omega
  obtain ⟨s, hs, ⟨s1, s2, s3⟩, hsc⟩ := whileLoop_spec
    (c := fun s : Nat × (Nat → Nat × Nat × Nat) => decide ((s.1 + c) % W < len))
    (b := fun s => (s.1 + nt, block3 u v k nt s.1 s.2))
    (fun s => s.1 ≤ len ∧ (∀ j, j < k → Inv u (fun i => v i j) len ⟨s.1, len - s.1, s.2 j⟩) ∧
      ∀ j, k ≤ j → s.2 j = (0, 0, uv j)) (fun s => len - s.1)
    (by
      rintro ⟨m, b⟩ ⟨q1, q2, q3⟩ hcc
      simp only [decide_eq_true_eq] at hcc q1 q2 q3
      have hmod : (m + c) % W = m + c := Nat.mod_eq_of_lt (by simp only [W]; omega)
      rw [hmod] at hcc
      refine ⟨⟨by simp only; omega, fun j hj => ?_, fun j hj => ?_⟩, by simp only; omega⟩
      · have := (blockStep_inv u (fun i => v i j) len nt b1 b2 h1 h2 hlen' hb1 (hb2 j hj) hnt hle _ (q2 j hj)
          (by simp only; omega)).1
        simp only [blockStep] at this
        simp only [block3]
        rw [forN_all (fun j x => add_sssaaaaaa x
          (0, (block u (fun i => v i j) m nt).1, (block u (fun i => v i j) m nt).2)), if_pos hj,
          show len - (m + nt) = len - m - nt by omega]
        exact this
      · simp only [block3]
        rw [forN_all (fun j x => add_sssaaaaaa x
          (0, (block u (fun i => v i j) m nt).1, (block u (fun i => v i j) m nt).2)), if_neg (by omega), q3 j hj])
    fuel (0, forN k (fun j a => write j (0, 0, 0) a) fun j => (0, 0, uv j))
    ⟨by simp, fun j hj => by
      simp only [forN_all (fun _ _ => ((0, 0, 0) : Nat × Nat × Nat)), if_pos hj]
      exact ⟨by simp, by simp [value3, dot]⟩,
     fun j hj => by
      simp only [forN_all (fun _ _ => ((0, 0, 0) : Nat × Nat × Nat)), if_neg (show ¬ j < k by omega)]⟩
    (by simpa using hf)
  simp only [decide_eq_false_iff_not] at hsc
  have hmod : (s.1 + c) % W = s.1 + c := Nat.mod_eq_of_lt (by simp only [W]; omega)
  rw [hmod] at hsc
  rw [hs, Option.bind_some, last3_spec u v len k n s.1 s.2 (fun j => dot u (fun i => v i j) len % n)]
  · congr 1
    funext j
    by_cases hj : j < k
    · rw [if_pos hj, if_pos hj]
    · rw [if_neg hj, if_neg hj, s3 j (by omega)]
  · intro j hj
    have := finish_val u (fun i => v i j) len b1 b2 h1 h2 hlen' hb1 (hb2 j hj) _ (s2 j hj) (by simp only; omega)
    simp only at this
    generalize add_sssaaaaaa (s.2 j) _ = t at *
    rw [← this]
    exact red3_red t n hn

theorem multi_3_spec (fuel : Nat) (uv u : Nat → Nat) (v : Nat → Nat → Nat) (len k b1 b2 n : Nat) (h1 : b1 ≤ 64)
    (h2 : b2 ≤ 64) (hlen : len ≤ 2 ^ 61) (hn : 0 < n) (hb1 : Bits u len b1)
    (hb2 : ∀ j, j < k → Bits (fun i => v i j) len b2) (hf : len ≤ fuel) :
    multi_3 fuel uv u v len k b1 b2 n =
      some fun j => if j < k then dot u (fun i => v i j) len % n else uv j := by
  unfold multi_3
  by_cases h : 8 ≤ numTerms b1 b2
  · simp only [h, if_true]
    exact loop3 uv u v len k b1 b2 n 8 7 h1 h2 hlen hn hb1 hb2 (by norm_num) h (by norm_num) (by omega) (by norm_num)
      fuel hf
  · simp only [h, if_false]
    exact loop3 uv u v len k b1 b2 n _ _ h1 h2 hlen hn hb1 hb2 (numTerms_pos b1 b2) le_rfl (by omega) le_rfl
      (by omega) fuel hf

end PML.Multi
