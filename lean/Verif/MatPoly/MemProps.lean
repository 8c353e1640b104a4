import Verif.MatPoly.MemTheory
import Mathlib.Algebra.Field.Rat

/-!
# C107: storage of matrix polynomials, for all histories
-/

namespace PML.MatPoly.Mem

open PML.MatOps PML.MatPoly

variable {K : Type} [Field K] [DecidableEq K]

set_option linter.unusedSectionVars false

/-- All variables which are initialised are consistent. -/
def GoodStore (s : Store K) : Prop := ∀ d o, s d = some o → Good o

theorem goodStore_update {s : Store K} (h : GoodStore s) (d : Nat) {o : Obj K} (ho : Good o) : GoodStore (Function.update s d (some o)) := by
  intro e o' he
  by_cases hd : e = d
  · subst hd
    simp only [Function.update_self, Option.some.injEq] at he
    exact he ▸ ho
  · rw [Function.update_of_ne hd] at he
    exact h e o' he

theorem capacity_update (s : Store K) (d : Nat) (o : Obj K) : capacity (Function.update s d (some o)) d = o.alloc := by
  simp [capacity]

theorem holds_update (s : Store K) (d r c a : Nat) {P Q : MatPoly K} (h : Same P Q) :
    Holds (Function.update s d (some (mk r c a P))) d r c Q :=
  ⟨_, Function.update_self .., rfl, rfl, (content_mk r c a P).trans h⟩

theorem frame_update (s : Store K) (d : Nat) (x : Option (Obj K)) (e : Nat) (h : some d ≠ some e) : Function.update s d x e = s e :=
  Function.update_of_ne (fun he => h (congrArg some he.symm)) ..

/-- A call which replaces a consistent variable by a consistent one. -/
theorem modify_ok {s : Store K} (hs : GoodStore s) {d : Nat} {o : Obj K} (ho : s d = some o) (f : Obj K → Res (Obj K)) (a : Nat) (Q : MatPoly K)
    (hf : f (mk o.r o.c o.alloc (content o)) = .ok (mk o.r o.c a Q)) (hQ : Q.len ≤ a) :
    modify s d f = .ok (Function.update s d (some (mk o.r o.c a Q))) ∧ GoodStore (Function.update s d (some (mk o.r o.c a Q))) := by
  refine ⟨?_, goodStore_update hs d (good_mk _ _ _ _ hQ)⟩
  rw [← eq_mk_of_good (hs d o ho)] at hf
  simp only [modify, use, ho]
  rw [hf, bind_ok]

theorem create_ok {s : Store K} (hs : GoodStore s) {d : Nat} (hd : s d = none) {x : Res (Obj K)} (r c a : Nat) (Q : MatPoly K)
    (hx : x = .ok (mk r c a Q)) (hQ : Q.len ≤ a) :
    create s d x = .ok (Function.update s d (some (mk r c a Q))) ∧ GoodStore (Function.update s d (some (mk r c a Q))) := by
  refine ⟨?_, goodStore_update hs d (good_mk _ _ _ _ hQ)⟩
  rw [create, if_neg (by rintro ⟨o, h, _⟩; rw [hd] at h; simp at h), hx, bind_ok]

theorem normalise_len_le (r c : Nat) (P : MatPoly K) : (MatPoly.normalise r c P).len ≤ P.len := normLen_le _ _ _ _

/-- **C107**: an allowed call on consistent objects succeeds, leaves all objects consistent, and has its documented effect. -/
theorem C107_step (op : Op K) (s : Store K) (hs : ∀ d o, s d = some o → Good o) (ha : Allowed op s) :
    ∃ s', exec op s = .ok s' ∧ (∀ d o, s' d = some o → Good o) ∧ Effect op s s' := by
  cases op with
  | init d r c =>
    obtain ⟨h1, h2⟩ := create_ok hs ha r c 0 _ (congrArg Res.ok (init_eq r c)) le_rfl
    exact ⟨_, h1, h2, frame_update s d _, holds_update s d r c 0 (Same.refl _), capacity_update ..⟩
  | init2 d r c a =>
    obtain ⟨h1, h2⟩ := create_ok hs ha r c a _ (congrArg Res.ok (init2_eq r c a)) (Nat.zero_le a)
    exact ⟨_, h1, h2, frame_update s d _, holds_update s d r c a (Same.refl _), capacity_update ..⟩
  | initSet d r c A =>
    have hl : (MatPoly.setFromMat r c ⟨0, fun _ => matZero⟩ A).len ≤ 1 := by
      unfold MatPoly.setFromMat; split_ifs <;> simp [MatPoly.zero, MatPoly.setLength]
    obtain ⟨h1, h2⟩ := create_ok hs ha r c 1 _ (initSet_eq r c A) hl
    exact ⟨_, h1, h2, frame_update s d _, holds_update s d r c 1 (Same.refl _)⟩
  | clear d =>
    obtain ⟨o, ho⟩ := ha
    have hg := hs d o ho
    have hc := clear_mk o.r o.c o.alloc (content o) hg.fits
    rw [← eq_mk_of_good hg] at hc
    refine ⟨Function.update s d none, by simp only [exec, use, ho]; rw [hc, bind_ok], ?_, frame_update s d _, Function.update_self ..⟩
    intro e o' he
    by_cases hd : e = d
    · subst hd; simp at he
    · rw [Function.update_of_ne hd] at he
      exact hs e o' he
  | realloc d a =>
    obtain ⟨o, ho⟩ := ha
    obtain ⟨h1, h2⟩ := modify_ok hs ho (realloc · a) a _ (realloc_mk o.r o.c o.alloc (content o) (hs d o ho).fits a) (truncate_len_le ..)
    exact ⟨_, h1, h2, frame_update s d _, ⟨o, ho, holds_update s d _ _ _ (Same.refl _)⟩, capacity_update ..⟩
  | fitLength d n =>
    obtain ⟨o, ho⟩ := ha
    have hg := fitAlloc_ge o.alloc n
    obtain ⟨h1, h2⟩ := modify_ok hs ho (fitLength · n) _ _ (fitLength_mk o.r o.c o.alloc (content o) (hs d o ho).fits n)
      ((hs d o ho).fits.trans hg.2)
    refine ⟨_, h1, h2, frame_update s d _, ⟨o, ho, holds_update s d _ _ _ (Same.refl _)⟩, ?_, ?_⟩
    · rw [capacity_update]; exact hg.1
    · rw [capacity_update]
      have e : capacity s d = o.alloc := by simp [capacity, ho]
      rw [e]
      change fitAlloc o.alloc n = o.alloc ∨ 2 * o.alloc ≤ fitAlloc o.alloc n
      unfold fitAlloc
      split_ifs <;> omega
  | setLength d n =>
    obtain ⟨o, ho, hn⟩ := ha
    obtain ⟨h1, h2⟩ := modify_ok hs ho (setLength · n) _ _ (setLength_mk o.r o.c o.alloc (content o) (hs d o ho).fits n hn) hn
    exact ⟨_, h1, h2, frame_update s d _, ⟨o, ho, holds_update s d _ _ _ (Same.refl _)⟩, by rw [capacity_update]; simp [capacity, ho, mk]⟩
  | normalise d =>
    obtain ⟨o, ho⟩ := ha
    obtain ⟨h1, h2⟩ := modify_ok hs ho normalise _ _ (normalise_mk o.r o.c o.alloc (content o) (hs d o ho).fits)
      ((normalise_len_le ..).trans (hs d o ho).fits)
    exact ⟨_, h1, h2, frame_update s d _, ⟨o, ho, holds_update s d _ _ _ (Same.refl _)⟩, by rw [capacity_update]; simp [capacity, ho, mk]⟩
  | truncate d n =>
    obtain ⟨o, ho⟩ := ha
    have hl : (MatPoly.truncate o.r o.c (content o) n).len ≤ o.alloc := by
      unfold MatPoly.truncate
      split_ifs with h
      · exact (normLen_le _ _ _ _).trans ((le_of_lt h).trans (hs d o ho).fits)
      · exact (hs d o ho).fits
    obtain ⟨h1, h2⟩ := modify_ok hs ho (truncate · n) _ _ (truncate_mk o.r o.c o.alloc (content o) (hs d o ho).fits n) hl
    exact ⟨_, h1, h2, frame_update s d _, ⟨o, ho, holds_update s d _ _ _ (Same.refl _)⟩, by rw [capacity_update]; simp [capacity, ho, mk]⟩
  | zero d =>
    obtain ⟨o, ho⟩ := ha
    obtain ⟨h1, h2⟩ := modify_ok hs ho zero _ _ (zero_mk o.r o.c o.alloc (content o) (hs d o ho).fits) (Nat.zero_le _)
    exact ⟨_, h1, h2, frame_update s d _, ⟨o, ho, holds_update s d _ _ _ (Same.refl _)⟩, by rw [capacity_update]; simp [capacity, ho, mk]⟩
  | one d =>
    obtain ⟨o, ho⟩ := ha
    obtain ⟨h1, h2⟩ := modify_ok hs ho one _ _ (one_mk o.r o.c o.alloc (content o) (hs d o ho).fits) (fitAlloc_ge _ 1).1
    exact ⟨_, h1, h2, frame_update s d _, ⟨o, ho, holds_update s d _ _ _ (Same.refl _)⟩⟩
  | set d e =>
    obtain ⟨o, p, ho, hp, hr, hc⟩ := ha
    by_cases hde : d = e
    · subst hde
      have hop : o = p := Option.some.inj (ho.symm.trans hp)
      subst hop
      obtain ⟨h1, h2⟩ := modify_ok hs ho .ok o.alloc (content o) rfl (hs d o ho).fits
      refine ⟨_, ?_, h2, frame_update s d _, o, ho, ⟨o, ho, holds_update s d _ _ _ (Same.refl _)⟩⟩
      simp only [exec, if_pos]
      exact h1
    · have key := set_mk o.r o.c o.alloc p.alloc (content o) (content p) (hs d o ho).fits (hs e p hp).fits
      have hpe : mk o.r o.c p.alloc (content p) = p := by rw [hr, hc]; exact (eq_mk_of_good (hs e p hp)).symm
      rw [hpe] at key
      obtain ⟨h1, h2⟩ := modify_ok hs ho (fun o => use s e (set o)) _ (MatPoly.set (content o) (content p)) (by simp only [use, hp]; exact key) (fitAlloc_ge o.alloc (content p).len).1
      refine ⟨_, ?_, h2, frame_update s d _, p, hp, ⟨o, ho, holds_update s d _ _ _ ?_⟩⟩
      · simp only [exec, if_neg hde]; exact h1
      · refine ⟨rfl, fun k hk => ?_⟩
        have hk : k < (content p).len := hk
        simp [MatPoly.set, hk]
  | shiftLeft d e n =>
    obtain ⟨o, p, ho, hp, hr, hc⟩ := ha
    by_cases hde : d = e
    · subst hde
      have hop : o = p := Option.some.inj (ho.symm.trans hp)
      subst hop
      obtain ⟨a', k1, k2⟩ := shiftLeftAliased_mk o.r o.c o.alloc (content o) (hs d o ho).fits n
      obtain ⟨h1, h2⟩ := modify_ok hs ho (shiftLeftAliased · n) _ _ k1 k2
      refine ⟨_, ?_, h2, frame_update s d _, o, ho, ⟨o, ho, holds_update s d _ _ _ ?_⟩⟩
      · simp only [exec, if_pos]; exact h1
      · simp only [if_true]; exact Same.refl _
    · obtain ⟨a', k1, k2⟩ := shiftLeft_mk o.r o.c o.alloc p.alloc (content o) (content p) (hs d o ho).fits (hs e p hp).fits n
      have hpe : mk o.r o.c p.alloc (content p) = p := by rw [hr, hc]; exact (eq_mk_of_good (hs e p hp)).symm
      rw [hpe] at k1
      obtain ⟨h1, h2⟩ := modify_ok hs ho (fun o => use s e fun p => shiftLeft o p n) _ _ (by simp only [use, hp]; exact k1) k2
      refine ⟨_, ?_, h2, frame_update s d _, p, hp, ⟨o, ho, holds_update s d _ _ _ ?_⟩⟩
      · simp only [exec, if_neg hde]; exact h1
      · simp only [if_neg hde]; exact Same.refl _
  | setFromMat d A =>
    obtain ⟨o, ho⟩ := ha
    have hl : (MatPoly.setFromMat o.r o.c (content o) A).len ≤ if matIsZero o.r o.c A then o.alloc else fitAlloc o.alloc 1 := by
      unfold MatPoly.setFromMat
      split_ifs
      · exact Nat.zero_le _
      · exact (fitAlloc_ge _ 1).1
    obtain ⟨h1, h2⟩ := modify_ok hs ho (setFromMat · A) _ _ (setFromMat_mk o.r o.c o.alloc (content o) (hs d o ho).fits A) hl
    exact ⟨_, h1, h2, frame_update s d _, ⟨o, ho, holds_update s d _ _ _ (Same.refl _)⟩⟩
  | setTrunc d M n =>
    obtain ⟨o, ho⟩ := ha
    have hl : (MatPoly.setTruncFromPolyMat o.r o.c (content o) M n).len
        ≤ fitAlloc o.alloc (if n > maxLength o.r o.c M then maxLength o.r o.c M else n) := by
      refine le_trans ?_ (fitAlloc_ge o.alloc _).1
      unfold MatPoly.setTruncFromPolyMat
      simp only
      generalize (if n > maxLength o.r o.c M then maxLength o.r o.c M else n) = m
      split_ifs
      · exact normLen_le _ _ _ _
      · exact le_rfl
    obtain ⟨h1, h2⟩ := modify_ok hs ho (setTrunc · M n) _ _ (setTrunc_mk o.r o.c o.alloc (content o) (hs d o ho).fits M n) hl
    exact ⟨_, h1, h2, frame_update s d _, ⟨o, ho, holds_update s d _ _ _ (Same.refl _)⟩⟩
  | rand d n v =>
    obtain ⟨o, ho⟩ := ha
    obtain ⟨h1, h2⟩ := modify_ok hs ho (rand · n v) _ _ (rand_mk o.r o.c o.alloc (content o) (hs d o ho).fits n v)
      ((normalise_len_le ..).trans (fitAlloc_ge o.alloc n).1)
    exact ⟨_, h1, h2, frame_update s d _, ⟨o, ho, holds_update s d _ _ _ (Same.refl _)⟩⟩
  | setEntry d k i j x =>
    obtain ⟨o, ho, hk, hi, hj⟩ := ha
    obtain ⟨h1, h2⟩ := modify_ok hs ho (setEntry · k i j x) _ _ (setEntry_mk o.r o.c o.alloc (content o) (hs d o ho).fits hk hi hj x) (hs d o ho).fits
    refine ⟨_, h1, h2, frame_update s d _, ⟨o, ho, holds_update s d _ _ _ ⟨rfl, fun l _ => ?_⟩⟩⟩
    funext u v
    by_cases hl : l = k
    · subst hl; simp
    · simp [Function.update, hl]
  | permuteRows d act =>
    obtain ⟨o, ho, hact⟩ := ha
    obtain ⟨h1, h2⟩ := modify_ok hs ho (permuteRowsObj · act) _ _ (permuteRows_mk o.r o.c o.alloc (content o) (hs d o ho).fits act hact) (hs d o ho).fits
    exact ⟨_, h1, h2, frame_update s d _, ⟨o, ho, holds_update s d _ _ _ (Same.refl _)⟩⟩
  | getEntry d k i j =>
    obtain ⟨o, ho, hk, hi, hj⟩ := ha
    have key := getEntry_mk o.r o.c o.alloc (content o) (hs d o ho).fits hk hi hj
    rw [← eq_mk_of_good (hs d o ho)] at key
    exact ⟨s, by simp only [exec, use, ho, query]; rw [key, bind_ok], hs, fun _ _ => rfl, trivial⟩
  | getCoeff d k =>
    obtain ⟨o, ho⟩ := ha
    have key := getCoeff_mk o.r o.c o.alloc (content o) (hs d o ho).fits k
    rw [← eq_mk_of_good (hs d o ho)] at key
    exact ⟨s, by simp only [exec, use, ho, query]; rw [key, bind_ok], hs, fun _ _ => rfl, trivial⟩
  | isOne d =>
    obtain ⟨o, ho⟩ := ha
    have key := isOne_mk o.r o.c o.alloc (content o) (hs d o ho).fits
    rw [← eq_mk_of_good (hs d o ho)] at key
    exact ⟨s, by simp only [exec, use, ho, query]; rw [key, bind_ok], hs, fun _ _ => rfl, trivial⟩
  | mulCoeff d e k =>
    obtain ⟨o, p, ho, hp, hc⟩ := ha
    have key := mulCoeff_mk o.r o.c p.c o.alloc p.alloc (content o) (content p) (hs d o ho).fits (hs e p hp).fits k
    rw [← eq_mk_of_good (hs d o ho), hc, ← eq_mk_of_good (hs e p hp)] at key
    exact ⟨s, by simp only [exec, use, ho, hp, query]; rw [key, bind_ok], hs, fun _ _ => rfl, trivial⟩
  | evaluate d pt =>
    obtain ⟨o, ho⟩ := ha
    have key := evaluate_mk o.r o.c o.alloc (content o) (hs d o ho).fits pt
    rw [← eq_mk_of_good (hs d o ho)] at key
    exact ⟨s, by simp only [exec, use, ho, query]; rw [key, bind_ok], hs, fun _ _ => rfl, trivial⟩

theorem run_safe : ∀ (ops : List (Op K)) (s : Store K), GoodStore s → AllowedRun ops s → ∃ s', run ops s = .ok s' ∧ GoodStore s'
  | [], s, hs, _ => ⟨s, rfl, hs⟩
  | op :: ops, s, hs, ⟨h1, h2⟩ => by
    obtain ⟨s1, e1, g1, _⟩ := C107_step op s hs h1
    obtain ⟨s2, e2, g2⟩ := run_safe ops s1 g1 (h2 s1 e1)
    exact ⟨s2, by simp only [run]; rw [e1, bind_ok]; exact e2, g2⟩

/-- **C107**: for every sequence of allowed calls, from a state without objects: no matrix which does not exist is used or cleared, no memory is
    accessed outside of an array, no matrix and no array is lost; afterwards all objects are consistent. -/
theorem C107_safe (ops : List (Op K)) (h : AllowedRun ops fun _ => none) :
    ∃ s, run ops (fun _ => none) = .ok s ∧ ∀ d o, s d = some o → Good o :=
  run_safe ops _ (fun _ _ h => by simp at h) h

/-- **C107**: exactly as many coefficients are in memory as the length says, and an object of capacity zero holds no array. -/
theorem C107_held (o : Obj K) (h : Good o) : held o = o.length ∧ (o.alloc = 0 → o.ptr = false ∧ held o = 0) := by
  have e : held o = o.length := by
    unfold held
    have : ((Finset.range o.size).filter fun i => (o.cell i).isSome) = Finset.range o.length := by
      ext i
      simp only [Finset.mem_filter, Finset.mem_range, h.live i]
      have := h.size; have := h.fits
      omega
    rw [this, Finset.card_range]
  refine ⟨e, fun h0 => ⟨?_, ?_⟩⟩
  · have : ¬ o.ptr = true := fun hp => h.null.1 hp h0
    simpa using this
  · rw [e]; have := h.fits; omega

/-- **C107**: what the functions return that only read a consistent object. -/
theorem C107_reads (o p : Obj K) (ho : Good o) (hp : Good p) :
    (∀ k, getCoeff o k = .ok (MatPoly.getCoeff (content o) k)) ∧
    (∀ k i j, k < o.length → i < o.r → j < o.c → getEntry o k i j = .ok ((content o).co k i j)) ∧
    isOne o = .ok (MatPoly.isOne o.r o.c (content o)) ∧
    (∀ pt, evaluate o pt = .ok (MatPoly.evaluate (content o) pt)) ∧
    (o.c = p.r → ∀ k, mulCoeff o p k = .ok (MatPoly.mulCoeff o.c (content o) (content p) k)) := by
  have eo := eq_mk_of_good ho
  have ep := eq_mk_of_good hp
  refine ⟨fun k => ?_, fun k i j hk hi hj => ?_, ?_, fun pt => ?_, fun hc k => ?_⟩
  · have := getCoeff_mk o.r o.c o.alloc (content o) ho.fits k
    rwa [← eo] at this
  · have := getEntry_mk o.r o.c o.alloc (content o) ho.fits hk hi hj
    rwa [← eo] at this
  · have := isOne_mk o.r o.c o.alloc (content o) ho.fits
    rwa [← eo] at this
  · have := evaluate_mk o.r o.c o.alloc (content o) ho.fits pt
    rwa [← eo] at this
  · have := mulCoeff_mk o.r o.c p.c o.alloc p.alloc (content o) (content p) ho.fits hp.fits k
    rw [← eo] at this
    rw [hc] at this ⊢
    rwa [← ep] at this

/-! ### The conditions are needed -/

theorem init_loop_ub : ∀ (n lo : Nat) (o : Obj K), (∀ j, lo ≤ j → o.cell j = none) → lo ≤ o.size → o.size < lo + n → loop matInit lo n o = .ub
  | 0, lo, o, _, h1, h2 => absurd h2 (by omega)
  | n + 1, lo, o, h, h1, h2 => by
    unfold loop
    by_cases hl : lo < o.size
    · rw [matInit, if_pos hl, if_neg (by simp [h lo le_rfl]), bind_ok]
      refine init_loop_ub n (lo + 1) _ (fun j hj => ?_) (by simp only; omega) (by simp only; omega)
      simp only [Function.update]
      rw [dif_neg (by omega)]
      exact h j (by omega)
    · rw [matInit, if_neg hl]; rfl

/-- **C107**: a length above the capacity must not be set, entries outside must not be accessed, and objects must not be used after they are cleared
    (nor be cleared twice): these calls are undefined. -/
theorem C107_limits (s : Store K) (d : Nat) :
    (∀ o n, s d = some o → Good o → o.alloc < n → exec (.setLength d n) s = .ub) ∧
    (∀ o k i j x, s d = some o → Good o → o.length ≤ k → exec (.setEntry d k i j x) s = .ub ∧ exec (.getEntry d k i j) s = .ub) ∧
    (∀ s', exec (.clear d) s = .ok s' → exec (.clear d) s' = .ub ∧ exec (.zero d) s' = .ub ∧ exec (.one d) s' = .ub ∧
      (∀ n, exec (.fitLength d n) s' = .ub) ∧ (∀ k, exec (.getCoeff d k) s' = .ub) ∧ ∀ e, exec (.set d e) s' = .ub) := by
  refine ⟨fun o n ho hg hn => ?_, fun o k i j x ho hg hk => ?_, fun s' hs => ?_⟩
  · have h1 := hg.fits
    have h2 := hg.size
    have : setLength o n = .ub := by
      unfold setLength
      rw [if_neg (by omega), init_loop_ub _ _ o (fun j hj => ?_) (by omega) (by omega)]
      · rfl
      · have := mt (hg.live j).1 (by omega)
        simpa using this
    simp only [exec, modify, use, ho]
    rw [this]; rfl
  · have hc : o.cell k = none := by
      have := mt (hg.live k).1 (by omega)
      simpa using this
    have hm : matGet k o = .ub := by
      unfold matGet
      rw [hc]
      split_ifs <;> rfl
    refine ⟨?_, ?_⟩
    · simp only [exec, modify, use, ho, setEntry]
      rw [hm]; rfl
    · simp only [exec, query, use, ho, getEntry]
      rw [hm]; rfl
  · have hd : s' d = none := by
      simp only [exec] at hs
      cases hu : use s d clear with
      | ok u => rw [hu, bind_ok] at hs; rw [← Res.ok.inj hs]; exact Function.update_self ..
      | ub => rw [hu] at hs; simp [Res.bind] at hs
      | leak => rw [hu] at hs; simp [Res.bind] at hs
    refine ⟨?_, ?_, ?_, fun n => ?_, fun k => ?_, fun e => ?_⟩
    · simp only [exec, use, hd]; rfl
    · simp only [exec, modify, use, hd]; rfl
    · simp only [exec, modify, use, hd]; rfl
    · simp only [exec, modify, use, hd]; rfl
    · simp only [exec, query, use, hd]; rfl
    · simp only [exec]
      split_ifs <;> (simp only [modify, use, hd]; rfl)

/-! ### A history -/

/-- A matrix polynomial is filled and shifted in place, so that its array grows, then it is copied to an object with too little space, and cleared. -/
def demo (x : K) : List (Op K) :=
  [.init 0 2 3, .one 0, .setEntry 0 0 1 2 x, .shiftLeft 0 0 3, .init2 1 2 3 1, .set 1 0, .clear 0, .setLength 1 3, .normalise 1, .clear 1]

/-- Two variables. -/
def two (x y : Option (Obj K)) : Store K := fun d => if d = 0 then x else if d = 1 then y else none

theorem two_update0 (x y z : Option (Obj K)) : Function.update (two x y) 0 z = two z y := by
  funext d; by_cases h : d = 0
  · subst h; simp [two]
  · simp [two, Function.update, h]

theorem two_update1 (x y z : Option (Obj K)) : Function.update (two x y) 1 z = two x z := by
  funext d; by_cases h : d = 1
  · subst h; simp [two]
  · simp [two, Function.update, h]

theorem history_cons {op : Op K} {ops : List (Op K)} {s s1 t : Store K} (ha : Allowed op s) (he : exec op s = .ok s1)
    (h : AllowedRun ops s1 ∧ run ops s1 = .ok t) : AllowedRun (op :: ops) s ∧ run (op :: ops) s = .ok t := by
  refine ⟨⟨ha, fun s' h' => ?_⟩, ?_⟩
  · rw [← Res.ok.inj (he.symm.trans h')]; exact h.1
  · simp only [run]; rw [he, bind_ok]; exact h.2

/-- The history is allowed, and at the end no object is left. -/
theorem C107_history (x : K) : AllowedRun (demo x) (fun _ => none) ∧ run (demo x) (fun _ => none) = .ok fun _ => none := by
  have e0 : (fun _ => none : Store K) = two none none := by funext d; simp [two]
  have m0 : ∀ (x y : Option (Obj K)) (o : Obj K) (f : Obj K → Res (Obj K)), x = some o → ∀ o', f o = .ok o' →
      modify (two x y) 0 f = .ok (two (some o') y) := by
    rintro x y o f rfl o' h
    simp only [modify, use, two, if_true]
    rw [h, bind_ok]
    exact congrArg Res.ok (two_update0 (some o) y (some o'))
  have m1 : ∀ (x y : Option (Obj K)) (o : Obj K) (f : Obj K → Res (Obj K)), y = some o → ∀ o', f o = .ok o' →
      modify (two x y) 1 f = .ok (two x (some o')) := by
    rintro x y o f rfl o' h
    simp only [modify, use, two, if_true, Nat.one_ne_zero, if_false]
    rw [h, bind_ok]
    exact congrArg Res.ok (two_update1 x (some o) (some o'))
  rw [e0]
  unfold demo
  -- `init`
  refine history_cons (s1 := two (some (mk 2 3 0 ⟨0, fun _ => matZero⟩)) none) rfl ?_ ?_
  · simp only [exec, create]
    rw [if_neg (by simp [two]), bind_ok, init_eq, two_update0]
  -- `one`
  refine history_cons ⟨_, rfl⟩ (m0 _ _ _ one rfl _ (one_mk 2 3 0 _ le_rfl)) ?_
  -- `set_entry`
  refine history_cons ⟨_, rfl, Nat.one_pos, show 1 < 2 by decide, show 2 < 3 by decide⟩ (m0 _ _ _ (setEntry · 0 1 2 x) rfl _
    (setEntry_mk 2 3 _ _ (show 1 ≤ 1 from le_rfl) Nat.one_pos (by decide) (by decide) x)) ?_
  generalize hP : (⟨(MatPoly.one ⟨0, fun _ => matZero⟩ : MatPoly K).len, _⟩ : MatPoly K) = P
  have hl : P.len = 1 := by rw [← hP]; rfl
  have hf : fitAlloc 0 1 = 1 := rfl
  rw [hf]
  -- `shift_left`
  obtain ⟨a', k1, k2⟩ := shiftLeftAliased_mk 2 3 1 P (le_of_eq hl) 3
  have hQ : (MatPoly.shiftLeftAliased P 3).len = 4 := by
    unfold MatPoly.shiftLeftAliased
    rw [if_neg (by decide), if_neg (by omega)]
    simp [MatPoly.setLength, hl]
  refine history_cons ⟨_, _, rfl, rfl, rfl, rfl⟩ (s1 := two (some (mk 2 3 a' (MatPoly.shiftLeftAliased P 3))) none) ?_ ?_
  · simp only [exec, if_true]
    exact m0 _ _ _ (shiftLeftAliased · 3) rfl _ k1
  generalize MatPoly.shiftLeftAliased P 3 = Q at hQ k1 k2 ⊢
  -- `init2`
  refine history_cons (s1 := two (some (mk 2 3 a' Q)) (some (mk 2 3 1 ⟨0, fun _ => matZero⟩))) rfl ?_ ?_
  · simp only [exec, create]
    rw [if_neg (by simp [two]), bind_ok, init2_eq, two_update1]
  -- `set`
  have hs := set_mk 2 3 1 a' ⟨0, fun _ => matZero⟩ Q (Nat.zero_le 1) k2
  have hf : fitAlloc 1 Q.len = 4 := by rw [hQ]; rfl
  rw [hf] at hs
  refine history_cons ⟨_, _, rfl, rfl, rfl, rfl⟩ (s1 := two (some (mk 2 3 a' Q)) (some (mk 2 3 4 (MatPoly.set ⟨0, fun _ => matZero⟩ Q)))) ?_ ?_
  · simp only [exec, Nat.one_ne_zero, if_false]
    refine m1 _ _ _ _ rfl _ ?_
    simp only [use, two, if_true]
    exact hs
  -- `clear`
  refine history_cons ⟨_, rfl⟩ (s1 := two none (some (mk 2 3 4 (MatPoly.set ⟨0, fun _ => matZero⟩ Q)))) ?_ ?_
  · simp only [exec, use, two, if_true]
    rw [clear_mk 2 3 a' Q k2, bind_ok]
    exact congrArg Res.ok (two_update0 _ _ _)
  have hR : (MatPoly.set ⟨0, fun _ => matZero⟩ Q).len ≤ 4 := le_of_eq hQ
  -- `set_length`
  refine history_cons ⟨_, rfl, show 3 ≤ 4 by decide⟩ (m1 _ _ _ (setLength · 3) rfl _ (setLength_mk 2 3 4 _ hR 3 (by decide))) ?_
  -- `normalise`
  refine history_cons ⟨_, rfl⟩ (m1 _ _ _ normalise rfl _ (normalise_mk 2 3 4 _ (show 3 ≤ 4 by decide))) ?_
  -- `clear`
  refine history_cons ⟨_, rfl⟩ (s1 := two none none) ?_ ⟨trivial, rfl⟩
  simp only [exec, use, two, if_true, Nat.one_ne_zero, if_false]
  rw [clear_mk 2 3 4 _ ((normalise_len_le ..).trans (show 3 ≤ 4 by decide)), bind_ok]
  exact congrArg Res.ok (two_update1 _ _ _)

/-- The hypotheses of `C107_step`, `C107_held`, `C107_reads` and `C107_limits` are met by an object with two coefficients, and space for three. -/
example : Good (mk 2 2 3 (⟨2, fun _ => matOne⟩ : MatPoly ℚ)) := good_mk _ _ _ _ (by decide)

example : Allowed (.setLength 0 3) (two (some (mk 2 2 3 (⟨2, fun _ => matOne⟩ : MatPoly ℚ))) none) := ⟨_, rfl, le_rfl⟩

example : exec (.setLength 0 4) (two (some (mk 2 2 3 (⟨2, fun _ => matOne⟩ : MatPoly ℚ))) none) = .ub :=
  (C107_limits _ 0).1 _ 4 rfl (good_mk _ _ _ _ (by decide)) (by decide)

/-- **C107**: an object which is initialised again without being cleared loses its array, exactly if its capacity is not zero. -/
theorem C107_lost (s : Store K) (d r c : Nat) (o : Obj K) (ho : s d = some o) (hg : Good o) :
    (o.alloc ≠ 0 → exec (.init d r c) s = .leak ∧ (∀ a, exec (.init2 d r c a) s = .leak) ∧ ∀ A, exec (.initSet d r c A) s = .leak) ∧
    (o.alloc = 0 → exec (.init d r c) s = .ok (Function.update s d (some (init r c)))) := by
  have key : ∀ x : Res (Obj K), o.alloc ≠ 0 → create s d x = .leak := fun x h => by
    rw [create, if_pos ⟨o, ho, hg.null.2 h⟩]
  refine ⟨fun h => ⟨key _ h, fun _ => key _ h, fun _ => key _ h⟩, fun h => ?_⟩
  show create s d (.ok (init r c)) = _
  rw [create, if_neg, bind_ok]
  rintro ⟨o', h1, h2⟩
  rw [ho] at h1
  cases h1
  exact hg.null.1 h2 h

/-- Both cases of `C107_lost` occur. -/
example : (Good (init 2 3 : Obj ℚ) ∧ (init 2 3 : Obj ℚ).alloc = 0) ∧ Good (init2 2 3 4 : Obj ℚ) ∧ (init2 2 3 4 : Obj ℚ).alloc ≠ 0 := by
  rw [init_eq, init2_eq]
  exact ⟨⟨good_mk _ _ _ _ le_rfl, rfl⟩, good_mk _ _ _ _ (Nat.zero_le _), by simp [mk]⟩

end PML.MatPoly.Mem
