import Verif.Ntl.FormsModel
import Verif.Ntl.MatUtilsLemmas
import Verif.Forms.Reduced

/-!
# Lemmas: degrees, pivots and forms
-/

namespace PML.Ntl.Forms

open Polynomial PML.Ntl.Utils PML.Ntl.Inv PML.Ntl.Solve PML.Forms.Spec

variable {K : Type} [Field K] [DecidableEq K]

/-! ### The smallest element of the shift -/

theorem foldl_min (l : List Int) (a : Int) :
    (l.foldl (fun m x => if x < m then x else m) a ≤ a ∧
      ∀ x ∈ l, l.foldl (fun m x => if x < m then x else m) a ≤ x) ∧
    (l.foldl (fun m x => if x < m then x else m) a = a ∨
      l.foldl (fun m x => if x < m then x else m) a ∈ l) := by
  induction l generalizing a with
  | nil => simp
  | cons b l ih =>
    rw [List.foldl_cons]
    obtain ⟨⟨h1, h2⟩, h3⟩ := ih (if b < a then b else a)
    refine ⟨⟨?_, ?_⟩, ?_⟩
    · split_ifs at h1 <;> split_ifs <;> omega
    · intro x hx
      rcases List.mem_cons.1 hx with rfl | hx
      · split_ifs at h1 <;> split_ifs <;> omega
      · exact h2 x hx
    · rcases h3 with h3 | h3
      · by_cases hb : b < a
        · rw [if_pos hb] at h3 ⊢
          right; rw [h3]; simp
        · rw [if_neg hb] at h3 ⊢
          left; exact h3
      · right; exact List.mem_cons_of_mem _ h3

theorem foldl_max (l : List Int) (a : Int) :
    (a ≤ l.foldl (fun m x => if x < m then m else x) a ∧
      ∀ x ∈ l, x ≤ l.foldl (fun m x => if x < m then m else x) a) ∧
    (l.foldl (fun m x => if x < m then m else x) a = a ∨
      l.foldl (fun m x => if x < m then m else x) a ∈ l) := by
  induction l generalizing a with
  | nil => simp
  | cons b l ih =>
    rw [List.foldl_cons]
    obtain ⟨⟨h1, h2⟩, h3⟩ := ih (if b < a then a else b)
    refine ⟨⟨?_, ?_⟩, ?_⟩
    · split_ifs at h1 <;> split_ifs <;> omega
    · intro x hx
      rcases List.mem_cons.1 hx with rfl | hx
      · split_ifs at h1 <;> split_ifs <;> omega
      · exact h2 x hx
    · rcases h3 with h3 | h3
      · by_cases hb : b < a
        · rw [if_pos hb] at h3 ⊢
          left; exact h3
        · rw [if_neg hb] at h3 ⊢
          right; rw [h3]; simp
      · right; exact List.mem_cons_of_mem _ h3

theorem minElement_spec (l : List Int) (h : l ≠ []) :
    ∃ m, minElement l = some m ∧ m ∈ l ∧ ∀ x ∈ l, m ≤ x := by
  cases l with
  | nil => exact absurd rfl h
  | cons a l =>
    obtain ⟨⟨h1, h2⟩, h3⟩ := foldl_min l a
    refine ⟨_, rfl, ?_, ?_⟩
    · rcases h3 with h3 | h3
      · rw [h3]; simp
      · exact List.mem_cons_of_mem _ h3
    · intro x hx
      rcases List.mem_cons.1 hx with rfl | hx
      · exact h1
      · exact h2 x hx

theorem maxElement_spec (l : List Int) (h : l ≠ []) :
    ∃ m, maxElement l = some m ∧ m ∈ l ∧ ∀ x ∈ l, x ≤ m := by
  cases l with
  | nil => exact absurd rfl h
  | cons a l =>
    obtain ⟨⟨h1, h2⟩, h3⟩ := foldl_max l a
    refine ⟨_, rfl, ?_, ?_⟩
    · rcases h3 with h3 | h3
      · rw [h3]; simp
      · exact List.mem_cons_of_mem _ h3
    · intro x hx
      rcases List.mem_cons.1 hx with rfl | hx
      · exact h1
      · exact h2 x hx

theorem getD_mem (l : List Int) (j : Nat) (h : j < l.length) : l.getD j 0 ∈ l := by
  rw [List.getD_eq_getElem?_getD, List.getElem?_eq_getElem h, Option.getD_some]
  exact List.getElem_mem h

theorem mem_getD (l : List Int) (x : Int) (h : x ∈ l) : ∃ j, j < l.length ∧ l.getD j 0 = x := by
  obtain ⟨j, hj, e⟩ := List.getElem_of_mem h
  exact ⟨j, hj, by rw [List.getD_eq_getElem?_getD, List.getElem?_eq_getElem hj, Option.getD_some, e]⟩

theorem isMin_of (l : List Int) (m : Int) (h1 : m ∈ l) (h2 : ∀ x ∈ l, m ≤ x) :
    IsMin l.length (fun j => l.getD j 0) m := by
  right
  exact ⟨fun j hj => h2 _ (getD_mem l j hj), mem_getD l m h1⟩

/-! ### Degrees of lines -/

theorem degLoop_spec (p : Nat → K[X]) (n : Nat) : IsVecDegree n (fun _ => 0) p (-1) (degLoop p n) := by
  have h := PML.Forms.degLoop_inv p (fun _ => 0) (-1) (degLoop p) n rfl (fun _ _ => by omega) (fun j _ => by
    rw [degLoop]
    by_cases hp : p j = 0
    · rw [if_neg, if_neg (by simp [hp])]
      rw [hp, pdeg_zero]
      have : ∀ i, -1 ≤ degLoop p i := by
        intro i
        induction i with
        | zero => exact le_refl _
        | succ i ih =>
          rw [degLoop]
          split_ifs
          · omega
          · exact ih
      have := this j
      omega
    · rw [pdeg_ne _ hp, Int.add_zero]
      by_cases hc : degLoop p j < (p j).natDegree
      · rw [if_pos hc, if_pos ⟨hp, hc⟩]
      · rw [if_neg hc, if_neg (by tauto)])
  rcases h with ⟨h1, h2⟩ | ⟨h1, _, h3⟩
  · exact ⟨fun _ => h2, fun hn => absurd h1 hn⟩
  · exact ⟨fun hz => absurd hz h1, fun _ => h3⟩

theorem degLoopShift_spec (p : Nat → K[X]) (s : List Int) (m : Int) (n : Nat)
    (hm : ∀ j, j < n → m ≤ s.getD j 0) :
    IsVecDegree n (fun j => s.getD j 0) p (m - 1) (degLoopShift p s m n) := by
  have h := PML.Forms.degLoop_inv p (fun j => s.getD j 0) (m - 1) (degLoopShift p s m) n rfl
    (fun j hj => by have := hm j hj; show _ < s.getD j 0; omega) (fun j _ => by
    rw [degLoopShift]
    by_cases hp : p j = 0
    · rw [if_neg (by simp [hp]), if_neg (by simp [hp])]
    · simp only [pdeg_ne _ hp])
  rcases h with ⟨h1, h2⟩ | ⟨h1, _, h3⟩
  · exact ⟨fun _ => h2, fun hn => absurd h1 hn⟩
  · exact ⟨fun hz => absurd hz h1, fun _ => h3⟩

/-- The shift, if there is one, has one entry per entry of a line, and lines are not empty. -/
def Good (n : Nat) (s : Option (List Int)) : Prop := ∀ l, s = some l → l.length = n ∧ 0 < n

theorem withMin_ok {α : Type} (l : List Int) (n : Nat) (f : Int → α) (h1 : l.length = n) (h2 : 0 < n) :
    ∃ m, withMin l n f = .ok (f m) ∧ m ∈ l ∧ ∀ x ∈ l, m ≤ x := by
  obtain ⟨m, hm, h3, h4⟩ := minElement_spec l (fun h => by rw [h, List.length_nil] at h1; omega)
  refine ⟨m, ?_, h3, h4⟩
  unfold withMin
  rw [if_neg (by simpa using h1), hm]

theorem degrees_spec (row : Bool) (M : PMat K[X]) (s : Option (List Int)) (hs : Good (len row M) s) :
    ∃ (d : Nat → Int) (z : Int), degrees row M s = .ok ((List.range (num row M)).map d) ∧
      (s = none → z = -1) ∧ (∀ l, s = some l → IsMin (len row M) (fun j => l.getD j 0) (z + 1)) ∧
      (∀ j, j < len row M → z < addShift s j) ∧
      ∀ k, IsVecDegree (len row M) (addShift s) (line row M k) z (d k) := by
  cases s with
  | none =>
    refine ⟨fun k => degLoop (line row M k) (len row M), -1, rfl, fun _ => rfl, ?_, ?_, fun k => degLoop_spec _ _⟩
    · intro l h; exact absurd h (by simp)
    · intro j _; show (-1 : Int) < 0; omega
  | some l =>
    obtain ⟨h1, h2⟩ := hs l rfl
    obtain ⟨m, hm, h3, h4⟩ := withMin_ok l (len row M)
      (fun m => (List.range (num row M)).map fun k => degLoopShift (line row M k) l m (len row M)) h1 h2
    have hb : ∀ j, j < len row M → m ≤ l.getD j 0 := fun j hj => h4 _ (getD_mem l j (by omega))
    refine ⟨fun k => degLoopShift (line row M k) l m (len row M), m - 1, hm, ?_, fun l' h => ?_, fun j hj => ?_,
      fun k => degLoopShift_spec _ _ _ _ hb⟩
    · intro h; exact absurd h (by simp)
    · obtain rfl : l = l' := by simpa using h
      rw [Int.sub_add_cancel, ← h1]
      exact isMin_of l m h3 h4
    · have := hb j hj
      show m - 1 < l.getD j 0
      omega

/-! ### Pivots -/

theorem pivLoop_spec (p : Nat → K[X]) (n : Nat) :
    (ZeroVec n p ∧ pivLoop p n = (-1, -1)) ∨
    (¬ ZeroVec n p ∧ ∃ π δ : Nat, pivLoop p n = ((π : Int), (δ : Int)) ∧ PivotLower n (fun _ => 0) p π δ) := by
  have hlow : ∀ j, -1 ≤ (pivLoop p j).2 ∧ ((pivLoop p j).1 = -1 → (pivLoop p j).2 = -1) := by
    intro j
    induction j with
    | zero => exact ⟨le_refl _, fun _ => rfl⟩
    | succ j ih =>
      rw [pivLoop]
      split_ifs with h1 h2
      · exact ⟨by show -1 ≤ pdeg (p j); omega, fun h => by simp at h⟩
      · exact ⟨ih.1, fun h => by simp at h⟩
      · exact ih
  have h := PML.Forms.pivLoop_inv true p (fun _ => 0) (fun j => ((pivLoop p j).2, (pivLoop p j).1)) n rfl
    (fun j _ => by
      obtain ⟨h1, h2⟩ := hlow j
      simp only [PML.Forms.better, if_true, Int.add_zero]
      rw [pivLoop]
      by_cases hp : p j = 0
      · rw [hp, pdeg_zero, if_neg (by omega), if_neg (by omega), if_neg (by simp)]
      · rw [pdeg_ne _ hp]
        by_cases hc : ((p j).natDegree : Int) > (pivLoop p j).2
        · rw [if_pos hc, if_pos ⟨hp, Or.inr (by omega)⟩]
        · rw [if_neg hc]
          by_cases he : ((p j).natDegree : Int) = (pivLoop p j).2
          · rw [if_pos ⟨he, by omega⟩, if_pos ⟨hp, Or.inr (by omega)⟩, he]
          · rw [if_neg (by tauto), if_neg]
            rintro ⟨_, h | h⟩
            · have := h2 h; omega
            · omega)
  rcases h with ⟨h1, h2⟩ | ⟨h1, π, δ, h2, h3⟩
  · left
    refine ⟨h1, ?_⟩
    have e := Prod.mk.inj h2
    exact Prod.ext e.2 e.1
  · right
    refine ⟨h1, π, δ, ?_, h3⟩
    have e := Prod.mk.inj h2
    exact Prod.ext e.2 (by rw [e.1, Int.add_zero])

theorem pivLoopShift_spec (p : Nat → K[X]) (s : List Int) (m : Int) (n : Nat)
    (hm : ∀ j, j < n → m ≤ s.getD j 0) :
    (ZeroVec n p ∧ unshift s (pivLoopShift p s (m - 1) n) = (-1, -1)) ∨
    (¬ ZeroVec n p ∧ ∃ π δ : Nat, unshift s (pivLoopShift p s (m - 1) n) = ((π : Int), (δ : Int)) ∧
      PivotLower n (fun j => s.getD j 0) p π δ) := by
  have hlow : ∀ j, ((pivLoopShift p s (m - 1) j).1 = -1 → (pivLoopShift p s (m - 1) j).2 = m - 1) := by
    intro j
    induction j with
    | zero => exact fun _ => rfl
    | succ j ih =>
      rw [pivLoopShift]
      split_ifs with h1 h2 h3
      · exact fun h => by simp at h
      · exact fun h => by simp at h
      · exact ih
      · exact ih
  have h := PML.Forms.pivLoop_inv true p (fun j => s.getD j 0)
    (fun j => ((pivLoopShift p s (m - 1) j).2, (pivLoopShift p s (m - 1) j).1)) n rfl
    (fun j hj => by
      have h2 := hlow j
      have hmj := hm j hj
      simp only [PML.Forms.better, if_true]
      rw [pivLoopShift]
      by_cases hp : p j = 0
      · rw [hp, pdeg_zero, if_neg (by omega), if_neg (by simp)]
      · rw [pdeg_ne _ hp, if_pos (by omega)]
        generalize s.getD j 0 = sj at *
        by_cases hc : ((p j).natDegree : Int) + sj > (pivLoopShift p s (m - 1) j).2
        · rw [if_pos hc, if_pos ⟨hp, Or.inr (by omega)⟩]
        · rw [if_neg hc]
          by_cases he : ((p j).natDegree : Int) + sj = (pivLoopShift p s (m - 1) j).2
          · rw [if_pos he, if_pos ⟨hp, Or.inr (by omega)⟩, he]
          · rw [if_neg he, if_neg]
            rintro ⟨_, h | h⟩
            · have := h2 h; omega
            · omega)
  rcases h with ⟨h1, h2⟩ | ⟨h1, π, δ, h2, h3⟩
  · left
    refine ⟨h1, ?_⟩
    have e := Prod.mk.inj h2
    have e2 : (pivLoopShift p s (m - 1) n).1 = -1 := e.2
    unfold unshift
    rw [if_pos e2, e2]
  · right
    refine ⟨h1, π, δ, ?_, h3⟩
    have e := Prod.mk.inj h2
    have e1 : (pivLoopShift p s (m - 1) n).2 = (δ : Int) + s.getD π 0 := e.1
    have e2 : (pivLoopShift p s (m - 1) n).1 = (π : Int) := e.2
    unfold unshift
    rw [e2, e1, if_neg (by omega), Int.toNat_natCast, Int.add_sub_cancel]

theorem pivots_spec (row : Bool) (M : PMat K[X]) (s : Option (List Int)) (hs : Good (len row M) s) :
    ∃ pi pd : Nat → Int, pivots row M s = .ok ((List.range (num row M)).map pi, (List.range (num row M)).map pd) ∧
      ∀ k, (ZeroVec (len row M) (line row M k) ∧ pi k = -1 ∧ pd k = -1) ∨
        (¬ ZeroVec (len row M) (line row M k) ∧ ∃ π δ : Nat, pi k = π ∧ pd k = δ ∧
          PivotLower (len row M) (addShift s) (line row M k) π δ) := by
  cases s with
  | none =>
    refine ⟨fun k => (pivLoop (line row M k) (len row M)).1, fun k => (pivLoop (line row M k) (len row M)).2,
      by simp [pivots, Function.comp_def], fun k => ?_⟩
    rcases pivLoop_spec (line row M k) (len row M) with ⟨h1, h2⟩ | ⟨h1, π, δ, h2, h3⟩
    · left; exact ⟨h1, congrArg Prod.fst h2, congrArg Prod.snd h2⟩
    · right; exact ⟨h1, π, δ, congrArg Prod.fst h2, congrArg Prod.snd h2, h3⟩
  | some l =>
    obtain ⟨h1, h2⟩ := hs l rfl
    obtain ⟨m, hm, h3, h4⟩ := withMin_ok l (len row M)
      (fun m => (((List.range (num row M)).map fun k =>
        unshift l (pivLoopShift (line row M k) l (m - 1) (len row M))).map Prod.fst,
        ((List.range (num row M)).map fun k =>
        unshift l (pivLoopShift (line row M k) l (m - 1) (len row M))).map Prod.snd)) h1 h2
    have hb : ∀ j, j < len row M → m ≤ l.getD j 0 := fun j hj => h4 _ (getD_mem l j (by omega))
    refine ⟨fun k => (unshift l (pivLoopShift (line row M k) l (m - 1) (len row M))).1,
      fun k => (unshift l (pivLoopShift (line row M k) l (m - 1) (len row M))).2, ?_, fun k => ?_⟩
    · unfold pivots
      dsimp only
      rw [hm, List.map_map, List.map_map]
      rfl
    · rcases pivLoopShift_spec (line row M k) l m (len row M) hb with ⟨h1, h2⟩ | ⟨h1, π, δ, h2, h3⟩
      · left; exact ⟨h1, congrArg Prod.fst h2, congrArg Prod.snd h2⟩
      · right; exact ⟨h1, π, δ, congrArg Prod.fst h2, congrArg Prod.snd h2, h3⟩

/-! ### Tests on the pivot indices -/

theorem adjacent_ge : ∀ l : List Int, adjacentFind (fun a b => decide (a ≥ b)) l = false ↔ l.Pairwise (· < ·)
  | [] => by simp [adjacentFind]
  | [_] => by simp [adjacentFind]
  | a :: b :: l => by
    rw [adjacentFind, Bool.or_eq_false_iff, adjacent_ge (b :: l)]
    constructor
    · rintro ⟨h1, h2⟩
      have hab : a < b := by simpa using h1
      refine List.pairwise_cons.2 ⟨fun c hc => ?_, h2⟩
      rcases List.mem_cons.1 hc with rfl | hc
      · exact hab
      · exact hab.trans ((List.pairwise_cons.1 h2).1 c hc)
    · intro h
      have h' := List.pairwise_cons.1 h
      exact ⟨by simpa using h'.1 b (by simp), h'.2⟩

theorem adjacent_eq : ∀ l : List Int, l.Pairwise (· ≤ ·) →
    (adjacentFind (fun a b => decide (a = b)) l = false ↔ l.Nodup)
  | [], _ => by simp [adjacentFind]
  | [_], _ => by simp [adjacentFind]
  | a :: b :: l, hs => by
    have hs' := List.pairwise_cons.1 hs
    rw [adjacentFind, Bool.or_eq_false_iff, adjacent_eq (b :: l) hs'.2]
    constructor
    · rintro ⟨h1, h2⟩
      have hab : a < b := lt_of_le_of_ne (hs'.1 b (by simp)) (by simpa using h1)
      refine List.nodup_cons.2 ⟨fun hc => ?_, h2⟩
      rcases List.mem_cons.1 hc with e | hc
      · omega
      · have := (List.pairwise_cons.1 hs'.2).1 a hc
        omega
    · intro h
      have h' := List.nodup_cons.1 h
      exact ⟨by simpa using fun e : a = b => h'.1 (by simp [e]), h'.2⟩

theorem sorted_nodup (l : List Int) :
    adjacentFind (fun a b => decide (a = b)) (l.mergeSort fun a b => decide (a ≤ b)) = false ↔ l.Nodup := by
  have hp := List.mergeSort_perm l fun a b => decide (a ≤ b)
  have hs := List.pairwise_mergeSort (le := fun a b : Int => decide (a ≤ b))
    (fun a b c h1 h2 => by rw [decide_eq_true_eq] at *; omega)
    (fun a b => by rw [Bool.or_eq_true, decide_eq_true_eq, decide_eq_true_eq]; omega) l
  rw [adjacent_eq _ (hs.imp fun h => by simpa using h), hp.nodup_iff]

theorem map_nodup (f : Nat → Int) (n : Nat) :
    ((List.range n).map f).Nodup ↔ ∀ i j, i < n → j < n → f i = f j → i = j := by
  constructor
  · intro h i j hi hj e
    exact List.inj_on_of_nodup_map h (by simpa using hi) (by simpa using hj) e
  · intro h
    refine List.Nodup.map_on ?_ List.nodup_range
    intro x hx y hy e
    exact h x y (by simpa using hx) (by simpa using hy) e

theorem map_increasing (f : Nat → Int) (n : Nat) :
    ((List.range n).map f).Pairwise (· < ·) ↔ ∀ i j, i < j → j < n → f i < f j := by
  rw [List.pairwise_iff_getElem]
  constructor
  · intro h i j hij hj
    have := h i j (by simp; omega) (by simp; omega) hij
    simpa using this
  · intro h i j hi hj hij
    have := h i j hij (by simpa using hj)
    simpa using this

theorem map_contains (f : Nat → Int) (n : Nat) (x : Int) :
    ((List.range n).map f).contains x = true ↔ ∃ k, k < n ∧ f k = x := by
  simp

theorem getD_map (f : Nat → Int) (n k : Nat) (hk : k < n) : ((List.range n).map f).getD k 0 = f k := by
  rw [List.getD_eq_getElem?_getD, List.getElem?_map, List.getElem?_range hk]
  rfl

/-- A description of the lines by the pivot arrays computed by the code. -/
def Describes (dim n : Nat) (s : Nat → Int) (L : Nat → Nat → K[X]) (pi pd : Nat → Int) : Prop :=
  ∀ k, k < dim → (ZeroVec n (L k) ∧ pi k = -1 ∧ pd k = -1) ∨
    (¬ ZeroVec n (L k) ∧ ∃ π δ : Nat, pi k = π ∧ pd k = δ ∧ PivotLower n s (L k) π δ)

theorem Describes.of {dim n : Nat} {s : Nat → Int} {L : Nat → Nat → K[X]} {pi pd : Nat → Int}
    (h : Describes dim n s L pi pd) {k π δ : Nat} (hk : k < dim) (hp : PivotLower n s (L k) π δ) :
    pi k = π ∧ pd k = δ := by
  rcases h k hk with ⟨h1, _⟩ | ⟨_, π', δ', e1, e2, h3⟩
  · exact absurd (h1 π hp.lt) hp.nonzero
  · have := PML.Forms.Pivot.unique (right := true) h3 hp
    rw [e1, e2, this.1, this.2]
    exact ⟨rfl, rfl⟩

omit [DecidableEq K] in
/-- No index -1: all lines have pivots. -/
theorem Describes.pivots {dim n : Nat} {s : Nat → Int} {L : Nat → Nat → K[X]} {pi pd : Nat → Int}
    (h : Describes dim n s L pi pd) (hno : ¬ ∃ k, k < dim ∧ pi k = -1) :
    ∃ piv δ : Nat → Nat, ∀ k, k < dim → PivotLower n s (L k) (piv k) (δ k) ∧ pi k = piv k ∧ pd k = δ k := by
  have : ∀ k, ∃ π δ : Nat, k < dim → PivotLower n s (L k) π δ ∧ pi k = π ∧ pd k = δ := by
    intro k
    by_cases hk : k < dim
    · rcases h k hk with ⟨_, e, _⟩ | ⟨_, π, δ, e1, e2, h3⟩
      · exact absurd ⟨k, hk, e⟩ hno
      · exact ⟨π, δ, fun _ => ⟨h3, e1, e2⟩⟩
    · exact ⟨0, 0, fun h => absurd h hk⟩
  choose piv δ hp using this
  exact ⟨piv, δ, hp⟩

theorem isWeakPopov_spec (row : Bool) (M : PMat K[X]) (s : Option (List Int)) (hs : Good (len row M) s) :
    ∃ b, isWeakPopov row M s = .ok b ∧
      (b = true ↔ WeakPopovLower (num row M) (len row M) (addShift s) (line row M)) := by
  obtain ⟨pi, pd, h1, h2⟩ := pivots_spec row M s hs
  have hd : Describes (num row M) (len row M) (addShift s) (line row M) pi pd := fun k _ => h2 k
  unfold isWeakPopov
  rw [h1]
  dsimp only [andThen]
  by_cases hc : ∃ k, k < num row M ∧ pi k = -1
  · rw [if_pos ((map_contains pi (num row M) (-1)).2 hc)]
    refine ⟨false, rfl, fun h => absurd h (by decide), ?_⟩
    rintro ⟨piv, δ, hp, _⟩
    obtain ⟨k, hk, e⟩ := hc
    have := (hd.of hk (hp k hk)).1
    exact absurd (e.symm.trans this) (by omega)
  · rw [if_neg (mt (map_contains pi (num row M) (-1)).1 hc)]
    obtain ⟨piv, δ, hp⟩ := hd.pivots hc
    by_cases hn : ∀ i j, i < num row M → j < num row M → pi i = pi j → i = j
    · rw [if_neg (by rw [(sorted_nodup _).2 ((map_nodup _ _).2 hn)]; decide)]
      refine ⟨true, rfl, fun _ => ⟨piv, δ, fun k hk => (hp k hk).1, fun i j hi hj e => ?_⟩, fun _ => rfl⟩
      exact hn i j hi hj (by rw [(hp i hi).2.1, (hp j hj).2.1, e])
    · rw [if_pos (by
        rw [← Bool.not_eq_false, sorted_nodup, map_nodup]
        exact hn)]
      refine ⟨false, rfl, fun h => absurd h (by decide), ?_⟩
      rintro ⟨piv', δ', hp', hinj⟩
      refine absurd (fun i j hi hj e => hinj i j hi hj ?_) hn
      rw [(hd.of hi (hp' i hi)).1, (hd.of hj (hp' j hj)).1] at e
      exact_mod_cast e

/-- The first two tests of the ordered weak Popov and Popov functions. -/
theorem ord_tests (dim n : Nat) (s : Nat → Int) (L : Nat → Nat → K[X]) (pi pd : Nat → Int)
    (hd : Describes dim n s L pi pd) :
    ((((List.range dim).map pi).contains (-1) = true ∨
      adjacentFind (fun a b => decide (a ≥ b)) ((List.range dim).map pi) = true) ∧
      ¬ OrderedWeakPopovLower dim n s L) ∨
    (¬ ((List.range dim).map pi).contains (-1) = true ∧
      ¬ adjacentFind (fun a b => decide (a ≥ b)) ((List.range dim).map pi) = true ∧
      ∃ piv δ : Nat → Nat, (∀ k, k < dim → PivotLower n s (L k) (piv k) (δ k) ∧ pi k = piv k ∧ pd k = δ k) ∧
        ∀ i j, i < j → j < dim → piv i < piv j) := by
  by_cases hc : ∃ k, k < dim ∧ pi k = -1
  · left
    refine ⟨Or.inl ((map_contains pi dim (-1)).2 hc), ?_⟩
    rintro ⟨piv, δ, hp, _⟩
    obtain ⟨k, hk, e⟩ := hc
    have := (hd.of hk (hp k hk)).1
    omega
  · obtain ⟨piv, δ, hp⟩ := hd.pivots hc
    by_cases hn : ∀ i j, i < j → j < dim → pi i < pi j
    · right
      refine ⟨mt (map_contains pi dim (-1)).1 hc, ?_, piv, δ, hp, fun i j hij hj => ?_⟩
      · rw [(adjacent_ge _).2 ((map_increasing _ _).2 hn)]; decide
      · have := hn i j hij hj
        rw [(hp i (by omega)).2.1, (hp j hj).2.1] at this
        exact_mod_cast this
    · left
      refine ⟨Or.inr (by
        rw [← Bool.not_eq_false, adjacent_ge, map_increasing]
        exact hn), ?_⟩
      rintro ⟨piv', δ', hp', hinc⟩
      refine hn fun i j hij hj => ?_
      rw [(hd.of (by omega) (hp' i (by omega))).1, (hd.of hj (hp' j hj)).1]
      exact_mod_cast hinc i j hij hj

theorem isOrdWeakPopov_spec (row : Bool) (M : PMat K[X]) (s : Option (List Int)) (hs : Good (len row M) s) :
    ∃ b, isOrdWeakPopov row M s = .ok b ∧
      (b = true ↔ OrderedWeakPopovLower (num row M) (len row M) (addShift s) (line row M)) := by
  obtain ⟨pi, pd, h1, h2⟩ := pivots_spec row M s hs
  have hd : Describes (num row M) (len row M) (addShift s) (line row M) pi pd := fun k _ => h2 k
  unfold isOrdWeakPopov
  rw [h1]
  dsimp only [andThen]
  rcases ord_tests _ _ _ _ pi pd hd with ⟨h, hn⟩ | ⟨h3, h4, piv, δ, hp, hinc⟩
  · refine ⟨false, ?_, by simp only [Bool.false_eq_true, false_iff]; exact hn⟩
    rcases h with h | h
    · rw [if_pos h]
    · rw [if_pos h]; exact ite_self _
  · rw [if_neg h3, if_neg h4]
    exact ⟨true, rfl, by simp only [true_iff]; exact ⟨piv, δ, fun k hk => (hp k hk).1, hinc⟩⟩

/-! ### Popov form -/

theorem allFrom_ok (t : Nat → Out Bool) (P : Nat → Prop) (count i : Nat)
    (h : ∀ k, i ≤ k → k < i + count → ∃ b, t k = .ok b ∧ (b = true ↔ P k)) :
    ∃ b, allFrom t count i = .ok b ∧ (b = true ↔ ∀ k, i ≤ k → k < i + count → P k) := by
  induction count generalizing i with
  | zero => exact ⟨true, rfl, by simp only [true_iff]; intro k h1 h2; omega⟩
  | succ count ih =>
    obtain ⟨b, hb, hb'⟩ := h i (le_refl _) (by omega)
    rw [allFrom, hb]
    dsimp only [andThen]
    cases b
    · refine ⟨false, by simp, ?_⟩
      simp only [Bool.false_eq_true, false_iff] at hb' ⊢
      exact fun hc => hb' (hc i (le_refl _) (by omega))
    · obtain ⟨b2, hb2, hb2'⟩ := ih (i + 1) fun k h1 h2 => h k (by omega) (by omega)
      refine ⟨b2, by simpa using hb2, ?_⟩
      rw [hb2']
      constructor
      · intro hall k h1 h2
        by_cases e : k = i
        · rw [e]; exact hb'.1 rfl
        · exact hall k (by omega) (by omega)
      · exact fun hall k h1 h2 => hall k (by omega) (by omega)

/-- An undefined access reached by the loop. -/
theorem allFrom_ub (t : Nat → Out Bool) (count i c : Nat) (hc : c < count)
    (h : ∀ k, k < c → t (i + k) = .ok true) (hub : t (i + c) = .ub) : allFrom t count i = .ub := by
  induction count generalizing i c with
  | zero => omega
  | succ count ih =>
    rw [allFrom]
    cases c with
    | zero => rw [Nat.add_zero] at hub; rw [hub]; rfl
    | succ c =>
      have h0 := h 0 (by omega)
      rw [Nat.add_zero] at h0
      rw [h0]
      exact ih (i + 1) c (by omega) (fun k hk => by
        have := h (k + 1) (by omega)
        rwa [show i + (k + 1) = i + 1 + k by omega] at this)
        (by rwa [show i + (c + 1) = i + 1 + c by omega] at hub)

omit [DecidableEq K] in
theorem entry_ok (row : Bool) (M : PMat K[X]) (k j : Nat) (hk : k < num row M) (hj : j < len row M) :
    entry row M k (j : Int) = .ok (line row M k j) := by
  unfold entry
  rw [if_pos ⟨hk, by omega, by exact_mod_cast hj⟩, Int.toNat_natCast]

theorem monic_iff (f : K[X]) : (pdeg f ≥ 0 ∧ f.coeff (pdeg f).toNat = 1) ↔ f.Monic := by
  by_cases hf : f = 0
  · rw [hf, pdeg_zero]
    constructor
    · intro h; omega
    · intro h; exact absurd h (by simp [Monic])
  · rw [pdeg_ne _ hf, Int.toNat_natCast]
    constructor
    · exact fun h => h.2
    · exact fun h => ⟨by omega, h⟩

theorem not_ge_iff (f : K[X]) (d : Nat) (g : K[X]) (hg : g ≠ 0) (hd : g.natDegree = d) :
    (¬ pdeg f ≥ (d : Int)) ↔ f.degree < g.degree := by
  by_cases hf : f = 0
  · rw [hf, pdeg_zero, degree_zero, degree_eq_natDegree hg]
    simp only [WithBot.bot_lt_natCast, iff_true]
    omega
  · rw [pdeg_ne _ hf, degree_eq_natDegree hf, degree_eq_natDegree hg, Nat.cast_lt]
    omega

/-- The tests after the ordered weak Popov tests, when the last loop stops at the last line or before. -/
theorem popov_tests (row : Bool) (M : PMat K[X]) (s : Nat → Int) (pi pd : Nat → Int) (piv δ : Nat → Nat)
    (hdim : M.rows = num row M)
    (hp : ∀ k, k < num row M → PivotLower (len row M) s (line row M k) (piv k) (δ k) ∧ pi k = piv k ∧ pd k = δ k) :
    ∃ b, (andThen (monicTests row M ((List.range (num row M)).map pi)) fun b =>
        if b then offTests row M ((List.range (num row M)).map pi) ((List.range (num row M)).map pd)
        else .ok false) = .ok b ∧
      (b = true ↔ (∀ i, i < num row M → (line row M i (piv i)).Monic) ∧
        ∀ i k, i < num row M → k < num row M → k ≠ i →
          (line row M k (piv i)).degree < (line row M i (piv i)).degree) := by
  obtain ⟨b1, hb1, hb1'⟩ := allFrom_ok
    (fun k => andThen (entry row M k (((List.range (num row M)).map pi).getD k 0)) fun f =>
      .ok (decide (pdeg f ≥ 0 ∧ f.coeff (pdeg f).toNat = 1)))
    (fun k => (line row M k (piv k)).Monic) (num row M) 0 (fun k _ hk => by
      rw [getD_map _ _ _ (by omega), (hp k (by omega)).2.1, entry_ok _ _ _ _ (by omega) (hp k (by omega)).1.lt]
      exact ⟨_, rfl, by rw [decide_eq_true_eq, monic_iff]⟩)
  have ht : ∀ j, j < num row M → ∀ i, i < num row M →
      ∃ b, (andThen (entry row M i (((List.range (num row M)).map pi).getD j 0)) fun f : K[X] =>
        (.ok (decide (¬ pdeg f ≥ ((List.range (num row M)).map pd).getD j 0)) : Out Bool)) = .ok b ∧
        (b = true ↔ (line row M i (piv j)).degree < (line row M j (piv j)).degree) := by
    intro j hj i hi
    rw [getD_map _ _ _ hj, getD_map _ _ _ hj, (hp j hj).2.1, (hp j hj).2.2, entry_ok _ _ _ _ hi (hp j hj).1.lt]
    refine ⟨_, rfl, ?_⟩
    rw [decide_eq_true_eq, not_ge_iff _ _ _ (hp j hj).1.nonzero (hp j hj).1.degree]
  obtain ⟨b2, hb2, hb2'⟩ := allFrom_ok
    (fun j =>
      let t := fun i => andThen (entry row M i (((List.range (num row M)).map pi).getD j 0)) fun f =>
        .ok (decide (¬ pdeg f ≥ ((List.range (num row M)).map pd).getD j 0))
      andThen (allFrom t j 0) fun b => if b then allFrom t (M.rows - (j + 1)) (j + 1) else .ok false)
    (fun j => ∀ k, k < num row M → k ≠ j → (line row M k (piv j)).degree < (line row M j (piv j)).degree)
    (num row M) 0 (fun j _ hj => by
      dsimp only
      obtain ⟨c1, hc1, hc1'⟩ := allFrom_ok _ _ j 0 (fun k _ hk => ht j (by omega) k (by omega))
      obtain ⟨c2, hc2, hc2'⟩ := allFrom_ok _ _ (M.rows - (j + 1)) (j + 1)
        (fun k _ hk => ht j (by omega) k (by omega))
      rw [hc1]
      cases c1
      · refine ⟨false, rfl, ?_⟩
        simp only [Bool.false_eq_true, false_iff] at hc1' ⊢
        exact fun h => hc1' fun k _ hk => h k (by omega) (by omega)
      · refine ⟨c2, hc2, ?_⟩
        rw [hc2']
        constructor
        · intro h k hk hne
          by_cases hlt : k < j
          · exact hc1'.1 rfl k (by omega) (by omega)
          · exact h k (by omega) (by omega)
        · exact fun h k h1 h2 => h k (by omega) (by omega))
  rw [monicTests, hb1]
  dsimp only [andThen]
  cases b1
  · refine ⟨false, by simp, ?_⟩
    simp only [Bool.false_eq_true, false_iff] at hb1' ⊢
    exact fun h => hb1' fun k _ hk => h.1 k (by omega)
  · refine ⟨b2, by rw [if_pos rfl, offTests]; exact hb2, ?_⟩
    rw [hb2']
    constructor
    · exact fun h => ⟨fun i hi => hb1'.1 rfl i (by omega) (by omega), fun i k hi hk hne => h i (by omega) (by omega) k hk hne⟩
    · exact fun h j _ hj k hk hne => h.2 j k (by omega) hk hne

theorem isPopov_spec (row : Bool) (M : PMat K[X]) (s : Option (List Int)) (hs : Good (len row M) s)
    (hdim : row = true ∨ M.rows ≤ M.cols) :
    ∃ b, isPopov row M s = .ok b ∧
      (b = true ↔ PopovLower (num row M) (len row M) (addShift s) (line row M)) := by
  obtain ⟨pi, pd, h1, h2⟩ := pivots_spec row M s hs
  have hd : Describes (num row M) (len row M) (addShift s) (line row M) pi pd := fun k _ => h2 k
  unfold isPopov
  rw [h1]
  dsimp only [andThen]
  rcases ord_tests _ _ _ _ pi pd hd with ⟨h, hn⟩ | ⟨h3, h4, piv, δ, hp, hinc⟩
  · refine ⟨false, ?_, ?_⟩
    · rcases h with h | h
      · rw [if_pos h]
      · rw [if_pos h]; exact ite_self _
    · simp only [Bool.false_eq_true, false_iff]
      rintro ⟨piv, δ, a, b, _⟩
      exact hn ⟨piv, δ, a, b⟩
  · rw [if_neg h3, if_neg h4]
    have hrows : M.rows = num row M := by
      rcases hdim with h | h
      · rw [h]; rfl
      · cases row
        · have hle : M.cols ≤ M.rows := by
            have : ∀ i, i < M.cols → i ≤ piv i := by
              intro i
              induction i with
              | zero => intro _; omega
              | succ i ih => intro hi; have := hinc i (i + 1) (by omega) hi; have := ih (by omega); omega
            by_contra hc
            have h5 := this (M.cols - 1) (by omega)
            have h6 := (hp (M.cols - 1) (by show _ < M.cols; omega)).1.lt
            have h7 : len false M = M.rows := rfl
            omega
          show M.rows = M.cols
          omega
        · rfl
    obtain ⟨b, hb, hb'⟩ := popov_tests row M (addShift s) pi pd piv δ hrows hp
    refine ⟨b, hb, ?_⟩
    rw [hb']
    constructor
    · exact fun h => ⟨piv, δ, fun k hk => (hp k hk).1, hinc, h.1, h.2⟩
    · rintro ⟨piv', δ', hp', _, hm, ho⟩
      have e : ∀ k, k < num row M → piv' k = piv k := fun k hk =>
        (PML.Forms.Pivot.unique (right := true) (hp' k hk) (hp k hk).1).1
      refine ⟨fun i hi => ?_, fun i k hi hk hne => ?_⟩
      · rw [← e i hi]; exact hm i hi
      · rw [← e i hi]; exact ho i k hi hk hne

end PML.Ntl.Forms
