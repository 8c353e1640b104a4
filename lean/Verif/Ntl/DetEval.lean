import Verif.Ntl.DetMinors
import Verif.Ntl.DetModel
import Verif.Ntl.MatUtilsProps
import Verif.Ntl.MatEvalProps
import Verif.Kernel.Theory
import Verif.Ntl.CrtProps
namespace PML.Ntl.Det

open Polynomial PML.Ntl.Utils PML.Ntl.Inv PML.Ntl.Solve PML.Ntl.MatEval

set_option linter.unusedSectionVars false

variable {F : Type} [Field F]

theorem detN_eval (n : Nat) (a : Nat × Nat → F[X]) (x : F) : (detN n a).eval x = detN n fun ij => (a ij).eval x := by
  unfold detN
  have := RingHom.map_det (evalRingHom x) (Matrix.of fun i j : Fin n => a (i, j))
  simp only [coe_evalRingHom] at this
  rw [this]
  rfl

theorem detN_natDegree (a : PMat F[X]) (hc : a.cols = a.rows) (d : Nat) (hd : deg a ≤ d) : (detN a.rows a.e).natDegree ≤ a.rows * d := by
  unfold detN
  have := PML.Kernel.natDegree_det_le (Matrix.of fun i j : Fin a.rows => a.e (i, j)) (fun _ => d) fun i j => by
    refine natDegree_le_iff_coeff_eq_zero.2 fun k hk => ?_
    exact (deg_lt_iff a (d + 1)).1 (by omega) i j i.2 (by rw [hc]; exact j.2) k (by omega)
  simpa using this

/-- The determinant is the only polynomial of degree less than `nb` with its values at `nb` points. -/
theorem det_unique (a : PMat F[X]) (hc : a.cols = a.rows) (nb : Nat) (hnb : (a.rows : Int) * deg a < nb) (hd0 : 0 ≤ deg a ∨ a.rows = 0) (pt : Nat → F)
    (hpt : ∀ r r', r < nb → r' < nb → pt r = pt r' → r = r') (P : F[X]) (hP : ∀ k, nb ≤ k → P.coeff k = 0)
    (hval : ∀ k, k < nb → P.eval (pt k) = detN a.rows fun ij => (a.e ij).eval (pt k)) : P = detN a.rows a.e := by
  refine eq_of_degrees_lt_of_eval_index_eq (s := Finset.range nb) (v := pt)
    (fun x hx y hy h => hpt x y (by simpa using hx) (by simpa using hy) h) ?_ ?_ fun r hr => ?_
  · rw [Finset.card_range]
    exact (degree_lt_iff_coeff_zero _ _).2 hP
  · rw [Finset.card_range]
    have h1 := detN_natDegree a hc (deg a).toNat (by omega)
    have h2 : a.rows * (deg a).toNat < nb := by
      rcases hd0 with h | h
      · have : ((a.rows * (deg a).toNat : Nat) : Int) = a.rows * deg a := by push_cast; rw [Int.toNat_of_nonneg h]
        omega
      · rw [h] at hnb ⊢; simpa using hnb
    refine lt_of_le_of_lt degree_le_natDegree ?_
    exact_mod_cast lt_of_le_of_lt h1 h2
  · rw [hval r (Finset.mem_range.1 hr), detN_eval]

theorem evaluateMatrix_spec (nb : Nat) (ev : F[X] → Option (Nat → F)) (f : PMat F[X]) (pt : Nat → F)
    (hev : ∀ i j, i < f.rows → j < f.cols → ∃ v, ev (f.e (i, j)) = some v ∧ ∀ k, k < nb → v k = (f.e (i, j)).eval (pt k)) :
    ∃ val, evaluateMatrix nb ev f = .ok val ∧ ∀ k i j, k < nb → i < f.rows → j < f.cols → val k (i, j) = (f.e (i, j)).eval (pt k) := by
  unfold evaluateMatrix
  rw [if_neg (by
    rintro ⟨i, k, hi, hk, h⟩
    obtain ⟨v, hv, -⟩ := hev i k hi hk
    rw [hv] at h; cases h)]
  refine ⟨_, rfl, fun k i j hk hi hj => ?_⟩
  have h1 : ∀ i j, i < f.rows → j < f.cols → (forN f.rows (fun i => forN f.cols fun k => write (i, k) ((ev (f.e (i, k))).getD fun _ => 0))
      fun _ _ => 0 : Nat × Nat → Nat → F) (i, j) = (ev (f.e (i, j))).getD fun _ => 0 := by
    intro i j hi hj
    exact loop2_at f.rows f.cols (fun i k => (ev (f.e (i, k))).getD fun _ => 0) (fun _ _ => 0) i j hi hj
  generalize (forN f.rows (fun i => forN f.cols fun k => write (i, k) ((ev (f.e (i, k))).getD fun _ => 0))
      fun _ _ => 0 : Nat × Nat → Nat → F) = mv at h1 ⊢
  have h2 : Fills {x : Nat × (Nat × Nat) | ∃ j, j < nb ∧ ∃ i, i < f.rows ∧ ∃ k, k < f.cols ∧ x = (j, (i, k))} (fun x => mv x.2 x.1)
      (forN nb fun j => forN f.rows fun i => forN f.cols fun k => write (j, (i, k)) (mv (i, k) j)) :=
    Fills.forN fun j _ => Fills.forN fun i _ => Fills.forN fun k _ => Fills.write _ _ rfl
  rw [(h2 _ (k, (i, j))).1 ⟨k, hk, i, hi, j, hj, rfl⟩]
  dsimp only
  obtain ⟨v, hv, hve⟩ := hev i j hi hj
  rw [h1 i j hi hj, hv, Option.getD_some, hve k hk]

theorem dets_spec (nb : Nat) (g : Nat → F) (x : Nat → F) (k : Nat) (hk : k < nb) : forN nb (fun k => write k (g k)) x k = g k :=
  ((Fills.forN (v := g) (S := fun k => {k}) fun k _ => Fills.write k _ rfl) x k).1 ⟨k, hk, rfl⟩

theorem viaPoints_spec (nb : Nat) (ev : F[X] → Option (Nat → F)) (ip : (Nat → F) → Option F[X]) (pt : Nat → F) (a : PMat F[X])
    (hc : a.cols = a.rows) (hnb : (a.rows : Int) * deg a < nb) (hd0 : 0 ≤ deg a ∨ a.rows = 0)
    (hpt : ∀ r r', r < nb → r' < nb → pt r = pt r' → r = r')
    (hev : ∀ i j, i < a.rows → j < a.cols → ∃ v, ev (a.e (i, j)) = some v ∧ ∀ k, k < nb → v k = (a.e (i, j)).eval (pt k))
    (hip : ∀ v : Nat → F, ∃ P, ip v = some P ∧ (∀ k, nb ≤ k → P.coeff k = 0) ∧ ∀ i, i < nb → P.eval (pt i) = v i) :
    viaPoints nb ev ip a = .ok (detN a.rows a.e) := by
  unfold viaPoints
  obtain ⟨val, e, hval⟩ := evaluateMatrix_spec nb ev a pt hev
  rw [e]
  simp only [andThen]
  obtain ⟨P, hP, h1, h2⟩ := hip (forN nb (fun k => write k (detN a.rows (val k))) fun _ => 0)
  rw [hP]
  simp only [ofOpt]
  rw [det_unique a hc nb hnb hd0 pt hpt P h1 fun k hk => ?_]
  rw [h2 k hk, dets_spec nb _ _ k hk]
  exact detN_congr _ _ _ fun i j hi hj => hval k i j hk hi (by omega)
end PML.Ntl.Det
