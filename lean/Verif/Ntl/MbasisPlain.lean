import Verif.Ntl.MbasisLoops

/-!
# mbasis_plain
-/

namespace PML.Ntl.Mbasis

open Polynomial PML.Ntl.Utils PML.Ntl.Inv PML.Ntl.Solve

set_option linter.unusedSectionVars false

variable {F : Type} [Field F] [DecidableEq F]

theorem Good.deg_le {pmat : PMat F[X]} {s0 s : Nat → Int} {d : Nat} {P : PMat F[X]} (hr : P.rows = pmat.rows) (hc : P.cols = pmat.rows)
    (h : Good pmat.rows pmat.cols (fun i j => pmat.e (i, j)) s0 d s fun i j => P.e (i, j)) : Utils.deg P ≤ d :=
  (h.minBasis hr hc).deg

theorem pshift_pow (f : F[X]) (n : Nat) : pshift f (n : Int) = X ^ n * f := by
  unfold pshift
  rw [if_pos (by omega), mul_comm, Int.toNat_natCast]

theorem leftShift_spec (a : PMat F[X]) (n : Nat) :
    (leftShift true a a n).rows = a.rows ∧ (leftShift true a a n).cols = a.cols ∧
    ∀ i j, i < a.rows → j < a.cols → (leftShift true a a n).e (i, j) = X ^ n * a.e (i, j) := by
  obtain ⟨h1, h2, h3⟩ := entrywise_spec true a a fun _ _ f => pshift f (n : Int)
  exact ⟨h1, h2, fun i j hi hj => by rw [leftShift, h3 i j hi hj, pshift_pow]⟩

theorem plainLoop_spec {N : Nt F} (hN : N.Ok) (pmat : PMat F[X]) (s0 : Nat → Int) : ∀ (steps ord : Nat) (app : PMat F[X]) (s : Nat → Int)
    (res kerbas : PMat F), 1 ≤ ord → app.rows = pmat.rows → app.cols = pmat.rows → res.rows = pmat.rows → res.cols = pmat.cols →
    (steps ≠ 0 → ∀ i j, i < pmat.rows → j < pmat.cols → res.e (i, j) =
      resid pmat.rows (fun i j => app.e (i, j)) (fun i j => pmat.e (i, j)) (ord - 1) i j) →
    Good pmat.rows pmat.cols (fun i j => pmat.e (i, j)) s0 (ord - 1) s (fun i j => app.e (i, j)) →
    ∃ P t, plainLoop N pmat steps ord app s res kerbas = .ok (P, t) ∧ P.rows = pmat.rows ∧ P.cols = pmat.rows ∧
      Good pmat.rows pmat.cols (fun i j => pmat.e (i, j)) s0 (ord - 1 + steps) t fun i j => P.e (i, j)
  | 0, ord, app, s, res, kerbas => fun _ h1 h2 _ _ _ hG => ⟨app, s, rfl, h1, h2, hG⟩
  | steps + 1, ord, app, s, res, kerbas => by
    intro ho h1 h2 h3 h4 hres hG
    have hres := hres (Nat.succ_ne_zero steps)
    have hm := mbasis1_spec hN kerbas res s
    rw [h3, h4] at hm
    unfold plainLoop
    dsimp only
    rcases hm with ⟨X', K, diff, e1, e2, e3⟩ | ⟨hpos, K, diff, e1, e2, e3⟩ | ⟨b, k, diff, e1, hk0, hkm, hb, hdiff⟩
    · rw [e1]
      simp only [andThen]
      rw [if_pos e2]
      obtain ⟨l1, l2, l3⟩ := leftShift_spec app (steps + 1)
      refine ⟨_, _, rfl, by push_cast at l1 ⊢; rw [l1, h1], by push_cast at l2 ⊢; rw [l2, h2], ?_⟩
      refine Good.zero hG hres e3 (steps + 1) (fun i hi => ?_) fun i l hi hl => ?_
      · rw [add_loop, if_pos hi]; push_cast; rfl
      · have := l3 i l (by omega) (by omega); push_cast at this; exact this
    · rw [e1]
      simp only [andThen]
      rw [if_neg (by omega), if_neg (by omega)]
      have hz : ∀ i j, i < pmat.rows → j < pmat.cols →
          resid pmat.rows (fun i j => app.e (i, j)) (fun i j => pmat.e (i, j)) (ord - 1) i j = 0 := fun i j hi hj => by
        rw [← hres i j hi hj, e3 i j hi hj]
      have hG' := hG.full hz
      rw [show ord - 1 + 1 = ord + 1 - 1 by omega] at hG'
      have hdg := hG'.deg_le h1 h2
      obtain ⟨P, t, q1, q2, q3, q4⟩ := plainLoop_spec hN pmat s0 steps (ord + 1) app s
        (if steps = 0 then res else { res with e := plainResidual pmat.rows ord pmat app res.e }) K (by omega) h1 h2
        (by split_ifs <;> exact h3) (by split_ifs <;> exact h4) (fun hs i j hi hj => by
          rw [if_neg hs]
          dsimp only
          rw [plainResidual_spec ord pmat app h1 h2 res.e i j hi hj (by simpa using hdg), e3 i j hi hj, zero_add]
          rfl) hG'
      exact ⟨P, t, q1, q2, q3, by rw [show ord - 1 + (steps + 1) = ord + 1 - 1 + steps by omega]; exact q4⟩
    · rw [e1]
      simp only [andThen]
      rw [if_neg (by rw [hb.dim.1]; omega), if_pos (by rw [hb.dim.1, h3]; exact hkm)]
      obtain ⟨-, m2⟩ := C66_mul_const_left b.kerbas app
      cases hmul : mulConstLeft b.kerbas app with
      | none => exact absurd ((C66_mul_const_left b.kerbas app).1.1 hmul) (by rw [hb.dim.2, h1]; exact fun h => h rfl)
      | some kerapp =>
        dsimp only
        obtain ⟨-, -, m3⟩ := m2 kerapp hmul
        rw [hb.dim.1, hb.dim.2, h2] at m3
        obtain ⟨p1, p2⟩ := plainRows_spec (m := pmat.rows) (k := k) b.pos (fun i hi => hb.lt _ (hb.rows i hi)) (fun i j hij hj => hb.mono i j hij hj)
          diff (fun i hi => (hdiff _).1 i hi rfl) (fun t => (hdiff t).2) app.e kerapp.e
        have hG' : Good pmat.rows pmat.cols (fun i j => pmat.e (i, j)) s0 (ord - 1 + 1)
            (forN pmat.rows (fun i s => write i (s i + diff i) s) s) fun i j => (plainRows pmat.rows diff app.e kerapp.e).1 (i, j) := by
          refine Good.step hG hres hb (fun i hi => ⟨?_, fun l hl => ?_⟩) fun t ht hn => ⟨?_, fun l hl => ?_⟩
          · have hlt := hb.lt _ (hb.rows i hi)
            rw [add_loop, if_pos hlt, show diff (b.piv.getD (b.rows.getD i 0) 0) = 0 from (hdiff _).1 i hi rfl, add_zero]
          · rw [show (b.piv.getD (b.rows.getD i 0) 0) = b.pos i from rfl, p1 i l hi, m3 i l hi hl]
          · rw [add_loop, if_pos ht, (hdiff t).2 hn]
          · exact p2 t l ht hl hn
        rw [show ord - 1 + 1 = ord + 1 - 1 by omega] at hG'
        have hdg := Good.deg_le (P := { app with e := (plainRows pmat.rows diff app.e kerapp.e).1 }) h1 h2 hG'
        obtain ⟨P, t, q1, q2, q3, q4⟩ := plainLoop_spec hN pmat s0 steps (ord + 1)
          { app with e := (plainRows pmat.rows diff app.e kerapp.e).1 } _
          (if steps = 0 then res else { res with e := plainResidual pmat.rows ord pmat { app with e := (plainRows pmat.rows diff app.e kerapp.e).1 } fun _ => 0 }) b.kerbas (by omega) h1 h2
          (by split_ifs <;> exact h3) (by split_ifs <;> exact h4) (fun hs i j hi hj => by
            rw [if_neg hs]
            dsimp only
            rw [plainResidual_spec ord pmat { app with e := (plainRows pmat.rows diff app.e kerapp.e).1 } h1 h2 (fun _ => 0) i j hi hj
              (by simpa using hdg), zero_add]
            rfl) hG'
        exact ⟨P, t, q1, q2, q3, by rw [show ord - 1 + (steps + 1) = ord + 1 - 1 + steps by omega]; exact q4⟩

theorem plain_good {N : Nt F} (hN : N.Ok) (app pmat : PMat F[X]) (order : Nat) (s : Nat → Int) :
    ∃ P t, plain N app pmat order s = .ok (P, t) ∧ P.rows = pmat.rows ∧ P.cols = pmat.rows ∧
      Good pmat.rows pmat.cols (fun i j => pmat.e (i, j)) s order t fun i j => P.e (i, j) := by
  obtain ⟨i1, i2, i3⟩ := C65_ident app pmat.rows
  have h1 := Good.one pmat.rows pmat.cols (fun i j => pmat.e (i, j)) s (V := fun i j => (ident app pmat.rows).e (i, j)) i3
  have := plainLoop_spec hN pmat s order 1 (ident app pmat.rows) s (getCoeff ⟨0, 0, fun _ => 0⟩ pmat 0) ⟨0, 0, fun _ => 0⟩
    (le_refl _) i1 i2 rfl rfl (fun _ i j hi hj => by
      unfold getCoeff resid
      dsimp only
      rw [loop2_const, if_pos ⟨hi, hj⟩, Nat.sub_self]
      congr 1
      rw [Finset.sum_eq_single i]
      · rw [i3 i i hi hi, if_pos rfl, one_mul]
      · intro l hl hne
        rw [i3 i l hi (Finset.mem_range.1 hl), if_neg (Ne.symm hne), zero_mul]
      · intro h; exact absurd (Finset.mem_range.2 hi) h) h1
  rw [show 1 - 1 + order = order by omega] at this
  exact this

end PML.Ntl.Mbasis
