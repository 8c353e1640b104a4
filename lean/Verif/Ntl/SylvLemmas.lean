import Verif.Ntl.SylvSpec
import Verif.Ntl.LikeProps

/-!
# Lemmas about Sylvester matrices (C86)
-/

namespace PML.Ntl.Struct

open Polynomial PML.Ntl.Utils PML.Ntl.Inv PML.Ntl.Solve PML.Ntl.Middle

variable {p : Nat} [Fact p.Prime]

/-! ### The extended gcd -/

theorem xgcd_coprime {g : Xgcd p} (hg : XgcdOK g) {a b : (ZMod p)[X]} (ha : a ≠ 0) (hb : b ≠ 0) :
    (g.d a b ≠ 0 ∧ (g.d a b).natDegree = 0) ↔ IsCoprime a b := by
  have hm := hg.monic a b ha hb
  constructor
  · rintro ⟨-, h⟩
    have h1 : g.d a b = 1 := by
      rw [hm.natDegree_eq_zero] at h
      exact h
    exact ⟨g.s a b, g.t a b, by rw [hg.bezout, h1]⟩
  · intro h
    refine ⟨hm.ne_zero, ?_⟩
    have hu := h.isUnit_of_dvd' (hg.left a b) (hg.right a b)
    exact natDegree_eq_zero_of_isUnit hu

/-- The two factors, after the division by the constant gcd. -/
theorem xgcd_factors {g : Xgcd p} (hg : XgcdOK g) {a b : (ZMod p)[X]} (ha : 0 < a.natDegree) (hb : 0 < b.natDegree) (h : IsCoprime a b) :
    (C ((g.d a b).coeff 0)⁻¹ * g.s a b) * a + (C ((g.d a b).coeff 0)⁻¹ * g.t a b) * b = 1 ∧
    (C ((g.d a b).coeff 0)⁻¹ * g.s a b).degree < b.degree ∧ (C ((g.d a b).coeff 0)⁻¹ * g.t a b).degree < a.degree := by
  have ha0 : a ≠ 0 := fun e => by simp [e] at ha
  have hb0 : b ≠ 0 := fun e => by simp [e] at hb
  have h1 : g.d a b = 1 := by
    have := ((xgcd_coprime hg ha0 hb0).2 h).2
    rwa [(hg.monic a b ha0 hb0).natDegree_eq_zero] at this
  have hz := hg.bezout a b
  rw [h1] at hz ⊢
  simp only [coeff_one_zero, inv_one, C_1, one_mul]
  exact ⟨hz, hg.degS a b h ha hb, hg.degT a b h ha hb⟩

/-! ### Polynomials and vectors -/

theorem ofCoeffs_degree (n : Nat) (v : Nat → ZMod p) : (ofCoeffs n v).degree < n := by
  rw [degree_lt_iff_coeff_zero]
  intro m hm
  rw [ofCoeffs_coeff, if_neg (by omega)]

theorem ofCoeffs_self {n : Nat} {f : (ZMod p)[X]} (h : f.degree < n) : ofCoeffs n f.coeff = f := by
  ext k
  rw [ofCoeffs_coeff]
  split_ifs with hk
  · rfl
  · exact (coeff_eq_zero_of_degree_lt (lt_of_lt_of_le h (by exact_mod_cast (by omega : n ≤ k)))).symm

/-- The Sylvester matrix is the matrix of `(F, G) ↦ F a + G b`. -/
theorem sylv_mul (a b : (ZMod p)[X]) (v : Nat → ZMod p) (i : Nat) :
    ∑ j ∈ Finset.range (a.natDegree + b.natDegree), sylvEntry a b i j * v j =
      (ofCoeffs b.natDegree v * a + ofCoeffs a.natDegree (fun k => v (k + b.natDegree)) * b).coeff i := by
  rw [Nat.add_comm a.natDegree, Finset.sum_range_add, coeff_add]
  unfold ofCoeffs
  rw [Finset.sum_mul, Finset.sum_mul, finsetSum_coeff, finsetSum_coeff]
  refine congrArg₂ (· + ·) (Finset.sum_congr rfl fun j hj => ?_) (Finset.sum_congr rfl fun j _ => ?_)
  · rw [Finset.mem_range] at hj
    unfold sylvEntry
    rw [if_pos hj, mul_assoc, coeff_C_mul, mul_comm]
  · unfold sylvEntry
    rw [if_neg (by omega), mul_assoc, coeff_C_mul, mul_comm, Nat.add_sub_cancel_left, Nat.add_comm]

/-- The scalar product of a vector with a shift of `a`, read in a product by the reverse of `a`. -/
theorem rev_mul {a : (ZMod p)[X]} (R : (ZMod p)[X]) (hR : ∀ k, R.coeff k = if k ≤ a.natDegree then a.coeff (a.natDegree - k) else 0)
    (w : Nat → ZMod p) (j n : Nat) (hn : a.natDegree + j < n) :
    ∑ x ∈ Finset.antidiagonal (a.natDegree + j), R.coeff x.1 * w x.2 = ∑ i ∈ Finset.range n, w i * (X ^ j * a).coeff i := by
  rw [← Finset.Nat.sum_antidiagonal_swap]
  rw [Finset.Nat.sum_antidiagonal_eq_sum_range_succ_mk]
  have e : n = (a.natDegree + j).succ + (n - (a.natDegree + j).succ) := by omega
  rw [e, Finset.sum_range_add]
  have hz : ∑ x ∈ Finset.range (n - (a.natDegree + j).succ), w ((a.natDegree + j).succ + x) * (X ^ j * a).coeff ((a.natDegree + j).succ + x) = 0 := by
    refine Finset.sum_eq_zero fun x _ => ?_
    rw [coeff_X_pow_mul', if_pos (by omega), coeff_eq_zero_of_natDegree_lt (by omega), mul_zero]
  rw [hz, add_zero]
  refine Finset.sum_congr rfl fun i hi => ?_
  rw [Finset.mem_range] at hi
  simp only [Prod.swap]
  rw [hR, coeff_X_pow_mul', mul_comm]
  by_cases hij : j ≤ i
  · rw [if_pos (by omega), if_pos hij]
    congr 2
    omega
  · rw [if_neg (by omega), if_neg hij]

theorem make_rev (a : (ZMod p)[X]) (k : Nat) :
    (ofCoeffs (a.natDegree + 1) fun i => a.coeff (a.natDegree - i)).coeff k = if k ≤ a.natDegree then a.coeff (a.natDegree - k) else 0 := by
  rw [ofCoeffs_coeff]
  split_ifs <;> first | rfl | omega

/-! ### States -/

/-- What is known of a state. -/
structure Good (a b : (ZMod p)[X]) (s : Sylv p) : Prop where
  ha : s.a = a
  hb : s.b = b
  hn : s.n = a.natDegree + b.natDegree
  hrA : ∀ k, s.revA.coeff k = if k ≤ a.natDegree then a.coeff (a.natDegree - k) else 0
  hrB : ∀ k, s.revB.coeff k = if k ≤ b.natDegree then b.coeff (b.natDegree - k) else 0
  sing : s.singular = some true → ¬ IsCoprime a b
  reg : s.singular = some false → IsCoprime a b ∧ s.invA * a + s.invB * b = 1 ∧ s.invA.degree < b.degree ∧ s.invB.degree < a.degree ∧
    s.serA = invTruncX s.revA s.n ∧ s.serB = invTruncX s.revB s.n ∧ 0 < a.natDegree ∧ 0 < b.natDegree

theorem andThen_ok {α β : Type} {x : Out α} {f : α → Out β} {y : β} (h : andThen x f = .ok y) : ∃ a, x = .ok a ∧ f a = .ok y := by
  cases x with
  | ok a => exact ⟨a, rfl, h⟩
  | error => exact absurd h (by simp [andThen])
  | ub => exact absurd h (by simp [andThen])
  | loops => exact absurd h (by simp [andThen])

theorem reach_good {g : Xgcd p} (hg : XgcdOK g) {a b : (ZMod p)[X]} (ha : a ≠ 0) (hb : b ≠ 0) {s : Sylv p} (h : Reach g a b s) : Good a b s := by
  induction h with
  | make => exact ⟨rfl, rfl, rfl, make_rev a, make_rev b, fun h => by simp [Sylv.make] at h, fun h => by simp [Sylv.make] at h⟩
  | @prepare s u _ he ih =>
    unfold Sylv.prepare at he
    dsimp only at he
    rw [ih.ha, ih.hb] at he
    by_cases hc : g.d a b ≠ 0 ∧ (g.d a b).natDegree = 0
    · rw [if_pos hc] at he
      obtain ⟨_, h1, he⟩ := andThen_ok he
      obtain ⟨_, h2, he⟩ := andThen_ok he
      obtain ⟨_, h3, he⟩ := andThen_ok he
      obtain ⟨_, h4, he⟩ := andThen_ok he
      have hA : 0 < a.natDegree := by
        by_contra h; simp [buildModulus, show a.natDegree = 0 by omega] at h1
      have hB : 0 < b.natDegree := by
        by_contra h; simp [buildModulus, show b.natDegree = 0 by omega] at h2
      have hco := (xgcd_coprime hg ha hb).1 hc
      obtain ⟨e1, e2, e3⟩ := xgcd_factors hg hA hB hco
      cases he
      exact ⟨rfl, rfl, ih.hn, ih.hrA, ih.hrB, fun h => by simp at h, fun _ => ⟨hco, e1, e2, e3, rfl, rfl, hA, hB⟩⟩
    · rw [if_neg hc] at he
      cases he
      exact ⟨rfl, rfl, ih.hn, ih.hrA, ih.hrB, fun _ h => hc ((xgcd_coprime hg ha hb).2 h), fun h => by simp at h⟩

/-! ### Right systems -/

theorem solve_crt {a b iA iB F : (ZMod p)[X]} (ha : a ≠ 0) (hb : b ≠ 0) (hz : iA * a + iB * b = 1) (hF : F.degree < (a.natDegree + b.natDegree : Nat)) :
    (F % b) * iA % b * a + (F % a) * iB % a * b = F := by
  have hco : IsCoprime a b := ⟨iA, iB, hz⟩
  set H := (F % b) * iA % b * a + (F % a) * iB % a * b with hH
  have mod_sub : ∀ x y : (ZMod p)[X], y ∣ x - x % y := fun x y => by
    refine ⟨x / y, ?_⟩
    have := EuclideanDomain.div_add_mod x y
    linear_combination (-1 : (ZMod p)[X]) * this
  have hA : a ∣ F - H := by
    have h1 := mod_sub F a
    have h2 := mod_sub ((F % a) * iB) a
    have e : F - H = (F - F % a) * (iB * b) + ((F % a) * iB - (F % a) * iB % a) * b + a * (F * iA - (F % b) * iA % b) := by
      have : F = F * (iA * a + iB * b) := by rw [hz, mul_one]
      rw [hH]
      linear_combination this
    rw [e]
    exact dvd_add (dvd_add (Dvd.dvd.mul_right h1 _) (Dvd.dvd.mul_right h2 _)) (dvd_mul_right _ _)
  have hB : b ∣ F - H := by
    have h1 := mod_sub F b
    have h2 := mod_sub ((F % b) * iA) b
    have e : F - H = (F - F % b) * (iA * a) + ((F % b) * iA - (F % b) * iA % b) * a + b * (F * iB - (F % a) * iB % a) := by
      have : F = F * (iA * a + iB * b) := by rw [hz, mul_one]
      rw [hH]
      linear_combination this
    rw [e]
    exact dvd_add (dvd_add (Dvd.dvd.mul_right h1 _) (Dvd.dvd.mul_right h2 _)) (dvd_mul_right _ _)
  have hAB : a * b ∣ F - H := hco.mul_dvd hA hB
  have hd1 : ((F % b) * iA % b * a).degree < (a.natDegree + b.natDegree : Nat) := by
    rw [degree_mul, degree_eq_natDegree ha, Nat.add_comm]
    have := EuclideanDomain.mod_lt ((F % b) * iA) hb
    have h3 : ((F % b) * iA % b).degree < b.natDegree := by rw [← degree_eq_natDegree hb]; exact this
    push_cast
    exact WithBot.add_lt_add_right (by simp) h3
  have hd2 : ((F % a) * iB % a * b).degree < (a.natDegree + b.natDegree : Nat) := by
    rw [degree_mul, degree_eq_natDegree hb]
    have := EuclideanDomain.mod_lt ((F % a) * iB) ha
    have h3 : ((F % a) * iB % a).degree < a.natDegree := by rw [← degree_eq_natDegree ha]; exact this
    push_cast
    exact WithBot.add_lt_add_right (by simp) h3
  have hd : (F - H).degree < (a * b).degree := by
    rw [degree_mul, degree_eq_natDegree ha, degree_eq_natDegree hb]
    have h3 : H.degree < (a.natDegree + b.natDegree : Nat) := lt_of_le_of_lt (degree_add_le _ _) (max_lt hd1 hd2)
    exact_mod_cast lt_of_le_of_lt (degree_sub_le _ _) (max_lt hF h3)
  have h0 : F - H = 0 := by
    by_contra h
    exact absurd (degree_le_of_dvd hAB h) (not_le.2 hd)
  exact (sub_eq_zero.1 h0).symm

/-- The loops that write the two halves of a vector. -/
theorem halves_write (m n : Nat) (f g : Nat → ZMod p) (k : Nat) (hk : k < n + m) :
    forN n (fun i => write (i + m) (g i)) (forN m (fun i => write i (f i)) fun _ => 0) k = if k < m then f k else g (k - m) := by
  have h1 : forN m (fun i => write i (f i)) (fun _ => 0) k = if k < m then f k else 0 := by
    refine forN_inv (n := m) (P := fun (l : Nat) (x : Nat → ZMod p) => x k = if k < l then f k else 0) (by simp) ?_
    intro l x _ hx
    unfold write
    by_cases e : k = l
    · rw [e, Function.update_self, if_pos (by omega)]
    · rw [Function.update_of_ne e, hx]
      split_ifs <;> first | rfl | omega
  have h2 : forN n (fun i => write (i + m) (g i)) (forN m (fun i => write i (f i)) fun _ => 0) k =
      if m ≤ k ∧ k < n + m then g (k - m) else forN m (fun i => write i (f i)) (fun _ => 0) k := by
    refine forN_inv (n := n) (P := fun (l : Nat) (x : Nat → ZMod p) => x k = if m ≤ k ∧ k < l + m then g (k - m) else
      forN m (fun i => write i (f i)) (fun _ => 0) k) (by rw [if_neg (by omega)]) ?_
    intro l x _ hx
    unfold write at hx ⊢
    by_cases e : k = l + m
    · rw [e, Function.update_self, if_pos (by omega)]
      congr 1; omega
    · rw [Function.update_of_ne e, hx]
      by_cases h : m ≤ k ∧ k < l + m
      · rw [if_pos h, if_pos (by omega)]
      · rw [if_neg h, if_neg (by omega)]
  rw [h2, h1]
  by_cases h : k < m
  · rw [if_neg (by omega), if_pos h, if_pos h]
  · rw [if_pos (by omega), if_neg h]

theorem mulMod_ok {x y f : (ZMod p)[X]} (hf : 0 < f.natDegree) (hx : x.degree < f.degree) (hy : y.degree < f.degree) :
    mulMod x y f = .ok (x * y % f) := by
  unfold mulMod
  rw [if_neg]
  rintro (h | h | h)
  · exact absurd hx (not_lt.2 h)
  · exact absurd hy (not_lt.2 h)
  · omega

/-- The vector that `solve` returns. -/
theorem solve_vec {a b iA iB : (ZMod p)[X]} (ha : a ≠ 0) (hb : b ≠ 0) (hz : iA * a + iB * b = 1) (v : Nat → ZMod p) (i : Nat)
    (hi : i < a.natDegree + b.natDegree) :
    ∑ j ∈ Finset.range (a.natDegree + b.natDegree), sylvEntry a b i j *
      forN a.natDegree (fun i => write (i + b.natDegree) ((ofCoeffs (a.natDegree + b.natDegree) v % a * iB % a).coeff i))
        (forN b.natDegree (fun i => write i ((ofCoeffs (a.natDegree + b.natDegree) v % b * iA % b).coeff i)) fun _ => 0) j = v i := by
  set F := ofCoeffs (a.natDegree + b.natDegree) v with hF
  set P := F % b * iA % b with hP
  set Q := F % a * iB % a with hQ
  have hPd : P.degree < b.natDegree := by rw [← degree_eq_natDegree hb]; exact EuclideanDomain.mod_lt _ hb
  have hQd : Q.degree < a.natDegree := by rw [← degree_eq_natDegree ha]; exact EuclideanDomain.mod_lt _ ha
  have hcong : ∀ j ∈ Finset.range (a.natDegree + b.natDegree), sylvEntry a b i j *
      forN a.natDegree (fun i => write (i + b.natDegree) (Q.coeff i)) (forN b.natDegree (fun i => write i (P.coeff i)) fun _ => 0) j =
      sylvEntry a b i j * (fun j => if j < b.natDegree then P.coeff j else Q.coeff (j - b.natDegree)) j := by
    intro j hj
    rw [Finset.mem_range] at hj
    rw [halves_write b.natDegree a.natDegree P.coeff Q.coeff j hj]
  rw [Finset.sum_congr rfl hcong, sylv_mul]
  have e1 : ofCoeffs b.natDegree (fun j => if j < b.natDegree then P.coeff j else Q.coeff (j - b.natDegree)) = P := by
    conv_rhs => rw [← ofCoeffs_self hPd]
    ext k
    rw [ofCoeffs_coeff, ofCoeffs_coeff]
    split_ifs <;> rfl
  have e2 : (ofCoeffs a.natDegree fun k => (fun j => if j < b.natDegree then P.coeff j else Q.coeff (j - b.natDegree)) (k + b.natDegree)) = Q := by
    conv_rhs => rw [← ofCoeffs_self hQd]
    ext k
    rw [ofCoeffs_coeff, ofCoeffs_coeff]
    dsimp only
    rw [if_neg (by omega : ¬ k + b.natDegree < b.natDegree), Nat.add_sub_cancel]
  rw [e1, e2, hP, hQ, solve_crt ha hb hz (by rw [hF]; exact ofCoeffs_degree _ _), hF, ofCoeffs_coeff, if_pos hi]

/-! ### Left systems -/

/-- The linear form `f ↦ ⟨v, f mod q⟩`. -/
noncomputable def form (q : (ZMod p)[X]) (v : Nat → ZMod p) (f : (ZMod p)[X]) : ZMod p :=
  ∑ j ∈ Finset.range q.natDegree, v j * (f % q).coeff j

theorem form_add (q : (ZMod p)[X]) (v : Nat → ZMod p) (f g : (ZMod p)[X]) : form q v (f + g) = form q v f + form q v g := by
  unfold form
  rw [← Finset.sum_add_distrib]
  refine Finset.sum_congr rfl fun j _ => ?_
  rw [Polynomial.add_mod, coeff_add]; ring

theorem form_smul (q : (ZMod p)[X]) (v : Nat → ZMod p) (c : ZMod p) (f : (ZMod p)[X]) : form q v (C c * f) = c * form q v f := by
  unfold form
  rw [Finset.mul_sum]
  refine Finset.sum_congr rfl fun j _ => ?_
  rw [← smul_eq_C_mul, Polynomial.mod_def, Polynomial.mod_def, smul_modByMonic, coeff_smul, smul_eq_mul]; ring

theorem form_sum (q : (ZMod p)[X]) (v : Nat → ZMod p) (n : Nat) (c : Nat → ZMod p) (f : Nat → (ZMod p)[X]) :
    form q v (∑ i ∈ Finset.range n, C (c i) * f i) = ∑ i ∈ Finset.range n, c i * form q v (f i) := by
  induction n with
  | zero => simp [form]
  | succ n ih => rw [Finset.sum_range_succ, Finset.sum_range_succ, form_add, ih, form_smul]

theorem form_mul_self (q : (ZMod p)[X]) (v : Nat → ZMod p) (f : (ZMod p)[X]) : form q v (f * q) = 0 := by
  unfold form
  refine Finset.sum_eq_zero fun j _ => ?_
  rw [EuclideanDomain.mod_eq_zero.2 (dvd_mul_left q f), coeff_zero, mul_zero]

theorem form_congr (q : (ZMod p)[X]) (v : Nat → ZMod p) (f g h : (ZMod p)[X]) (e : f = g + h * q) : form q v f = form q v g := by
  rw [e, form_add, form_mul_self, add_zero]

theorem form_X (q : (ZMod p)[X]) (v : Nat → ZMod p) (j : Nat) (hj : j < q.natDegree) : form q v (X ^ j) = v j := by
  unfold form
  have h0 : q ≠ 0 := fun e => by simp [e] at hj
  rw [(Polynomial.mod_eq_self_iff h0).2 (by rw [degree_X_pow, degree_eq_natDegree h0]; exact_mod_cast hj)]
  rw [Finset.sum_eq_single j]
  · simp
  · intro k _ hk; rw [coeff_X_pow, if_neg hk, mul_zero]
  · intro h; exact absurd (Finset.mem_range.2 hj) h

/-- The values of a form on `g f`, in terms of its values on `g X^i`. -/
theorem form_expand (q g f : (ZMod p)[X]) (v : Nat → ZMod p) (n : Nat) (hf : f.degree < n) :
    ∑ i ∈ Finset.range n, form q v (g * X ^ i) * f.coeff i = form q v (g * f) := by
  conv_rhs => rw [← ofCoeffs_self hf]
  unfold ofCoeffs
  rw [Finset.mul_sum]
  have : ∀ i ∈ Finset.range n, g * (C (f.coeff i) * X ^ i) = C (f.coeff i) * (g * X ^ i) := fun i _ => by ring
  rw [Finset.sum_congr rfl this, form_sum]
  exact Finset.sum_congr rfl fun i _ => mul_comm _ _

/-- The first values of a linear recurrence give the next ones, by a quotient of series. -/
theorem extend_spec {a R : (ZMod p)[X]} (ha : a ≠ 0) (hR : ∀ k, R.coeff k = if k ≤ a.natDegree then a.coeff (a.natDegree - k) else 0)
    (g : (ZMod p)[X]) (v u : Nat → ZMod p) (hu : ∀ i, i < a.natDegree → u i = form a v (g * X ^ i)) (n i : Nat) (hi : i < n) :
    (ptrunc (ptrunc (ofCoeffs a.natDegree u * R) a.natDegree * invTruncX R n) n).coeff i = form a v (g * X ^ i) := by
  set W : PowerSeries (ZMod p) := PowerSeries.mk fun i => form a v (g * X ^ i) with hW
  set N := ptrunc (ofCoeffs a.natDegree u * R) a.natDegree with hN
  have hR0 : PowerSeries.constantCoeff (R : PowerSeries (ZMod p)) ≠ 0 := by
    rw [← PowerSeries.coeff_zero_eq_constantCoeff_apply, Polynomial.coeff_coe, hR, if_pos (Nat.zero_le _), Nat.sub_zero]
    exact leadingCoeff_ne_zero.2 ha
  have key : (N : PowerSeries (ZMod p)) = (R : PowerSeries (ZMod p)) * W := by
    ext m
    rw [Polynomial.coeff_coe, PowerSeries.coeff_mul]
    simp only [Polynomial.coeff_coe, hW, PowerSeries.coeff_mk]
    rw [hN]
    unfold ptrunc
    rw [ofCoeffs_coeff]
    split_ifs with hm
    · rw [mul_comm, coeff_mul]
      refine Finset.sum_congr rfl fun x hx => ?_
      rw [Finset.mem_antidiagonal] at hx
      rw [ofCoeffs_coeff, if_pos (by omega), hu _ (by omega)]
    · obtain ⟨j, rfl⟩ : ∃ j, m = a.natDegree + j := ⟨m - a.natDegree, by omega⟩
      rw [rev_mul R hR (fun i => form a v (g * X ^ i)) j (a.natDegree + j + 1) (by omega), form_expand]
      · rw [show g * (X ^ j * a) = (g * X ^ j) * a by ring, form_mul_self]
      · rw [degree_mul, degree_X_pow, degree_eq_natDegree ha]
        exact_mod_cast (by omega : j + a.natDegree < a.natDegree + j + 1)
  have hW2 : W = (N : PowerSeries (ZMod p)) * (R : PowerSeries (ZMod p))⁻¹ := by
    rw [key, mul_comm (R : PowerSeries (ZMod p)), mul_assoc, PowerSeries.mul_inv_cancel _ hR0, mul_one]
  have hc : PowerSeries.coeff i W = form a v (g * X ^ i) := by rw [hW, PowerSeries.coeff_mk]
  rw [← hc, hW2, PowerSeries.coeff_mul]
  unfold ptrunc
  rw [ofCoeffs_coeff, if_pos hi, coeff_mul]
  refine Finset.sum_congr rfl fun x hx => ?_
  rw [Finset.mem_antidiagonal] at hx
  unfold invTruncX
  rw [PowerSeries.coeff_trunc, if_pos (by omega), Polynomial.coeff_coe]

/-- The vector that `solve_transpose` returns. -/
theorem solveT_vec {a b iA iB RA RB : (ZMod p)[X]} (ha : a ≠ 0) (hb : b ≠ 0) (hz : iA * a + iB * b = 1)
    (hA : ∀ k, RA.coeff k = if k ≤ a.natDegree then a.coeff (a.natDegree - k) else 0)
    (hB : ∀ k, RB.coeff k = if k ≤ b.natDegree then b.coeff (b.natDegree - k) else 0)
    {s : Sylv p} (h1 : s.a = a) (h2 : s.b = b) (h3 : s.n = a.natDegree + b.natDegree) (h4 : s.revA = RA) (h5 : s.revB = RB)
    (v : Nat → ZMod p) (j : Nat) (hj : j < a.natDegree + b.natDegree) :
    ∑ i ∈ Finset.range (a.natDegree + b.natDegree),
      (s.extend (updateMap (fun i => v (i + b.natDegree)) iB a) (updateMap v iA b) (invTruncX RA s.n) (invTruncX RB s.n)).e i * sylvEntry a b i j = v j := by
  set va : Nat → ZMod p := fun i => v (i + b.natDegree) with hva
  have hcong : ∀ i ∈ Finset.range (a.natDegree + b.natDegree),
      (s.extend (updateMap va iB a) (updateMap v iA b) (invTruncX RA s.n) (invTruncX RB s.n)).e i * sylvEntry a b i j =
      form a va (iB * X ^ i) * sylvEntry a b i j + form b v (iA * X ^ i) * sylvEntry a b i j := by
    intro i hi
    rw [Finset.mem_range] at hi
    unfold Sylv.extend
    dsimp only
    rw [h1, h2, h3, h4, h5]
    rw [extend_spec ha hA iB va (updateMap va iB a) (fun i _ => rfl) _ i hi, extend_spec hb hB iA v (updateMap v iA b) (fun i _ => rfl) _ i hi]
    ring
  rw [Finset.sum_congr rfl hcong, Finset.sum_add_distrib]
  unfold sylvEntry
  by_cases hjb : j < b.natDegree
  · simp only [if_pos hjb]
    have hd : (X ^ j * a).degree < ((a.natDegree + b.natDegree : Nat) : WithBot Nat) := by
      rw [degree_mul, degree_X_pow, degree_eq_natDegree ha]
      exact_mod_cast (by omega : j + a.natDegree < a.natDegree + b.natDegree)
    rw [form_expand a iB _ va _ hd, form_expand b iA _ v _ hd]
    rw [show iB * (X ^ j * a) = iB * X ^ j * a by ring, form_mul_self, zero_add,
      form_congr b v (iA * (X ^ j * a)) (X ^ j) (-(iB * X ^ j)) (by linear_combination (X ^ j) * hz), form_X b v j hjb]
  · simp only [if_neg hjb]
    have hd : (X ^ (j - b.natDegree) * b).degree < ((a.natDegree + b.natDegree : Nat) : WithBot Nat) := by
      rw [degree_mul, degree_X_pow, degree_eq_natDegree hb]
      exact_mod_cast (by omega : (j - b.natDegree) + b.natDegree < a.natDegree + b.natDegree)
    rw [form_expand a iB _ va _ hd, form_expand b iA _ v _ hd]
    rw [show iA * (X ^ (j - b.natDegree) * b) = iA * X ^ (j - b.natDegree) * b by ring, form_mul_self, add_zero,
      form_congr a va (iB * (X ^ (j - b.natDegree) * b)) (X ^ (j - b.natDegree)) (-(iA * X ^ (j - b.natDegree)))
        (by linear_combination (X ^ (j - b.natDegree)) * hz), form_X a va _ (by omega), hva]
    dsimp only
    rw [Nat.sub_add_cancel (by omega)]

/-! ### The dense matrix -/

theorem diag_write (m d off : Nat) (c : Nat → ZMod p) (e : Nat × Nat → ZMod p) (x y : Nat) :
    forN m (fun i => forN (d + 1) fun j => write (i + j, i + off) (c j)) e (x, y) =
      if (off ≤ y ∧ y < m + off) ∧ y - off ≤ x ∧ x ≤ y - off + d then c (x - (y - off)) else e (x, y) := by
  have inner : ∀ (i : Nat) (e : Nat × Nat → ZMod p) (k : Nat), forN k (fun j => write (i + j, i + off) (c j)) e (x, y) =
      if y = i + off ∧ i ≤ x ∧ x < i + k then c (x - i) else e (x, y) := by
    intro i e k
    induction k with
    | zero => rw [if_neg (by omega)]; rfl
    | succ k ih =>
      show write (i + k, i + off) (c k) (forN k (fun j => write (i + j, i + off) (c j)) e) (x, y) = _
      unfold write at ih ⊢
      by_cases h : (x, y) = (i + k, i + off)
      · obtain ⟨rfl, rfl⟩ := Prod.mk.inj h
        rw [Function.update_self, if_pos (by omega), Nat.add_sub_cancel_left]
      · rw [Function.update_of_ne h, ih]
        have h' : ¬ (x = i + k ∧ y = i + off) := fun ⟨h1, h2⟩ => h (by rw [h1, h2])
        by_cases h1 : y = i + off ∧ i ≤ x ∧ x < i + k
        · rw [if_pos h1, if_pos (by omega)]
        · rw [if_neg h1, if_neg (by omega)]
  refine forN_inv (n := m) (P := fun (k : Nat) (z : Nat × Nat → ZMod p) => z (x, y) =
    if (off ≤ y ∧ y < k + off) ∧ y - off ≤ x ∧ x ≤ y - off + d then c (x - (y - off)) else e (x, y)) (by rw [if_neg (by omega)]) ?_
  intro k z _ hz
  rw [inner, hz]
  by_cases h : y = k + off
  · subst h
    rw [Nat.add_sub_cancel]
    by_cases h1 : k ≤ x ∧ x ≤ k + d
    · rw [if_pos ⟨rfl, by omega⟩, if_pos (by omega)]
    · rw [if_neg (by omega), if_neg (by omega), if_neg (by omega)]
  · rw [if_neg (by omega)]
    by_cases h1 : (off ≤ y ∧ y < k + off) ∧ y - off ≤ x ∧ x ≤ y - off + d
    · rw [if_pos h1, if_pos (by omega)]
    · rw [if_neg h1, if_neg (by omega)]

/-! ### The generators -/

/-- The coefficients of `X^j f`. -/
theorem shift_prev (f : (ZMod p)[X]) (i j : Nat) (hi : 0 < i) : (X ^ j * f).coeff (i - 1) = (X ^ (j + 1) * f).coeff i := by
  rw [coeff_X_pow_mul', coeff_X_pow_mul']
  by_cases h : j ≤ i - 1
  · rw [if_pos h, if_pos (by omega)]; congr 1; omega
  · rw [if_neg h, if_neg (by omega)]

theorem shift_zero (f : (ZMod p)[X]) (j : Nat) : (X ^ (j + 1) * f).coeff 0 = 0 := by
  rw [coeff_X_pow_mul', if_neg (by omega)]

theorem shift_high (f : (ZMod p)[X]) (i j : Nat) (h : j + f.natDegree < i) : (X ^ j * f).coeff i = 0 := by
  rw [coeff_X_pow_mul', if_pos (by omega), coeff_eq_zero_of_natDegree_lt (by omega)]

theorem shift_top (f : (ZMod p)[X]) (i j : Nat) (h : i = j + f.natDegree) : (X ^ j * f).coeff i = f.coeff f.natDegree := by
  rw [coeff_X_pow_mul', if_pos (by omega)]; congr 1; omega

/-- The two columns of the first generator. -/
noncomputable def genG (a b : (ZMod p)[X]) (i k : Nat) : ZMod p :=
  if k = 0 then
    (if b.natDegree ≤ i ∧ i < a.natDegree + b.natDegree then a.coeff (i - b.natDegree) else 0) + (if i = 0 then a.coeff a.natDegree else 0) -
      (if i < b.natDegree then b.coeff i else 0) - (if i = b.natDegree % (a.natDegree + b.natDegree) then b.coeff b.natDegree else 0)
  else (if a.natDegree ≤ i ∧ i < a.natDegree + b.natDegree then b.coeff (i - a.natDegree) else 0) + (if i = 0 then b.coeff b.natDegree else 0)

theorem gen_disp (a b : (ZMod p)[X]) (hb : 0 < b.natDegree) (i j : Nat) (hi : i < a.natDegree + b.natDegree) (hj : j < a.natDegree + b.natDegree) :
    dispTP (a.natDegree + b.natDegree) (a.natDegree + b.natDegree) (sylvEntry a b) i j =
      genG a b i 0 * (if j = b.natDegree - 1 then 1 else 0) + genG a b i 1 * (if j = a.natDegree + b.natDegree - 1 then 1 else 0) := by
  rw [dispTP_eq _ _ _ i j hi hj]
  unfold sylvEntry genG
  rw [if_pos rfl, if_neg one_ne_zero]
  rcases Nat.lt_trichotomy (j + 1) b.natDegree with h | h | h
  · rw [if_pos (by omega : j < b.natDegree), if_neg (by omega : ¬ j + 1 = a.natDegree + b.natDegree), if_pos h,
      if_neg (by omega : ¬ j = b.natDegree - 1), if_neg (by omega : ¬ j = a.natDegree + b.natDegree - 1)]
    by_cases h0 : i = 0
    · subst h0
      rw [if_pos rfl, shift_zero, shift_high _ _ _ (by omega)]; ring
    · rw [if_neg h0, shift_prev _ _ _ (by omega)]; ring
  · rw [if_pos (by omega : j < b.natDegree), if_pos (by omega : j = b.natDegree - 1)]
    by_cases hA : a.natDegree = 0
    · rw [if_pos (by omega : j + 1 = a.natDegree + b.natDegree), if_pos (by omega : j = a.natDegree + b.natDegree - 1), hA, Nat.zero_add, Nat.mod_self]
      by_cases h0 : i = 0
      · subst h0
        rw [if_pos rfl, shift_top _ _ _ (by omega), if_neg (by omega), if_pos rfl, if_pos hb, if_pos rfl, if_pos (by omega), hA, Nat.sub_zero]; ring
      · rw [if_neg h0, shift_prev _ _ _ (by omega), coeff_X_pow_mul', if_neg (by omega : ¬ j + 1 ≤ i), if_neg (by omega : ¬ (b.natDegree ≤ i ∧ i < b.natDegree)),
          if_neg h0, if_pos (by omega : i < b.natDegree), if_pos (by omega : 0 ≤ i ∧ i < b.natDegree), Nat.sub_zero]
        ring
    · rw [if_neg (by omega : ¬ j + 1 = a.natDegree + b.natDegree), if_neg (by omega : ¬ j + 1 < b.natDegree),
        if_neg (by omega : ¬ j = a.natDegree + b.natDegree - 1), Nat.mod_eq_of_lt (by omega), show j + 1 - b.natDegree = 0 by omega, pow_zero, one_mul]
      by_cases h0 : i = 0
      · subst h0
        rw [if_pos rfl, shift_top _ _ _ (by omega), if_neg (by omega), if_pos rfl, if_pos hb, if_neg (by omega)]; ring
      · rw [if_neg h0, shift_prev _ _ _ (by omega), coeff_X_pow_mul', if_neg h0, h]
        rcases Nat.lt_trichotomy i b.natDegree with h1 | h1 | h1
        · rw [if_neg (by omega), if_neg (by omega), if_pos h1, if_neg (by omega)]; ring
        · rw [if_pos (by omega), if_pos (by omega), if_neg (by omega), if_pos h1, h1]; ring
        · rw [if_pos (by omega), if_pos (by omega), if_neg (by omega), if_neg (by omega), coeff_eq_zero_of_natDegree_lt h1]; ring
  · rw [if_neg (by omega : ¬ j < b.natDegree), if_neg (by omega : ¬ j = b.natDegree - 1), if_neg (by omega : ¬ j + 1 < b.natDegree)]
    have hA : 0 < a.natDegree := by omega
    by_cases hl : j + 1 = a.natDegree + b.natDegree
    · rw [if_pos hl, if_pos (by omega : j = a.natDegree + b.natDegree - 1)]
      by_cases h0 : i = 0
      · subst h0
        rw [if_pos rfl, shift_top _ _ _ (by omega), if_neg (by omega : ¬ (a.natDegree ≤ 0 ∧ 0 < a.natDegree + b.natDegree)), if_pos rfl, if_pos rfl]; ring
      · rw [if_neg h0, shift_prev _ _ _ (by omega), coeff_X_pow_mul', show j - b.natDegree + 1 = a.natDegree by omega, if_neg h0]
        by_cases h1 : a.natDegree ≤ i
        · rw [if_pos h1, if_pos (⟨h1, hi⟩ : a.natDegree ≤ i ∧ i < a.natDegree + b.natDegree), if_neg h0]; ring
        · rw [if_neg h1, if_neg (by omega : ¬ (a.natDegree ≤ i ∧ i < a.natDegree + b.natDegree)), if_neg h0]; ring
    · rw [if_neg hl, if_neg (by omega : ¬ j = a.natDegree + b.natDegree - 1), show j + 1 - b.natDegree = j - b.natDegree + 1 by omega]
      by_cases h0 : i = 0
      · subst h0
        rw [if_pos rfl, shift_zero, shift_high _ _ _ (by omega)]; ring
      · rw [if_neg h0, shift_prev _ _ _ (by omega)]; ring

theorem write_add (ij : Nat × Nat) (v : ZMod p) (G : Nat × Nat → ZMod p) (x y : Nat) :
    write ij (G ij + v) G (x, y) = G (x, y) + if (x, y) = ij then v else 0 := by
  unfold write
  by_cases h : (x, y) = ij
  · rw [if_pos h, ← h, Function.update_self]
  · rw [Function.update_of_ne h, if_neg h, add_zero]

theorem generators_eq {a b : (ZMod p)[X]} {s : Sylv p} (hs : Good a b s) (hb : 0 < b.natDegree) :
    ∃ G H, s.generators = .ok (⟨s.n, 2, G⟩, ⟨s.n, 2, H⟩) ∧ (∀ i k, k < 2 → i < a.natDegree + b.natDegree → G (i, k) = genG a b i k) ∧
      ∀ j, H (j, 0) = (if j = b.natDegree - 1 then 1 else 0) ∧ H (j, 1) = (if j = a.natDegree + b.natDegree - 1 then 1 else 0) := by
  unfold Sylv.generators
  dsimp only
  rw [hs.ha, hs.hb, if_neg (by omega)]
  refine ⟨_, _, rfl, ?_, ?_⟩
  · intro i k hk hi
    have l1 : ∀ G : Nat × Nat → ZMod p, forN a.natDegree (fun i G => write (i + b.natDegree, 0) (G (i + b.natDegree, 0) + a.coeff i) G) G (i, k) =
        G (i, k) + if k = 0 ∧ b.natDegree ≤ i ∧ i < a.natDegree + b.natDegree then a.coeff (i - b.natDegree) else 0 := by
      intro G
      refine forN_inv (n := a.natDegree) (P := fun (m : Nat) (z : Nat × Nat → ZMod p) => z (i, k) =
        G (i, k) + if k = 0 ∧ b.natDegree ≤ i ∧ i < m + b.natDegree then a.coeff (i - b.natDegree) else 0) (by rw [if_neg (by omega), add_zero]) ?_
      intro m z _ hz
      rw [write_add, hz, add_assoc]
      congr 1
      by_cases h : k = 0 ∧ i = m + b.natDegree
      · obtain ⟨rfl, rfl⟩ := h
        rw [if_neg (by omega), if_pos rfl, if_pos (by omega), Nat.add_sub_cancel, zero_add]
      · rw [if_neg (fun e => h ⟨(Prod.mk.inj e).2, (Prod.mk.inj e).1⟩), add_zero]
        by_cases h1 : k = 0 ∧ b.natDegree ≤ i ∧ i < m + b.natDegree
        · rw [if_pos h1, if_pos (by omega)]
        · rw [if_neg h1, if_neg (by omega)]
    have l2 : ∀ G : Nat × Nat → ZMod p, forN b.natDegree (fun i G =>
        write (i + a.natDegree, 1) (write (i, 0) (G (i, 0) + -b.coeff i) G (i + a.natDegree, 1) + b.coeff i) (write (i, 0) (G (i, 0) + -b.coeff i) G)) G (i, k) =
        G (i, k) - (if k = 0 ∧ i < b.natDegree then b.coeff i else 0) +
          if k = 1 ∧ a.natDegree ≤ i ∧ i < a.natDegree + b.natDegree then b.coeff (i - a.natDegree) else 0 := by
      intro G
      have := forN_inv (n := b.natDegree) (f := fun i G =>
        write (i + a.natDegree, 1) (write (i, 0) (G (i, 0) + -b.coeff i) G (i + a.natDegree, 1) + b.coeff i) (write (i, 0) (G (i, 0) + -b.coeff i) G)) (s := G)
        (P := fun (m : Nat) (z : Nat × Nat → ZMod p) => z (i, k) = G (i, k) - (if k = 0 ∧ i < m then b.coeff i else 0) +
          if k = 1 ∧ a.natDegree ≤ i ∧ i < a.natDegree + m then b.coeff (i - a.natDegree) else 0) (by rw [if_neg (by omega), if_neg (by omega)]; ring) (by
          intro m z _ hz
          rw [write_add, write_add, hz]
          obtain rfl | rfl : k = 0 ∨ k = 1 := by omega
          · rw [if_neg (fun e : (i, 0) = (m + a.natDegree, 1) => by simpa using (Prod.mk.inj e).2),
              if_neg (by omega : ¬ (0 = 1 ∧ a.natDegree ≤ i ∧ i < a.natDegree + m)), if_neg (by omega : ¬ (0 = 1 ∧ a.natDegree ≤ i ∧ i < a.natDegree + (m + 1)))]
            by_cases h : i = m
            · subst h
              rw [if_neg (by omega), if_pos rfl, if_pos (by omega)]; ring
            · rw [if_neg (fun e => h (Prod.mk.inj e).1)]
              by_cases h1 : 0 = 0 ∧ i < m
              · rw [if_pos h1, if_pos (by omega)]; ring
              · rw [if_neg h1, if_neg (by omega)]; ring
          · rw [if_neg (fun e : (i, 1) = (m, 0) => by simpa using (Prod.mk.inj e).2),
              if_neg (by omega : ¬ (1 = 0 ∧ i < m)), if_neg (by omega : ¬ (1 = 0 ∧ i < m + 1))]
            by_cases h : i = m + a.natDegree
            · subst h
              rw [if_neg (by omega), if_pos rfl, if_pos (by omega), Nat.add_sub_cancel]; ring
            · rw [if_neg (fun e => h (Prod.mk.inj e).1)]
              by_cases h1 : 1 = 1 ∧ a.natDegree ≤ i ∧ i < a.natDegree + m
              · rw [if_pos h1, if_pos (by omega)]; ring
              · rw [if_neg h1, if_neg (by omega)]; ring)
      exact this
    rw [write_add, write_add, l2, write_add, l1]
    unfold genG
    obtain rfl | rfl : k = 0 ∨ k = 1 := by omega
    · simp only [Prod.mk.injEq, and_true, true_and, if_true, zero_add, (by norm_num : (0 : Nat) ≠ 1), false_and, and_false, if_false]
      split_ifs <;> ring
    · simp only [Prod.mk.injEq, and_true, true_and, zero_add, (by norm_num : (1 : Nat) ≠ 0), false_and, and_false, if_false]
      ring
  · intro j
    unfold write
    constructor
    · rw [Function.update_of_ne (by simp)]
      by_cases h : j = b.natDegree - 1
      · rw [h, Function.update_self, if_pos rfl]
      · rw [Function.update_of_ne (by simpa using h), if_neg h]
    · by_cases h : j = a.natDegree + b.natDegree - 1
      · rw [h, Function.update_self, if_pos rfl]
      · rw [Function.update_of_ne (by simpa using h), Function.update_of_ne (by simp), if_neg h]

/-! ### Loops with a return value -/

theorem loopRet_inv {σ : Type} (P : Nat → σ → Prop) {f : Nat → σ → Out (Option σ)} {s : σ} :
    ∀ {k : Nat}, P 0 s → (∀ i t, i < k → P i t → ∃ u, f i t = .ok (some u) ∧ P (i + 1) u) → ∃ u, loopRet k f s = .ok (some u) ∧ P k u
  | 0, h0, _ => ⟨s, rfl, h0⟩
  | k + 1, h0, h => by
    obtain ⟨u, e, hu⟩ := loopRet_inv P (k := k) h0 fun i t hi => h i t (by omega)
    obtain ⟨w, ew, hw⟩ := h k u (by omega) hu
    exact ⟨w, by rw [loopRet, e]; exact ew, hw⟩

theorem loopRet_none {σ : Type} {f : Nat → σ → Out (Option σ)} {s : σ} {k : Nat} (hk : 0 < k) (h : ∀ i t, i < k → f i t = .ok none) :
    loopRet k f s = .ok none := by
  induction k with
  | zero => omega
  | succ k ih =>
    by_cases h0 : k = 0
    · subst h0
      exact h 0 s (by omega)
    · rw [loopRet, ih (by omega) fun i t hi => h i t (by omega)]
      rfl

/-! ### Existence of an extended gcd -/

theorem xgcd_exists : ∃ g : Xgcd p, XgcdOK g := by
  have key : ∀ a b : (ZMod p)[X], ∃ d s t : (ZMod p)[X], (a ≠ 0 → b ≠ 0 → d.Monic) ∧ d ∣ a ∧ d ∣ b ∧ s * a + t * b = d ∧
      (IsCoprime a b → 0 < a.natDegree → 0 < b.natDegree → s.degree < b.degree) ∧
      (IsCoprime a b → 0 < a.natDegree → 0 < b.natDegree → t.degree < a.degree) := by
    intro a b
    by_cases h : IsCoprime a b ∧ 0 < a.natDegree ∧ 0 < b.natDegree
    · obtain ⟨⟨s, t, e⟩, ha, hb⟩ := h
      have ha0 : a ≠ 0 := fun e => by simp [e] at ha
      have hb0 : b ≠ 0 := fun e => by simp [e] at hb
      have hs : (s % b).degree < b.degree := EuclideanDomain.mod_lt _ hb0
      have he : s % b * a + (t + s / b * a) * b = 1 := by
        have := EuclideanDomain.div_add_mod s b
        linear_combination e + a * this
      refine ⟨1, s % b, t + s / b * a, fun _ _ => monic_one, one_dvd _, one_dvd _, he, fun _ _ _ => hs, fun _ _ _ => ?_⟩
      have hd : ((t + s / b * a) * b).degree < a.degree + b.degree := by
        have : (t + s / b * a) * b = 1 - s % b * a := by linear_combination he
        rw [this]
        refine lt_of_le_of_lt (degree_sub_le _ _) (max_lt ?_ ?_)
        · rw [degree_one, degree_eq_natDegree ha0, degree_eq_natDegree hb0]
          exact_mod_cast (by omega : 0 < a.natDegree + b.natDegree)
        · rw [degree_mul, add_comm]
          exact WithBot.add_lt_add_left (by rw [degree_eq_natDegree ha0]; simp) hs
      rw [degree_mul] at hd
      exact lt_of_add_lt_add_right hd
    · refine ⟨normalize (EuclideanDomain.gcd a b), EuclideanDomain.gcdA a b * ↑(normUnit (EuclideanDomain.gcd a b)),
        EuclideanDomain.gcdB a b * ↑(normUnit (EuclideanDomain.gcd a b)), ?_, ?_, ?_, ?_, fun h1 h2 h3 => absurd ⟨h1, h2, h3⟩ h, fun h1 h2 h3 => absurd ⟨h1, h2, h3⟩ h⟩
      · intro ha _
        exact monic_normalize fun e => ha (EuclideanDomain.gcd_eq_zero_iff.1 e).1
      · exact normalize_dvd_iff.2 (EuclideanDomain.gcd_dvd_left a b)
      · exact normalize_dvd_iff.2 (EuclideanDomain.gcd_dvd_right a b)
      · rw [normalize_apply]
        conv_rhs => rw [EuclideanDomain.gcd_eq_gcd_ab a b]
        rw [EuclideanDomain.gcd_eq_gcd_ab a b]
        ring
  choose d s t h using key
  exact ⟨⟨d, s, t⟩, fun a b => (h a b).1, fun a b => (h a b).2.1, fun a b => (h a b).2.2.1, fun a b => (h a b).2.2.2.1,
    fun a b => (h a b).2.2.2.2.1, fun a b => (h a b).2.2.2.2.2⟩

end PML.Ntl.Struct
