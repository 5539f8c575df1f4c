import Verif.Model.LvdTable
import Verif.Lemmas.PolyCert
import Verif.Props.Scatter
import Mathlib.Analysis.Calculus.Deriv.MeanValue
import Mathlib.Analysis.Calculus.Deriv.Inv
import Mathlib.Analysis.Real.Pi.Bounds
import Mathlib.Topology.Algebra.Order.Field
/-!
C158: the elastic scattering factors of both parametrisations are positive, fall off with the scattering angle (Lobato-Van Dyck), and approach the
scattering by the bare nucleus at large angles, with the default tables and for every element.
-/
namespace Verif.Spec.Scatter
open Real

/-- The Bohr radius in Angstrom (CODATA 2018). -/
noncomputable def bohr : ℝ := 0.529177210903

/-- Scattering of fast electrons by a bare nucleus of charge `Z` in Born approximation (Rutherford; Mott-Bethe formula without the X-ray
scattering factor): `Z / (8 π² a₀ s²)` in Angstrom, `s` half the reciprocal length. -/
noncomputable def nucleus (Z s : ℝ) : ℝ := Z / (8 * π ^ 2 * bohr * s ^ 2)

end Verif.Spec.Scatter

namespace Verif.Scat
open Real Filter Verif.Spec.Scatter Verif.PolyCert
open scoped Topology

/-! ### Sums of fractions of integer polynomials -/

/-- common numerator and denominator -/
def comb : List (List ℤ × List ℤ) → List ℤ × List ℤ
  | [] => ([], [1])
  | t :: l => (add (mul t.1 (comb l).2) (mul t.2 (comb l).1), mul t.2 (comb l).2)

theorem comb_spec (l : List (List ℤ × List ℤ)) {x : ℝ} (h : ∀ t ∈ l, 0 < ev t.2 x) :
    0 < ev (comb l).2 x ∧ (l.map fun t => ev t.1 x / ev t.2 x).sum = ev (comb l).1 x / ev (comb l).2 x := by
  induction l with
  | nil => simp [comb, ev]
  | cons t l ih =>
    obtain ⟨h1, h2⟩ := ih fun s hs => h s (List.mem_cons_of_mem _ hs)
    have ht := h t List.mem_cons_self
    refine ⟨by simp only [comb, ev_mul]; positivity, ?_⟩
    rw [List.map_cons, List.sum_cons, h2]
    simp only [comb, ev_mul, ev_add]
    field_simp

/-- positive on the half line: a positive constant term and no negative coefficient -/
def posRay : List ℤ → Bool
  | [] => false
  | c :: cs => decide (0 < c) && cs.all fun c => decide (0 ≤ c)

theorem posRay_sound {p : List ℤ} (h : posRay p = true) {x : ℝ} (hx : 0 ≤ x) : 0 < ev p x := by
  cases p with
  | nil => simp [posRay] at h
  | cons c cs =>
    simp only [posRay, Bool.and_eq_true, decide_eq_true_eq, List.all_eq_true] at h
    have h1 := ev_nonneg cs h.2 hx
    have h2 : (0 : ℝ) < c := by exact_mod_cast h.1
    simp only [ev]
    have := mul_nonneg hx h1
    linarith

/-! ### The table -/

/-- `10 ^ 23` -/
def lvdK : ℤ := 100000000000000000000000

/-- the five pairs of a row -/
def lvdPairs (i : ℕ) : List (ℤ × ℤ) :=
  let r := lvdTable.getD i []
  [(r.getD 0 0, r.getD 5 0), (r.getD 1 0, r.getD 6 0), (r.getD 2 0, r.getD 7 0), (r.getD 3 0, r.getD 8 0), (r.getD 4 0, r.getD 9 0)]

/-- the terms of the form as fractions -/
def lvdTerms (i : ℕ) : List (List ℤ × List ℤ) :=
  (lvdPairs i).map fun t => ([t.1 * (2 * lvdK), t.1 * t.2], mul [lvdK, t.2] [lvdK, t.2])

/-- the terms of minus its derivative -/
def lvdSlopes (i : ℕ) : List (List ℤ × List ℤ) :=
  (lvdPairs i).map fun t => ([t.1 * t.2 * (3 * lvdK), t.1 * t.2 * t.2], mul [lvdK, t.2] (mul [lvdK, t.2] [lvdK, t.2]))

/-- the terms of the limit -/
def lvdLimits (i : ℕ) : List (List ℤ × List ℤ) := (lvdPairs i).map fun t => ([t.1], [t.2])

set_option maxRecDepth 100000 in
theorem lvd_checked : ∀ i < 102, ((lvdPairs i).all fun t => decide (0 < t.2)) = true ∧ posRay (comb (lvdTerms i)).1 = true ∧
    posRay (comb (lvdSlopes i)).1 = true := by decide +kernel

set_option maxRecDepth 100000 in
theorem lvd_limit_checked : ∀ i < 102, ((comb (lvdLimits i)).1.getD 0 0 * 10 ^ 16 - (i + 1 : ℕ) * 957346438760500 * (comb (lvdLimits i)).2.getD 0 0).natAbs ≤
    ((i + 1 : ℕ) * 1000 * (comb (lvdLimits i)).2.getD 0 0).natAbs ∧ (comb (lvdLimits i)).1.length = 1 ∧ (comb (lvdLimits i)).2.length = 1 := by
  decide +kernel

theorem lvdK_real : ((lvdK : ℤ) : ℝ) = 10 ^ 23 := by norm_num [lvdK]

theorem lvd_b_pos {i : ℕ} (hi : i < 102) (k : Fin 5) : 0 < (lvdRow i).b k := by
  have h := (lvd_checked i hi).1
  simp only [lvdPairs, List.all_cons, List.all_nil, Bool.and_eq_true, decide_eq_true_eq, and_true] at h
  obtain ⟨h0, h1, h2, h3, h4⟩ := h
  fin_cases k <;> simp only [lvdRow] <;> refine div_pos ?_ (by positivity)
  · exact_mod_cast h0
  · exact_mod_cast h1
  · exact_mod_cast h2
  · exact_mod_cast h3
  · exact_mod_cast h4

/-- the sum over the five pairs of a row -/
theorem lvd_sum (i : ℕ) (F : ℝ → ℝ → ℝ) (G : ℤ × ℤ → ℝ) (h : ∀ t : ℤ × ℤ, t ∈ lvdPairs i → F (t.1 / 10 ^ 23) (t.2 / 10 ^ 23) = G t) :
    ∑ k, F ((lvdRow i).a k) ((lvdRow i).b k) = ((lvdPairs i).map G).sum := by
  have e : ∑ k, F ((lvdRow i).a k) ((lvdRow i).b k) = ((lvdPairs i).map fun t => F (t.1 / 10 ^ 23) (t.2 / 10 ^ 23)).sum := by
    rw [Fin.sum_univ_five]
    simp only [lvdPairs, List.map_cons, List.map_nil, List.sum_cons, List.sum_nil, lvdRow]
    simp only [Fin.isValue, Fin.val_zero, Fin.val_one, Fin.val_two, Nat.reduceAdd]
    ring_nf
    rfl
  rw [e]
  congr 1
  exact List.map_congr_left h

theorem lvd_pair_pos {i : ℕ} (hi : i < 102) {t : ℤ × ℤ} (ht : t ∈ lvdPairs i) : (0 : ℝ) < t.2 := by
  have h := (lvd_checked i hi).1
  rw [List.all_eq_true] at h
  exact_mod_cast of_decide_eq_true (h t ht)

/-- the form as a function of the squared reciprocal length -/
noncomputable def lvdForm (i : ℕ) (x : ℝ) : ℝ := ∑ k, (lvdRow i).a k * (2 + (lvdRow i).b k * x) / (1 + (lvdRow i).b k * x) ^ 2

theorem evalLVD_form (i : ℕ) (s : ℝ) : evalLVD (lvdRow i) s = lvdForm i ((2 * s) ^ 2) := rfl

theorem lvdForm_pos {i : ℕ} (hi : i < 102) {x : ℝ} (hx : 0 ≤ x) : 0 < lvdForm i x := by
  have e : lvdForm i x = ((lvdTerms i).map fun t => ev t.1 x / ev t.2 x).sum := by
    unfold lvdForm lvdTerms
    rw [lvd_sum i (fun a b => a * (2 + b * x) / (1 + b * x) ^ 2)
      (fun t => ev [t.1 * (2 * lvdK), t.1 * t.2] x / ev (mul [lvdK, t.2] [lvdK, t.2]) x), List.map_map]
    · rfl
    · intro t ht
      have hb := lvd_pair_pos hi ht
      simp only [ev_mul, ev]
      push_cast
      rw [lvdK_real]
      have : 0 < 1 + (t.2 : ℝ) / 10 ^ 23 * x := by positivity
      have h2 : 0 < (10 : ℝ) ^ 23 + x * (t.2 + x * 0) := by rw [mul_zero, add_zero]; positivity
      rw [div_eq_div_iff (by positivity) (by positivity)]
      ring
  have hq : ∀ t ∈ lvdTerms i, 0 < ev t.2 x := by
    intro t ht
    simp only [lvdTerms, List.mem_map] at ht
    obtain ⟨t, ht, rfl⟩ := ht
    have hb := lvd_pair_pos hi ht
    simp only [ev_mul, ev]
    rw [lvdK_real, mul_zero, add_zero]
    positivity
  obtain ⟨h1, h2⟩ := comb_spec _ hq
  rw [e, h2]
  exact div_pos (posRay_sound (lvd_checked i hi).2.1 hx) h1

theorem lvdForm_der {i : ℕ} (hi : i < 102) {x : ℝ} (hx : 0 ≤ x) :
    HasDerivAt (lvdForm i) (-∑ k, (lvdRow i).a k * (lvdRow i).b k * (3 + (lvdRow i).b k * x) / (1 + (lvdRow i).b k * x) ^ 3) x := by
  rw [← Finset.sum_neg_distrib]
  have := HasDerivAt.fun_sum (u := Finset.univ) (x := x)
    (A := fun (k : Fin 5) (y : ℝ) => (lvdRow i).a k * (2 + (lvdRow i).b k * y) / (1 + (lvdRow i).b k * y) ^ 2)
    (A' := fun k => -((lvdRow i).a k * (lvdRow i).b k * (3 + (lvdRow i).b k * x) / (1 + (lvdRow i).b k * x) ^ 3)) (fun k _ => by
      have hb := lvd_b_pos hi k
      generalize (lvdRow i).b k = b at *
      generalize (lvdRow i).a k = a at *
      have hp : 0 < 1 + b * x := by positivity
      have h1 : HasDerivAt (fun y => a * (2 + b * y)) (a * (b * 1)) x := (((hasDerivAt_id x).const_mul b).const_add 2).const_mul a
      have h2 : HasDerivAt (fun y => (1 + b * y) ^ 2) (2 * (1 + b * x) ^ 1 * (b * 1)) x := by
        have := ((((hasDerivAt_id x).const_mul b).const_add 1).fun_pow 2)
        exact this
      refine HasDerivAt.congr_deriv (h1.fun_div h2 (by positivity)) ?_
      field_simp
      ring)
  exact this

theorem lvdForm_anti {i : ℕ} (hi : i < 102) : StrictAntiOn (lvdForm i) (Set.Ici 0) := by
  refine strictAntiOn_of_deriv_neg (convex_Ici 0) (fun x hx => (lvdForm_der hi hx).continuousAt.continuousWithinAt) fun x hx => ?_
  rw [interior_Ici] at hx
  have hx : 0 ≤ x := le_of_lt hx
  rw [(lvdForm_der hi hx).deriv, neg_lt_zero]
  have e : ∑ k, (lvdRow i).a k * (lvdRow i).b k * (3 + (lvdRow i).b k * x) / (1 + (lvdRow i).b k * x) ^ 3 =
      ((lvdSlopes i).map fun t => ev t.1 x / ev t.2 x).sum := by
    unfold lvdSlopes
    rw [lvd_sum i (fun a b => a * b * (3 + b * x) / (1 + b * x) ^ 3)
      (fun t => ev [t.1 * t.2 * (3 * lvdK), t.1 * t.2 * t.2] x / ev (mul [lvdK, t.2] (mul [lvdK, t.2] [lvdK, t.2])) x), List.map_map]
    · rfl
    · intro t ht
      have hb := lvd_pair_pos hi ht
      simp only [ev_mul, ev]
      push_cast
      rw [lvdK_real]
      have : 0 < 1 + (t.2 : ℝ) / 10 ^ 23 * x := by positivity
      have h2 : 0 < (10 : ℝ) ^ 23 + x * (t.2 + x * 0) := by rw [mul_zero, add_zero]; positivity
      rw [div_eq_div_iff (by positivity) (by positivity)]
      ring
  have hq : ∀ t ∈ lvdSlopes i, 0 < ev t.2 x := by
    intro t ht
    simp only [lvdSlopes, List.mem_map] at ht
    obtain ⟨t, ht, rfl⟩ := ht
    have hb := lvd_pair_pos hi ht
    simp only [ev_mul, ev]
    rw [lvdK_real, mul_zero, add_zero]
    positivity
  obtain ⟨h1, h2⟩ := comb_spec _ hq
  rw [e, h2]
  exact div_pos (posRay_sound (lvd_checked i hi).2.2 hx) h1

theorem term_limit (a : ℝ) {b : ℝ} (hb : 0 < b) : Tendsto (fun x : ℝ => x * (a * (2 + b * x) / (1 + b * x) ^ 2)) atTop (𝓝 (a / b)) := by
  have h0 : Tendsto (fun x : ℝ => x⁻¹) atTop (𝓝 0) := tendsto_inv_atTop_zero
  have h1 : Tendsto (fun x : ℝ => a * (2 * x⁻¹ + b) / (x⁻¹ + b) ^ 2) atTop (𝓝 (a * (2 * 0 + b) / (0 + b) ^ 2)) :=
    (((h0.const_mul 2).add_const b).const_mul a).div ((h0.add_const b).pow 2) (by positivity)
  have e : a * (2 * 0 + b) / (0 + b) ^ 2 = a / b := by field_simp; ring
  rw [e] at h1
  refine h1.congr' ?_
  filter_upwards [eventually_gt_atTop 0] with x hx
  have hp : 0 < 1 + b * x := by positivity
  have hp2 : 0 < x⁻¹ + b := by positivity
  field_simp

/-- the limit of the form times the squared reciprocal length -/
theorem lvdForm_limit {i : ℕ} (hi : i < 102) :
    Tendsto (fun x => x * lvdForm i x) atTop (𝓝 (∑ k, (lvdRow i).a k / (lvdRow i).b k)) ∧
    |∑ k, (lvdRow i).a k / (lvdRow i).b k - (i + 1) * 0.09573464387605| ≤ (i + 1) * 1e-13 := by
  constructor
  · have := tendsto_finsetSum (Finset.univ : Finset (Fin 5)) (fun k _ => term_limit ((lvdRow i).a k) (lvd_b_pos hi k))
    refine this.congr fun x => ?_
    rw [lvdForm, Finset.mul_sum]
  · have e : ∑ k, (lvdRow i).a k / (lvdRow i).b k = ((lvdLimits i).map fun t => ev t.1 0 / ev t.2 0).sum := by
      unfold lvdLimits
      rw [lvd_sum i (fun a b => a / b) (fun t => ev [t.1] 0 / ev [t.2] 0), List.map_map]
      · rfl
      · intro t ht
        have hb := lvd_pair_pos hi ht
        simp only [ev]
        field_simp
        ring
    have hq : ∀ t ∈ lvdLimits i, 0 < ev t.2 (0 : ℝ) := by
      intro t ht
      simp only [lvdLimits, List.mem_map] at ht
      obtain ⟨t, ht, rfl⟩ := ht
      have hb := lvd_pair_pos hi ht
      simp only [ev]
      linarith
    obtain ⟨h1, h2⟩ := comb_spec _ hq
    obtain ⟨c1, c2, c3⟩ := lvd_limit_checked i hi
    rw [e, h2]
    generalize (comb (lvdLimits i)).1 = p at *
    generalize (comb (lvdLimits i)).2 = q at *
    obtain ⟨n, rfl⟩ := List.length_eq_one_iff.mp c2
    obtain ⟨d, rfl⟩ := List.length_eq_one_iff.mp c3
    simp only [ev, zero_mul, add_zero, List.getD_cons_zero] at *
    have hd : 0 < d := by exact_mod_cast h1
    have c : |n * 10 ^ 16 - ((i + 1 : ℕ) : ℤ) * 957346438760500 * d| ≤ ((i + 1 : ℕ) : ℤ) * 1000 * d := by
      have h5 : 0 ≤ ((i + 1 : ℕ) : ℤ) * 1000 * d := by positivity
      rw [Int.abs_eq_natAbs, ← Int.natAbs_of_nonneg h5]
      exact_mod_cast c1
    have c' : abs ((n : ℝ) * 10 ^ 16 - ((i : ℝ) + 1) * 957346438760500 * (d : ℝ)) ≤ ((i : ℝ) + 1) * 1000 * (d : ℝ) := by
      have h6 : ((|n * 10 ^ 16 - ((i + 1 : ℕ) : ℤ) * 957346438760500 * d| : ℤ) : ℝ) ≤ ((((i + 1 : ℕ) : ℤ) * 1000 * d : ℤ) : ℝ) := Int.cast_le.mpr c
      rw [Int.cast_abs] at h6
      push_cast at h6
      norm_num at h6 ⊢
      exact h6
    rw [abs_le] at c'
    rw [abs_le, ← sub_nonneg, ← sub_nonneg (b := (n : ℝ) / d - _)]
    have e1 : (n : ℝ) / d * d = n := by field_simp
    constructor <;> refine nonneg_of_mul_nonneg_left (b := (d : ℝ)) ?_ h1 <;> norm_num at * <;> nlinarith [c'.1, c'.2]

theorem pi_sq : (9.86960440108 : ℝ) ≤ π ^ 2 ∧ π ^ 2 ≤ 9.8696044011 := by
  have h1 := Real.pi_gt_d20
  have h2 := Real.pi_lt_d20
  constructor <;> norm_num at * <;> nlinarith

theorem nucleus_const : |0.09573464387605 / 4 * (8 * π ^ 2 * bohr) - 1| ≤ 5e-10 := by
  obtain ⟨h1, h2⟩ := pi_sq
  rw [abs_le]
  unfold bohr
  constructor <;> norm_num at * <;> linarith

theorem rowOf_lvd {n : ℕ} {Z : ℤ} (h1 : 1 ≤ Z) (h2 : Z ≤ n) : rowOf n Z = some (Z - 1).toNat := by
  unfold rowOf
  rw [if_pos ⟨by omega, by omega⟩]

/-- everything about the form of one element, as a function of the reciprocal length `g` -/
theorem lvd_facts (Z : ℤ) (h1 : 1 ≤ Z) (h2 : Z ≤ 102) :
    (∀ g : ℝ, 0 < evalLVD (lvdRow (Z - 1).toNat) (g / 2)) ∧
    StrictAntiOn (fun g => evalLVD (lvdRow (Z - 1).toNat) (g / 2)) (Set.Ici 0) ∧
    ∃ c : ℝ, |c - 1| ≤ 1e-9 ∧ Tendsto (fun g => evalLVD (lvdRow (Z - 1).toNat) (g / 2) / nucleus Z (g / 2)) atTop (𝓝 c) := by
  have hi : (Z - 1).toNat < 102 := by omega
  have e : ∀ g : ℝ, evalLVD (lvdRow (Z - 1).toNat) (g / 2) = lvdForm (Z - 1).toNat (g ^ 2) := by
    intro g; rw [evalLVD_form]; congr 1; ring
  have hZ : (((Z - 1).toNat : ℕ) : ℝ) + 1 = Z := by
    have : (((Z - 1).toNat : ℕ) : ℤ) = Z - 1 := Int.toNat_of_nonneg (by omega)
    have h3 : (((Z - 1).toNat : ℕ) : ℝ) = ((Z - 1 : ℤ) : ℝ) := by exact_mod_cast this
    rw [h3]; push_cast; ring
  have hZp : (1 : ℝ) ≤ Z := by exact_mod_cast h1
  refine ⟨fun g => by rw [e]; exact lvdForm_pos hi (sq_nonneg g), fun a ha b hb hab => ?_, ?_⟩
  · simp only [e]
    have ha' : (0 : ℝ) ≤ a := ha
    exact lvdForm_anti hi (sq_nonneg a) (sq_nonneg b) (by nlinarith)
  · obtain ⟨l1, l2⟩ := lvdForm_limit hi
    generalize ∑ k, (lvdRow (Z - 1).toNat).a k / (lvdRow (Z - 1).toNat).b k = L at *
    rw [hZ] at l2
    refine ⟨L * (8 * π ^ 2 * bohr) / (4 * Z), ?_, ?_⟩
    · have hc := nucleus_const
      obtain ⟨p1, p2⟩ := pi_sq
      have hk0 : 0 ≤ 8 * π ^ 2 * bohr := by unfold bohr; positivity
      have hk : 8 * π ^ 2 * bohr ≤ 42 := by unfold bohr; norm_num at *; linarith
      generalize 8 * π ^ 2 * bohr = K at *
      have e2 : L * K / (4 * Z) - 1 = (L - Z * 0.09573464387605) * (K / (4 * Z)) + (0.09573464387605 / 4 * K - 1) := by
        field_simp
        ring
      have h5 : |(L - Z * 0.09573464387605) * (K / (4 * Z))| ≤ 1e-11 := by
        rw [abs_mul, abs_of_nonneg (by positivity : 0 ≤ K / (4 * (Z : ℝ)))]
        have := mul_le_mul_of_nonneg_right l2 (by positivity : 0 ≤ K / (4 * (Z : ℝ)))
        refine this.trans ?_
        have e3 : (Z : ℝ) * 1e-13 * (K / (4 * Z)) = K * (1e-13 / 4) := by field_simp
        rw [e3]
        norm_num at *
        linarith
      rw [e2]
      refine (abs_add_le _ _).trans ?_
      norm_num at *
      linarith
    · have h3 : Tendsto (fun g : ℝ => g ^ 2) atTop atTop := tendsto_pow_atTop (by norm_num)
      have h4 := (l1.comp h3).mul_const ((8 * π ^ 2 * bohr) / (4 * Z))
      rw [← mul_div_assoc] at h4
      refine h4.congr' ?_
      filter_upwards [eventually_gt_atTop 0] with g hg
      rw [e]
      unfold nucleus
      simp only [Function.comp]
      have hb : 0 < bohr := by unfold bohr; norm_num
      have hp := Real.pi_pos
      field_simp
      ring

/-- C158, `scatter_factor_LVD`: for every element 1-102 the scattering factor (convention "ITC") is positive at every reciprocal length, strictly
decreasing with its magnitude, and at large reciprocal lengths that of the bare nucleus, up to one part in `10^9`. -/
theorem C158_lvd (Z : ℤ) (h1 : 1 ≤ Z) (h2 : Z ≤ 102) (σ : ℝ) (V : List ℝ) (n : ℕ) (r : ℝ × ℝ) (smp : String) (base eps : ℝ) :
    ∃ f : ℝ → ℝ, (∀ g, ∃ out, scatterLVD lvdRow "ITC" [g] [Z] [σ] V n r smp base eps = some out ∧ out.nV = 1 ∧ out.nZ = 1 ∧ out.nG = 1 ∧
        (out.at_ 0 0 0).re = f g ∧ (out.at_ 0 0 0).im = some 0) ∧
      (∀ g, 0 < f g) ∧ (∀ g, f (-g) = f g) ∧ StrictAntiOn f (Set.Ici 0) ∧
      ∃ c : ℝ, |c - 1| ≤ 1e-9 ∧ Tendsto (fun g => f g / nucleus Z (g / 2)) atTop (𝓝 c) := by
  obtain ⟨a, b, c⟩ := lvd_facts Z h1 h2
  refine ⟨_, fun g => ?_, a, fun g => ?_, b, c⟩
  · unfold scatterLVD
    have r1 := rowOf_lvd (n := 102) h1 (by exact_mod_cast h2)
    refine ⟨_, by rw [if_neg (by simp [r1]), if_neg (by simp)]; simp only [if_true]; rfl, rfl, rfl, rfl, ?_, rfl⟩
    simp only [List.getD_cons_zero, r1, Option.getD_some]
  · simp only [evalLVD]
    refine Finset.sum_congr rfl fun k _ => ?_
    ring

/-- C158, `scatter_factor_hybrid`: the same for elements 1-98. -/
theorem C158_hybrid (T : ℕ → Fit) (core phonon : Bool) (Z : ℤ) (h1 : 1 ≤ Z) (h2 : Z ≤ 98) (σ V : ℝ) :
    ∃ f : ℝ → ℝ, (∀ g, ∃ out, scatterHybrid T lvdRow core phonon "ITC" [g] [Z] [σ] [V] = some out ∧ out.nV = 1 ∧ out.nZ = 1 ∧ out.nG = 1 ∧
        (out.at_ 0 0 0).re = f g ∧ (out.at_ 0 0 0).im = some 0) ∧
      (∀ g, ∃ out, scatterHybrid T lvdRow core phonon "EMsoft" [g] [Z] [σ] [V] = some out ∧
        (out.at_ 0 0 0).re = f g * debyeWaller σ (2 * π * g) * massRatio V) ∧
      (∀ g, 0 < f g) ∧ (∀ g, f (-g) = f g) ∧ StrictAntiOn f (Set.Ici 0) ∧
      ∃ c : ℝ, |c - 1| ≤ 1e-9 ∧ Tendsto (fun g => f g / nucleus Z (g / 2)) atTop (𝓝 c) := by
  obtain ⟨a, b, c⟩ := lvd_facts Z h1 (by omega)
  have r1 := rowOf_lvd (n := 98) h1 (by exact_mod_cast h2)
  have r2 := rowOf_lvd (n := 102) h1 (by push_cast; omega)
  refine ⟨_, fun g => ?_, fun g => ?_, a, fun g => ?_, b, c⟩
  · unfold scatterHybrid
    refine ⟨_, by rw [if_neg (by simp [r1]), if_neg (by simp), if_neg (by simp)], rfl, rfl, rfl, ?_, ?_⟩ <;>
      simp only [hybridEntry, List.getD_cons_zero, r2, Option.getD_some] <;> rw [if_neg (by decide)]
  · unfold scatterHybrid
    refine ⟨_, by rw [if_neg (by simp [r1]), if_neg (by simp), if_neg (by simp)], ?_⟩
    simp only [hybridEntry, List.getD_cons_zero, r2, Option.getD_some, if_true]
    unfold debyeWaller massRatio
    have e1 : -0.5 * σ ^ 2 * (g * 2 * π) ^ 2 = -(σ ^ 2 * (2 * π * g) ^ 2 / 2) := by norm_num; ring
    have e2 : (V + 511) / 511 = 1 + V / 511 := by ring
    rw [e1, e2]
  · simp only [evalLVD]
    refine Finset.sum_congr rfl fun k _ => ?_
    ring

/-! ### Weickenmeier-Kohl -/

theorem wk_sums : ∀ i < 98, ((wkA.getD i []).getD 0 0 + (wkA.getD i []).getD 1 0 + (wkA.getD i []).getD 2 0 + (wkA.getD i []).getD 3 0 =
    (i + 1 : ℕ) * 2395) ∧ (∀ k < 4, 0 < (wkB.getD i []).getD k 0) := by decide +kernel

/-- C158, `scatter_factor_WK`: for every element 1-98 the real part (convention "ITC") is, from some reciprocal length on, that of the bare
nucleus, to seven parts in ten thousand. -/
theorem C158_wk (core phonon : Bool) (Z : ℤ) (h1 : 1 ≤ Z) (h2 : Z ≤ 98) (σ V : ℝ) :
    ∃ g0 : ℝ, ∀ g, g0 ≤ g → ∃ out, scatterWK wkRow core phonon "ITC" [g] [Z] [σ] [V] = some out ∧ 0 < (out.at_ 0 0 0).re ∧
      |(out.at_ 0 0 0).re - nucleus Z (g / 2)| ≤ 7e-4 * nucleus Z (g / 2) := by
  have hi : (Z - 1).toNat < 98 := by omega
  have r1 := rowOf_lvd (n := 98) h1 (by exact_mod_cast h2)
  obtain ⟨hs, hb⟩ := wk_sums _ hi
  have hZ : (((Z - 1).toNat : ℕ) : ℝ) + 1 = Z := by
    have : (((Z - 1).toNat : ℕ) : ℤ) = Z - 1 := Int.toNat_of_nonneg (by omega)
    have h3 : (((Z - 1).toNat : ℕ) : ℝ) = ((Z - 1 : ℤ) : ℝ) := by exact_mod_cast this
    rw [h3]; push_cast; ring
  have hZp : (1 : ℝ) ≤ Z := by exact_mod_cast h1
  have hA : ∑ k, (wkRow (Z - 1).toNat).A k = Z * 0.02395 := by
    rw [Fin.sum_univ_four, ← hZ]
    have h4 := congrArg (fun n : ℤ => (n : ℝ)) hs
    push_cast at h4
    simp only [wkRow, Fin.isValue, Fin.coe_ofNat_eq_mod, Nat.reduceMod]
    norm_num at *
    linarith
  have hB : ∀ k, 0 < (wkRow (Z - 1).toNat).B k := fun k => by
    simp only [wkRow]
    exact div_pos (by exact_mod_cast hb k k.2) (by norm_num)
  obtain ⟨m, hm, hmB⟩ : ∃ m : ℝ, 0 < m ∧ ∀ k, m ≤ (wkRow (Z - 1).toNat).B k := by
    refine ⟨Finset.univ.inf' Finset.univ_nonempty (wkRow (Z - 1).toNat).B, ?_, fun k => Finset.inf'_le _ (Finset.mem_univ k)⟩
    rw [Finset.lt_inf'_iff]
    exact fun k _ => hB k
  refine ⟨2 * (1 + 21 / m), fun g hg => ⟨_, by unfold scatterWK; rw [if_neg (by simp [r1]), if_neg (by simp)], ?_⟩⟩
  have hg1 : 1 + 21 / m ≤ g / 2 := by linarith
  have hq : 0 < 21 / m := by positivity
  have hg2 : 0 < g / 2 := by linarith
  have hbig : ∀ k, 20 < (wkRow (Z - 1).toNat).B k * (g / 2) ^ 2 := by
    intro k
    have h5 : 21 / m ≤ (g / 2) ^ 2 := by nlinarith
    have h6 : m * (21 / m) = 21 := by field_simp
    nlinarith [hmB k, mul_le_mul_of_nonneg_left h5 hm.le, sq_nonneg (g / 2)]
  have hre : (wkEntry wkRow core phonon "ITC" ([g].getD 0 0) ([Z].getD 0 0) ([σ].getD 0 0) ([V].getD 0 0)).re = Z * 0.02395 / (g / 2) ^ 2 := by
    simp only [wkEntry, List.getD_cons_zero, r1, Option.getD_some, if_true]
    rw [if_neg (by decide)]
    simp only [fReal]
    rw [← hA, Finset.sum_div]
    refine Finset.sum_congr rfl fun k _ => ?_
    have := hbig k
    unfold wkTerm
    simp only
    rw [if_neg (not_lt.mpr ((by norm_num : (0.1 : ℝ) ≤ 20).trans this.le)), if_neg (not_le.mpr this)]
  simp only [hre]
  refine ⟨by positivity, ?_⟩
  have hc : |0.02395 * (8 * π ^ 2 * bohr) - 1| ≤ 7e-4 := by
    obtain ⟨p1, p2⟩ := pi_sq
    unfold bohr
    rw [abs_le]
    constructor <;> norm_num at * <;> linarith
  have hK : 0 < 8 * π ^ 2 * bohr := by unfold bohr; have := Real.pi_pos; positivity
  unfold nucleus
  generalize 8 * π ^ 2 * bohr = K at *
  generalize g / 2 = s at *
  have e : (Z : ℝ) * 0.02395 / s ^ 2 - Z / (K * s ^ 2) = (0.02395 * K - 1) * (Z / (K * s ^ 2)) := by field_simp
  rw [e, abs_mul, abs_of_pos (by positivity : 0 < (Z : ℝ) / (K * s ^ 2))]
  exact mul_le_mul_of_nonneg_right hc (by positivity)

theorem wk_zero (A B : ℝ) : wkTerm A B 0 = A * B := by
  unfold wkTerm
  simp only
  rw [if_pos (by norm_num)]
  ring

set_option maxRecDepth 100000 in
theorem forward_checked : ∀ i < 98,
    let w := (wkA.getD i []).getD 0 0 * (wkB.getD i []).getD 0 0 + (wkA.getD i []).getD 1 0 * (wkB.getD i []).getD 1 0 +
      (wkA.getD i []).getD 2 0 * (wkB.getD i []).getD 2 0 + (wkA.getD i []).getD 3 0 * (wkB.getD i []).getD 3 0
    let l := 2 * ((lvdTable.getD i []).getD 0 0 + (lvdTable.getD i []).getD 1 0 + (lvdTable.getD i []).getD 2 0 + (lvdTable.getD i []).getD 3 0 +
      (lvdTable.getD i []).getD 4 0)
    93 * l ≤ 100 * (w * 10 ^ 13) ∧ 100 * (w * 10 ^ 13) ≤ 111 * l := by decide +kernel

/-- C158: in the forward direction the two independent tables agree to 11 % for every element 1-98. -/
theorem C158_forward (core phonon : Bool) (Z : ℤ) (h1 : 1 ≤ Z) (h2 : Z ≤ 98) (σ V : ℝ) (V' : List ℝ) (n : ℕ) (r : ℝ × ℝ) (smp : String)
    (base eps : ℝ) : ∃ a b, scatterWK wkRow core phonon "ITC" [0] [Z] [σ] [V] = some a ∧
      scatterLVD lvdRow "ITC" [0] [Z] [σ] V' n r smp base eps = some b ∧
      0.93 * (b.at_ 0 0 0).re ≤ (a.at_ 0 0 0).re ∧ (a.at_ 0 0 0).re ≤ 1.11 * (b.at_ 0 0 0).re := by
  have hi : (Z - 1).toNat < 98 := by omega
  have r1 := rowOf_lvd (n := 98) h1 (by exact_mod_cast h2)
  have r2 := rowOf_lvd (n := 102) h1 (by push_cast; omega)
  refine ⟨_, _, by unfold scatterWK; rw [if_neg (by simp [r1]), if_neg (by simp)],
    by unfold scatterLVD; rw [if_neg (by simp [r2]), if_neg (by simp)]; simp only [if_true]; rfl, ?_⟩
  have hne : ¬ ("ITC" = "EMsoft") := by decide
  simp only [wkEntry, List.getD_cons_zero, r1, r2, Option.getD_some, if_true, if_neg hne, zero_div, fReal, evalLVD, wk_zero]
  obtain ⟨c1, c2⟩ := forward_checked _ hi
  have hl : ∑ k, (lvdRow (Z - 1).toNat).a k * (2 + (lvdRow (Z - 1).toNat).b k * (2 * 0) ^ 2) / (1 + (lvdRow (Z - 1).toNat).b k * (2 * 0) ^ 2) ^ 2 =
      ∑ k, 2 * (lvdRow (Z - 1).toNat).a k := Finset.sum_congr rfl fun k _ => by ring
  rw [hl, Fin.sum_univ_four, Fin.sum_univ_five]
  have d1 := (Int.cast_le (R := ℝ)).mpr c1
  have d2 := (Int.cast_le (R := ℝ)).mpr c2
  push_cast at d1 d2
  simp only [wkRow, lvdRow, Fin.isValue, Fin.coe_ofNat_eq_mod, Nat.reduceMod]
  constructor <;> norm_num at * <;> linarith

example : ∃ out, scatterWK wkRow true true "ITC" [1000] [26] [0.05] [20] = some out :=
  ⟨_, by unfold scatterWK; rw [if_neg (by simp [rowOf]), if_neg (by simp)]⟩

end Verif.Scat
