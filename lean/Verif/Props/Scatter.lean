import Verif.Model.Scatter
import Verif.Spec.Scatter
import Mathlib.Analysis.SpecialFunctions.Exp
import Mathlib.Analysis.Complex.ExponentialBounds
import Mathlib.Tactic.Linarith
import Mathlib.Tactic.FieldSimp
import Mathlib.Tactic.NormNum
import Mathlib.Tactic.FinCases
import Mathlib.Algebra.BigOperators.Field
/-!
C109: the real part of the scattering factors.  C110: absorption at zero scattering.
-/
namespace Verif.Scat
open Real Verif.Spec.Scatter

/-- `1 - e^{-x}` in the unit of the code: the piecewise replacement. -/
private noncomputable def kx (x : ℝ) : ℝ := if x < 0.1 then x * (1 - 0.5 * x) else if x ≤ 20 then 1 - exp (-x) else 1

private lemma one_sub_exp_nonneg {x : ℝ} (hx : 0 ≤ x) : 0 ≤ 1 - exp (-x) := by
  have := exp_le_one_iff.mpr (neg_nonpos.mpr hx)
  linarith

private lemma exp_neg_twenty : exp (-20) < 1e-6 := by
  have h : exp (-20) = (exp 1)⁻¹ ^ 20 := by
    rw [← exp_neg, ← exp_nat_mul]; norm_num
  have he : (exp 1)⁻¹ < 1 / 2 := by
    rw [inv_eq_one_div]
    have := exp_one_gt_d9
    exact one_div_lt_one_div_of_lt (by norm_num) (by linarith)
  rw [h]
  calc (exp 1)⁻¹ ^ 20 < (1 / 2) ^ 20 := pow_lt_pow_left₀ he (by positivity) (by norm_num)
    _ < 1e-6 := by norm_num

private lemma kx_bound {x : ℝ} (hx : 0 ≤ x) : |kx x - (1 - exp (-x))| ≤ 0.0019 * (1 - exp (-x)) := by
  unfold kx
  by_cases h1 : x < 0.1
  · rw [if_pos h1]
    have hb := Real.exp_bound (x := -x) (by rw [abs_neg, abs_of_nonneg hx]; linarith) (n := 4) (by norm_num)
    rw [abs_neg, abs_of_nonneg hx] at hb
    simp only [Finset.sum_range_succ, Finset.sum_range_zero] at hb
    norm_num [Nat.factorial] at hb
    rw [abs_le] at hb ⊢
    have hx2 : x ^ 2 ≤ 0.1 * x := by nlinarith
    have hx3 : x ^ 3 ≤ 0.01 * x := by nlinarith [sq_nonneg x]
    have hx4 : x ^ 4 ≤ 0.001 * x := by
      calc x ^ 4 = x ^ 3 * x := by ring
        _ ≤ (0.01 * x) * 0.1 := by
            apply mul_le_mul hx3 h1.le hx (by linarith)
        _ = 0.001 * x := by ring
    have hp3 : 0 ≤ x ^ 3 := by positivity
    have hp2 : 0 ≤ x ^ 2 := by positivity
    have hp4 : 0 ≤ x ^ 4 := by positivity
    constructor <;> nlinarith
  · rw [if_neg h1]
    have h0 := one_sub_exp_nonneg hx
    by_cases h2 : x ≤ 20
    · rw [if_pos h2, sub_self, abs_zero]; positivity
    · rw [if_neg h2]
      have h3 : exp (-x) ≤ exp (-20) := exp_le_exp.mpr (by linarith)
      have h4 := exp_neg_twenty
      have h5 := exp_pos (-x)
      rw [abs_of_nonneg (by linarith)]
      linarith

private lemma wkTerm_eq (A B : ℝ) {S : ℝ} (hS : S ≠ 0) : wkTerm A B S = A * kx (B * S ^ 2) / S ^ 2 := by
  unfold wkTerm kx
  have := pow_ne_zero 2 hS
  dsimp only
  by_cases h1 : B * S ^ 2 < 0.1
  · rw [if_pos h1, if_pos h1]; field_simp
  · rw [if_neg h1, if_neg h1]
    by_cases h2 : B * S ^ 2 ≤ 20
    · rw [if_pos h2, if_pos h2]
    · rw [if_neg h2, if_neg h2, mul_one]

private lemma wkTerm_zero (A B : ℝ) : wkTerm A B 0 = A * B := by
  unfold wkTerm
  norm_num

/-- The relative error carries over to sums with non-negative weights. -/
private lemma fReal_pos_weights {f : Fit} (hA : ∀ k, 0 < f.A k) (hB : ∀ k, 0 < f.B k) (S : ℝ) :
    0 < wkExact f.A f.B S ∧ |fReal f S - wkExact f.A f.B S| ≤ 0.0019 * wkExact f.A f.B S := by
  unfold fReal wkExact
  by_cases hS : S = 0
  · subst hS
    rw [if_pos rfl]
    simp only [wkTerm_zero, sub_self, abs_zero]
    have : 0 < ∑ k, f.A k * f.B k := Finset.sum_pos (fun k _ => mul_pos (hA k) (hB k)) ⟨0, Finset.mem_univ _⟩
    exact ⟨this, by positivity⟩
  · rw [if_neg hS]
    have hS2 : 0 < S ^ 2 := by positivity
    constructor
    · apply div_pos _ hS2
      refine Finset.sum_pos (fun k _ => mul_pos (hA k) ?_) ⟨0, Finset.mem_univ _⟩
      have := exp_lt_one_iff.mpr (neg_neg_of_pos (mul_pos (hB k) hS2))
      linarith
    · simp only [wkTerm_eq _ _ hS]
      rw [← Finset.sum_div, ← sub_div, abs_div, abs_of_pos hS2, ← mul_div_assoc]
      apply div_le_div_of_nonneg_right _ hS2.le
      rw [← Finset.sum_sub_distrib, Finset.mul_sum]
      refine (Finset.abs_sum_le_sum_abs _ _).trans (Finset.sum_le_sum fun k _ => ?_)
      rw [← mul_sub, abs_mul, abs_of_pos (hA k)]
      have := kx_bound (mul_nonneg (hB k).le hS2.le)
      calc f.A k * |kx (f.B k * S ^ 2) - (1 - exp (-(f.B k * S ^ 2)))|
          ≤ f.A k * (0.0019 * (1 - exp (-(f.B k * S ^ 2)))) := mul_le_mul_of_nonneg_left this (hA k).le
        _ = _ := by ring

private lemma helium (S : ℝ) :
    0 < wkExact (wkRow 1).A (wkRow 1).B S ∧
      |fReal (wkRow 1) S - wkExact (wkRow 1).A (wkRow 1).B S| ≤ 0.0055 * wkExact (wkRow 1).A (wkRow 1).B S := by
  have hA : (wkRow 1).A = ![0.01217, 0.02616, -0.00884, 0.01841] := by
    funext k; fin_cases k <;> simp [wkRow, wkA] <;> norm_num
  have hB : (wkRow 1).B = ![1.83008, 7.20225, 16.13585, 18.75551] := by
    funext k; fin_cases k <;> simp [wkRow, wkB] <;> norm_num
  unfold fReal wkExact
  rw [hA, hB]
  by_cases hS : S = 0
  · subst hS
    rw [if_pos rfl]
    simp only [wkTerm_zero, sub_self, abs_zero, Fin.sum_univ_four, Matrix.cons_val_zero, Matrix.cons_val_one, Matrix.cons_val]
    norm_num
  · rw [if_neg hS]
    have hS2 : 0 < S ^ 2 := by positivity
    simp only [wkTerm_eq _ _ hS]
    rw [← Finset.sum_div, ← sub_div, abs_div, abs_of_pos hS2, ← mul_div_assoc]
    simp only [Fin.sum_univ_four, Matrix.cons_val_zero, Matrix.cons_val_one, Matrix.cons_val]
    have k1 := kx_bound (mul_nonneg (by norm_num : (0 : ℝ) ≤ 1.83008) hS2.le)
    have k2 := kx_bound (mul_nonneg (by norm_num : (0 : ℝ) ≤ 7.20225) hS2.le)
    have k3 := kx_bound (mul_nonneg (by norm_num : (0 : ℝ) ≤ 16.13585) hS2.le)
    have k4 := kx_bound (mul_nonneg (by norm_num : (0 : ℝ) ≤ 18.75551) hS2.le)
    have p1 : 0 < 1 - exp (-(1.83008 * S ^ 2)) := by
      have := exp_lt_one_iff.mpr (neg_neg_of_pos (mul_pos (by norm_num : (0 : ℝ) < 1.83008) hS2)); linarith
    have p2 := one_sub_exp_nonneg (mul_nonneg (by norm_num : (0 : ℝ) ≤ 7.20225) hS2.le)
    have p3 := one_sub_exp_nonneg (mul_nonneg (by norm_num : (0 : ℝ) ≤ 16.13585) hS2.le)
    have m : exp (-(18.75551 * S ^ 2)) ≤ exp (-(16.13585 * S ^ 2)) := exp_le_exp.mpr (by linarith)
    generalize exp (-(1.83008 * S ^ 2)) = e1 at *
    generalize exp (-(7.20225 * S ^ 2)) = e2 at *
    generalize exp (-(16.13585 * S ^ 2)) = e3 at *
    generalize exp (-(18.75551 * S ^ 2)) = e4 at *
    rw [abs_le] at k1 k2 k3 k4
    obtain ⟨k1, k1'⟩ := k1
    obtain ⟨k2, k2'⟩ := k2
    obtain ⟨k3, k3'⟩ := k3
    obtain ⟨k4, k4'⟩ := k4
    refine ⟨div_pos (by linarith) hS2, div_le_div_of_nonneg_right ?_ hS2.le⟩
    rw [abs_le]
    constructor <;> linarith

/-- Every row of the tables but helium's is positive. -/
lemma rows_pos {i : ℕ} (hi : i < 98) (h1 : i ≠ 1) : (∀ k, 0 < (wkRow i).A k) ∧ ∀ k, 0 < (wkRow i).B k := by
  have key : ∀ i < 98, i ≠ 1 → ∀ k < 4, 0 < (wkA.getD i []).getD k 0 ∧ 0 < (wkB.getD i []).getD k 0 := by decide +kernel
  constructor <;> intro k <;> simp only [wkRow]
  · exact div_pos (by exact_mod_cast (key i hi h1 k k.2).1) (by norm_num)
  · exact div_pos (by exact_mod_cast (key i hi h1 k k.2).2) (by norm_num)

lemma rowOf_valid {Z : ℤ} (h1 : 1 ≤ Z) (h2 : Z ≤ 98) : rowOf 98 Z = some (Z - 1).toNat := by
  unfold rowOf
  rw [if_pos ⟨by omega, by push_cast; omega⟩]

/-- C109, `scatter_factor_WK`: for every list of elements 1-98 with as many displacements, all scattering magnitudes and all
positive voltages the call succeeds, and the real part of every entry is positive and within 0.19 % (helium: 0.55 %) of
the tabulated form times the Debye-Waller factor times the relativistic mass ratio; with the "ITC" convention, of the tabulated
form alone at `s = g / 2`. -/
theorem C109_wk_real (core phonon : Bool) (g : List ℝ) (Z : List ℤ) (σ V : List ℝ) (hZ : ∀ z ∈ Z, 1 ≤ z ∧ z ≤ 98)
    (hσ : σ.length = Z.length) (hV : ∀ v ∈ V, 0 < v) :
    (∃ out, scatterWK wkRow core phonon "EMsoft" g Z σ V = some out ∧ out.nV = V.length ∧ out.nZ = Z.length ∧
      out.nG = g.length ∧ ∀ (v z k : ℕ) (hv : v < V.length) (hz : z < Z.length) (hk : k < g.length),
        let row := wkRow (Z[z] - 1).toNat
        let exact := wkExact row.A row.B (g[k] / (4 * π)) * debyeWaller σ[z] g[k] * massRatio V[v]
        0 < (out.at_ v z k).re ∧
          |(out.at_ v z k).re - exact| ≤ (if Z[z] = 2 then 0.0055 else 0.0019) * exact) ∧
    (∃ out, scatterWK wkRow core phonon "ITC" g Z σ V = some out ∧ out.nV = V.length ∧ out.nZ = Z.length ∧
      out.nG = g.length ∧ ∀ (v z k : ℕ) (_ : v < V.length) (hz : z < Z.length) (hk : k < g.length),
        let row := wkRow (Z[z] - 1).toNat
        let exact := wkExact row.A row.B (g[k] / 2)
        0 < (out.at_ v z k).re ∧ |(out.at_ v z k).re - exact| ≤ (if Z[z] = 2 then 0.0055 else 0.0019) * exact ∧
          (out.at_ v z k).im = some 0) := by
  have hany : ¬ (Z.any fun z => (rowOf 98 z).isNone) = true := by
    rw [List.any_eq_true]
    rintro ⟨z, hz, h⟩
    rw [rowOf_valid (hZ z hz).1 (hZ z hz).2] at h
    exact absurd h (by simp)
  have hlen : ¬ σ.length * g.length ≠ Z.length * g.length := by rw [hσ]; simp
  have base : ∀ (z : ℤ) (s : ℝ), 1 ≤ z ∧ z ≤ 98 →
      0 < wkExact (wkRow (z - 1).toNat).A (wkRow (z - 1).toNat).B s ∧
      |fReal (wkRow (z - 1).toNat) s - wkExact (wkRow (z - 1).toNat).A (wkRow (z - 1).toNat).B s| ≤
        (if z = 2 then 0.0055 else 0.0019) * wkExact (wkRow (z - 1).toNat).A (wkRow (z - 1).toNat).B s := by
    intro z s hz
    by_cases h2 : z = 2
    · subst h2
      rw [if_pos rfl]
      exact helium s
    · rw [if_neg h2]
      obtain ⟨ha, hb⟩ := rows_pos (i := (z - 1).toNat) (by omega) (by omega)
      exact fReal_pos_weights ha hb s
  have small : ∀ z : ℤ, (if z = 2 then (0.0055 : ℝ) else 0.0019) ≤ 0.0055 := by
    intro z; split_ifs <;> norm_num
  constructor
  · refine ⟨_, by unfold scatterWK; rw [if_neg hany, if_neg hlen], rfl, rfl, rfl, ?_⟩
    intro v z k hv hz hk
    have e1 : g.getD k 0 = g[k] := by simp [hk]
    have e2 : Z.getD z 0 = Z[z] := by simp [hz]
    have e3 : σ.getD z 0 = σ[z] := by simp [hσ ▸ hz]
    have e4 : V.getD v 0 = V[v] := by simp [hv]
    have hz' := hZ Z[z] (List.getElem_mem hz)
    have hv' := hV V[v] (List.getElem_mem hv)
    have hne : ("EMsoft" = "ITC") = False := by decide
    simp only [wkEntry, e1, e2, e3, e4, rowOf_valid hz'.1 hz'.2, Option.getD_some, hne, if_false, if_true]
    obtain ⟨b1, b2⟩ := base Z[z] (g[k] / (4 * π)) hz'
    have hd : exp (-0.5 * σ[z] ^ 2 * g[k] ^ 2) = debyeWaller σ[z] g[k] := by
      unfold debyeWaller; congr 1; norm_num; ring
    have hm : (V[v] + 511) / 511 = massRatio V[v] := by unfold massRatio; ring
    have hd0 : 0 < debyeWaller σ[z] g[k] := exp_pos _
    have hm0 : 0 < massRatio V[v] := by unfold massRatio; positivity
    rw [hd, hm]
    generalize debyeWaller σ[z] g[k] = D at *
    generalize massRatio V[v] = m at *
    generalize wkExact (wkRow (Z[z] - 1).toNat).A (wkRow (Z[z] - 1).toNat).B (g[k] / (4 * π)) = E at *
    generalize fReal (wkRow (Z[z] - 1).toNat) (g[k] / (4 * π)) = F at *
    have hs := small Z[z]
    generalize (if Z[z] = 2 then (0.0055 : ℝ) else 0.0019) = c at *
    constructor
    · have : 0 < F := by
        have := (abs_le.mp b2).1
        nlinarith
      positivity
    · rw [show F * D * m - E * D * m = (F - E) * (D * m) by ring, abs_mul, abs_of_pos (mul_pos hd0 hm0)]
      calc |F - E| * (D * m) ≤ c * E * (D * m) := mul_le_mul_of_nonneg_right b2 (mul_pos hd0 hm0).le
        _ = c * (E * D * m) := by ring
  · refine ⟨_, by unfold scatterWK; rw [if_neg hany, if_neg hlen], rfl, rfl, rfl, ?_⟩
    intro v z k hv hz hk
    have e1 : g.getD k 0 = g[k] := by simp [hk]
    have e2 : Z.getD z 0 = Z[z] := by simp [hz]
    have hz' := hZ Z[z] (List.getElem_mem hz)
    have hne : ("ITC" = "EMsoft") = False := by decide
    simp only [wkEntry, e1, e2, rowOf_valid hz'.1 hz'.2, Option.getD_some, hne, if_false, if_true]
    obtain ⟨b1, b2⟩ := base Z[z] (g[k] / 2) hz'
    have hs := small Z[z]
    refine ⟨?_, b2, trivial⟩
    have := (abs_le.mp b2).1
    generalize wkExact (wkRow (Z[z] - 1).toNat).A (wkRow (Z[z] - 1).toNat).B (g[k] / 2) = E at *
    generalize (if Z[z] = 2 then (0.0055 : ℝ) else 0.0019) = c at *
    nlinarith

/-- The hypotheses hold for iron oxide at two voltages. -/
example : ∃ out, scatterWK wkRow true true "EMsoft" [0, 3.2] [26, 8] [0.08, 0.1] [20, 30] = some out ∧
    0 < (out.at_ 1 0 1).re := by
  obtain ⟨⟨out, h, _, _, _, e⟩, _⟩ := C109_wk_real true true [0, 3.2] [26, 8] [0.08, 0.1] [20, 30] (by simp) rfl (by simp)
  exact ⟨out, h, (e 1 0 1 (by simp) (by simp) (by simp)).1⟩

end Verif.Scat
