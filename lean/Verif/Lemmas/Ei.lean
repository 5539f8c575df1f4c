import Verif.Spec.Scatter
import Mathlib.Analysis.Calculus.SmoothSeries
import Mathlib.Analysis.SpecialFunctions.ExpDeriv
import Mathlib.Analysis.SpecialFunctions.Log.Deriv
import Mathlib.Analysis.Normed.Algebra.Exponential
import Mathlib.Analysis.SpecialFunctions.Exponential
/-!
The entire part of the exponential integral.
-/
namespace Verif.Ei
open Real Verif.Spec.Scatter

/-- `Σ_{k ≥ 1} x^k / (k k!)`. -/
noncomputable def ein (x : ℝ) : ℝ := ∑' k : ℕ, x ^ (k + 1) / ((k + 1 : ℝ) * (k + 1).factorial)

lemma eiWith_eq (c x : ℝ) : eiWith c x = c + log |x| + ein x := rfl

lemma summable_ein (x : ℝ) : Summable fun k : ℕ => x ^ (k + 1) / ((k + 1 : ℝ) * (k + 1).factorial) := by
  have h := (summable_nat_add_iff 1).mpr (Real.summable_pow_div_factorial |x|)
  refine Summable.of_norm_bounded h fun k => ?_
  have h2 : (0 : ℝ) < (k + 1).factorial := by exact_mod_cast Nat.factorial_pos _
  have this : (1 : ℝ) ≤ k + 1 := by linarith [(Nat.cast_nonneg k : (0 : ℝ) ≤ k)]
  have h3 : (0 : ℝ) < (k + 1 : ℝ) * (k + 1).factorial := mul_pos (by linarith) h2
  rw [norm_div, norm_pow, norm_eq_abs, norm_eq_abs, abs_of_pos h3]
  apply div_le_div_of_nonneg_left (pow_nonneg (abs_nonneg _) _) h2
  exact le_mul_of_one_le_left h2.le this

lemma summable_step (x : ℝ) : Summable fun k : ℕ => x ^ k / ((k + 1).factorial : ℝ) := by
  refine Summable.of_norm_bounded (Real.summable_pow_div_factorial |x|) fun k => ?_
  have h2 : (0 : ℝ) < (k + 1).factorial := by exact_mod_cast Nat.factorial_pos _
  have h3 : (0 : ℝ) < k.factorial := by exact_mod_cast Nat.factorial_pos _
  rw [norm_div, norm_pow, norm_eq_abs, norm_eq_abs, abs_of_pos h2]
  apply div_le_div_of_nonneg_left (pow_nonneg (abs_nonneg _) _) h3
  exact_mod_cast Nat.factorial_le (Nat.le_succ k)

private lemma term_deriv (k : ℕ) (y : ℝ) :
    HasDerivAt (fun y : ℝ => y ^ (k + 1) / ((k + 1 : ℝ) * (k + 1).factorial)) (y ^ k / ((k + 1).factorial : ℝ)) y := by
  have h := (hasDerivAt_pow (k + 1) y).div_const ((k + 1 : ℝ) * (k + 1).factorial)
  have e : ((k + 1 : ℕ) : ℝ) * y ^ (k + 1 - 1) / ((k + 1 : ℝ) * (k + 1).factorial) = y ^ k / ((k + 1).factorial : ℝ) := by
    have : (k + 1 : ℝ) ≠ 0 := by linarith [(Nat.cast_nonneg k : (0 : ℝ) ≤ k)]
    rw [Nat.add_sub_cancel, Nat.cast_add_one, mul_div_mul_left _ _ this]
  rwa [e] at h

private lemma term_bound (x : ℝ) (k : ℕ) (y : ℝ) (hy : y ∈ Metric.ball (0 : ℝ) (|x| + 1)) :
    ‖y ^ k / ((k + 1).factorial : ℝ)‖ ≤ (|x| + 1) ^ k / ((k + 1).factorial : ℝ) := by
  rw [Metric.mem_ball, dist_zero_right, norm_eq_abs] at hy
  have h2 : (0 : ℝ) < (k + 1).factorial := by exact_mod_cast Nat.factorial_pos _
  rw [norm_div, norm_pow, norm_eq_abs, norm_eq_abs, abs_of_pos h2]
  exact div_le_div_of_nonneg_right (pow_le_pow_left₀ (abs_nonneg _) hy.le _) h2.le

lemma hasDerivAt_ein (x : ℝ) : HasDerivAt ein (∑' k : ℕ, x ^ k / ((k + 1).factorial : ℝ)) x := by
  have h0 : (0 : ℝ) ∈ Metric.ball (0 : ℝ) (|x| + 1) := by
    rw [Metric.mem_ball, dist_self]; linarith [abs_nonneg x]
  have hx : x ∈ Metric.ball (0 : ℝ) (|x| + 1) := by
    rw [Metric.mem_ball, dist_zero_right, norm_eq_abs]; linarith
  exact hasDerivAt_tsum_of_isPreconnected (summable_step (|x| + 1)) Metric.isOpen_ball
    (convex_ball (0 : ℝ) (|x| + 1)).isPreconnected (fun k y _ => term_deriv k y) (fun k y hy => term_bound x k y hy) h0
    (summable_ein 0) hx

lemma ein_zero : ein 0 = 0 := by unfold ein; simp

lemma hasDerivAt_ein_zero : HasDerivAt ein 1 0 := by
  have h := hasDerivAt_ein 0
  rw [tsum_eq_single 0 (by intro k hk; simp [hk])] at h
  simpa using h

lemma step_eq {x : ℝ} (hx : x ≠ 0) : ∑' k : ℕ, x ^ k / ((k + 1).factorial : ℝ) = (exp x - 1) / x := by
  rw [eq_div_iff hx, ← tsum_mul_right]
  have h := (Real.summable_pow_div_factorial x).tsum_eq_zero_add
  have e : exp x = ∑' n : ℕ, x ^ n / n.factorial := by rw [Real.exp_eq_exp_ℝ, NormedSpace.exp_eq_tsum_div]
  rw [← e] at h
  simp only [pow_zero, Nat.factorial_zero, Nat.cast_one, div_one] at h
  rw [h, add_sub_cancel_left]
  apply tsum_congr
  intro k
  rw [pow_succ]; ring

/-- The specification is an antiderivative of `e^x / x`: it is the exponential integral. -/
theorem hasDerivAt_eiWith (c : ℝ) {x : ℝ} (hx : x ≠ 0) : HasDerivAt (eiWith c) (exp x / x) x := by
  have h := ((hasDerivAt_log hx).const_add c).add (hasDerivAt_ein x)
  rw [step_eq hx] at h
  have e : x⁻¹ + (exp x - 1) / x = exp x / x := by field_simp; ring
  rw [e] at h
  refine h.congr_of_eventuallyEq (Filter.Eventually.of_forall fun y => ?_)
  rw [eiWith_eq, log_abs]; rfl

end Verif.Ei
