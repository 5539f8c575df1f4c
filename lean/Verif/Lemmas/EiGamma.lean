import Verif.Lemmas.Ei
import Mathlib.NumberTheory.Harmonic.GammaDeriv
import Mathlib.Analysis.SpecialFunctions.Gamma.Deriv
import Mathlib.Analysis.SpecialFunctions.Log.NegMulLog
import Mathlib.MeasureTheory.Integral.IntegralEqImproper
import Mathlib.NumberTheory.Harmonic.EulerMascheroni
/-!
With Euler's constant the exponential integral of the specification tends to zero at minus infinity.
-/
namespace Verif.Ei
open Real Verif.Spec.Scatter Filter MeasureTheory Set
open scoped Topology

local notation "γ" => eulerMascheroniConstant

lemma integral_log_exp : ∫ t in Ioi (0 : ℝ), log t * exp (-t) = -γ := by
  have h1 := Complex.hasDerivAt_GammaIntegral (s := 1) (by norm_num)
  have h2 : HasDerivAt Complex.GammaIntegral (-(γ : ℂ)) 1 := by
    have h := Complex.hasDerivAt_Gamma_one
    refine h.congr_of_eventuallyEq ?_
    have ho : IsOpen {s : ℂ | 0 < s.re} := Complex.continuous_re.isOpen_preimage _ isOpen_Ioi
    filter_upwards [ho.mem_nhds (show (1 : ℂ) ∈ {s : ℂ | 0 < s.re} by simp)] with a ha
    exact (Complex.Gamma_eq_integral ha).symm
  have h3 := h1.unique h2
  have e : (∫ t : ℝ in Ioi 0, (t : ℂ) ^ ((1 : ℂ) - 1) * ((log t : ℂ) * (exp (-t) : ℂ)))
      = ((∫ t in Ioi (0 : ℝ), log t * exp (-t) : ℝ) : ℂ) := by
    rw [← integral_complex_ofReal]
    refine integral_congr_ae (Eventually.of_forall fun t => ?_)
    simp
  rw [e] at h3
  exact_mod_cast h3

lemma integrable_log_exp : IntegrableOn (fun t : ℝ => log t * exp (-t)) (Ioi 0) := by
  by_contra h
  have h1 := integral_log_exp
  rw [integral_undef h] at h1
  have := one_half_lt_eulerMascheroniConstant
  linarith

/-- `(1 - e^{-y}) log y + ein (-y)` -/
private noncomputable def H (y : ℝ) : ℝ := (1 - exp (-y)) * log y + ein (-y)

private lemma H_deriv {y : ℝ} (hy : 0 < y) : HasDerivAt H (log y * exp (-y)) y := by
  have h1 : HasDerivAt (fun y : ℝ => exp (-y)) (-exp (-y)) y := by
    have := (hasDerivAt_neg y).exp
    simpa using this
  have h2 := ((hasDerivAt_const y (1 : ℝ)).sub h1).mul (hasDerivAt_log hy.ne')
  have h3 := (hasDerivAt_ein (-y)).comp y (hasDerivAt_neg y)
  rw [step_eq (by linarith : -y ≠ 0)] at h3
  have h4 := h2.add h3
  have e : (0 - -exp (-y)) * log y + (1 - exp (-y)) * y⁻¹ + (exp (-y) - 1) / -y * -1 = log y * exp (-y) := by
    field_simp; ring
  have h5 := h4.congr_deriv e
  exact h5

private lemma H_cont : ContinuousOn H (Ici 0) := by
  have hein : Continuous ein := continuous_iff_continuousAt.mpr fun x => (hasDerivAt_ein x).continuousAt
  intro y hy
  rcases (show (0 : ℝ) ≤ y from hy).eq_or_lt with rfl | hy
  · have h0 : H 0 = 0 := by simp [H, ein_zero]
    unfold ContinuousWithinAt
    rw [h0]
    have h1 : Tendsto (fun y : ℝ => (1 - exp (-y)) * log y) (𝓝[≥] 0) (𝓝 0) := by
      have hb : Tendsto (fun y : ℝ => |y * log y|) (𝓝[≥] 0) (𝓝 0) := by
        have := (continuous_mul_log.abs).tendsto 0
        simp only [zero_mul, abs_zero] at this
        exact this.mono_left nhdsWithin_le_nhds
      refine squeeze_zero_norm' ?_ hb
      filter_upwards [self_mem_nhdsWithin] with y hy
      rw [norm_eq_abs, abs_mul, abs_mul]
      refine mul_le_mul_of_nonneg_right ?_ (abs_nonneg _)
      have hy : (0 : ℝ) ≤ y := hy
      rw [abs_of_nonneg hy, abs_of_nonneg (by linarith [exp_le_one_iff.mpr (by linarith : -y ≤ 0)])]
      linarith [add_one_le_exp (-y)]
    have h2 : Tendsto (fun y : ℝ => ein (-y)) (𝓝[≥] 0) (𝓝 0) := by
      have := (hein.comp continuous_neg).tendsto 0
      simp only [Function.comp_apply, neg_zero, ein_zero] at this
      exact this.mono_left nhdsWithin_le_nhds
    have := h1.add h2
    rw [add_zero] at this
    exact this
  · exact (H_deriv hy).continuousAt.continuousWithinAt

/-- The exponential integral vanishes at minus infinity. -/
theorem tendsto_eiWith_neg : Tendsto (fun y : ℝ => eiWith γ (-y)) atTop (𝓝 0) := by
  have h1 := intervalIntegral_tendsto_integral_Ioi 0 integrable_log_exp tendsto_id
  rw [integral_log_exp] at h1
  have h2 : Tendsto (fun y : ℝ => exp (-y) * log y) atTop (𝓝 0) := by
    have h := tendsto_pow_mul_exp_neg_atTop_nhds_zero 1
    refine squeeze_zero' ?_ ?_ h
    · filter_upwards [eventually_ge_atTop 1] with y hy
      exact mul_nonneg (exp_pos _).le (log_nonneg hy)
    · filter_upwards [eventually_ge_atTop 1] with y hy
      rw [pow_one, mul_comm]
      exact mul_le_mul_of_nonneg_right (log_le_self (by linarith)) (exp_pos _).le
  have h3 := (h1.add h2).const_add γ
  rw [add_zero, add_neg_cancel] at h3
  refine h3.congr' ?_
  filter_upwards [eventually_gt_atTop 0] with y hy
  have h4 : ∫ t in (0 : ℝ)..y, log t * exp (-t) = H y - H 0 :=
    intervalIntegral.integral_eq_sub_of_hasDerivAt_of_le hy.le (H_cont.mono fun x hx => hx.1) (fun x hx => H_deriv hx.1)
      ((intervalIntegrable_iff_integrableOn_Ioc_of_le hy.le).mpr (integrable_log_exp.mono_set fun x hx => hx.1))
  have h0 : H 0 = 0 := by simp [H, ein_zero]
  rw [id, h4, h0, eiWith_eq, abs_neg, abs_of_pos hy, H]
  ring

end Verif.Ei
