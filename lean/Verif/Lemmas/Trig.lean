import Verif.Model.Num
import Mathlib.Analysis.SpecialFunctions.Trigonometric.Bounds
import Mathlib.Tactic.LinearCombination
import Mathlib.Tactic.FieldSimp
/-! Trigonometric helpers: `atan2`, half angles. -/
namespace Verif

theorem atan2_cos {y x r : ℝ} (hr : 0 < r) (h : x ^ 2 + y ^ 2 = r ^ 2) : Real.cos (atan2 y x) = x / r := by
  have hn : ‖(⟨x, y⟩ : ℂ)‖ = r := by
    rw [Complex.norm_def, Complex.normSq_mk, ← pow_two, ← pow_two, h, Real.sqrt_sq hr.le]
  have hne : (⟨x, y⟩ : ℂ) ≠ 0 := by
    intro h0; rw [h0] at hn; simp at hn; linarith
  unfold atan2
  rw [Complex.cos_arg hne, hn]

theorem atan2_sin {y x r : ℝ} (hr : 0 < r) (h : x ^ 2 + y ^ 2 = r ^ 2) : Real.sin (atan2 y x) = y / r := by
  have hn : ‖(⟨x, y⟩ : ℂ)‖ = r := by
    rw [Complex.norm_def, Complex.normSq_mk, ← pow_two, ← pow_two, h, Real.sqrt_sq hr.le]
  unfold atan2
  rw [Complex.sin_arg, hn]

theorem atan2_range (y x : ℝ) : -Real.pi < atan2 y x ∧ atan2 y x ≤ Real.pi :=
  ⟨Complex.neg_pi_lt_arg _, Complex.arg_le_pi _⟩

theorem atan2_nonneg {y x : ℝ} (hy : 0 ≤ y) : 0 ≤ atan2 y x := Complex.arg_nonneg_iff.mpr hy

/-- `atan2` recovers an angle of `(-π, π]` from its sine and cosine scaled by `r > 0`. -/
theorem atan2_of_polar {r t : ℝ} (hr : 0 < r) (h1 : -Real.pi < t) (h2 : t ≤ Real.pi) :
    atan2 (r * Real.sin t) (r * Real.cos t) = t := by
  unfold atan2
  have : (⟨r * Real.cos t, r * Real.sin t⟩ : ℂ) = r * (Complex.cos t + Complex.sin t * Complex.I) := by
    apply Complex.ext
    · simp [Complex.cos_ofReal_re]
    · simp [Complex.sin_ofReal_re, Complex.cos_ofReal_im]
  rw [this, Complex.arg_mul_cos_add_sin_mul_I hr ⟨h1, h2⟩]

/-- Half angles are determined up to a common sign. -/
theorem half_sign {t a b : ℝ} (h1 : a ^ 2 + b ^ 2 = 1) (hc : Real.cos (2 * t) = a ^ 2 - b ^ 2)
    (hs : Real.sin (2 * t) = 2 * a * b) :
    ∃ e : ℝ, (e = 1 ∨ e = -1) ∧ Real.cos t = e * a ∧ Real.sin t = e * b := by
  have hu := Real.sin_sq_add_cos_sq t
  rw [Real.cos_two_mul'] at hc
  rw [Real.sin_two_mul] at hs
  generalize Real.cos t = C at *
  generalize Real.sin t = S at *
  have h2 : (C - a) * (C + a) = 0 := by linarith
  have h3 : (S - b) * (S + b) = 0 := by linarith
  rcases mul_eq_zero.mp h2 with h2 | h2
  · have : C = a := by linarith
    subst this
    by_cases hC : C = 0
    · subst hC
      rcases mul_eq_zero.mp h3 with h3 | h3
      · exact ⟨1, Or.inl rfl, by ring, by linarith⟩
      · exact ⟨-1, Or.inr rfl, by ring, by linarith⟩
    · have : S = b := by
        have : C * (S - b) = 0 := by linarith
        rcases mul_eq_zero.mp this with h | h
        · exact absurd h hC
        · linarith
      exact ⟨1, Or.inl rfl, by ring, by linarith⟩
  · have hCa : C = -a := by linarith
    subst hCa
    by_cases hC : a = 0
    · subst hC
      rcases mul_eq_zero.mp h3 with h3 | h3
      · exact ⟨1, Or.inl rfl, by ring, by linarith⟩
      · exact ⟨-1, Or.inr rfl, by ring, by linarith⟩
    · have : S = -b := by
        have : a * (S + b) = 0 := by linarith
        rcases mul_eq_zero.mp this with h | h
        · exact absurd h hC
        · linarith
      exact ⟨-1, Or.inr rfl, by ring, by linarith⟩

end Verif
