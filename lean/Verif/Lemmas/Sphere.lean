import Verif.Model.Sphere
import Verif.Lemmas.Trig
import Verif.Spec.Rotation
import Mathlib.Analysis.SpecialFunctions.Pow.Real
/-! Helper lemmas for the square Lambert projection. -/
namespace Verif
open Spec

theorem rpow_half (x : ℝ) : x ^ (0.5 : ℝ) = Real.sqrt x := by
  rw [Real.sqrt_eq_rpow]; norm_num

theorem sqrt8 : Real.sqrt 8 = 2 * Real.sqrt 2 := by
  rw [show (8 : ℝ) = 2 ^ 2 * 2 by norm_num, Real.sqrt_mul (by norm_num), Real.sqrt_sq (by norm_num)]

theorem negOne_mul_self (b : ℝ) : negOne b * b = |b| := by
  unfold negOne; split
  · rw [abs_of_neg (by assumption)]; ring
  · rw [abs_of_nonneg (by linarith)]; ring

theorem negOne_sq (b : ℝ) : negOne b * negOne b = 1 := by
  unfold negOne; split <;> norm_num

theorem negOne_abs (b : ℝ) : |negOne b| = 1 := by
  unfold negOne; split <;> simp

/-- The angle of the code, in `[-π/4, π/4]`. -/
noncomputable def rlAngle (big sml : ℝ) : ℝ := atan2 (sml * negOne big) |big|

theorem rl_polar {big sml : ℝ} {r : ℝ} (hr : 0 < r) (h : big ^ 2 + sml ^ 2 = r ^ 2) :
    Real.cos (rlAngle big sml) = |big| / r ∧ Real.sin (rlAngle big sml) = sml * negOne big / r := by
  have : |big| ^ 2 + (sml * negOne big) ^ 2 = r ^ 2 := by
    rw [sq_abs, mul_pow, pow_two (negOne big), negOne_sq]; linarith
  exact ⟨atan2_cos hr this, atan2_sin hr this⟩

theorem rl_range {big sml : ℝ} (hb : |sml| ≤ |big|) (h0 : big ≠ 0) :
    |rlAngle big sml| ≤ Real.pi / 4 ∧ (|sml| < |big| → |rlAngle big sml| < Real.pi / 4) := by
  have hbp := abs_pos.mpr h0
  have hpi := Real.pi_pos
  have e : rlAngle big sml = Real.arctan (sml * negOne big / |big|) := by
    unfold rlAngle atan2
    rw [Complex.arg_of_re_nonneg (by simp), ]
    set r := ‖(⟨|big|, sml * negOne big⟩ : ℂ)‖ with hr
    have hr2 : r ^ 2 = |big| ^ 2 + (sml * negOne big) ^ 2 := by
      rw [hr, Complex.sq_norm, Complex.normSq_mk]; ring
    have hrp : 0 < r := by
      rw [hr, norm_pos_iff]
      intro h
      have := congrArg Complex.re h
      simp at this
      exact h0 this
    rw [Real.arctan_eq_arcsin]
    congr 1
    have : Real.sqrt (1 + (sml * negOne big / |big|) ^ 2) = r / |big| := by
      rw [show 1 + (sml * negOne big / |big|) ^ 2 = (r / |big|) ^ 2 by
        rw [div_pow, div_pow, hr2]; field_simp]
      exact Real.sqrt_sq (by positivity)
    rw [this]
    field_simp
  have hq : abs (sml * negOne big / |big|) = |sml| / |big| := by
    rw [abs_div, abs_mul, negOne_abs, abs_abs, mul_one]
  rw [e]
  have habs : ∀ t : ℝ, |Real.arctan t| = Real.arctan |t| := by
    intro t
    rcases le_total 0 t with h | h
    · rw [abs_of_nonneg h, abs_of_nonneg (Real.arctan_nonneg.mpr h)]
    · rw [abs_of_nonpos h, Real.arctan_neg, abs_of_nonpos (by have := Real.arctan_mono h; simpa using this)]
  rw [habs, hq, ← Real.arctan_one]
  constructor
  · apply Real.arctan_mono
    rw [div_le_one hbp]; exact hb
  · intro hlt
    apply Real.arctan_strictMono
    rw [div_lt_one hbp]; exact hlt

theorem factor_eq (z : ℝ) : Real.sqrt (max (2 * (1 - |z|)) 0) = Real.sqrt 2 * Real.sqrt (max (1 - |z|) 0) := by
  rw [← Real.sqrt_mul (by norm_num)]
  congr 1
  rw [mul_max_of_nonneg _ _ (by norm_num)]; simp

/-- Simplified form of `rosca_lambert`. -/
theorem rosca_eq (p : V) : roscaLambert p =
    if |p.y| ≤ |p.x| then
      (negOne p.x * Real.sqrt (max (1 - |p.z|) 0),
       negOne p.x * Real.sqrt (max (1 - |p.z|) 0) * (4 / Real.pi * rlAngle p.x p.y))
    else
      (negOne p.y * Real.sqrt (max (1 - |p.z|) 0) * (4 / Real.pi * rlAngle p.y p.x),
       negOne p.y * Real.sqrt (max (1 - |p.z|) 0)) := by
  have h2 : Real.sqrt 2 * Real.sqrt 2 = 2 := Real.mul_self_sqrt (by norm_num)
  have hp : Real.sqrt 2 ≠ 0 := by positivity
  have hpi : Real.pi ≠ 0 := Real.pi_ne_zero
  have k1 : ∀ s F : ℝ, s * (Real.sqrt 2 * F) * (2 / (2 * Real.sqrt 2)) = s * F := by
    intro s F; field_simp
  have k2 : ∀ s F A : ℝ, s * (Real.sqrt 2 * F) * A * (2 * Real.sqrt 2 / Real.pi) = s * F * (4 / Real.pi * A) := by
    intro s F A; field_simp; linear_combination (2 * s * F * A) * h2
  unfold roscaLambert
  simp only [rpow_half, sqrt8, factor_eq]
  by_cases h : |p.y| ≤ |p.x|
  · simp only [if_pos h, k1, k2]; rfl
  · simp only [if_neg h, k1, k2]; rfl

/-- Simplified form of `inv_rosca_lambert` for a non-zero point. -/
noncomputable def invCore (a b : ℝ) : ℝ × ℝ :=
  (|a| * Real.sqrt (2 - a ^ 2) * Real.cos (Real.pi / 4 * (|b| / |a|)),
   |a| * Real.sqrt (2 - a ^ 2) * Real.sin (Real.pi / 4 * (|b| / |a|)))

theorem inv_eq (a b : ℝ) (h : a ≠ 0 ∨ b ≠ 0) : invRoscaLambert (a, b) = some
    (if |b| ≤ |a| then ⟨copysign (invCore a b).1 a, copysign (invCore a b).2 b, 1 - a ^ 2⟩
     else ⟨copysign (invCore b a).2 a, copysign (invCore b a).1 b, 1 - b ^ 2⟩) := by
  have hpi := Real.pi_pos
  obtain ⟨s, hs, hs2⟩ : ∃ s : ℝ, 0 < s ∧ s ^ 2 = Real.pi / 2 :=
    ⟨_, Real.sqrt_pos.mpr (by positivity), Real.sq_sqrt (by positivity)⟩
  have hsq : Real.sqrt (Real.pi / 2) = s := by rw [← hs2, Real.sqrt_sq hs.le]
  have root : ∀ c : ℝ, Real.sqrt (Real.pi - (|c| * s) ^ 2) = s * Real.sqrt (2 - c ^ 2) := by
    intro c
    rw [← Real.sqrt_sq hs.le, ← Real.sqrt_mul (by positivity), Real.sqrt_sq hs.le]
    congr 1
    rw [mul_pow, sq_abs, hs2]; ring
  have pre : ∀ c T : ℝ, 2 * (|c| * s) / Real.pi * (s * T) = |c| * T := by
    intro c T
    have : Real.pi = 2 * s ^ 2 := by rw [hs2]; ring
    rw [this]; field_simp
  have arg : ∀ c d : ℝ, Real.pi * (|d| * s) / (4 * (|c| * s)) = Real.pi / 4 * (|d| / |c|) := by
    intro c d; field_simp
  have zz : ∀ c : ℝ, 1 - 2 * (|c| * s) ^ 2 / Real.pi = 1 - c ^ 2 := by
    intro c; rw [mul_pow, sq_abs, hs2]; field_simp
  unfold invRoscaLambert
  simp only [rpow_half, hsq, ge_iff_le]
  have hc : |b| * s ≤ |a| * s ↔ |b| ≤ |a| := mul_le_mul_iff_left₀ hs
  by_cases hab : |b| ≤ |a|
  · have ha : a ≠ 0 := by
      rintro rfl; simp at hab; rcases h with h | h
      · exact h rfl
      · exact h hab
    have hne : |a| * s ≠ 0 := mul_ne_zero (abs_ne_zero.mpr ha) hs.ne'
    simp only [if_pos (hc.mpr hab), if_neg hne, if_pos hab, root, pre, arg, zz, invCore]
  · have hb : b ≠ 0 := by
      rintro rfl; simp at hab
    have hne : |b| * s ≠ 0 := mul_ne_zero (abs_ne_zero.mpr hb) hs.ne'
    simp only [if_neg (hc.not.mpr hab), if_neg hne, if_neg hab, root, pre, arg, zz, invCore]

end Verif
