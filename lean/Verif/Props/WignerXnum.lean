import Verif.Lemmas.WignerSum
/-!
C48: X-numbers.
-/
namespace Verif
open Wigner Verif.Spec

/-! ## C48 -/

/-- The number an X-number stands for. -/
noncomputable def xval (a : XNum) : ℝ := a.x * (2:ℝ) ^ (460 * a.i)

theorem zpow460_succ (i : ℤ) : (2:ℝ) ^ (460 * (i + 1)) = 2 ^ (460 * i) * 2 ^ 460 := by
  rw [mul_add, mul_one, zpow_add₀ (by norm_num)]; rfl
theorem zpow460_pred (i : ℤ) : (2:ℝ) ^ (460 * (i - 1)) = 2 ^ (460 * i) / 2 ^ 460 := by
  rw [mul_sub, mul_one, zpow_sub₀ (by norm_num)]; rfl

theorem xnumNorm_cases (a : XNum) :
    (2 ^ 230 ≤ |a.x| ∧ xnumNorm a = ⟨a.x * (1 / 2 ^ 460), a.i + 1⟩) ∨
    (|a.x| < 1 / 2 ^ 230 ∧ xnumNorm a = ⟨a.x * 2 ^ 460, a.i - 1⟩) ∨
    (1 / 2 ^ 230 ≤ |a.x| ∧ |a.x| < 2 ^ 230 ∧ xnumNorm a = a) := by
  have hlt : (1:ℝ) / 2 ^ 230 < 2 ^ 230 := by
    rw [div_lt_iff₀ (by positivity)]; norm_num
  by_cases h1 : (2:ℝ) ^ 230 ≤ |a.x|
  · left
    refine ⟨h1, ?_⟩
    have h2 : ¬ |a.x| < 1 / (2:ℝ) ^ 230 := by linarith
    unfold xnumNorm
    simp only
    rw [if_neg h2, if_neg h2, if_pos h1, if_pos h1]
  · right
    by_cases h2 : |a.x| < 1 / (2:ℝ) ^ 230
    · left
      refine ⟨h2, ?_⟩
      unfold xnumNorm
      simp only
      rw [if_pos h2, if_pos h2]
    · right
      refine ⟨not_lt.mp h2, not_le.mp h1, ?_⟩
      unfold xnumNorm
      simp only
      rw [if_neg h2, if_neg h2, if_neg h1, if_neg h1]

/-- Normalisation does not change the value. -/
theorem C48_norm (a : XNum) : xval (xnumNorm a) = xval a := by
  rcases xnumNorm_cases a with ⟨_, h⟩ | ⟨_, h⟩ | ⟨_, _, h⟩ <;> rw [h] <;> unfold xval
  · rw [zpow460_succ]; field_simp
  · rw [zpow460_pred]; field_simp

/-- One normalisation step brings every mantissa within `2^±690` to the interval `[2^-230, 2^230)`. -/
theorem C48_norm_range (a : XNum) (h1 : 1 / 2 ^ 690 ≤ |a.x|) (h2 : |a.x| < 2 ^ 690) :
    1 / 2 ^ 230 ≤ |(xnumNorm a).x| ∧ |(xnumNorm a).x| < 2 ^ 230 := by
  have hp : |(2:ℝ) ^ 460| = 2 ^ 460 := abs_of_pos (by positivity)
  have e460 : (2:ℝ) ^ 460 = 2 ^ 230 * 2 ^ 230 := by rw [← pow_add]
  have e690 : (2:ℝ) ^ 690 = 2 ^ 230 * 2 ^ 230 * 2 ^ 230 := by rw [← pow_add, ← pow_add]
  rcases xnumNorm_cases a with ⟨hb, h⟩ | ⟨hb, h⟩ | ⟨hb, hb', h⟩ <;> rw [h]
  · rw [abs_mul, abs_div, abs_one, hp]
    constructor
    · calc (1:ℝ) / 2 ^ 230 = 2 ^ 230 * (1 / 2 ^ 460) := by rw [e460]; field_simp
        _ ≤ _ := by apply mul_le_mul_of_nonneg_right hb (by positivity)
    · calc |a.x| * (1 / 2 ^ 460) < 2 ^ 690 * (1 / 2 ^ 460) := by apply mul_lt_mul_of_pos_right h2 (by positivity)
        _ = 2 ^ 230 := by rw [e460, e690]; field_simp
  · rw [abs_mul, hp]
    constructor
    · calc (1:ℝ) / 2 ^ 230 = 1 / 2 ^ 690 * 2 ^ 460 := by rw [e460, e690]; field_simp
        _ ≤ _ := by apply mul_le_mul_of_nonneg_right h1 (by positivity)
    · calc |a.x| * 2 ^ 460 < 1 / 2 ^ 230 * 2 ^ 460 := by apply mul_lt_mul_of_pos_right hb (by positivity)
        _ = 2 ^ 230 := by rw [e460]; field_simp
  · exact ⟨hb, hb'⟩

/-- The weighted sum is exact when the exponents differ by at most one. -/
theorem C48_sum (a b : XNum) (fa fb : ℝ) (h : |a.i - b.i| ≤ 1) :
    xval (xnumSum a b fa fb) = fa * xval a + fb * xval b := by
  unfold xnumSum
  simp only
  rw [C48_norm]
  rw [abs_le] at h
  have h3 : a.i - b.i = 0 ∨ a.i - b.i = 1 ∨ a.i - b.i = -1 := by omega
  rcases h3 with h3 | h3 | h3 <;> rw [h3] <;> unfold xval <;> simp
  · have : b.i = a.i := by omega
    rw [this]; ring
  · have : a.i = b.i + 1 := by omega
    rw [this, zpow460_succ]; field_simp
  · have : b.i = a.i + 1 := by omega
    rw [this, zpow460_succ]; field_simp; ring

/-- Otherwise the smaller term is dropped; for normalised arguments and unit factors the error is below `2^-460`
of the larger term. -/
theorem C48_sum_error (a b : XNum) (fa fb : ℝ) (hfa : |fa| = 1) (hfb : |fb| = 1)
    (ha : 1 / 2 ^ 230 ≤ |a.x|) (ha' : |a.x| < 2 ^ 230) (hb : 1 / 2 ^ 230 ≤ |b.x|) (hb' : |b.x| < 2 ^ 230) :
    |xval (xnumSum a b fa fb) - (fa * xval a + fb * xval b)| ≤ 1 / 2 ^ 460 * max |xval a| |xval b| := by
  by_cases h : |a.i - b.i| ≤ 1
  · rw [C48_sum a b fa fb h, sub_self, abs_zero]; positivity
  · have small : ∀ c d : XNum, 1 / 2 ^ 230 ≤ |c.x| → |d.x| < 2 ^ 230 → d.i + 2 ≤ c.i →
        |xval d| ≤ 1 / 2 ^ 460 * |xval c| := by
      intro c d hc hd hi
      unfold xval
      rw [abs_mul, abs_mul, abs_of_pos (show (0:ℝ) < 2 ^ (460 * d.i) by positivity),
        abs_of_pos (show (0:ℝ) < 2 ^ (460 * c.i) by positivity)]
      have hz : (2:ℝ) ^ (460 * (d.i + 2)) ≤ 2 ^ (460 * c.i) := zpow_le_zpow_right₀ (by norm_num) (by omega)
      rw [show d.i + 2 = d.i + 1 + 1 by ring, zpow460_succ, zpow460_succ] at hz
      have hd0 : (0:ℝ) < 2 ^ (460 * d.i) := by positivity
      calc |d.x| * 2 ^ (460 * d.i) ≤ 2 ^ 230 * 2 ^ (460 * d.i) := by
            apply mul_le_mul_of_nonneg_right hd.le hd0.le
        _ = 1 / 2 ^ 460 * (1 / 2 ^ 230 * (2 ^ (460 * d.i) * 2 ^ 460 * 2 ^ 460)) := by field_simp
        _ ≤ 1 / 2 ^ 460 * (|c.x| * 2 ^ (460 * c.i)) := by
            apply mul_le_mul_of_nonneg_left _ (by positivity)
            exact mul_le_mul hc hz (by positivity) (abs_nonneg _)
    rw [abs_le] at h
    have h0 : ¬ a.i - b.i = 0 := by omega
    have h1 : ¬ a.i - b.i = 1 := by omega
    have h2 : ¬ a.i - b.i = -1 := by omega
    unfold xnumSum
    simp only
    rw [C48_norm]
    by_cases h3 : a.i - b.i > 1
    · simp only [if_neg h0, if_neg h1, if_neg h2, if_pos h3]
      have e : xval ⟨fa * a.x, a.i⟩ - (fa * xval a + fb * xval b) = -(fb * xval b) := by unfold xval; ring
      rw [e, abs_neg, abs_mul, hfb, one_mul]
      exact (small a b ha hb' (by omega)).trans (mul_le_mul_of_nonneg_left (le_max_left _ _) (by positivity))
    · simp only [if_neg h0, if_neg h1, if_neg h2, if_neg h3]
      have e : xval ⟨fb * b.x, b.i⟩ - (fa * xval a + fb * xval b) = -(fa * xval a) := by unfold xval; ring
      rw [e, abs_neg, abs_mul, hfa, one_mul]
      exact (small b a hb ha' (by omega)).trans (mul_le_mul_of_nonneg_left (le_max_right _ _) (by positivity))

/-- `xnum_to_fp` returns the value for exponents `-1, 0, 1`. Missing: every other exponent (see `C48_to_fp_fails`). -/
theorem C48_to_fp_partial (a : XNum) (h : |a.i| ≤ 1) : xnumToFp a = xval a := by
  rw [abs_le] at h
  obtain ⟨x, i⟩ := a
  simp only at h
  have h3 : i = 0 ∨ i = 1 ∨ i = -1 := by omega
  rcases h3 with rfl | rfl | rfl
  · simp [xnumToFp, xval]
  · have := zpow460_succ 0
    simp [xnumToFp, xval]
  · have := zpow460_pred 0
    rw [xval]
    simp only
    rw [show (460 * (-1) : ℤ) = 460 * (0 - 1) by norm_num, this]
    simp [xnumToFp]

/-- For an exponent beyond `±1` and a non-zero mantissa the result is always wrong. -/
theorem C48_to_fp_fails (a : XNum) (h : 2 ≤ |a.i|) (hx : a.x ≠ 0) : xnumToFp a ≠ xval a := by
  obtain ⟨x, i⟩ := a
  simp only at h hx
  have h1 : (1:ℝ) < 2 := by norm_num
  rcases le_abs.mp h with hi | hi
  · have hlt : (2:ℝ) ^ (460:ℤ) < 2 ^ (460 * i) := zpow_lt_zpow_right₀ h1 (by omega)
    unfold xnumToFp xval
    simp only
    rw [if_neg (by omega), if_neg (by omega)]
    intro h; exact hlt.ne (mul_left_cancel₀ hx h)
  · have hlt : (2:ℝ) ^ (460 * i) < 2 ^ (-460:ℤ) := zpow_lt_zpow_right₀ h1 (by omega)
    unfold xnumToFp xval
    simp only
    rw [if_neg (by omega), if_pos (by omega)]
    intro h
    have e : (1:ℝ) / 2 ^ 460 = 2 ^ (-460:ℤ) := by rw [zpow_neg, one_div]; rfl
    rw [e] at h
    exact hlt.ne' (mul_left_cancel₀ hx h)

/-- For normalised numbers with negative exponent the absolute error stays below `2^-229`. -/
theorem C48_to_fp_error (a : XNum) (h : a.i ≤ 0) (hx : |a.x| < 2 ^ 230) :
    |xnumToFp a - xval a| ≤ 1 / 2 ^ 229 := by
  by_cases h1 : |a.i| ≤ 1
  · rw [C48_to_fp_partial a h1, sub_self, abs_zero]; positivity
  · obtain ⟨x, i⟩ := a
    simp only at h hx h1
    rw [abs_le] at h1
    have hlt : (2:ℝ) ^ (460 * i) ≤ 2 ^ (-460:ℤ) := zpow_le_zpow_right₀ (by norm_num) (by omega)
    have e : (1:ℝ) / 2 ^ 460 = 2 ^ (-460:ℤ) := by rw [zpow_neg, one_div]; rfl
    unfold xnumToFp xval
    simp only
    rw [if_neg (by omega), if_pos (by omega), ← mul_sub, abs_mul]
    have h0 : (0:ℝ) < 2 ^ (460 * i) := by positivity
    have hd : |(1:ℝ) / 2 ^ 460 - 2 ^ (460 * i)| ≤ 1 / 2 ^ 460 := by
      rw [abs_le]; constructor
      · rw [e]; linarith [show (0:ℝ) < 2 ^ (-460:ℤ) by positivity]
      · linarith
    calc |x| * |1 / 2 ^ 460 - 2 ^ (460 * i)| ≤ 2 ^ 230 * (1 / 2 ^ 460) :=
          mul_le_mul hx.le hd (abs_nonneg _) (by positivity)
      _ ≤ 1 / 2 ^ 229 := by
          rw [show (2:ℝ) ^ 460 = 2 ^ 230 * 2 ^ 230 by rw [← pow_add], show (2:ℝ) ^ 230 = 2 * 2 ^ 229 by rw [← pow_succ']]
          rw [mul_one_div, div_le_div_iff₀ (by positivity) (by positivity)]
          nlinarith [show (0:ℝ) < 2 ^ 229 by positivity]

example : xval ⟨3, 1⟩ = 3 * 2 ^ 460 ∧ xnumToFp ⟨1, -2⟩ ≠ xval ⟨1, -2⟩ :=
  ⟨by unfold xval; norm_num, C48_to_fp_fails _ (by norm_num) (by norm_num)⟩

end Verif
