import Verif.Model.Wigner
import Verif.Lemmas.WignerTable
import Verif.Lemmas.Jacobi
import Mathlib.Tactic.NormNum.RealSqrt
/-! Log-space arithmetic represents real arithmetic; the real recurrence yields the explicit sum. -/
namespace Verif.Wigner

theorem lexp_ladd (a b : LogR) : lexp (ladd a b) = lexp a * lexp b := by
  cases a <;> cases b <;> simp [ladd, lexp, Real.exp_add]
theorem lexp_llog {x : ℝ} (h : 0 ≤ x) : lexp (llog x) = x := by
  unfold llog
  by_cases hx : x = 0
  · simp [hx, lexp]
  · rw [if_neg hx]; exact Real.exp_log (lt_of_le_of_ne h (Ne.symm hx))
theorem lexp_nonneg (a : LogR) : 0 ≤ lexp a := by cases a <;> simp [lexp, Real.exp_nonneg]

theorem lexp_shift_left (a b : LogR) : lexp (lshift a (lmax a b)) * lexp (lmax a b) = lexp a := by
  cases a <;> cases b <;> simp [lshift, lmax, lexp, ← Real.exp_add]
theorem lexp_shift_right (a b : LogR) : lexp (lshift b (lmax a b)) * lexp (lmax a b) = lexp b := by
  cases a <;> cases b <;> simp [lshift, lmax, lexp, ← Real.exp_add]

theorem slse_mag (a b : LogR) (sa sb : Bool) :
    lexp (signedLogSumExp a b sa sb).1 = |lexp a * sgnB sa + lexp b * sgnB sb| := by
  unfold signedLogSumExp
  simp only
  rw [lexp_ladd, lexp_llog (abs_nonneg _)]
  conv_rhs => rw [← lexp_shift_left a b, ← lexp_shift_right a b]
  rw [show ∀ x y m : ℝ, x * m * sgnB sa + y * m * sgnB sb = (x * sgnB sa + y * sgnB sb) * m by intros; ring, abs_mul,
    abs_of_nonneg (lexp_nonneg _)]

theorem slse_sign (a b : LogR) (sa sb : Bool) :
    (signedLogSumExp a b sa sb).2 = true ↔ 0 ≤ lexp a * sgnB sa + lexp b * sgnB sb := by
  have h : lexp a * sgnB sa + lexp b * sgnB sb =
      (lexp (lshift a (lmax a b)) * sgnB sa + lexp (lshift b (lmax a b)) * sgnB sb) * lexp (lmax a b) := by
    conv_lhs => rw [← lexp_shift_left a b, ← lexp_shift_right a b]
    ring
  unfold signedLogSumExp
  simp only [decide_eq_true_eq]
  rw [h]
  constructor
  · intro h1; exact mul_nonneg h1 (lexp_nonneg _)
  · intro h1
    rcases ha : lmax a b with _ | m
    · have : a = none ∧ b = none := by cases a <;> cases b <;> simp_all [lmax]
      simp [this.1, this.2, lshift, lexp]
    · rw [ha] at h1
      exact nonneg_of_mul_nonneg_left h1 (Real.exp_pos m)

theorem sgn_mag {b : Bool} {v : ℝ} (h : b = true ↔ 0 ≤ v) : |v| * sgnB b = v := by
  cases b
  · have : v < 0 := by by_contra hc; simp at h; linarith [not_le.mpr h]
    simp [sgnB, abs_of_neg this]
  · have : 0 ≤ v := h.mp rfl
    simp [sgnB, abs_of_nonneg this]

theorem slse_val (a b : LogR) (sa sb : Bool) :
    slogToFp (signedLogSumExp a b sa sb) = lexp a * sgnB sa + lexp b * sgnB sb := by
  rw [slogToFp, slse_mag]; exact sgn_mag (slse_sign a b sa sb)

theorem sgn_xor (s : Bool) (u : ℝ) :
    open Classical in |u| * sgnB (!(xor s (decide (0 ≤ u)))) = sgnB s * u := by
  by_cases h : 0 ≤ u
  · cases s <;> simp [h, sgnB, abs_of_nonneg]
  · push Not at h
    cases s <;> simp [not_le.mpr h, sgnB, abs_of_neg h]

/-- `√((2m+1)/((2(m+n)+2)(2(m-n)+2)))`. -/
noncomputable def sec (m n : ℕ) : ℝ := Real.sqrt ((2 * m + 1) / ((2 * ((m:ℝ) + n) + 2) * (2 * ((m:ℝ) - n) + 2)))

theorem exp_half_log {x : ℝ} (h : 0 < x) : Real.exp (0.5 * Real.log x) = Real.sqrt x := by
  rw [Real.sqrt_eq_rpow, Real.rpow_def_of_pos h]; congr 1; norm_num; ring

theorem exp_sec {m n : ℕ} (h : n ≤ m) : Real.exp (0.5 * (Real.log (2 * m + 1) - Real.log (2 * ((m:ℝ) + n) + 2)
    - Real.log (2 * ((m:ℝ) - n) + 2))) = sec m n := by
  have h' : (n:ℝ) ≤ m := by exact_mod_cast h
  have h1 : 0 < 2 * ((m:ℝ) + n) + 2 := by positivity
  have h2 : 0 < 2 * ((m:ℝ) - n) + 2 := by linarith
  have h3 : 0 < 2 * (m:ℝ) + 1 := by positivity
  rw [sec, ← exp_half_log (by positivity), Real.log_div h3.ne' (by positivity), Real.log_mul h1.ne' h2.ne']
  congr 1; ring

theorem slog_secondL (u : ℕ → ℕ → ℝ) {m n : ℕ} (h : n ≤ m) (d : SLog) :
    slogToFp (secondL u m n d) = sec m n * u m n * slogToFp d := by
  unfold slogToFp secondL
  simp only
  rw [lexp_ladd, lexp_ladd, lexp_llog (abs_nonneg _)]
  have e : lexp (some (0.5 * (Real.log (2 * m + 1) - Real.log (2 * ((m:ℝ) + n) + 2)
    - Real.log (2 * ((m:ℝ) - n) + 2)))) = sec m n := exp_sec h
  rw [e, mul_assoc, sgn_xor]; ring

theorem slog_secondLhalf {m n : ℕ} (h : n ≤ m) (d : SLog) (hd : d.2 = true) :
    slogToFp (secondLhalf m n d) = sec m n * (-2 * n) * slogToFp d := by
  unfold slogToFp secondLhalf
  simp only
  rw [lexp_ladd, lexp_ladd, lexp_llog (by positivity)]
  have e : lexp (some (0.5 * (Real.log (2 * m + 1) - Real.log (2 * ((m:ℝ) + n) + 2)
    - Real.log (2 * ((m:ℝ) - n) + 2)))) = sec m n := exp_sec h
  rw [e, hd]; simp [sgnB]; ring

/-- Coefficient `w`. -/
noncomputable def wC (l m n : ℕ) : ℝ := Real.exp (wLog l m n)
/-- Coefficient `b`. -/
noncomputable def bC (l m n : ℕ) : ℝ := Real.exp (wLog l m n + vLog l m n)

theorem slog_combL (u : ℕ → ℕ → ℕ → ℝ) {l m n : ℕ} (hl : 1 ≤ l) (d1 d2 : SLog) :
    slogToFp (combL u l m n d1 d2) =
      (4 * l - 2) * u l m n * wC l m n * slogToFp d1 - bC l m n * slogToFp d2 := by
  unfold combL
  simp only
  rw [slse_val]
  simp only [lexp_ladd, lexp_llog (abs_nonneg _)]
  have hl' : (1:ℝ) ≤ l := by exact_mod_cast hl
  have e1 : lexp (some (Real.log (4 * (l:ℝ) - 2))) = 4 * l - 2 := Real.exp_log (by linarith)
  have e2 : lexp (some (wLog l m n)) = wC l m n := rfl
  have e3 : lexp (some (wLog l m n + vLog l m n)) = bC l m n := rfl
  have e4 : sgnB (!d2.2) = - sgnB d2.2 := by cases d2.2 <;> simp [sgnB]
  rw [e1, e2, e3, e4]
  unfold slogToFp
  have := sgn_xor d1.2 (u l m n)
  calc _ = (4 * (l:ℝ) - 2) * wC l m n * lexp d1.1 * (|u l m n| * sgnB (!(xor d1.2 (decide (0 ≤ u l m n)))))
        - bC l m n * (lexp d2.1 * sgnB d2.2) := by ring
    _ = _ := by rw [this]; ring

theorem slog_combLhalf {l m n : ℕ} (hl : 1 ≤ l) (d1 d2 : SLog) :
    slogToFp (combLhalf l m n d1 d2) =
      (4 * l - 2) * (-4 * m * n) * wC l m n * slogToFp d1 - bC l m n * slogToFp d2 := by
  unfold combLhalf
  simp only
  rw [slse_val]
  simp only [lexp_ladd, lexp_llog (Nat.cast_nonneg _)]
  have hl' : (1:ℝ) ≤ l := by exact_mod_cast hl
  have e1 : lexp (some (Real.log (4 * (l:ℝ) - 2))) = 4 * l - 2 := Real.exp_log (by linarith)
  have e2 : lexp (some (wLog l m n)) = wC l m n := rfl
  have e3 : lexp (some (wLog l m n + vLog l m n)) = bC l m n := rfl
  have e4 : ∀ b : Bool, sgnB (!b) = - sgnB b := by intro b; cases b <;> simp [sgnB]
  have e5 : lexp (some (Real.log 4)) = 4 := Real.exp_log (by norm_num)
  rw [e1, e2, e3, e4, e4, e5]
  unfold slogToFp
  ring

/-! ### Closed forms of the coefficients -/

theorem wC_eq {l m n : ℕ} (hn : n ≤ m) (hm : m + 2 ≤ l) :
    wC l m n = 1 / ((2 * l - 2) * (4 * Real.sqrt (((l:ℝ) + m) * (l - m) * (l + n) * (l - n)))) := by
  have h1 : (n:ℝ) ≤ m := by exact_mod_cast hn
  have h2 : (m:ℝ) + 2 ≤ l := by exact_mod_cast hm
  have h3 : (0:ℝ) ≤ n := by positivity
  have p1 : 0 < 2 * (l:ℝ) + 2 * m := by linarith
  have p2 : 0 < 2 * (l:ℝ) - 2 * m := by linarith
  have p3 : 0 < 2 * (l:ℝ) + 2 * n := by linarith
  have p4 : 0 < 2 * (l:ℝ) - 2 * n := by linarith
  have p5 : 0 < 2 * (l:ℝ) - 2 := by linarith
  have e : Real.exp (0.5 * (Real.log (2 * l + 2 * m) + Real.log (2 * l - 2 * m)
    + Real.log (2 * l + 2 * n) + Real.log (2 * l - 2 * n))) = 4 * Real.sqrt (((l:ℝ) + m) * (l - m) * (l + n) * (l - n)) := by
    rw [← Real.log_mul p1.ne' p2.ne', ← Real.log_mul (by positivity) p3.ne', ← Real.log_mul (by positivity) p4.ne',
      exp_half_log (by positivity)]
    rw [show (2 * (l:ℝ) + 2 * m) * (2 * l - 2 * m) * (2 * l + 2 * n) * (2 * l - 2 * n) =
      4 ^ 2 * (((l:ℝ) + m) * (l - m) * (l + n) * (l - n)) by ring, Real.sqrt_mul (by norm_num), Real.sqrt_sq (by norm_num)]
  rw [wC, wLog, sub_eq_add_neg, Real.exp_add, Real.exp_neg, e, show (-1.0 : ℝ) * Real.log (2 * l - 2) = - Real.log (2 * l - 2) by
    norm_num, Real.exp_neg, Real.exp_log p5]
  field_simp

theorem vC_eq {l m n : ℕ} (hn : n ≤ m) (hm : m + 2 ≤ l) :
    Real.exp (vLog l m n) = 2 * l * (4 * Real.sqrt (((l:ℝ) - 1 + m) * (l - 1 - m) * (l - 1 + n) * (l - 1 - n))) := by
  have h1 : (n:ℝ) ≤ m := by exact_mod_cast hn
  have h2 : (m:ℝ) + 2 ≤ l := by exact_mod_cast hm
  have h3 : (0:ℝ) ≤ n := by positivity
  have p1 : 0 < 2 * (l:ℝ) + 2 * m - 2 := by linarith
  have p2 : 0 < 2 * (l:ℝ) - 2 * m - 2 := by linarith
  have p3 : 0 < 2 * (l:ℝ) + 2 * n - 2 := by linarith
  have p4 : 0 < 2 * (l:ℝ) - 2 * n - 2 := by linarith
  have p5 : 0 < 2 * (l:ℝ) := by linarith
  have e : Real.exp (0.5 * (Real.log (2 * l + 2 * m - 2) + Real.log (2 * l - 2 * m - 2)
    + Real.log (2 * l + 2 * n - 2) + Real.log (2 * l - 2 * n - 2))) =
      4 * Real.sqrt (((l:ℝ) - 1 + m) * (l - 1 - m) * (l - 1 + n) * (l - 1 - n)) := by
    rw [← Real.log_mul p1.ne' p2.ne', ← Real.log_mul (by positivity) p3.ne', ← Real.log_mul (by positivity) p4.ne',
      exp_half_log (by positivity)]
    rw [show (2 * (l:ℝ) + 2 * m - 2) * (2 * l - 2 * m - 2) * (2 * l + 2 * n - 2) * (2 * l - 2 * n - 2) =
      4 ^ 2 * (((l:ℝ) - 1 + m) * (l - 1 - m) * (l - 1 + n) * (l - 1 - n)) by ring, Real.sqrt_mul (by norm_num),
      Real.sqrt_sq (by norm_num)]
  rw [vLog, Real.exp_add, e, Real.exp_log p5]

theorem exp_lgammaHalf {m n : ℕ} (h : n ≤ m) : Real.exp (lgammaHalf m n) =
    Real.sqrt ((2 * m).factorial / ((m + n).factorial * (m - n).factorial)) := by
  have e1 : Real.Gamma (2 * m + 1) = (2 * m).factorial := by
    have := Real.Gamma_nat_eq_factorial (2 * m); push_cast at this; exact this
  have e2 : Real.Gamma (m + n + 1) = (m + n).factorial := by
    have := Real.Gamma_nat_eq_factorial (m + n); push_cast at this; exact this
  have e3 : Real.Gamma ((m:ℝ) - n + 1) = (m - n).factorial := by
    have := Real.Gamma_nat_eq_factorial (m - n); rw [Nat.cast_sub h] at this; exact this
  have p1 : (0:ℝ) < (2 * m).factorial := by positivity
  have p2 : (0:ℝ) < (m + n).factorial := by positivity
  have p3 : (0:ℝ) < (m - n).factorial := by positivity
  rw [lgammaHalf, e1, e2, e3, ← exp_half_log (by positivity), Real.log_div p1.ne' (by positivity), Real.log_mul p2.ne' p3.ne']
  congr 1; ring

theorem exp_logPower {h : ℝ} (hh : 0 < h) (k : ℕ) : Real.exp (logPower h k) = h ^ k := by
  rw [logPower, mul_comm, Real.exp_mul, Real.exp_log hh, Real.rpow_natCast]

theorem slog_seedL {β : ℝ} (hc : 0 < Real.cos (β / 2)) (hs : 0 < Real.sin (β / 2)) {m n : ℕ} (h : n ≤ m) :
    slogToFp (seedL β m n) = Real.sqrt ((2 * m).factorial / ((m + n).factorial * (m - n).factorial))
      * Real.cos (β / 2) ^ (m + n) * Real.sin (β / 2) ^ (m - n) := by
  unfold slogToFp seedL lexp sgnB
  simp only
  rw [Real.exp_add, Real.exp_add, exp_lgammaHalf h, exp_logPower hc, exp_logPower hs]
  simp

theorem cos_quarter : Real.cos (Real.pi / 2 / 2) = Real.sqrt 2 / 2 := by
  rw [show Real.pi / 2 / 2 = Real.pi / 4 by ring]; exact Real.cos_pi_div_four
theorem sin_quarter : Real.sin (Real.pi / 2 / 2) = Real.sqrt 2 / 2 := by
  rw [show Real.pi / 2 / 2 = Real.pi / 4 by ring]; exact Real.sin_pi_div_four

theorem slog_seedLhalf {m n : ℕ} (h : n ≤ m) :
    slogToFp (seedLhalf m n) = Real.sqrt ((2 * m).factorial / ((m + n).factorial * (m - n).factorial))
      * Real.cos (Real.pi / 2 / 2) ^ (m + n) * Real.sin (Real.pi / 2 / 2) ^ (m - n) := by
  rw [cos_quarter, sin_quarter, mul_assoc, ← pow_add, show m + n + (m - n) = 2 * m by omega, pow_mul,
    div_pow, Real.sq_sqrt (by norm_num)]
  unfold slogToFp seedLhalf lexp sgnB
  simp only
  rw [Real.exp_add, exp_lgammaHalf h, Real.exp_mul, Real.exp_log (by norm_num), Real.rpow_natCast]
  norm_num

end Verif.Wigner
