import Verif.Model.Scatter
import Verif.Lemmas.Ei
import Mathlib.Analysis.Complex.ExponentialBounds
import Mathlib.Tactic.Linarith
import Mathlib.Tactic.Positivity
import Mathlib.Tactic.IntervalCases
/-!
C115: the table behind the exponential integral of large arguments.
-/
namespace Verif.Scat
open Real Verif.Spec.Scatter Verif.Ei

private lemma tail (x : ℝ) (m : ℕ) : Summable (fun k : ℕ => x ^ (k + m) / ((k + m).factorial : ℝ)) ∧
    ∑' k : ℕ, x ^ (k + m) / ((k + m).factorial : ℝ) = exp x - ∑ i ∈ Finset.range m, x ^ i / (i.factorial : ℝ) := by
  have hs := Real.summable_pow_div_factorial x
  have e : exp x = ∑' n : ℕ, x ^ n / n.factorial := by rw [Real.exp_eq_exp_ℝ, NormedSpace.exp_eq_tsum_div]
  refine ⟨(summable_nat_add_iff m).mpr hs, ?_⟩
  have := hs.sum_add_tsum_nat_add m
  rw [e]; linarith

private lemma fact_succ (k : ℕ) : ((k + 2).factorial : ℝ) = (k + 2) * (k + 1).factorial ∧
    ((k + 3).factorial : ℝ) = (k + 3) * ((k + 2) * (k + 1).factorial) ∧
    ((k + 4).factorial : ℝ) = (k + 4) * ((k + 3) * ((k + 2) * (k + 1).factorial)) := by
  refine ⟨?_, ?_, ?_⟩
  · rw [Nat.factorial_succ (k + 1)]; push_cast; ring
  · rw [Nat.factorial_succ (k + 2), Nat.factorial_succ (k + 1)]; push_cast; ring
  · rw [Nat.factorial_succ (k + 3), Nat.factorial_succ (k + 2), Nat.factorial_succ (k + 1)]; push_cast; ring

/-- Two-sided bounds on the entire part. -/
private lemma ein_bounds {x : ℝ} (hx : 0 < x) :
    (exp x - (1 + x)) / x + (exp x - (1 + x + x ^ 2 / 2)) / x ^ 2 ≤ ein x ∧
    ein x ≤ (exp x - (1 + x)) / x + (exp x - (1 + x + x ^ 2 / 2)) / x ^ 2
      + 8 * ((exp x - (1 + x + x ^ 2 / 2 + x ^ 3 / 6)) / x ^ 3) := by
  obtain ⟨s2, t2⟩ := tail x 2
  obtain ⟨s3, t3⟩ := tail x 3
  obtain ⟨s4, t4⟩ := tail x 4
  have r2 : ∑ i ∈ Finset.range 2, x ^ i / (i.factorial : ℝ) = 1 + x := by norm_num [Finset.sum_range_succ, Nat.factorial]
  have r3 : ∑ i ∈ Finset.range 3, x ^ i / (i.factorial : ℝ) = 1 + x + x ^ 2 / 2 := by
    norm_num [Finset.sum_range_succ, Nat.factorial]
  have r4 : ∑ i ∈ Finset.range 4, x ^ i / (i.factorial : ℝ) = 1 + x + x ^ 2 / 2 + x ^ 3 / 6 := by
    norm_num [Finset.sum_range_succ, Nat.factorial]
  rw [r2] at t2
  rw [r3] at t3
  rw [r4] at t4
  have hx1 := hx.ne'
  have d2 : Summable fun k : ℕ => x ^ (k + 2) / ((k + 2).factorial : ℝ) / x := s2.div_const x
  have d3 : Summable fun k : ℕ => x ^ (k + 3) / ((k + 3).factorial : ℝ) / x ^ 2 := s3.div_const (x ^ 2)
  have d4 : Summable fun k : ℕ => 8 * (x ^ (k + 4) / ((k + 4).factorial : ℝ) / x ^ 3) := (s4.div_const (x ^ 3)).mul_left 8
  rw [← t2, ← t3, ← t4, ← tsum_div_const, ← tsum_div_const, ← tsum_div_const, ← tsum_mul_left, ← d2.tsum_add d3,
    ← (d2.add d3).tsum_add d4]
  unfold ein
  have pt : ∀ k : ℕ, x ^ (k + 1) / ((k + 1 : ℝ) * (k + 1).factorial) - (x ^ (k + 2) / ((k + 2).factorial : ℝ) / x
      + x ^ (k + 3) / ((k + 3).factorial : ℝ) / x ^ 2) =
      x ^ (k + 1) / (k + 1).factorial * (2 / ((k + 1) * (k + 2) * (k + 3))) := by
    intro k
    obtain ⟨f2, f3, _⟩ := fact_succ k
    have h0 : (0 : ℝ) < (k + 1).factorial := by exact_mod_cast Nat.factorial_pos _
    have h1 : (0 : ℝ) ≤ k := Nat.cast_nonneg k
    rw [f2, f3]
    field_simp
    ring
  have pt4 : ∀ k : ℕ, 8 * (x ^ (k + 4) / ((k + 4).factorial : ℝ) / x ^ 3) =
      x ^ (k + 1) / (k + 1).factorial * (8 / ((k + 2) * (k + 3) * (k + 4))) := by
    intro k
    obtain ⟨_, _, f4⟩ := fact_succ k
    have h0 : (0 : ℝ) < (k + 1).factorial := by exact_mod_cast Nat.factorial_pos _
    have h1 : (0 : ℝ) ≤ k := Nat.cast_nonneg k
    rw [f4]
    field_simp
    ring
  constructor
  · refine (d2.add d3).tsum_le_tsum (fun k => ?_) (summable_ein x)
    have h0 : (0 : ℝ) < (k + 1).factorial := by exact_mod_cast Nat.factorial_pos _
    have h1 : (0 : ℝ) ≤ k := Nat.cast_nonneg k
    have := pt k
    have hp : 0 ≤ x ^ (k + 1) / (k + 1).factorial * (2 / (((k : ℝ) + 1) * (k + 2) * (k + 3))) := by positivity
    linarith
  · refine (summable_ein x).tsum_le_tsum (fun k => ?_) ((d2.add d3).add d4)
    have h0 : (0 : ℝ) < (k + 1).factorial := by exact_mod_cast Nat.factorial_pos _
    have h1 : (0 : ℝ) ≤ k := Nat.cast_nonneg k
    have e1 := pt k
    have e2 := pt4 k
    have : 2 / (((k : ℝ) + 1) * (k + 2) * (k + 3)) ≤ 8 / ((k + 2) * (k + 3) * (k + 4)) := by
      rw [div_le_div_iff₀ (by positivity) (by positivity)]
      have : (0 : ℝ) ≤ (k + 2) * (k + 3) := by positivity
      nlinarith
    have := mul_le_mul_of_nonneg_left this (show 0 ≤ x ^ (k + 1) / ((k + 1).factorial : ℝ) by positivity)
    linarith

private lemma small {x : ℝ} (hx : 20 ≤ x) : x * (1 + x) * exp (-x) ≤ 6e-5 := by
  have h := Real.pow_div_factorial_le_exp x (by linarith) 16
  have hx0 : 0 < x := by linarith
  rw [exp_neg, ← div_eq_mul_inv, div_le_iff₀ (exp_pos x)]
  have h14 : (20 : ℝ) ^ 14 ≤ x ^ 14 := pow_le_pow_left₀ (by norm_num) hx 14
  have e : x ^ 16 = x ^ 14 * x ^ 2 := by ring
  have f : ((16 : ℕ).factorial : ℝ) = 20922789888000 := by norm_num [Nat.factorial]
  rw [e, f] at h
  have h2 : x * (1 + x) ≤ 2 * x ^ 2 := by nlinarith
  have h3 : (20 : ℝ) ^ 14 * x ^ 2 / 20922789888000 ≤ exp x := by
    refine le_trans ?_ h
    apply div_le_div_of_nonneg_right _ (by norm_num)
    exact mul_le_mul_of_nonneg_right h14 (by positivity)
  have h4 : 2 * x ^ 2 ≤ 6e-5 * ((20 : ℝ) ^ 14 * x ^ 2 / 20922789888000) := by
    have : 0 ≤ x ^ 2 := by positivity
    linarith
  linarith

private lemma small' {x : ℝ} (hx : 20 ≤ x) : 0 < exp (-x) ∧ exp (-x) ≤ 1.5e-7 ∧ x * exp (-x) ≤ 3e-6 ∧ x ^ 2 * exp (-x) ≤ 6e-5 := by
  have h := small hx
  have h0 := exp_pos (-x)
  have p : 0 ≤ x * exp (-x) := by positivity
  have q : x * (x * exp (-x)) ≤ 6e-5 := by nlinarith
  have r : x * exp (-x) ≤ 3e-6 := by
    have := mul_le_mul_of_nonneg_right hx p
    linarith
  have := mul_le_mul_of_nonneg_right hx h0.le
  refine ⟨h0, by linarith, r, by linarith [show x ^ 2 * exp (-x) = x * (x * exp (-x)) by ring]⟩

lemma scaled_bounds {x : ℝ} (hx : 20 ≤ x) :
    1 + 1 / x - 1e-5 ≤ scaledEi x ∧ scaledEi x ≤ 1 + 1 / x + 8 / x ^ 2 + 6e-5 := by
  have hx0 : 0 < x := by linarith
  obtain ⟨lo, hi⟩ := ein_bounds hx0
  obtain ⟨e0, e1, e2, e3⟩ := small' hx
  have g1 := one_half_lt_eulerMascheroniConstant
  have g2 := eulerMascheroniConstant_lt_two_thirds
  have l1 : 0 ≤ log x := log_nonneg (by linarith)
  have l2 : log x ≤ x - 1 := log_le_sub_one_of_pos hx0
  have hE : exp (-x) * exp x = 1 := by rw [← exp_add]; simp
  have hi' : 1 / x ≤ 1 / 20 := one_div_le_one_div_of_le (by norm_num) hx
  have hip : 0 < 1 / x := by positivity
  have split : scaledEi x = x * exp (-x) * (eulerMascheroniConstant + log x) + x * exp (-x) * ein x := by
    unfold scaledEi; rw [eiWith_eq, abs_of_pos hx0]; ring
  have lo' := mul_le_mul_of_nonneg_left lo (show 0 ≤ x * exp (-x) by positivity)
  have hi'' := mul_le_mul_of_nonneg_left hi (show 0 ≤ x * exp (-x) by positivity)
  have elo : x * exp (-x) * ((exp x - (1 + x)) / x + (exp x - (1 + x + x ^ 2 / 2)) / x ^ 2) =
      1 + 1 / x - exp (-x) * (1 + x) - (exp (-x) * (1 / x) + exp (-x) + x * exp (-x) / 2) := by
    field_simp
    linear_combination (2 * x + 2) * hE
  have ehi : x * exp (-x) * (8 * ((exp x - (1 + x + x ^ 2 / 2 + x ^ 3 / 6)) / x ^ 3)) =
      8 / x ^ 2 - 8 * (x * exp (-x)) * ((1 + x + x ^ 2 / 2 + x ^ 3 / 6) / x ^ 3) := by
    field_simp
    linear_combination 12 * hE
  have hg : 0 ≤ x * exp (-x) * (eulerMascheroniConstant + log x) := by
    apply mul_nonneg (by positivity); linarith
  have hg2 : x * exp (-x) * (eulerMascheroniConstant + log x) ≤ x * exp (-x) * x :=
    mul_le_mul_of_nonneg_left (by linarith) (by positivity)
  have hm : exp (-x) * (1 / x) ≤ exp (-x) * (1 / 20) := mul_le_mul_of_nonneg_left hi' e0.le
  have hmp : 0 ≤ exp (-x) * (1 / x) := by positivity
  have hxe : 0 ≤ x * exp (-x) := by positivity
  have hl : 0 ≤ 8 * (x * exp (-x)) * ((1 + x + x ^ 2 / 2 + x ^ 3 / 6) / x ^ 3) := by positivity
  rw [split]
  constructor
  · rw [elo] at lo'
    have : exp (-x) * (1 + x) = exp (-x) + x * exp (-x) := by ring
    linarith
  · rw [mul_add, elo, ehi] at hi''
    have : exp (-x) * (1 + x) = exp (-x) + x * exp (-x) := by ring
    have : x * exp (-x) * x = x ^ 2 * exp (-x) := by ring
    linarith

/-- C115, what holds: above 200 the interpolated table agrees with `x e^{-x} Ei(x)` to 3e-4. -/
theorem C115_large_partial (X : ℝ) (hX : 200 < X) : |rih2 X - scaledEi X| ≤ 3e-4 := by
  obtain ⟨lo, hi⟩ := scaled_bounds (by linarith : 20 ≤ X)
  have hX0 : 0 < X := by linarith
  have hidx : (min (max ⌊200 / X⌋ 0) 19).toNat = 0 := by
    have : ⌊200 / X⌋ = 0 := by
      rw [Int.floor_eq_zero_iff]
      exact ⟨by positivity, by rw [div_lt_one hX0]; exact hX⟩
    rw [this]; rfl
  have e : rih2 X = 1 + 1.0102 / X := by
    unfold rih2
    rw [hidx]
    simp only [rih2Table, List.getD_cons_zero, List.getD_cons_succ, Nat.cast_zero, mul_zero, sub_zero]
    rw [div_eq_mul_one_div 1.0102 X]
    norm_num
  rw [e]
  have h1 : 1 / X < 1 / 200 := one_div_lt_one_div_of_lt (by norm_num) hX
  have h0 : 0 < 1 / X := by positivity
  have e8 : 8 / X ^ 2 = 8 * (1 / X) ^ 2 := by field_simp
  have e10 : 1.0102 / X = 1.0102 * (1 / X) := by ring
  rw [e8] at hi
  rw [e10]
  generalize 1 / X = u at *
  rw [abs_le]
  constructor <;> nlinarith

/-- C115 fails: everywhere between 20 and 200, which is where the table is first used, the value returned is too large by more
than 0.0035 (the abscissa of the table entries is taken as `idx / 2000` in place of `idx / 200`). -/
theorem C115_table_fails (X : ℝ) (h1 : 20 < X) (h2 : X ≤ 200) : scaledEi X + 0.0035 < rih2 X := by
  obtain ⟨_, hi⟩ := scaled_bounds h1.le
  have hX0 : 0 < X := by linarith
  have e8 : 8 / X ^ 2 = 8 * (1 / X) ^ 2 := by field_simp
  have e2 : 200 / X = 200 * (1 / X) := by ring
  have u1 : 1 / 200 ≤ 1 / X := one_div_le_one_div_of_le hX0 h2
  have u2 : 1 / X < 1 / 20 := one_div_lt_one_div_of_lt (by norm_num) h1
  rw [e8] at hi
  unfold rih2
  rw [e2]
  generalize 1 / X = u at *
  obtain ⟨n, hn⟩ : ∃ n : ℤ, n = ⌊200 * u⌋ := ⟨_, rfl⟩
  have f1 : (n : ℝ) ≤ 200 * u := by rw [hn]; exact Int.floor_le _
  have f2 : 200 * u < n + 1 := by rw [hn]; exact Int.lt_floor_add_one _
  rw [← hn]
  have n1 : 1 ≤ n := by rw [hn, Int.le_floor]; push_cast; linarith
  have n2 : n < 10 := by rw [hn, Int.floor_lt]; push_cast; linarith
  interval_cases n <;> simp [rih2Table] <;> norm_num at f1 f2 ⊢ <;> nlinarith

/-- 25 lies in the range. -/
example : scaledEi 25 + 0.0035 < rih2 25 := C115_table_fails 25 (by norm_num) (by norm_num)

/-- 1000 lies above it. -/
example : |rih2 1000 - scaledEi 1000| ≤ 3e-4 := C115_large_partial 1000 (by norm_num)

end Verif.Scat
