import Mathlib.Analysis.SpecialFunctions.Exponential
import Mathlib.Data.Matrix.Mul
/-!
The Gaussian kernel is positive semidefinite.
-/
namespace Verif.Gauss
open Finset

/-- Powers of a scalar product form a positive semidefinite kernel. -/
lemma pow_kernel {n d : ℕ} (x : Fin n → Fin d → ℝ) (b : Fin n → ℝ) (m : ℕ) :
    0 ≤ ∑ i, ∑ j, b i * b j * (∑ k, x i k * x j k) ^ m := by
  have e : ∑ i, ∑ j, b i * b j * (∑ k, x i k * x j k) ^ m =
      ∑ p : Fin m → Fin d, (∑ i, b i * ∏ t, x i (p t)) ^ 2 := by
    calc ∑ i, ∑ j, b i * b j * (∑ k, x i k * x j k) ^ m
        = ∑ i, ∑ j, ∑ p : Fin m → Fin d, (b i * ∏ t, x i (p t)) * (b j * ∏ t, x j (p t)) := by
          refine sum_congr rfl fun i _ => sum_congr rfl fun j _ => ?_
          rw [Fintype.sum_pow, mul_sum]
          refine sum_congr rfl fun p _ => ?_
          rw [prod_mul_distrib]; ring
      _ = ∑ i, ∑ p : Fin m → Fin d, ∑ j, (b i * ∏ t, x i (p t)) * (b j * ∏ t, x j (p t)) :=
          sum_congr rfl fun i _ => sum_comm
      _ = ∑ p : Fin m → Fin d, ∑ i, ∑ j, (b i * ∏ t, x i (p t)) * (b j * ∏ t, x j (p t)) := sum_comm
      _ = _ := by
          refine sum_congr rfl fun p _ => ?_
          rw [pow_two, sum_mul]
          exact sum_congr rfl fun i _ => by rw [mul_sum]
  rw [e]
  exact sum_nonneg fun p _ => sq_nonneg _

/-- The exponential of a scalar product is a positive semidefinite kernel. -/
lemma exp_kernel {n d : ℕ} (x : Fin n → Fin d → ℝ) (b : Fin n → ℝ) {c : ℝ} (hc : 0 ≤ c) :
    0 ≤ ∑ i, ∑ j, b i * b j * Real.exp (c * ∑ k, x i k * x j k) := by
  have hs : HasSum (fun m : ℕ => ∑ i, ∑ j, b i * b j * ((c * ∑ k, x i k * x j k) ^ m / m.factorial))
      (∑ i, ∑ j, b i * b j * Real.exp (c * ∑ k, x i k * x j k)) := by
    refine hasSum_sum fun i _ => hasSum_sum fun j _ => HasSum.mul_left _ ?_
    rw [Real.exp_eq_exp_ℝ]
    exact NormedSpace.expSeries_div_hasSum_exp _
  refine hs.nonneg fun m => ?_
  have e : ∑ i, ∑ j, b i * b j * ((c * ∑ k, x i k * x j k) ^ m / m.factorial) =
      c ^ m / m.factorial * ∑ i, ∑ j, b i * b j * (∑ k, x i k * x j k) ^ m := by
    rw [mul_sum]
    refine sum_congr rfl fun i _ => ?_
    rw [mul_sum]
    exact sum_congr rfl fun j _ => by rw [mul_pow]; ring
  rw [e]
  exact mul_nonneg (by positivity) (pow_kernel x b m)

/-- The Gaussian kernel `exp(-c |x_j - x_i|²)` is positive semidefinite. -/
lemma gauss_kernel {n d : ℕ} (x : Fin n → Fin d → ℝ) (a : Fin n → ℝ) {c : ℝ} (hc : 0 ≤ c) :
    0 ≤ ∑ i, ∑ j, a i * a j * Real.exp (-c * ∑ k, (x j k - x i k) * (x j k - x i k)) := by
  have e : ∑ i, ∑ j, a i * a j * Real.exp (-c * ∑ k, (x j k - x i k) * (x j k - x i k)) =
      ∑ i, ∑ j, (a i * Real.exp (-c * ∑ k, x i k * x i k)) * (a j * Real.exp (-c * ∑ k, x j k * x j k)) *
        Real.exp ((2 * c) * ∑ k, x i k * x j k) := by
    refine sum_congr rfl fun i _ => sum_congr rfl fun j _ => ?_
    have : -c * ∑ k, (x j k - x i k) * (x j k - x i k) =
        (-c * ∑ k, x i k * x i k) + (-c * ∑ k, x j k * x j k) + (2 * c) * ∑ k, x i k * x j k := by
      simp only [mul_sum, ← sum_add_distrib]
      exact sum_congr rfl fun k _ => by ring
    rw [this, Real.exp_add, Real.exp_add]; ring
  rw [e]
  exact exp_kernel x _ (by linarith)

end Verif.Gauss
