import Mathlib.Analysis.SpecialFunctions.Log.Basic
import Mathlib.Algebra.BigOperators.Field
import Mathlib.Algebra.Order.BigOperators.Group.Finset
import Mathlib.Tactic.Linarith
import Mathlib.Tactic.Ring
import Mathlib.Tactic.FieldSimp
import Mathlib.Tactic.NormNum
/-!
Discrete entropy inequalities for a table of non-negative numbers.
-/
namespace Verif.MI
open Finset Real

variable {nx ny : ℕ} {p : ℕ → ℕ → ℝ}

theorem mul_log_le {a b : ℝ} (ha : 0 ≤ a) (hab : a ≤ b) : a * log a ≤ a * log b := by
  rcases ha.eq_or_lt with h | h
  · rw [← h]; simp
  · exact mul_le_mul_of_nonneg_left (log_le_log h hab) ha

/-- Gibbs' inequality, one cell -/
theorem gibbs {a b c : ℝ} (ha : 0 ≤ a) (hab : a ≤ b) (hac : a ≤ c) : a - b * c ≤ a * log a - a * log b - a * log c := by
  rcases ha.eq_or_lt with h | h
  · rw [← h] at hab hac ⊢
    have := mul_nonneg hab hac
    simp; exact this
  · have hb : 0 < b := by linarith
    have hc : 0 < c := by linarith
    have h1 := log_le_sub_one_of_pos (div_pos (mul_pos hb hc) h)
    rw [log_div (mul_pos hb hc).ne' h.ne', log_mul hb.ne' hc.ne'] at h1
    have h2 := mul_le_mul_of_nonneg_left h1 ha
    have e : a * (b * c / a - 1) = b * c - a := by field_simp
    rw [e] at h2
    linarith

theorem le_row (hp : ∀ i j, 0 ≤ p i j) {i j : ℕ} (hj : j ∈ range ny) : p i j ≤ ∑ j ∈ range ny, p i j :=
  single_le_sum (f := fun j => p i j) (fun j _ => hp i j) hj

theorem le_col (hp : ∀ i j, 0 ≤ p i j) {i j : ℕ} (hi : i ∈ range nx) : p i j ≤ ∑ i ∈ range nx, p i j :=
  single_le_sum (f := fun i => p i j) (fun i _ => hp i j) hi

theorem row_log : ∑ i ∈ range nx, ∑ j ∈ range ny, p i j * log (∑ j ∈ range ny, p i j) =
    ∑ i ∈ range nx, (∑ j ∈ range ny, p i j) * log (∑ j ∈ range ny, p i j) :=
  sum_congr rfl fun i _ => (sum_mul ..).symm

theorem col_log : ∑ i ∈ range nx, ∑ j ∈ range ny, p i j * log (∑ i ∈ range nx, p i j) =
    ∑ j ∈ range ny, (∑ i ∈ range nx, p i j) * log (∑ i ∈ range nx, p i j) := by
  rw [sum_comm]
  exact sum_congr rfl fun j _ => (sum_mul ..).symm

/-- subadditivity of entropy -/
theorem joint_ge (hp : ∀ i j, 0 ≤ p i j) (h1 : ∑ i ∈ range nx, ∑ j ∈ range ny, p i j = 1) :
    ∑ i ∈ range nx, (∑ j ∈ range ny, p i j) * log (∑ j ∈ range ny, p i j) +
      ∑ j ∈ range ny, (∑ i ∈ range nx, p i j) * log (∑ i ∈ range nx, p i j) ≤
    ∑ i ∈ range nx, ∑ j ∈ range ny, p i j * log (p i j) := by
  have key : ∑ i ∈ range nx, ∑ j ∈ range ny, (p i j - (∑ j ∈ range ny, p i j) * (∑ i ∈ range nx, p i j)) ≤
      ∑ i ∈ range nx, ∑ j ∈ range ny, (p i j * log (p i j) - p i j * log (∑ j ∈ range ny, p i j)
        - p i j * log (∑ i ∈ range nx, p i j)) :=
    sum_le_sum fun i hi => sum_le_sum fun j hj => gibbs (hp i j) (le_row hp hj) (le_col hp hi)
  simp only [sum_sub_distrib] at key
  rw [row_log, col_log, h1] at key
  have e : ∑ i ∈ range nx, ∑ j ∈ range ny, (∑ j ∈ range ny, p i j) * (∑ i ∈ range nx, p i j) = 1 := by
    rw [← sum_mul_sum, h1, sum_comm, h1]; norm_num
  rw [e] at key
  linarith

theorem joint_le_row (hp : ∀ i j, 0 ≤ p i j) :
    ∑ i ∈ range nx, ∑ j ∈ range ny, p i j * log (p i j) ≤
      ∑ i ∈ range nx, (∑ j ∈ range ny, p i j) * log (∑ j ∈ range ny, p i j) := by
  rw [← row_log]
  exact sum_le_sum fun i hi => sum_le_sum fun j hj => mul_log_le (hp i j) (le_row hp hj)

theorem joint_le_col (hp : ∀ i j, 0 ≤ p i j) :
    ∑ i ∈ range nx, ∑ j ∈ range ny, p i j * log (p i j) ≤
      ∑ j ∈ range ny, (∑ i ∈ range nx, p i j) * log (∑ i ∈ range nx, p i j) := by
  rw [← col_log]
  exact sum_le_sum fun i hi => sum_le_sum fun j hj => mul_log_le (hp i j) (le_col hp hi)

end Verif.MI
