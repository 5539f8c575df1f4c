import Mathlib.Analysis.Real.Sqrt
import Mathlib.Algebra.BigOperators.Group.Finset.Basic
import Mathlib.Algebra.BigOperators.Fin
/-! Textbook sample statistics of a data matrix with `n` rows and `d` columns. -/
namespace Verif.Spec

/-- Sample mean of column `j`. -/
noncomputable def mean {d n : ℕ} (x : Fin n → Fin d → ℝ) (j : Fin d) : ℝ := (∑ i, x i j) / n

/-- Unbiased sample covariance of columns `j` and `k`. -/
noncomputable def cov {d n : ℕ} (x : Fin n → Fin d → ℝ) (j k : Fin d) : ℝ :=
  (∑ i, (x i j - mean x j) * (x i k - mean x k)) / (n - 1)

/-- Pearson correlation of columns `j` and `k`. -/
noncomputable def corr {d n : ℕ} (x : Fin n → Fin d → ℝ) (j k : Fin d) : ℝ :=
  cov x j k / (Real.sqrt (cov x j j) * Real.sqrt (cov x k k))

end Verif.Spec
