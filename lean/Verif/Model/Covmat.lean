import Mathlib.Analysis.Real.Sqrt
import Mathlib.Algebra.BigOperators.Group.List.Basic
/-!
Model of /repo/ebsdtorch/utils/pca_covmat.py (`update_covmat`, `OnlineCovMatrix`).
A batch is the list of its rows.  Float rounding, dtypes and int64 overflow of `obs` are not modelled;
`none` stands for a buffer filled with NaN (or infinities) by a division by zero.
-/
namespace Verif

/-- pca_covmat.py:99-117: the registered buffers. -/
structure Cov (d : ℕ) where
  mean : Option (Fin d → ℝ)
  agg : Option (Fin d → Fin d → ℝ)
  obs : ℕ
  correlation : Bool

/-- pca_covmat.py:99-118 `__init__`. -/
noncomputable def Cov.init (d : ℕ) (correlation : Bool) : Cov d :=
  ⟨some fun _ => 0, some fun _ _ => 0, 0, correlation⟩

/-- `torch.mean(data, dim=0)` (pca_covmat.py:75): NaN for an empty batch. -/
noncomputable def batchMean {d : ℕ} (X : List (Fin d → ℝ)) : Option (Fin d → ℝ) :=
  if X.length = 0 then none else some fun j => (X.map fun x => x j).sum / X.length

/-- pca_covmat.py:53-90 `update_covmat`, called by `forward` (:120-131). -/
noncomputable def Cov.forward {d : ℕ} (s : Cov d) (X : List (Fin d → ℝ)) : Cov d :=
  let N := X.length
  let newMean : Option (Fin d → ℝ) := do
    let m ← s.mean
    let b ← batchMean X
    if s.obs + N = 0 then none
    else some fun j => (m j * s.obs + b j * N) / ((s.obs + N : ℕ) : ℝ)
  let agg' : Option (Fin d → Fin d → ℝ) :=
    match s.agg, s.mean, newMean with
    | some a, some m, some m' => some fun j k => a j k + (X.map fun x => (x j - m j) * (x k - m' k)).sum
    | some a, _, _ => if N = 0 then some a else none
    | none, _, _ => none
  { s with mean := newMean, agg := agg', obs := s.obs + N }

/-- pca_covmat.py:133-147 `get_covmat`. -/
noncomputable def Cov.getCovmat {d : ℕ} (s : Cov d) : Option (Fin d → Fin d → ℝ) := do
  let a ← s.agg
  if s.obs = 1 then none
  else
    let c : Fin d → Fin d → ℝ := fun j k => a j k / ((s.obs : ℝ) - 1)
    if s.correlation = true then
      if ∀ j, c j j ≠ 0 then
        some fun j k => c j k * (1 / Real.sqrt (c j j)) * (1 / Real.sqrt (c k k))
      else none
    else some c

end Verif
