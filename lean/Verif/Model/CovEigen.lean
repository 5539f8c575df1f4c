import Verif.Model.Covmat
import Mathlib.Data.Matrix.Mul
import Mathlib.LinearAlgebra.Matrix.Notation
/-!
Model of `OnlineCovMatrix.get_eigenvectors` of /repo/ebsdtorch/utils/pca_covmat.py.
-/
namespace Verif

/-- The contract of `torch.linalg.eigh` on a symmetric matrix (pca_covmat.py:157): orthonormal columns, eigenvalues in ascending order.
Signs of the columns, and their choice for repeated eigenvalues, are left open. -/
structure IsEigh {d : ℕ} (C E : Matrix (Fin d) (Fin d) ℝ) (lam : Fin d → ℝ) : Prop where
  orth : E.transpose * E = 1
  eig : C * E = E * Matrix.diagonal lam
  mono : Monotone lam

/-- pca_covmat.py:149-158 `get_eigenvectors`: `E` is a possible result (the eigenvalues are discarded). -/
def Cov.GetEigenvectors {d : ℕ} (s : Cov d) (E : Matrix (Fin d) (Fin d) ℝ) : Prop :=
  ∃ C, s.getCovmat = some C ∧ ∃ lam, IsEigh (Matrix.of C) E lam

end Verif
