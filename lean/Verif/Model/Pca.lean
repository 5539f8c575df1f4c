import Mathlib.LinearAlgebra.Matrix.NonsingularInverse
import Mathlib.Data.Matrix.Basic
import Mathlib.Data.Matrix.ColumnRowPartitioned
import Mathlib.Data.Real.Sqrt
/-!
Model of /repo/ebsdtorch/utils/pca_online.py (online PCA).
Batches are `(b, n)` matrices whose rows are data points; `b` may differ from batch to batch.
-/
namespace Verif.Pca
open Matrix

/-- A batch of `b` rows with `n` features. -/
structure Batch (n : ℕ) where
  b : ℕ
  x : Matrix (Fin b) (Fin n) ℝ

/-- The buffers `C` and `C_cross` of `KrasulinaPCA` (pca_online.py:55-58). -/
structure Kras (n k : ℕ) where
  C : Matrix (Fin n) (Fin k) ℝ
  Cx : Matrix (Fin k) (Fin n) ℝ

/-- pca_online.py:56-58 and 68: `inv_ex(C.T @ C)[0] @ C.T`.  Simplification: for a singular `C.T @ C` the model uses the zero
inverse of Mathlib, torch an unspecified matrix; the theorems only use the invertible case. -/
noncomputable def cross {n k : ℕ} (C : Matrix (Fin n) (Fin k) ℝ) : Matrix (Fin k) (Fin n) ℝ := (Cᵀ * C)⁻¹ * Cᵀ

/-- pca_online.py:55-58: the state after construction, `C` being the random draw. -/
noncomputable def krasInit {n k : ℕ} (C : Matrix (Fin n) (Fin k) ℝ) : Kras n k := ⟨C, cross C⟩

/-- pca_online.py:61-68 `forward` of `KrasulinaPCA`. -/
noncomputable def krasForward {n k : ℕ} (eta : ℝ) (s : Kras n k) (d : Batch n) : Kras n k :=
  let latent : Matrix (Fin k) (Fin d.b) ℝ := s.Cx * d.xᵀ
  let residual : Matrix (Fin n) (Fin d.b) ℝ := d.xᵀ - s.C * latent
  let alpha : Fin d.b → ℝ := fun j => eta / (1 + eta * Real.sqrt (∑ i, latent i j ^ 2))
  let C := s.C + (Matrix.of fun i j => alpha j * residual i j) * latentᵀ
  ⟨C, cross C⟩

/-- any sequence of updates -/
noncomputable def krasRun {n k : ℕ} (eta : ℝ) (s : Kras n k) (ds : List (Batch n)) : Kras n k := ds.foldl (krasForward eta) s

/-- pca_online.py:74-75 `transform` of `KrasulinaPCA`: `(b, n) → (k, b)`. -/
def krasTransform {n k : ℕ} (s : Kras n k) (d : Batch n) : Matrix (Fin k) (Fin d.b) ℝ := s.Cx * d.xᵀ

/-- pca_online.py:77-78 `inverse_transform` of `KrasulinaPCA`: `(k, b) → (n, b)`. -/
def krasInverse {n k b : ℕ} (s : Kras n k) (z : Matrix (Fin k) (Fin b) ℝ) : Matrix (Fin n) (Fin b) ℝ := s.C * z

/-- What `torch.svd(A)` returns (used at pca_online.py:71): orthonormal `U`, `V` and non-increasing `S ≥ 0` with `A = U diag(S) Vᵀ`. -/
structure IsSvd {n k : ℕ} (A U : Matrix (Fin n) (Fin k) ℝ) (S : Fin k → ℝ) (W : Matrix (Fin k) (Fin k) ℝ) : Prop where
  eq : A = U * Matrix.diagonal S * Wᵀ
  u : Uᵀ * U = 1
  v : Wᵀ * W = 1
  nonneg : ∀ i, 0 ≤ S i
  sorted : ∀ i j, i ≤ j → S j ≤ S i

/-- pca_online.py:70-72 `get_components`: `U.flip(1)`. -/
def krasComponents {n k : ℕ} (U : Matrix (Fin n) (Fin k) ℝ) : Matrix (Fin n) (Fin k) ℝ := Matrix.of fun i j => U i j.rev

/-- What `torch.linalg.qr(A)` returns for `k ≤ n`: orthonormal columns and an upper triangular factor. -/
structure IsQr {n k : ℕ} (A Q : Matrix (Fin n) (Fin k) ℝ) (R : Matrix (Fin k) (Fin k) ℝ) : Prop where
  eq : Q * R = A
  orth : Qᵀ * Q = 1
  upper : ∀ i j, j < i → R i j = 0

/-- The buffers of `OjaPCA` (pca_online.py:97-105). -/
structure Oja (n k : ℕ) where
  Q : Matrix (Fin n) (Fin k) ℝ
  step : ℕ
  next : ℕ

/-- pca_online.py:97-105: the state after construction, `Q` being the random draw. -/
def ojaInit {n k : ℕ} (Q : Matrix (Fin n) (Fin k) ℝ) : Oja n k := ⟨Q, 0, 0⟩

/-- pca_online.py:116-117: whether this update divides by zero (`step % (n_components // 2)` with one component). -/
def ojaRaises {n k : ℕ} (plus : Bool) (s : Oja n k) : Prop := plus = true ∧ s.next < k ∧ k / 2 = 0

/-- pca_online.py:116-122: whether this update overwrites a column by a random draw. -/
def ojaDraws {n k : ℕ} (plus : Bool) (s : Oja n k) : Prop := plus = true ∧ s.next < k ∧ k / 2 ≠ 0 ∧ (s.step + 1) % (k / 2) = 0

/-- pca_online.py:107-122 `forward` of `OjaPCA`: `s'` is a possible state after the update (over all QR factorisations that
satisfy the contract of `torch.linalg.qr`, and all random draws). -/
def OjaForward {n k : ℕ} (eta : ℝ) (plus : Bool) (s : Oja n k) (d : Batch n) (s' : Oja n k) : Prop :=
  ¬ ojaRaises plus s ∧ ∃ Q R, IsQr (s.Q + eta • (d.xᵀ * (d.x * s.Q))) Q R ∧ s'.step = s.step + 1 ∧
    ((ojaDraws plus s ∧ s'.next = s.next + 1 ∧ ∃ v : Fin n → ℝ, ∀ i (j : Fin k), s'.Q i j = if (j : ℕ) = s.next then v i else Q i j) ∨
     (¬ ojaDraws plus s ∧ s'.next = s.next ∧ s'.Q = Q))

/-- any sequence of updates -/
inductive OjaRun {n k : ℕ} (eta : ℝ) (plus : Bool) : Oja n k → List (Batch n) → Oja n k → Prop
  | nil (s) : OjaRun eta plus s [] s
  | cons {s s' s'' d ds} : OjaForward eta plus s d s' → OjaRun eta plus s' ds s'' → OjaRun eta plus s (d :: ds) s''

/-- pca_online.py:128-130 `transform` of `OjaPCA`: `(b, n) → (b, k)`. -/
def ojaTransform {n k b : ℕ} (s : Oja n k) (x : Matrix (Fin b) (Fin n) ℝ) : Matrix (Fin b) (Fin k) ℝ := x * s.Q

/-- pca_online.py:132-134 `inverse_transform` of `OjaPCA`: `(b, k) → (b, n)`. -/
def ojaInverse {n k b : ℕ} (s : Oja n k) (z : Matrix (Fin b) (Fin k) ℝ) : Matrix (Fin b) (Fin n) ℝ := z * s.Qᵀ

end Verif.Pca
