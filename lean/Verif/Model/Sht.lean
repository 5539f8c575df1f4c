import Mathlib.Analysis.SpecialFunctions.Trigonometric.Basic
import Mathlib.Analysis.SpecialFunctions.Pow.Real
import Mathlib.LinearAlgebra.Matrix.NonsingularInverse
import Mathlib.Data.Matrix.Mul
/-!
Model of the transform matrices of /repo/ebsdtorch/harmonics/sht.py (lines 86-217).
Real arithmetic; `x ** 0.5` is the square root.
-/
namespace Verif.Sht

/-- sht.py:108-122 `idctMatrix(N)`: row `k`, column `n`. -/
noncomputable def idctMatrix (N : ℕ) : Matrix (Fin N) (Fin N) ℝ :=
  .of fun k n => Real.cos (Real.pi * n.val * (k.val + 0.5) / N) *
    (if n.val = 0 then Real.sqrt (1 / N) else Real.sqrt (2 / N))

/-- sht.py:126-140 `idstMatrix(N)`: row `k`, column `n`. -/
noncomputable def idstMatrix (N : ℕ) : Matrix (Fin N) (Fin N) ℝ :=
  .of fun k n => Real.sin (Real.pi * (n.val + 1) * (k.val + 0.5) / N) *
    (if n.val = N - 1 then Real.sqrt (1 / N) else Real.sqrt (2 / N))

/-- sht.py:89-104 `dltWeightsDH(B)`: the weight of the colatitude with index `k < 2 B`. -/
noncomputable def dltWeightsDH (B : ℕ) (k : ℕ) : ℝ :=
  (2 / B) * Real.sin (Real.pi * (2 * k + 1) / (4 * B)) *
    ∑ p ∈ Finset.range B, (1 / (2 * (p : ℝ) + 1)) * Real.sin ((2 * k + 1) * (2 * p + 1) * Real.pi / (4 * B))

/-- The four kinds of `weightedDCST` (sht.py:144-217). -/
inductive Xform | c | ic | s | is
  deriving DecidableEq

/-- sht.py:176-217: the matrix `XF`; the layer maps the row vector `x` to `x @ XF` (`weight = XF.t()`). -/
noncomputable def dcstMatrix (L : ℕ) : Xform → Matrix (Fin (2 * L)) (Fin (2 * L)) ℝ
  | .c => Matrix.diagonal (fun k => dltWeightsDH L k.val) * idctMatrix (2 * L)
  | .ic => (idctMatrix (2 * L)).transpose
  | .s => Matrix.diagonal (fun k => dltWeightsDH L k.val) * idstMatrix (2 * L)
  | .is => (idstMatrix (2 * L)).transpose

/-- The forward pass of the layer (torch `Linear` without bias). -/
noncomputable def dcst (L : ℕ) (t : Xform) (x : Fin (2 * L) → ℝ) : Fin (2 * L) → ℝ := Matrix.vecMul x (dcstMatrix L t)

end Verif.Sht
