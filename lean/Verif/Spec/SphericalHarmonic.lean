import Mathlib.Algebra.Polynomial.Derivative
import Mathlib.Analysis.SpecialFunctions.Trigonometric.Basic
import Mathlib.Analysis.SpecialFunctions.Complex.Log
import Mathlib.Analysis.Real.Sqrt
/-!
Spherical harmonics, textbook definition through Rodrigues' formula; independent of Wigner's functions.
-/
namespace Verif.Spec

/-- `d^k/dx^k (x^2 - 1)^l`. -/
noncomputable def rodrigues (l k : ℕ) : Polynomial ℝ :=
  Polynomial.derivative^[k] ((Polynomial.X ^ 2 - 1) ^ l)

/-- The associated Legendre function `P_l^m` (`m ≥ 0`, without the Condon-Shortley phase) at `cos θ`:
`(sin θ)^m / (2^l l!) * d^(l+m)/dx^(l+m) (x^2 - 1)^l`. -/
noncomputable def assocLegendre (l m : ℕ) (θ : ℝ) : ℝ :=
  Real.sin θ ^ m / (2 ^ l * l.factorial) * (rodrigues l (l + m)).eval (Real.cos θ)

/-- The orthonormal spherical harmonic `Y_lm` (with the Condon-Shortley phase) at colatitude `θ` and azimuth `φ`, for
`m ≥ 0`. -/
noncomputable def sphYpos (l m : ℕ) (θ φ : ℝ) : ℂ :=
  ((-1 : ℝ) ^ m * Real.sqrt ((2 * l + 1) / (4 * Real.pi) * ((l - m).factorial / (l + m).factorial)) * assocLegendre l m θ : ℝ)
    * Complex.exp (m * φ * Complex.I)

/-- `Y_lm` for all `m`: `Y_{l,-m} = (-1)^m conj(Y_lm)`. -/
noncomputable def sphY (l : ℕ) (m : ℤ) (θ φ : ℝ) : ℂ :=
  if 0 ≤ m then sphYpos l m.toNat θ φ
  else (-1) ^ m.natAbs * (starRingEnd ℂ) (sphYpos l m.natAbs θ φ)

/-- The band-limited function `Σ_{l < L} Σ_{|m| ≤ l} c_lm Y_lm`. -/
noncomputable def sphField (L : ℕ) (c : ℕ → ℤ → ℂ) (θ φ : ℝ) : ℂ :=
  ∑ l ∈ Finset.range L, ∑ m ∈ Finset.Icc (-(l : ℤ)) l, c l m * sphY l m θ φ

/-- The coefficients of a real function, from those of order `m ≥ 0` (`c_l0` is real, `c_{l,-m} = (-1)^m conj(c_lm)`). -/
noncomputable def realCoeffs (c : ℕ → ℕ → ℂ) (l : ℕ) (m : ℤ) : ℂ :=
  if m = 0 then ((c l 0).re : ℂ) else if 0 < m then c l m.toNat else (-1) ^ m.natAbs * (starRingEnd ℂ) (c l m.natAbs)

end Verif.Spec
