import Mathlib.Analysis.SpecialFunctions.Pow.Real
/-!
Specification: electron wavelength from the CODATA 2018 constants (SI).
-/
namespace Verif.Spec.Codata

/-- Planck constant, J s. -/
noncomputable def h : ℝ := 6.62607015e-34
/-- Electron rest mass, kg. -/
noncomputable def m : ℝ := 9.1093837015e-31
/-- Elementary charge, C. -/
noncomputable def e : ℝ := 1.602176634e-19
/-- Speed of light, m/s. -/
noncomputable def c : ℝ := 299792458

/-- Relativistic acceleration potential (V) of an electron accelerated by `U` volts. -/
noncomputable def potential (U : ℝ) : ℝ := U * (1 + e * U / (2 * m * c ^ 2))

/-- De Broglie wavelength in nm for the relativistic potential `ψ` (V). -/
noncomputable def wavelengthNm (ψ : ℝ) : ℝ := 1e9 * h / Real.sqrt (2 * m * e * ψ)

/-- Lorentz factor of an electron accelerated by `U` volts. -/
noncomputable def gamma (U : ℝ) : ℝ := 1 + e * U / (m * c ^ 2)

end Verif.Spec.Codata
