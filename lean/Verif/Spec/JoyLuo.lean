import Mathlib.Analysis.SpecialFunctions.Pow.Real
import Mathlib.Analysis.SpecialFunctions.Log.Basic
import Mathlib.Analysis.SpecialFunctions.Trigonometric.Basic
/-!
Specification, independent of the model: the single-scattering formulas of Joy's Monte Carlo method in CGS units and keV
(screened Rutherford cross-section, Joy-Luo stopping power).
-/
namespace Verif.Spec.JoyLuo

/-- mean ionisation potential in keV for atomic number `Z` (Berger and Seltzer) -/
noncomputable def potential (Z : ℝ) : ℝ := (9.76 * Z + 58.5 * Z ^ (-0.19 : ℝ)) / 1000

/-- energy loss in keV per cm: atomic number `Z`, weight `A` (g/mol), density `rho` (g/cm^3), energy `E` (keV) -/
noncomputable def lossPerCm (Z A rho E : ℝ) : ℝ :=
  78500 * rho * Z / (A * E) * Real.log (1.166 * (E + 0.85 * potential Z) / potential Z)

/-- screening parameter -/
noncomputable def screening (Z E : ℝ) : ℝ := 3.4e-3 * Z ^ (0.66667 : ℝ) / E

/-- elastic cross-section in cm^2 -/
noncomputable def crossSection (Z E : ℝ) : ℝ :=
  5.21e-21 * (Z / E) ^ 2 * (4 * Real.pi / (screening Z E * (1 + screening Z E))) * ((E + 511) / (E + 1024)) ^ 2

/-- mean free path in cm -/
noncomputable def meanFreePathCm (Z A rho E : ℝ) : ℝ := A / (6.022e23 * rho * crossSection Z E)

end Verif.Spec.JoyLuo
