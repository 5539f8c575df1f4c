import Mathlib.Analysis.SpecialFunctions.Complex.Circle
import Mathlib.Analysis.Complex.Norm
/-!
Specification: structure factor of a crystal and Fourier coefficient of its potential, independent of the code.
-/
namespace Verif.Spec.Crystal

/-- Structure factor: sum over the atoms `(occupancy, scattering factor, position)` of `occ f exp (-2πi (h x + k y + l z))`. -/
noncomputable def cellStructureFactor (atoms : List (ℝ × ℂ × (Fin 3 → ℝ))) (h k l : ℤ) : ℂ :=
  (atoms.map fun a => (a.1 : ℂ) * a.2.1 * Complex.exp (-(2 * Real.pi * (h * a.2.2 0 + k * a.2.2 1 + l * a.2.2 2) : ℝ) * Complex.I)).sum

/-- Fourier coefficient `U = F / (π V)` of the reduced potential in nm⁻², from a structure factor in angstrom and a cell volume in nm³. -/
noncomputable def reducedPotential (F : ℂ) (V : ℝ) : ℂ := (0.1 : ℝ) * F / (Real.pi * V : ℝ)

end Verif.Spec.Crystal
