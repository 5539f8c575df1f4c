import Mathlib.MeasureTheory.Integral.IntegralEqImproper
import Verif.Spec.Scatter
/-!
Specification: the optical theorem for thermal diffuse scattering, independent of the code.
-/
namespace Verif.Spec.Scatter
open Real Set MeasureTheory

/-- Total cross section of thermal diffuse (Einstein model) scattering of electrons with wave number `k` and mass ratio `γ` by an atom with
scattering amplitude `γ f(q)`, in the small-angle approximation `dΩ = d²q / k²`:
`k⁻² ∫ (γ f(q))² (1 - e^{-σ² q²}) d²q`, with `d²q = 2π q dq`; `1 - e^{-σ² q²}` is one minus the square of the Debye-Waller factor. -/
noncomputable def tdsCrossSection (f : ℝ → ℝ) (σ γ k : ℝ) : ℝ :=
  (∫ q in Ioi 0, 2 * π * q * ((γ * f q) ^ 2 * (1 - debyeWaller σ q ^ 2))) / k ^ 2

/-- The optical theorem: imaginary part of the forward scattering amplitude of a channel with total cross section `Q`. -/
noncomputable def opticalTheorem (k Q : ℝ) : ℝ := k * Q / (4 * π)

end Verif.Spec.Scatter
