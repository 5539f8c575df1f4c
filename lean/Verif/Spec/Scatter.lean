import Mathlib.Analysis.SpecialFunctions.Exp
import Mathlib.Analysis.SpecialFunctions.Log.Basic
import Mathlib.Topology.Algebra.InfiniteSum.Basic
import Mathlib.Algebra.BigOperators.Fin
import Mathlib.NumberTheory.Harmonic.EulerMascheroni
/-!
Specification of electron scattering factors, independent of the code.
-/
namespace Verif.Spec.Scatter
open Real

/-- The Weickenmeier-Kohl form of the elastic scattering factor, `s = g / (4 pi)` (Acta Cryst. A47 (1991) 590):
`s⁻² Σ A_i (1 - exp(-B_i s²))`, continued by its limit at `s = 0`. -/
noncomputable def wkExact (A B : Fin 4 → ℝ) (s : ℝ) : ℝ :=
  if s = 0 then ∑ k, A k * B k else (∑ k, A k * (1 - exp (-(B k * s ^ 2)))) / s ^ 2

/-- The Debye-Waller damping of the wave vector transfer `q` (radians per length) at root mean square displacement `σ`. -/
noncomputable def debyeWaller (σ q : ℝ) : ℝ := exp (-(σ ^ 2 * q ^ 2 / 2))

/-- The relativistic mass ratio at an accelerating voltage in kV (rest energy 511 keV). -/
noncomputable def massRatio (V : ℝ) : ℝ := 1 + V / 511

/-- The exponential integral (DLMF 6.6.2), with the constant `c` for Euler's constant:
`c + log|x| + Σ_{k ≥ 1} x^k / (k * k!)`. -/
noncomputable def eiWith (c x : ℝ) : ℝ := c + log |x| + ∑' k : ℕ, x ^ (k + 1) / ((k + 1 : ℝ) * (k + 1).factorial)

/-- The exponential integral: the antiderivative of `e^x / x` that vanishes at minus infinity. -/
noncomputable def expInt (x : ℝ) : ℝ := eiWith eulerMascheroniConstant x

/-- The scaled exponential integral of Euler's constant, `x e^{-x} Ei(x)`; it tends to 1. -/
noncomputable def scaledEi (x : ℝ) : ℝ := x * exp (-x) * eiWith eulerMascheroniConstant x

end Verif.Spec.Scatter
