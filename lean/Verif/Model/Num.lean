import Mathlib.Analysis.SpecialFunctions.Complex.Arg
import Mathlib.Analysis.SpecialFunctions.Trigonometric.Inverse
/-!
Numeric primitives shared by the model.  Floating-point tensors are modelled by `ℝ`
(trusted-base item 1 of DESIGN.md).
-/
namespace Verif

/-- `torch.atan2(y, x)`: the argument of the complex number `x + i y`, in `(-π, π]`.
Used e.g. in s2_and_so3/quaternions.py:254, s2_and_so3/sphere.py:83.
Simplification: signed zeros are not distinguished (IEEE `atan2(-0.0, -1.0) = -π`). -/
noncomputable def atan2 (y x : ℝ) : ℝ := Complex.arg ⟨x, y⟩

/-- `torch.sign`. -/
noncomputable def sgn (x : ℝ) : ℝ := if 0 < x then 1 else if x < 0 then -1 else 0

/-- `torch.copysign(mag, s)`; simplification: `+0.0` only, i.e. the sign of zero is `+`. -/
noncomputable def copysign (mag s : ℝ) : ℝ := if s < 0 then -|mag| else |mag|

/-- `torch.where(big < 0, -1, 1)` (s2_and_so3/sphere.py:80-86). -/
noncomputable def negOne (big : ℝ) : ℝ := if big < 0 then -1 else 1

end Verif
