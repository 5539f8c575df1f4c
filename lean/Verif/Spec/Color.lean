import Mathlib.Data.Real.Basic
import Mathlib.Algebra.Order.Floor.Ring
import Mathlib.Algebra.Order.Archimedean.Real.Basic
/-!
Specification of the HSL colour model (hue, saturation and lightness in [0, 1]), independent of laue_fz_ori.py.
-/
namespace Verif.Spec

/-- One channel of the colour with hue `h`, saturation `s` and lightness `l`: the CSS Color Module formula
`l - s * min(l, 1 - l) * max(-1, min(k - 3, 9 - k, 1))` with `k = (n + 12 h) mod 12`, `n = 0` for red, 8 for green,
4 for blue. -/
noncomputable def hslChannel (n h s l : ℝ) : ℝ :=
  let k := 12 * Int.fract ((n + 12 * h) / 12)
  l - s * min l (1 - l) * max (-1) (min (k - 3) (min (9 - k) 1))

/-- Red, green and blue in [0, 1]. -/
noncomputable def hslToRgb (h s l : ℝ) : ℝ × ℝ × ℝ := (hslChannel 0 h s l, hslChannel 8 h s l, hslChannel 4 h s l)

end Verif.Spec
