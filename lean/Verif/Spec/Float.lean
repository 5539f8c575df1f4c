import Mathlib.Data.Real.Basic
/-!
Specification, independent of the model: binary floating-point numbers with a significand of `p` bits (24: single precision, 53:
double precision, 11: half precision, 8: bfloat16) and rounding to nearest.  The exponent is unbounded: overflow and underflow are left
out.
-/
namespace Verif.Spec

/-- `x` is a floating-point number with a significand of `p` bits. -/
def Rep (p : ℕ) (x : ℝ) : Prop := ∃ m e : ℤ, |m| < 2 ^ p ∧ x = m * (2 : ℝ) ^ e

/-- `fl` rounds every real number to a nearest floating-point number (ties in any way). -/
structure Nearest (p : ℕ) (fl : ℝ → ℝ) : Prop where
  rep : ∀ x, Rep p (fl x)
  near : ∀ x y, Rep p y → |fl x - x| ≤ |y - x|

end Verif.Spec
