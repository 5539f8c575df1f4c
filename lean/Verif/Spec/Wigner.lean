import Mathlib.Analysis.SpecialFunctions.Trigonometric.Basic
import Mathlib.Analysis.Real.Sqrt
import Mathlib.Algebra.BigOperators.Group.Finset.Basic
import Mathlib.Data.Int.Interval
import Mathlib.Data.Nat.Factorial.Basic
/-!
Wigner's small d-matrix, textbook formula, independent of any recurrence.
-/
namespace Verif.Spec

/-- Factorial of a non-negative integer. -/
noncomputable def zfact (z : ℤ) : ℝ := (z.toNat.factorial : ℝ)

/-- Wigner's formula for `d^l_{m' m}(β)`:
`√((l+m')!(l-m')!(l+m)!(l-m)!) Σ_s (-1)^(m'-m+s) cos(β/2)^(2l+m-m'-2s) sin(β/2)^(m'-m+2s)
  / ((l+m-s)! s! (m'-m+s)! (l-m'-s)!)`, summed over all `s` for which the factorials make sense. -/
noncomputable def wignerD (l : ℕ) (m' m : ℤ) (β : ℝ) : ℝ :=
  Real.sqrt (zfact (l + m') * zfact (l - m') * zfact (l + m) * zfact (l - m)) *
  ∑ s ∈ Finset.Icc (max 0 (m - m')) (min (l + m) (l - m')),
    (-1 : ℝ) ^ (m' - m + s).toNat * Real.cos (β / 2) ^ (2 * l + m - m' - 2 * s).toNat
      * Real.sin (β / 2) ^ (m' - m + 2 * s).toNat
      / (zfact (l + m - s) * zfact s * zfact (m' - m + s) * zfact (l - m' - s))

end Verif.Spec

namespace Verif.Wigner

/-- The scalar three-term recurrence in the degree: `recD … m n d` is the entry `(l, m, n)` with `l = m + d`,
from the seeds `(m, m, n)` and `(m + 1, m, n)`. -/
def recD {α : Type} (seed : ℕ → ℕ → α) (second : ℕ → ℕ → α → α) (comb : ℕ → ℕ → ℕ → α → α → α) (m n : ℕ) : ℕ → α
  | 0 => seed m n
  | 1 => second m n (seed m n)
  | d + 2 => comb (m + d + 2) m n (recD seed second comb m n (d + 1)) (recD seed second comb m n d)

end Verif.Wigner
