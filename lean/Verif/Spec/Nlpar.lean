import Mathlib.Analysis.Calculus.Deriv.Basic
import Mathlib.Analysis.SpecialFunctions.Exp
import Mathlib.Analysis.Real.Sqrt
import Mathlib.Algebra.BigOperators.Group.Finset.Basic
/-!
Specification: the weights of non-local pattern averaging (NLPAR) and Newton's method, independent of the code.
Positions are pairs of integers, `P p k` is pixel `k` of the pattern at position `p`, `n` is the number of pixels.
-/
namespace Verif.Spec.Nlpar

/-- squared distance of the patterns at two positions -/
def d2 (P : ℤ × ℤ → ℕ → ℝ) (n : ℕ) (p q : ℤ × ℤ) : ℝ := ∑ k ∈ Finset.range n, (P q k - P p k) ^ 2

/-- noise variance of a pattern: half the smallest mean squared difference to its neighbours at the offsets `N` -/
noncomputable def noise2 (P : ℤ × ℤ → ℕ → ℝ) (n : ℕ) (N : Finset (ℤ × ℤ)) (p : ℤ × ℤ) : ℝ :=
  sInf ((fun o => d2 P n p (p + o)) '' N) / (2 * n)

/-- normalised distance in excess of the noise: `max (0, (d² - n (σ² + σ'²)) / (√(2 n) (σ² + σ'²)))` -/
noncomputable def excess (P : ℤ × ℤ → ℕ → ℝ) (n : ℕ) (var : ℤ × ℤ → ℝ) (p o : ℤ × ℤ) : ℝ :=
  max ((d2 P n p (p + o) - n * (var p + var (p + o))) / (√(2 * n) * (var p + var (p + o)))) 0

/-- mean over an `h` by `w` scan of the share of the central pattern among itself and its neighbours `N`, at decay length `x` -/
noncomputable def share (P : ℤ × ℤ → ℕ → ℝ) (n h w : ℕ) (var : ℤ × ℤ → ℝ) (N : Finset (ℤ × ℤ)) (x : ℝ) : ℝ :=
  (∑ i ∈ Finset.range h, ∑ j ∈ Finset.range w, 1 / (1 + ∑ o ∈ N, Real.exp (-excess P n var (i, j) o / x ^ 2))) / (h * w)

/-- `Newton f tol n x y`: at most `n` steps of Newton's method for `f` from `x`, stopped after the first step taken at a point where `|f| < tol`,
end at `y`. -/
inductive Newton (f : ℝ → ℝ) (tol : ℝ) : ℕ → ℝ → ℝ → Prop
  | done (x : ℝ) : Newton f tol 0 x x
  | last (n : ℕ) (x : ℝ) : DifferentiableAt ℝ f x → deriv f x ≠ 0 → |f x| < tol → Newton f tol (n + 1) x (x - f x / deriv f x)
  | step (n : ℕ) (x y : ℝ) : DifferentiableAt ℝ f x → deriv f x ≠ 0 → tol ≤ |f x| → Newton f tol n (x - f x / deriv f x) y → Newton f tol (n + 1) x y

end Verif.Spec.Nlpar
