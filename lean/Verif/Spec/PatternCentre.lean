import Mathlib.Algebra.BigOperators.Group.Finset.Basic
import Mathlib.Data.Real.Basic
/-! What the pattern-centre search is meant to compute. -/
namespace Verif.Spec

/-- Sum of the products of the pixels of `pat` with those of `sim` displaced cyclically by `(dy, dx)`, on `h` by `w`. -/
noncomputable def overlap (h w : ℕ) (sim pat : ℕ → ℕ → ℝ) (dy dx : ℕ) : ℝ :=
  ∑ k ∈ Finset.range h, ∑ l ∈ Finset.range w, pat k l * sim ((k + dy) % h) ((l + dx) % w)

/-- The largest of the values `f q` and `0`. -/
noncomputable def bestOf {α : Type} (f : α → ℝ) (dict : List α) : ℝ := dict.foldl (fun m q => max m (f q)) 0

/-- The displacement shown at index `y` of a map of size `n` whose zero displacement sits at `n / 2`. -/
def displacementAt (n y : ℕ) : ℕ := (y + (n - n / 2)) % n

end Verif.Spec
