import Mathlib.Analysis.SpecialFunctions.Log.Basic
/-! Mutual information of two grey-level images under a cyclic displacement. -/
namespace Verif.Spec.Cross
open Finset

/-- The pixel of `d` (`h` by `w`) that lies on pixel `(k, l)` after the displacement `(dy, dx)`. -/
def displaced (h w : ℕ) (d : ℕ → ℕ → ℝ) (dy dx : ℕ) : ℕ → ℕ → ℝ := fun k l => d ((k + dy) % h) ((l + dx) % w)

/-- `v` lies in the `i`-th of `n` equal bins of `[0, 1)`. -/
def InBin (n i : ℕ) (v : ℝ) : Prop := (i : ℝ) / n ≤ v ∧ v < ((i : ℝ) + 1) / n

/-- Number of pixels of `h` by `w` images `a`, `b` at which `a` lies in bin `i` of `na` and `b` in bin `j` of `nb`. -/
noncomputable def pixelPairs (h w na nb : ℕ) (a b : ℕ → ℕ → ℝ) (i j : ℕ) : ℕ :=
  open Classical in
  ((range h ×ˢ range w).filter fun p => InBin na i (a p.1 p.2) ∧ InBin nb j (b p.1 p.2)).card

/-- Number of pixels at which `a` lies in bin `i`. -/
noncomputable def pixels (h w na : ℕ) (a : ℕ → ℕ → ℝ) (i : ℕ) : ℕ :=
  open Classical in ((range h ×ˢ range w).filter fun p => InBin na i (a p.1 p.2)).card

/-- Shannon entropy (nats) of the grey levels of an image. -/
noncomputable def entropy (h w na : ℕ) (a : ℕ → ℕ → ℝ) : ℝ :=
  -∑ i ∈ range na, ((pixels h w na a i : ℝ) / (h * w)) * Real.log ((pixels h w na a i : ℝ) / (h * w))

/-- Mutual information (nats) of the grey levels of two images: the sum of `p_ij log (p_ij / (p_i q_j))`. -/
noncomputable def mutualInfo (h w na nb : ℕ) (a b : ℕ → ℕ → ℝ) : ℝ :=
  ∑ i ∈ range na, ∑ j ∈ range nb, ((pixelPairs h w na nb a b i j : ℝ) / (h * w)) *
    Real.log (((pixelPairs h w na nb a b i j : ℝ) / (h * w)) /
      (((pixels h w na a i : ℝ) / (h * w)) * ((pixels h w nb b j : ℝ) / (h * w))))

/-- Grey values in `[0, 1)`. -/
def Unit01 (h w : ℕ) (a : ℕ → ℕ → ℝ) : Prop := ∀ k < h, ∀ l < w, 0 ≤ a k l ∧ a k l < 1

end Verif.Spec.Cross
