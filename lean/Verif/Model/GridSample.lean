import Verif.Model.Master
import Verif.Model.Sphere
import Verif.Model.Clahe
/-!
Model of the look-up of /repo/ebsdtorch/ebsd/master_pattern.py `MasterPattern.interpolate`:
`torch.nn.functional.grid_sample(mode="bilinear", padding_mode="border")` on the two hemispheres side by side.
-/
namespace Verif.Grid
open Verif

/-- master_pattern.py:197-206, one axis of `grid_sample`: a coordinate of `[-1, 1]` to a pixel position, clipped at the border.
`align`: `align_corners`. -/
noncomputable def position (align : Bool) (size : ℕ) (c : ℝ) : ℝ :=
  min (max (if align then (c + 1) / 2 * ((size : ℝ) - 1) else ((c + 1) * size - 1) / 2) 0) ((size : ℝ) - 1)

/-- Entry of a 2D tensor. -/
def entry (img : Image) (i j : ℕ) : ℝ := (img.getD i []).getD j 0

/-- master_pattern.py:197-206 `grid_sample` with `mode="bilinear"`, `padding_mode="border"`: the first coordinate runs along the
columns. -/
noncomputable def gridSample (align : Bool) (img : Image) (p : ℝ × ℝ) : ℝ :=
  Clahe.lerp img.length (fun i => Clahe.lerp (img.headD []).length (fun j => entry img i j)
    (position align (img.headD []).length p.1)) (position align img.length p.2)

/-- master_pattern.py:141-209 `interpolate` with `normalize_coords=False` and the default mode and padding. -/
noncomputable def interpolate (align : Bool) (s : Master) (rand : ℕ → ℕ) (fuel : ℕ) (coords : List V) (vb : ℕ) :
    Option (Master × List ℝ) := s.interpolate roscaLambertSideBySide (gridSample align) rand fuel coords vb

/-- master_pattern.py:65-72: `torch.cat` of the two hemispheres (`h` by `w` pixels each) along the columns. -/
def sideBySide (h w : ℕ) (north south : ℕ → ℕ → ℝ) : Image :=
  (List.range h).map fun i => (List.range w).map (north i) ++ (List.range w).map (south i)

end Verif.Grid
