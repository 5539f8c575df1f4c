import Verif.Model.Geometry
/-!
Model of the rays with `average_pattern_center=False`: /repo/ebsdtorch/ebsd/indexing.py:95-107 and
/repo/ebsdtorch/ebsd/refining.py:113-128, 286-291.
-/
namespace Verif.Rays
open Verif

/-- A 2D tensor. -/
structure Mat where
  rows : ℕ
  cols : ℕ
  at_ : ℕ → ℕ → ℝ

/-- Broadcasting of two axis lengths; `none`: the operation raises. -/
def bcast (a b : ℕ) : Option ℕ := if a = b then some a else if a = 1 then some b else if b = 1 then some a else none

/-- Index into an axis that may have been broadcast. -/
def stretch (size i : ℕ) : ℕ := if size = 1 then 0 else i

/-- `a - b` with broadcasting (indexing.py:102). -/
def Mat.sub (a b : Mat) : Option Mat :=
  (bcast a.rows b.rows).bind fun r => (bcast a.cols b.cols).map fun c =>
    ⟨r, c, fun i j => a.at_ (stretch a.rows i) (stretch a.cols j) - b.at_ (stretch b.rows i) (stretch b.cols j)⟩

/-- Component of a 3-vector by position. -/
def comp (v : V) (j : ℕ) : ℝ := if j = 0 then v.x else if j = 1 then v.y else v.z

/-- The `(H*W, 3)` tensor of `get_coords_sample_frame` (geometry.py:503). -/
def ofCoords (coords : List V) : Mat := ⟨coords.length, 3, fun i j => comp (coords.getD i ⟨0, 0, 0⟩) j⟩

/-- `x / x.norm(dim=-1, keepdim=True)` (indexing.py:107). -/
noncomputable def Mat.normalize (a : Mat) : Mat :=
  ⟨a.rows, a.cols, fun i j => a.at_ i j / √(∑ k ∈ Finset.range a.cols, a.at_ i k ^ 2)⟩

/-- indexing.py:95-107, in `dictionary_index_orientations` with `average_pattern_center=False`: the rays that are used for all the
patterns; `scan` is `experiment_patterns.spatial_coords`, `(N_PATS, N_Spatial_Dims)`. -/
noncomputable def indexRays (coords : List V) (scan : Mat) : Option Mat := ((ofCoords coords).sub scan).map Mat.normalize

/-- `v / v.norm()` (refining.py:128). -/
noncomputable def unit (v : V) : V := V.smul (1 / √(v.x ^ 2 + v.y ^ 2 + v.z ^ 2)) v

/-- refining.py:113-128, in `orientation_grid_refinement` with `average_pattern_center=False`: the rays of pattern `p` (a row of the
`(N_PATS, H*W, 3)` tensor, read on line 197).  The concatenation of lines 119-125 has one column more than
`spatial_coords` and must have 3 (1 column cannot arise, as `[-1]` of no column raises). -/
noncomputable def refineRays (coords : List V) (scan : Mat) : Option (ℕ → List V) :=
  if scan.cols ≠ 2 then none
  else some fun p => coords.map fun c => unit (V.add c ⟨scan.at_ p 0, scan.at_ p 1, 0⟩)

/-- refining.py:286-291, in `orientation_grad_refinement`: the argument `average_pattern_center` is not used, nor are the scan
coordinates. -/
noncomputable def gradRays (coords : List V) (_scan : Mat) : ℕ → List V := fun _ => coords.map unit

end Verif.Rays
