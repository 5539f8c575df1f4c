import Verif.Model.Geometry
/-!
Model of /repo/ebsdtorch/ebsd/project_hrebsd.py: `hrebsd_coords`.
-/
namespace Verif.Hr
open Verif

/-- `x / torch.norm(x, dim=-1, keepdim=True)` (project_hrebsd.py:95-97, 110-112); `none`: the zero vector, NaN in the code. -/
noncomputable def normalize (v : V) : Option V := if v.norm = 0 then none else some (V.sdiv v v.norm)

/-- `se3_mask * se3_vector` (project_hrebsd.py:80). -/
noncomputable def masked (mask v : Twist) : Twist :=
  ⟨⟨mask.w.x * v.w.x, mask.w.y * v.w.y, mask.w.z * v.w.z⟩, ⟨mask.t.x * v.t.x, mask.t.y * v.t.y, mask.t.z * v.t.z⟩⟩

/-- project_hrebsd.py:79-112, one pattern and one pixel `(i, j)`: the direction at which the master pattern is read. -/
noncomputable def direction (mask v : Twist) (q : Q) (fInv : M3) (p : ℝ × ℝ) : Option V :=
  let e := se3ExpSplit (masked mask v)
  (normalize (V.add (mulV e.1 ⟨p.1, p.2, 0⟩) e.2)).bind fun u => normalize (mulV fInv (quApply q u))

/-- project_hrebsd.py:40-77: the pixel coordinates, row by row; `none`: the binning does not divide the shape
(`ValueError`), or is zero. -/
noncomputable def pixels (rows cols b : ℕ) : Option (List (ℝ × ℝ)) :=
  if b = 0 then none
  else if rows % b ≠ 0 then none
  else if cols % b ≠ 0 then none
  else some ((axisCoords rows b).flatMap fun i => (axisCoords cols b).map fun j => (i, j))

/-- One pattern of a batch: se(3) vector, quaternion, inverse deformation gradient. -/
structure Pat where
  vec : Twist
  q : Q
  fInv : M3

/-- project_hrebsd.py:11-114 `hrebsd_coords`: for each pattern the directions of all pixels. -/
noncomputable def hrebsdCoords (mask : Twist) (pats : List Pat) (rows cols b : ℕ) : Option (List (List (Option V))) :=
  (pixels rows cols b).map fun px => pats.map fun p => px.map fun xy => direction mask p.vec p.q p.fInv xy

end Verif.Hr
