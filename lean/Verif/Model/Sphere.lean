import Verif.Model.Quat
import Verif.Model.Orient
/-!
Model of /repo/ebsdtorch/s2_and_so3/sphere.py, one point at a time.
-/
namespace Verif

/-- sphere.py:17-36 `theta_phi_to_xyz`. -/
noncomputable def thetaPhiToXyz (theta phi : ℝ) : V :=
  ⟨Real.cos theta * Real.sin phi, Real.sin theta * Real.sin phi, Real.cos phi⟩

/-- sphere.py:40-58 `xyz_to_theta_phi`: the returned pair, first column first. -/
noncomputable def xyzToThetaPhi (p : V) : ℝ × ℝ :=
  (atan2 (Real.sqrt (p.x ^ 2 + p.y ^ 2)) p.z, atan2 p.y p.x)

/-- sphere.py:62-92 `rosca_lambert`. -/
noncomputable def roscaLambert (p : V) : ℝ × ℝ :=
  let factor := Real.sqrt (max (2 * (1 - |p.z|)) 0)
  let cond := |p.y| ≤ |p.x|
  open Classical in
  let big := if cond then p.x else p.y
  open Classical in
  let sml := if cond then p.y else p.x
  let simpler := negOne big * factor * (2 / (8 : ℝ) ^ (0.5 : ℝ))
  let arctanTerm := negOne big * factor * atan2 (sml * negOne big) |big| * (2 * (2 : ℝ) ^ (0.5 : ℝ) / Real.pi)
  open Classical in
  if cond then (simpler, arctanTerm) else (arctanTerm, simpler)

/-- sphere.py:96-142 `inv_rosca_lambert`.  `none` models the NaN row produced at the origin, where
`pi * y_new / (4 * x_new)` is `0/0` (lines 125, 130). -/
noncomputable def invRoscaLambert (p : ℝ × ℝ) : Option V :=
  let pi := Real.pi
  let xAbs := |p.1| * (pi / 2) ^ (0.5 : ℝ)
  let yAbs := |p.2| * (pi / 2) ^ (0.5 : ℝ)
  let cond := xAbs ≥ yAbs
  open Classical in
  let xNew := if cond then xAbs else yAbs
  open Classical in
  let yNew := if cond then yAbs else xAbs
  if xNew = 0 then none else
  let xHs := (2 * xNew / pi) * Real.sqrt (pi - xNew ^ 2) * Real.cos (pi * yNew / (4 * xNew))
  let yHs := (2 * xNew / pi) * Real.sqrt (pi - xNew ^ 2) * Real.sin (pi * yNew / (4 * xNew))
  let zOut := 1 - (2 * xNew ^ 2 / pi)
  open Classical in
  let xOut := if cond then xHs else yHs
  open Classical in
  let yOut := if cond then yHs else xHs
  some ⟨copysign xOut p.1, copysign yOut p.2, zOut⟩

/-- sphere.py:146-185 `rosca_lambert_side_by_side`.  The body of lines 163-180 is textually that of
`rosca_lambert`. -/
noncomputable def roscaLambertSideBySide (p : V) : ℝ × ℝ :=
  let out := roscaLambert p
  (out.1 / 2 - 0.5 + (if p.z < 0 then 1 else 0), out.2)

end Verif
