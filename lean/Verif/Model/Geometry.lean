import Verif.Model.SE3
import Mathlib.Data.List.OfFn
/-!
Model of /repo/ebsdtorch/ebsd/geometry.py, one element of the batch at a time.
-/
namespace Verif

/-- `torch.deg2rad` (geometry.py:56-57). -/
noncomputable def deg2rad (d : ℝ) : ℝ := d * (Real.pi / 180)
/-- `torch.rad2deg` (geometry.py:136). -/
noncomputable def rad2deg (r : ℝ) : ℝ := r * (180 / Real.pi)

/-- geometry.py:32-92 `bruker_geometry_to_SE3` (and the identical copy fitting.py:54-114 `bruker_geometries_to_SE3`): the rotation, for `primary`/`secondary` tilts in degrees. -/
noncomputable def brukerRot (primary secondary : ℝ) : M3 :=
  let a := deg2rad primary
  let s := deg2rad secondary
  !![-Real.sin a, -Real.sin s * Real.cos a, Real.cos s * Real.cos a;
     0, Real.cos s, Real.sin s;
     -Real.cos a, Real.sin s * Real.sin a, -Real.sin a * Real.cos s]

/-- geometry.py:74-90: the translation. `pc` is `(pcx, pcy, pcz)`, `rows × cols` the detector. -/
noncomputable def brukerTrans (pc : V) (primary secondary rows cols : ℝ) : V :=
  let a := deg2rad primary
  let s := deg2rad secondary
  ⟨pc.x * cols * Real.sin s * Real.cos a + pc.y * rows * Real.sin a + pc.z * rows * Real.cos s * Real.cos a
      - Real.sin s * Real.cos a / 2 - Real.sin a / 2,
   -cols * pc.x * Real.cos s + pc.z * rows * Real.sin s + Real.cos s / 2,
   -cols * pc.x * Real.sin s * Real.sin a + pc.y * rows * Real.cos a - pc.z * rows * Real.sin a * Real.cos s
      + Real.sin s * Real.sin a / 2 - Real.cos a / 2⟩

/-- geometry.py:96-136 `bruker_geometry_from_SE3` (and the identical copy fitting.py:118-156): pattern centre and the two tilts in degrees.
Simplification: `clamp_` also overwrites the caller's matrix entry; entries of rotations are unaffected. -/
noncomputable def brukerFromSE3 (R : M3) (t : V) (rows cols : ℝ) : V × ℝ × ℝ :=
  let cs := R 1 1
  let ca := R 0 2 / cs
  let a := Real.arccos (clamp1 ca)
  let s := Real.arccos (clamp1 cs)
  (⟨(t.x * Real.sin s * Real.cos a - t.y * Real.cos s - t.z * Real.sin a * Real.sin s + 0.5) / cols,
    (t.x * Real.sin a + t.z * Real.cos a + 0.5) / rows,
    (t.x * Real.cos a * Real.cos s + t.y * Real.sin s - t.z * Real.sin a * Real.cos s) / rows⟩,
   rad2deg a, rad2deg s)

/-- The state of an `EBSDGeometry` module (geometry.py:185-231): detector shape, the buffer `pc_SE3_matrix`,
the parameter `se3_vector`, the buffer `mask`, and the flag `opt_se3`. -/
structure Geom where
  rows : ℕ
  cols : ℕ
  pc : M4
  vec : Fin 6 → ℝ
  mask : Fin 6 → Bool
  optSe3 : Bool

/-- `torch.any(mask).item()` (geometry.py:231, 255). -/
def anyMask (m : Fin 6 → Bool) : Bool := m 0 || m 1 || m 2 || m 3 || m 4 || m 5

/-- `torch.cat([rotation_mask, translation_mask])` (geometry.py:229). -/
def catMask (r s : Fin 3 → Bool) : Fin 6 → Bool := ![r 0, r 1, r 2, s 0, s 1, s 2]

/-- geometry.py:185-231 `__init__`; `tilts = (sample_x, sample_y, detector)`. -/
noncomputable def Geom.init (rows cols : ℕ) (tilts : V) (projCenter : V) (se3 : Option (Fin 6 → ℝ))
    (optRots optShifts : Fin 3 → Bool) : Geom :=
  let primary := tilts.z - tilts.y
  let mask := catMask optRots optShifts
  { rows := rows, cols := cols,
    pc := se3Mat (brukerRot primary tilts.x) (brukerTrans projCenter primary tilts.x rows cols),
    vec := se3.getD (fun _ => 0), mask := mask, optSe3 := anyMask mask }

/-- geometry.py:233-255 `set_optimizable_se3_params`. -/
def Geom.setOpt (g : Geom) (optRots optShifts : Option (Fin 3 → Bool)) : Geom :=
  let m1 : Fin 6 → Bool := match optRots with
    | none => g.mask
    | some r => ![r 0, r 1, r 2, g.mask 3, g.mask 4, g.mask 5]
  let m2 : Fin 6 → Bool := match optShifts with
    | none => m1
    | some s => ![m1 0, m1 1, m1 2, s 0, s 1, s 2]
  { g with mask := m2, optSe3 := anyMask m2 }

/-- Assignment of the parameter by an optimiser or a user (`geom.se3_vector.data = v`). -/
def Geom.setVec (g : Geom) (v : Fin 6 → ℝ) : Geom := { g with vec := v }

/-- `self.se3_vector * self.mask` (geometry.py:268). -/
noncomputable def Geom.masked (g : Geom) : Twist :=
  let f : Fin 6 → ℝ := fun i => g.vec i * (if g.mask i then 1 else 0)
  ⟨⟨f 0, f 1, f 2⟩, ⟨f 3, f 4, f 5⟩⟩

/-- geometry.py:257-280 `get_detector2sample`. Both branches of `opt_se3` compute the same value
(they differ in gradient tracking only). -/
noncomputable def Geom.detector2sample (g : Geom) : M3 × V :=
  let m : M4 := g.pc * se3ExpOm g.masked
  (!![m 0 0, m 0 1, m 0 2; m 1 0, m 1 1, m 1 2; m 2 0, m 2 1, m 2 2], ⟨m 0 3, m 1 3, m 2 3⟩)

/-- geometry.py:282-347 `project2sample`. -/
noncomputable def Geom.project2sample (g : Geom) (px py : ℝ) (scan : Option (ℝ × ℝ)) : V :=
  let d := g.detector2sample
  let s := V.add (mulV d.1 ⟨px, py, 0⟩) d.2
  match scan with
  | none => s
  | some c => V.sub s ⟨c.1, c.2, 0⟩

/-- `v @ R` for a row vector (geometry.py:393, 396, 411). -/
def vmul (v : V) (m : M3) : V :=
  ⟨v.x * m 0 0 + v.y * m 1 0 + v.z * m 2 0, v.x * m 0 1 + v.y * m 1 1 + v.z * m 2 1,
   v.x * m 0 2 + v.y * m 1 2 + v.z * m 2 2⟩

/-- geometry.py:349-420 `backproject2detector`. -/
noncomputable def Geom.backproject2detector (g : Geom) (ray : V) (scan : Option (ℝ × ℝ)) : ℝ × ℝ :=
  let d := g.detector2sample
  let origin : V := match scan with
    | some c => vmul (V.add (V.smul (-1) d.2) ⟨c.1, c.2, 0⟩) d.1
    | none => vmul (V.smul (-1) d.2) d.1
  let tips : V := match scan with
    | some c => V.add ray ⟨c.1, c.2, 0⟩
    | none => ray
  let tipsD := vmul (V.sub tips d.2) d.1
  let r := V.sub tipsD origin
  let t := -origin.z / r.z
  (origin.x + t * r.x, origin.y + t * r.y)

/-- `torch.linspace(start, stop, steps)`. -/
noncomputable def linspace (start stop : ℝ) (steps : ℕ) : List ℝ :=
  List.ofFn fun k : Fin steps => start + k.val * ((stop - start) / ((steps : ℝ) - 1))

/-- One axis of the pixel coordinates (geometry.py:476-492 and the copy `get_3D_pixel_coords`, fitting.py:160-216): first and last arguments of `linspace`. -/
noncomputable def axisCoords (n b : ℕ) : List ℝ :=
  linspace (0.5 * ((b : ℝ) - 1)) ((n : ℝ) - (0.5 * ((b : ℝ) - 1))) (n / b)

/-- geometry.py:422-503 `get_coords_sample_frame`: `none` is an exception (`ValueError`, or
`ZeroDivisionError` for a zero binning); otherwise the list of `(i, j)` detector coordinates, row by row. -/
noncomputable def Geom.pixelCoords (g : Geom) (bi bj : ℕ) : Option (List (ℝ × ℝ)) :=
  if bi = 0 ∨ bj = 0 then none
  else if g.rows % bi ≠ 0 then none
  else if g.cols % bj ≠ 0 then none
  else some ((axisCoords g.rows bi).flatMap fun i => (axisCoords g.cols bj).map fun j => (i, j))

/-- geometry.py:503: the coordinates are projected without scan offset. -/
noncomputable def Geom.coordsSampleFrame (g : Geom) (bi bj : ℕ) : Option (List V) :=
  (g.pixelCoords bi bj).map (List.map fun p => g.project2sample p.1 p.2 none)

end Verif
