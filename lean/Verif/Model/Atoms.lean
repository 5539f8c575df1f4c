import Verif.Model.Cell
/-!
Model of the atomic positions, averages and density of /repo/ebsdtorch/crystallography/unit_cell.py `Cell.__init__`
(lines 130-140, 312-379), in exact real arithmetic.
-/
namespace Verif.Atoms
open Cryst
open SG (Err Op)

/-- unit_cell.py:344-346 and 348-350: `torch.where(x.abs() < 1e-6, 0, x)`. -/
noncomputable def snap (x : ℝ) : ℝ := if |x| < 1e-6 then 0 else x

/-- `torch.fmod(x, 1.0)`: the remainder with the sign of `x`. -/
noncomputable def fmod (x : ℝ) : ℝ := if 0 ≤ x then x - ⌊x⌋ else x - ⌈x⌉

/-- unit_cell.py:344-350: one coordinate, snapped to zero, reduced after adding 100, and snapped again. -/
noncomputable def reduce (x : ℝ) : ℝ := snap (fmod (snap x + 100))

/-- unit_cell.py:336-342: the first three components of the 4×4 matrix times the homogeneous position `(p, 1)`. -/
noncomputable def image (o : Op) (p : Fin 3 → ℝ) : Fin 3 → ℝ :=
  ![o.r.a00 * p 0 + o.r.a01 * p 1 + o.r.a02 * p 2 + (o.x / 24 : ℝ) * 1,
    o.r.a10 * p 0 + o.r.a11 * p 1 + o.r.a12 * p 2 + (o.y / 24 : ℝ) * 1,
    o.r.a20 * p 0 + o.r.a21 * p 1 + o.r.a22 * p 2 + (o.z / 24 : ℝ) * 1]

/-- unit_cell.py:339-350: all images of one position, reduced. -/
noncomputable def allPos (ops : List Op) (p : Fin 3 → ℝ) : List (Fin 3 → ℝ) :=
  ops.map fun o => fun i => reduce (image o p i)

open Classical in
/-- unit_cell.py:137: `torch.sum(torch.abs(a - b)) < eps` with `eps = 1e-4` (line 354). -/
noncomputable def closeRows (a b : Fin 3 → ℝ) : Bool := decide (|a 0 - b 0| + |a 1 - b 1| + |a 2 - b 2| < 1e-4)

/-- unit_cell.py:353-354: `apos[i]`. -/
noncomputable def apos (ops : List Op) (p : Fin 3 → ℝ) : List (Fin 3 → ℝ) := SG.uniqueRows closeRows (allPos ops p)

/-- unit_cell.py:355-357: `mults[i]`. -/
noncomputable def mult (ops : List Op) (p : Fin 3 → ℝ) : ℕ := (apos ops p).length

/-- unit_cell.py:363-368, 371-373: `torch.mean(q * occupancy * mults) / mults.sum()`; `q` is the atomic number
(`average_atomic_number`) or the atomic weight (`average_atomic_weight`) of each site.  Sites are the list
`(q, occupancy, multiplicity)`. -/
noncomputable def average (sites : List (ℝ × ℝ × ℕ)) : ℝ :=
  ((sites.map fun s => s.1 * s.2.1 * (s.2.2 : ℝ)).sum / sites.length) / ((sites.map fun s => s.2.2).sum : ℕ)

/-- unit_cell.py:377-379: `density`, from the atomic weights, occupancies, multiplicities and the volume in nm³. -/
noncomputable def density (sites : List (ℝ × ℝ × ℕ)) (vol : ℝ) : ℝ :=
  (sites.map fun s => s.1 * s.2.1 * (s.2.2 : ℝ)).sum / (vol * 6.02214076e2)

/-- unit_cell.py:314-316: `Mx`; `none` when `1 - x²` is negative (`torch.sqrt` gives NaN). -/
noncomputable def dsm2Mx (α : ℝ) : Option M3 :=
  let x := 0.5 / Real.cos (Real.pi * 0.5 * α)
  if 0 ≤ 1 - x * x then
    let y := Real.sqrt (1 - x * x)
    some (!![1, 0, 0; 0, x, -y; 0, y, x]).transpose
  else none

/-- unit_cell.py:318-324: `My`; `none` when `1 - x²` is negative. -/
noncomputable def dsm2My (α : ℝ) : Option M3 :=
  let x := 2 * Real.sin (Real.pi * 0.5 * α) / Real.sqrt 3
  if 0 ≤ 1 - x * x then
    let y := Real.sqrt (1 - x * x)
    some (!![x, 0, -y; 0, 1, 0; y, 0, x]).transpose
  else none

/-- unit_cell.py:313-327: `dsm2`: not computed outside the trigonal system (outer `none` is Python's `None`), and an inner
`none` when entries are NaN. -/
noncomputable def dsm2 (sg : ℕ) (l : Lattice) : Option (Option M3) :=
  if xtalSystem sg = 5 then
    some ((dsm2My l.α).bind fun my => (dsm2Mx l.α).map fun mx => my * mx * l.dsm)
  else none

end Verif.Atoms
