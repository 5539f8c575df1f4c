import Verif.Model.Groups
import Verif.Model.Geometry
import Mathlib.LinearAlgebra.Matrix.NonsingularInverse
/-!
Model of /repo/ebsdtorch/crystallography/unit_cell.py: the `Cell` class.
-/
namespace Verif.Cryst
open SG (Err)

/-- unit_cell.py:195-199: `pg_num`. -/
def pgNum (sg : ℕ) : ℕ :=
  match SG.pgBeg.findIdx? (fun b => decide (sg ≤ b)) with
  | some i => i + 1
  | none => 32

/-- unit_cell.py:202-206: `xtal_system`. -/
def xtalSystem (sg : ℕ) : ℕ :=
  match SG.xtBeg.findIdx? (fun b => decide (sg ≤ b)) with
  | some i => i + 1
  | none => 7

/-- unit_cell.py:209: `laue_group = pg_to_laue[pg_num]`. -/
def laueGroup (sg : ℕ) : Option ℕ := SG.pgToLaue[pgNum sg]?

/-- Lattice parameters of a cell: nm and radians (unit_cell.py:211-239 after unit conversion). -/
structure Lattice where
  (a b c α β γ : ℝ)

/-- unit_cell.py:211-229: conversion of the edge lengths to nm. -/
noncomputable def lengthNm (units : String) (x : ℝ) : Except Err ℝ :=
  if units = "angstrom" then .ok (x * 0.1) else if units = "pm" then .ok (x * 1e-3)
  else if units = "nm" then .ok x else .error .valueError

/-- unit_cell.py:231-239: conversion of the angles to radians. -/
noncomputable def angleRad (units : String) (x : ℝ) : Except Err ℝ :=
  if units = "deg" then .ok (deg2rad x) else if units = "rad" then .ok x else .error .valueError

/-- unit_cell.py:257-276: the direct metric tensor `dmt`. -/
noncomputable def Lattice.dmt (l : Lattice) : M3 :=
  !![l.a ^ 2, l.a * l.b * Real.cos l.γ, l.a * l.c * Real.cos l.β;
     l.a * l.b * Real.cos l.γ, l.b ^ 2, l.b * l.c * Real.cos l.α;
     l.a * l.c * Real.cos l.β, l.b * l.c * Real.cos l.α, l.c ^ 2]

/-- unit_cell.py:279: `vol = torch.sqrt(torch.det(dmt))` when it is a number. -/
noncomputable def Lattice.vol (l : Lattice) : ℝ := Real.sqrt l.dmt.det

/-- unit_cell.py:279-285: the volume check.  A negative determinant makes `vol` NaN, and `NaN < 1e-6` is false, so the
check passes. -/
noncomputable def Lattice.volumeOk (l : Lattice) : Bool := decide (l.dmt.det < 0) || !decide (l.vol < 1e-6)

/-- unit_cell.py:288: `rmt = torch.linalg.inv(dmt)`. -/
noncomputable def Lattice.rmt (l : Lattice) : M3 := l.dmt⁻¹

/-- unit_cell.py:291-307: the direct structure matrix `dsm`. -/
noncomputable def Lattice.dsm (l : Lattice) : M3 :=
  !![l.a, l.b * Real.cos l.γ, l.c * Real.cos l.β;
     0, l.b * Real.sin l.γ, -l.c * (Real.cos l.β * Real.cos l.γ - Real.cos l.α) / Real.sin l.γ;
     0, 0, l.vol / (l.a * l.b * Real.sin l.γ)]

/-- unit_cell.py:310: `rsm = torch.linalg.inv(dsm)`. -/
noncomputable def Lattice.rsm (l : Lattice) : M3 := l.dsm⁻¹

/-- The checks of `Cell.__init__` before the geometry (unit_cell.py:185-189) and the volume check, in order.
The unit strings are checked by `lengthNm` and `angleRad`. -/
noncomputable def cellInit (sg setting : ℕ) (abcUnits angUnits : String) (abc ang : ℝ × ℝ × ℝ) : Except Err Lattice :=
  if sg < 1 ∨ 230 < sg then .error .valueError
  else if setting ≠ 1 ∧ sg ∉ SG.twoSettings then .error .valueError
  else (lengthNm abcUnits abc.1).bind fun a => (lengthNm abcUnits abc.2.1).bind fun b =>
    (lengthNm abcUnits abc.2.2).bind fun c => (angleRad angUnits ang.1).bind fun α =>
    (angleRad angUnits ang.2.1).bind fun β => (angleRad angUnits ang.2.2).bind fun γ =>
    let l : Lattice := ⟨a, b, c, α, β, γ⟩
    if l.volumeOk then (SG.sgOperators sg setting).map fun _ => l else .error .valueError

/-- The three spaces of the API: direct, reciprocal, Cartesian (`'d'`, `'r'`, `'c'`); other letters raise and are not
represented. -/
inductive Space | d | r | c
  deriving DecidableEq, Repr

/-- Component vectors. -/
abbrev Vec := Fin 3 → ℝ

/-- unit_cell.py:520-565 `transform_space` on one vector: `einsum("ij,j->i", M, t)` is `M *ᵥ t`, and
`einsum("i,ij->j", t, M)` is `t ᵥ* M`. -/
noncomputable def transformSpace (l : Lattice) (t : Vec) : Space → Space → Vec
  | .d, .c => l.dsm.mulVec t
  | .d, .r => Matrix.vecMul t l.dmt
  | .r, .c => l.rsm.mulVec t
  | .r, .d => Matrix.vecMul t l.rmt
  | .c, .d => Matrix.vecMul t l.rsm
  | .c, .r => Matrix.vecMul t l.dsm
  | .d, .d => t
  | .r, .r => t
  | .c, .c => t

/-- unit_cell.py:567-610 `transform_coordinates` on one vector; `on` is `direction == "on"`. -/
def transformCoordinates (t : Vec) (al : M3) (space : Space) (on : Bool) : Vec :=
  match space, on with
  | .d, true => fun j => ∑ i, t i * al j i
  | .d, false => fun j => ∑ i, t i * al i j
  | _, true => fun i => ∑ j, al i j * t j
  | _, false => fun i => ∑ j, al j i * t j

/-- unit_cell.py:612-636 `calc_dot`. -/
noncomputable def calcDot (l : Lattice) (p q : Vec) : Space → ℝ
  | .d => ∑ i, ∑ j, p i * l.dmt i j * q j
  | .r => ∑ i, ∑ j, p i * l.rmt i j * q j
  | .c => ∑ i, p i * q i

/-- unit_cell.py:680-698 `calc_length` (through `calc_auto_dot`, unit_cell.py:638-660). -/
noncomputable def calcLength (l : Lattice) (p : Vec) (s : Space) : ℝ := Real.sqrt (calcDot l p p s)

/-- unit_cell.py:662-678 `norm_vec`. -/
noncomputable def normVec (l : Lattice) (p : Vec) (s : Space) : Vec :=
  if calcLength l p s ≠ 0 then fun i => p i / calcLength l p s else fun _ => 0

/-- unit_cell.py:700-729 `calc_angle`; `ValueError` for a vector of zero length. -/
noncomputable def calcAngle (l : Lattice) (p q : Vec) (s : Space) : Except Err ℝ :=
  let x := calcDot l p q s
  let y := calcLength l p s
  let z := calcLength l q s
  if y = 0 ∨ z = 0 then .error .valueError
  else
    let t := x / (y * z)
    .ok (if 1 ≤ t then 0 else if t ≤ -1 then Real.pi else Real.arccos t)

/-- `torch.cross`. -/
def cross (p q : Vec) : Vec := ![p 1 * q 2 - p 2 * q 1, p 2 * q 0 - p 0 * q 2, p 0 * q 1 - p 1 * q 0]

/-- unit_cell.py:731-769 `calc_cross`. -/
noncomputable def calcCross (l : Lattice) (p q : Vec) (inS outS : Space) (scale : Bool) : Except Err Vec :=
  let vl := if scale then l.vol else 1
  match inS, outS with
  | .d, .d => .ok (Matrix.vecMul (vl • cross p q) l.rmt)
  | .d, .c => .ok (l.rsm.mulVec (vl • cross p q))
  | .d, .r => .error .valueError
  | .r, .r => .ok (Matrix.vecMul ((1 / vl) • cross p q) l.dmt)
  | .r, .c => .ok (l.dsm.mulVec ((1 / vl) • cross p q))
  | .r, .d => .error .valueError
  | .c, _ => .ok (cross p q)

/-- unit_cell.py:771-787 `z2_percent`, on the list of triples (atoms of the type, occupancy, atomic number). -/
noncomputable def z2Percent (atoms : List (ℝ × ℝ × ℝ)) : List ℝ :=
  let zs := atoms.map fun a => a.1 * a.2.1 * a.2.2 ^ 2
  zs.map fun z => 100 * z / zs.sum

/-- unit_cell.py:363-368: `average_atomic_number`, on triples (multiplicity, occupancy, atomic number).
(`average_atomic_weight`, unit_cell.py:370-373, has the same form with weights for numbers.) -/
noncomputable def averageNumber (atoms : List (ℝ × ℝ × ℝ)) : ℝ :=
  ((atoms.map fun a => a.2.2 * a.2.1 * a.1).sum / atoms.length) / (atoms.map fun a => a.1).sum

/-- unit_cell.py:377-379: `density`, on triples (multiplicity, occupancy, atomic weight). -/
noncomputable def density (l : Lattice) (atoms : List (ℝ × ℝ × ℝ)) : ℝ :=
  (atoms.map fun a => a.2.2 * a.2.1 * a.1).sum / (l.vol * 6.02214076e2)

/-- unit_cell.py:789-819 `convert_from_R_to_H`: the new lattice parameters.  `self.alpha` is in radians and is
multiplied by π/180 once more; the new angles are stored in degrees. -/
noncomputable def convertRtoH (l : Lattice) : Lattice :=
  let ca := Real.cos (l.α * Real.pi / 180)
  ⟨l.a * Real.sqrt (2 - 2 * ca), l.a * Real.sqrt (2 - 2 * ca), l.a * Real.sqrt (3 + 6 * ca), 90, 90, 120⟩

/-- Miller indices. -/
abbrev Hkl := ℤ × ℤ × ℤ

/-- unit_cell.py:821-859 `is_g_allowed`.  `%` of int64 tensors by a positive number is the non-negative remainder. -/
def isGAllowed (sg : ℕ) (g : Hkl) : Except Err Bool :=
  let (h, k, l) := g
  match (SG.names.getD (sg - 1) "").toList.getD 1 ' ' with
  | 'P' => .ok true
  | 'F' => .ok (decide (h % 2 + k % 2 + l % 2 = 0) || decide (h % 2 + k % 2 + l % 2 = 3))
  | 'I' => .ok (decide ((h + k + l) % 2 = 0))
  | 'A' => .ok (decide ((k + l) % 2 = 0))
  | 'B' => .ok (decide ((h + l) % 2 = 0))
  | 'C' => .ok (decide ((h + k) % 2 = 0))
  | 'R' => .ok (decide ((-h + k + l) % 3 = 0))
  | _ => .error .valueError

/-- The component vector of Miller indices. -/
def hklVec (g : Hkl) : Vec := ![(g.1 : ℝ), (g.2.1 : ℝ), (g.2.2 : ℝ)]

/-- unit_cell.py:873-908, 941-974: index of the first axial reflection `n·axis`, `n = 1 … 99`, with `1/length < dmin`
(99 if there is none). -/
noncomputable def maxIndex (l : Lattice) (dmin : ℝ) (axis : ℤ → Hkl) : ℕ :=
  ((List.range 99).find? fun i : ℕ => decide (1 / calcLength l (hklVec (axis ((i : ℤ) + 1))) .r < dmin)).getD 99

/-- unit_cell.py:861-910 `get_hkl_limits`. -/
noncomputable def hklLimits (l : Lattice) (dmin : ℝ) : ℕ × ℕ × ℕ :=
  (maxIndex l dmin fun n => (n, 0, 0), maxIndex l dmin fun n => (0, n, 0), maxIndex l dmin fun n => (0, 0, n))

/-- `torch.arange(-m + 1, m)` for `m > 0` (unit_cell.py:976-985, 993-995). -/
def arangeSym (m : ℕ) : List ℤ := (List.range (2 * m - 1)).map fun i : ℕ => (i : ℤ) - m + 1

/-- `torch.meshgrid(…, indexing="ij")`, stacked and flattened (unit_cell.py:986-988, 996-998). -/
def meshgrid (hs ks ls : List ℤ) : List Hkl :=
  hs.flatMap fun h => ks.flatMap fun k => ls.map fun l => (h, k, l)

/-- `d_hkl > dmin` with `d_hkl = 1/length`, which is `+inf` for length zero (unit_cell.py:1006-1011). -/
noncomputable def dAbove (l : Lattice) (dmin : ℝ) (g : Hkl) : Bool :=
  decide (calcLength l (hklVec g) .r = 0) || decide (dmin < 1 / calcLength l (hklVec g) .r)

/-- The centring filter (unit_cell.py:1000-1004): boolean masking. -/
def keepAllowed (sg : ℕ) (filter : Bool) (gs : List Hkl) : List Hkl :=
  if filter then gs.filter fun g => match isGAllowed sg g with | .ok b => b | .error _ => false else gs

/-- unit_cell.py:912-1016 `get_reflections`.  `torch.arange(1, 0)` raises `RuntimeError`, when some limit is zero. -/
noncomputable def getReflections (l : Lattice) (sg : ℕ) (dmin : ℝ) (difference filterCentering : Bool) :
    Except Err (List Hkl) :=
  let m := hklLimits l dmin
  if m.1 = 0 ∨ m.2.1 = 0 ∨ m.2.2 = 0 then .error .runtimeError
  else if difference then
    let grid := meshgrid (arangeSym (2 * m.1)) (arangeSym (2 * m.2.1)) (arangeSym (2 * m.2.2))
    .ok (keepAllowed sg filterCentering
      (grid.filter fun g => decide (g.1 ≠ 0) || decide (g.2.1 ≠ 0) || decide (g.2.2 ≠ 0)))
  else
    let grid := meshgrid (arangeSym m.1) (arangeSym m.2.1) (arangeSym m.2.2)
    .ok ((keepAllowed sg filterCentering (grid.drop 1)).filter fun g => dAbove l dmin g)

end Verif.Cryst
