import Verif.Model.Cubo
import Verif.Model.Sphere
/-!
Model of /repo/ebsdtorch/s2_and_so3/sampling.py and of the local grid of
/repo/ebsdtorch/ebsd/refining.py:13-68.  `torch.rand` draws are parameters in `[0, 1)`.
-/
namespace Verif.Samp
open Verif Verif.Cubo

/-- `torch.linspace(a, b, n)`: `n` equally spaced values; a single value is `a`. -/
noncomputable def linspace (a b : ℝ) (n : ℕ) : List ℝ :=
  if n = 1 then [a] else (List.range n).map fun i : ℕ => a + i * ((b - a) / ((n : ℝ) - 1))

/-- `torch.stack(torch.meshgrid(c, c, c, indexing="ij"), dim=-1).reshape(-1, 3)` (sampling.py:202,
refining.py:53). -/
def mesh3 (c : List ℝ) : List V := c.flatMap fun x => c.flatMap fun y => c.map fun z => ⟨x, y, z⟩

/-- sampling.py:40-57: the epsilon parameter; `none`: ValueError for an unknown mode. -/
noncomputable def fibEps (mode : String) (n : ℕ) : Option ℝ :=
  if mode = "avg" then some 0.36
  else if mode = "max" then
    some (if 600000 ≤ n then 214 else if 400000 ≤ n then 75 else if 11000 ≤ n then 27 else
      if 890 ≤ n then 10 else if 177 ≤ n then 3.33 else if 24 ≤ n then 1.33 else 0.33)
  else none

/-- sampling.py:59-62: the argument of `acos` for index `i`. -/
noncomputable def fibArg (eps : ℝ) (n i : ℕ) : ℝ := 1 - 2 * ((i : ℝ) + eps) / ((n : ℝ) - 1 + 2 * eps)

/-- sampling.py:15-63 `s2_fibonacci`. -/
noncomputable def s2Fibonacci (mode : String) (n : ℕ) : Option (List V) :=
  (fibEps mode n).map fun eps => (List.range n).map fun i : ℕ =>
    thetaPhiToXyz (2 * Real.pi * i / ((1 + (5 : ℝ) ^ (0.5 : ℝ)) / 2)) (Real.arccos (fibArg eps n i))

/-- sampling.py:66-111 `so3_fibonacci`. -/
noncomputable def so3Fibonacci (n : ℕ) : List Q :=
  (List.range n).map fun i : ℕ =>
    let s := (i : ℝ) + 0.5
    let t := s / n
    let d := 2 * Real.pi * s
    let r := Real.sqrt t
    let R := Real.sqrt (1 - t)
    let alpha := d / (2 : ℝ) ^ (0.5 : ℝ)
    let beta := d / 1.533751168755204288118041
    ⟨r * Real.sin alpha, r * Real.cos alpha, R * Real.sin beta, R * Real.cos beta⟩

/-- sampling.py:115-132 `so3_cu_rand`; `draws` are the rows of `torch.rand(n, 3)`. -/
noncomputable def so3CuRand (A : Argsort) (single : Bool) (draws : List V) : List Q :=
  draws.map fun u =>
    let box : V := ⟨u.x * Real.pi ^ ((2 : ℝ) / 3) - 0.5 * Real.pi ^ ((2 : ℝ) / 3),
      u.y * Real.pi ^ ((2 : ℝ) / 3) - 0.5 * Real.pi ^ ((2 : ℝ) / 3),
      u.z * Real.pi ^ ((2 : ℝ) / 3) - 0.5 * Real.pi ^ ((2 : ℝ) / 3)⟩
    let qu := cu2qu A single box
    quStd (qu.sdiv qu.norm)

/-- sampling.py:136-176 `so3_uniform_quat`; `draws` are the values of `u`, `v`, `w`. -/
noncomputable def so3UniformQuat (draws : List V) : List Q :=
  draws.map fun d =>
    ⟨Real.sqrt (1 - d.x) * Real.sin (2 * Real.pi * d.y), Real.sqrt (1 - d.x) * Real.cos (2 * Real.pi * d.y),
     Real.sqrt d.x * Real.sin (2 * Real.pi * d.z), Real.sqrt d.x * Real.cos (2 * Real.pi * d.z)⟩

/-- sampling.py:193-202: the cubochoric grid points. -/
noncomputable def cubochoricPoints (edge : ℕ) : List V :=
  mesh3 (linspace (-0.5 * Real.pi ^ ((2 : ℝ) / 3)) (0.5 * Real.pi ^ ((2 : ℝ) / 3)) (edge + 1)).dropLast

/-- sampling.py:179-205 `so3_cubochoric_grid`. -/
noncomputable def so3CubochoricGrid (A : Argsort) (single : Bool) (edge : ℕ) : List Q :=
  (cubochoricPoints edge).map fun cu => quStd (cu2qu A single cu)

/-- refining.py:43: the semi edge in cubochoric units. -/
noncomputable def semiEdge (deg : ℝ) : ℝ := deg * Real.pi ^ ((2 : ℝ) / 3) / 360

/-- number of zero coordinates, `torch.sum(cu == 0, dim=-1)` (refining.py:60-65) -/
noncomputable def zeros (v : V) : ℕ :=
  (if v.x = 0 then 1 else 0) + (if v.y = 0 then 1 else 0) + (if v.z = 0 then 1 else 0)

/-- refining.py:13-68 `get_local_orientation_grid`; `none`: ValueError.  Simplification: exact
arithmetic, in which the middle value of the symmetric `linspace` is exactly 0. -/
noncomputable def localGrid (deg : ℝ) (r : ℕ) (dim : ℤ) : Option (List V) :=
  let cu := mesh3 (linspace (-semiEdge deg) (semiEdge deg) (2 * r + 1))
  if dim = 3 then some cu
  else if dim = 2 then some (cu.filter fun v => decide (1 ≤ zeros v))
  else if dim = 1 then some (cu.filter fun v => decide (2 ≤ zeros v))
  else none

end Verif.Samp
