import Verif.Model.Orient
import Mathlib.Logic.Equiv.Basic
/-!
Model of the cubochoric conversions of /repo/ebsdtorch/s2_and_so3/orientations.py, one vector at a time.
NaN entries produced by `0/0` are replaced by 0 in the code (lines 317, 344, 414); in Lean `x / 0 = 0`
gives the same value.
-/
namespace Verif.Cubo
open Verif

/-- components of a tensor row of length 3, by index -/
def comp (v : V) : Fin 3 → ℝ := ![v.x, v.y, v.z]

/-- a tensor row of length 3 from its entries -/
def ofComp (f : Fin 3 → ℝ) : V := ⟨f 0, f 1, f 2⟩

/-- `torch.argsort(_, dim=-1, descending=False)` of rows of length 3 (orientations.py:307, :371): some
permutation that sorts the row.  The order of equal entries is not specified by torch. -/
structure Argsort where
  run : (Fin 3 → ℝ) → Equiv.Perm (Fin 3)
  sorted : ∀ v : Fin 3 → ℝ, v (run v 0) ≤ v (run v 1) ∧ v (run v 1) ≤ v (run v 2)

/-- orientations.py:312-339: the three values computed from the sorted components `s, m, b`. -/
noncomputable def cu2hoSorted (s m b : ℝ) : Fin 3 → ℝ :=
  let pi := Real.pi
  let trig := s * pi / (12 * m)
  let factor := (2 : ℝ) ^ ((1 : ℝ) / 12) * 3 ^ ((1 : ℝ) / 3) * m
    * Real.sqrt ((4 * b ^ 2 * (Real.cos trig - (2 : ℝ) ^ (0.5 : ℝ))
        + (2 : ℝ) ^ (0.5 : ℝ) * m ^ 2 * (-2 * (2 : ℝ) ^ (0.5 : ℝ) * Real.cos trig + 3))
      / (Real.cos trig - (2 : ℝ) ^ (0.5 : ℝ)))
    / (pi ^ ((1 : ℝ) / 3) * b * Real.sqrt (-Real.cos trig + (2 : ℝ) ^ (0.5 : ℝ)))
  let x := factor * Real.sin trig
  let y := factor * (2 : ℝ) ^ (-(0.5 : ℝ)) * ((2 : ℝ) ^ (0.5 : ℝ) * Real.cos trig - 1)
  let z := (2 * (6 : ℝ) ^ ((1 : ℝ) / 3) * b ^ 2 * (Real.cos trig - (2 : ℝ) ^ (0.5 : ℝ))
      + (2 : ℝ) ^ ((5 : ℝ) / 6) * 3 ^ ((1 : ℝ) / 3) * m ^ 2 * (-2 * (2 : ℝ) ^ (0.5 : ℝ) * Real.cos trig + 3))
    / (2 * pi ^ ((1 : ℝ) / 3) * b * (Real.cos trig - (2 : ℝ) ^ (0.5 : ℝ)))
  ![x, y, z]

/-- orientations.py:294-349 `cu2ho`. -/
noncomputable def cu2ho (A : Argsort) (cu : V) : V :=
  let idx := A.run fun i => |comp cu i|
  let srt := fun j => comp cu (idx j)
  let src := cu2hoSorted (srt 0) (srt 1) (srt 2)
  ofComp fun i => copysign (src (idx.symm i)) (comp cu i)

/-- orientations.py:373-408 and :412: the three values computed from the sorted magnitudes and the norm,
already divided by `(pi / 6) ** (1 / 6)`. -/
noncomputable def ho2cuSorted (r x y z : ℝ) : Fin 3 → ℝ :=
  let pi := Real.pi
  let pre := Real.sqrt (2 * r / (r + z))
  let x2 := x * pre
  let y2 := y * pre
  let z2 := (pi / 6) ^ (0.5 : ℝ) * r
  let pre2 := (pi / 6) ^ (0.5 : ℝ) * Real.sqrt (x2 ^ 2 + y2 * (Real.sqrt (x2 ^ 2 + 2 * y2 ^ 2) + 2 * y2))
    / (2 : ℝ) ^ (0.5 : ℝ)
  let x1 := (pre2 * 12 * sgn x2 / pi) * Real.arccos (clamp1
    ((x2 ^ 2 + y2 * Real.sqrt (x2 ^ 2 + 2 * y2 ^ 2)) / ((2 : ℝ) ^ (0.5 : ℝ) * (x2 ^ 2 + y2 ^ 2))))
  let y1 := pre2 * sgn y2
  let k := (pi / 6) ^ ((1 : ℝ) / 6)
  ![x1 / k, y1 / k, z2 / k]

/-- orientations.py:353-416 `ho2cu`. -/
noncomputable def ho2cu (A : Argsort) (ho : V) : V :=
  let idx := A.run fun i => |comp ho i|
  let srt := fun j => |comp ho (idx j)|
  let src := ho2cuSorted ho.norm (srt 0) (srt 1) (srt 2)
  ofComp fun i => copysign (src (idx.symm i)) (comp ho i)

/-- The fit coefficients for float32/float16 and for float64 (orientations.py:437-453, :461-478). -/
noncomputable def ho2axFit (single : Bool) : List ℝ :=
  if single then
    [1.0000000000000009e00, -4.9999943403867775e-01, -2.5015165060149020e-02, -3.8120131548551729e-03,
     -1.2106188330642162e-03, 4.9329295993155416e-04, -7.0089385526450620e-04, 3.0979774923589078e-04,
     -7.3023474963298843e-05]
  else
    [1.0000000000000000e00, -4.9999997124013285e-01, -2.5001181866044025e-02, -3.9144209820521038e-03,
     -8.9320268104539483e-04, 3.1181024286083695e-05, -4.3961032788396477e-04, 3.9657471727506439e-04,
     -2.6379945050586932e-04, 9.1185355979587159e-05, -1.4875867805692529e-05]

/-- orientations.py:487-491: `s += fit_parameters[i] * ho_norm_sq ** i`. -/
noncomputable def ho2axPoly (single : Bool) (n : ℝ) : ℝ :=
  ((ho2axFit single).zipIdx.map fun ci => ci.1 * n ^ ci.2).sum

/-- orientations.py:420-516 `ho2ax`.  `single`: dtype float32/float16; `fast`: the parameter.  The
Newton step (lines 493-502) runs only for float64 without `fast`; its NaN/inf cases are left out. -/
noncomputable def ho2ax (single fast : Bool) (ho : V) : AX :=
  let n := ho.x ^ 2 + ho.y ^ 2 + ho.z ^ 2
  let s := ho2axPoly single n
  let w0 := 2 * Real.arccos (clamp1 s)
  let w := if single = false ∧ fast = false then
      w0 - ((3 / 4 * (w0 - Real.sin w0)) ^ ((1 : ℝ) / 3) - Real.sqrt n)
        / ((1 - Real.cos w0) / ((6 : ℝ) ^ ((2 : ℝ) / 3) * (w0 - Real.sin w0) ^ ((2 : ℝ) / 3)))
    else w0
  if |n| < 1e-6 then ⟨⟨0, 0, 1⟩, 0⟩ else ⟨V.smul (1 / Real.sqrt n) ho, w⟩

/-- orientations.py:1179-1189 `ho2qu` (default `fast`). -/
noncomputable def ho2qu (single : Bool) (ho : V) : Q := ax2qu (ho2ax single true ho)

/-- orientations.py:1137-1147 `cu2qu`. -/
noncomputable def cu2qu (A : Argsort) (single : Bool) (cu : V) : Q := ho2qu single (cu2ho A cu)

/-- orientations.py:1024-1035 `qu2cu`. -/
noncomputable def qu2cu (A : Argsort) (q : Q) : V := ho2cu A (qu2ho q)

end Verif.Cubo
