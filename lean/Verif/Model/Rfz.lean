import Verif.Model.Cubo
import Verif.Model.Fz
/-!
Model of the cubed Rodrigues coordinates of /repo/ebsdtorch/s2_and_so3/laue_fz_ori.py:242-317, one row at a time.
-/
namespace Verif.Rfz
open Verif Verif.Cubo

/-- laue_fz_ori.py:261-280 and :300-314: the common part of the two functions.  `op` is `*` or `/`.
`torch.sort` gives the sorted magnitudes and some permutation that sorts them (ties unspecified).
The replacement of NaN factors by 1 (line 271) concerns `0 / 0` at the origin. -/
noncomputable def rescale (op : ℝ → ℝ → ℝ) (A : Argsort) (cc : V) : V :=
  let idx := A.run fun i => |comp cc i|
  let srt := fun j => |comp cc (idx j)|
  let scales := srt 2 < (srt 0 + srt 1) / Real.sqrt 2
  let factors := if srt 2 = 0 then 1
    else (|cc.x| + |cc.y| + |cc.z|) * (Real.sqrt 2 - 1) / srt 2
  let out := fun j => open Classical in if scales then op (srt j) factors else srt j
  ofComp fun i => copysign (out (idx.symm i)) (comp cc i)

/-- laue_fz_ori.py:242-282 `cube_to_rfz`; `none` is the `NotImplementedError`. -/
noncomputable def cubeToRfz (A : Argsort) (cc : V) (laueGroup : ℤ) : Option V :=
  if laueGroup = 11 then some (rescale (· * ·) A cc) else none

/-- laue_fz_ori.py:283-317 `rfz_to_cube`. -/
noncomputable def rfzToCube (A : Argsort) (rfz : V) (laueGroup : ℤ) : Option V :=
  if laueGroup = 11 then some (rescale (· / ·) A rfz) else none

end Verif.Rfz
