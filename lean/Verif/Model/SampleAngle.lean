import Verif.Model.Fz
import Verif.Model.Sampling
import Verif.Model.MutualInfo
/-!
Model of `sample_ori_fz_laue_angle`, /repo/ebsdtorch/s2_and_so3/laue_fz_ori.py:517-557.
-/
namespace Verif.SampleAngle
open Verif Verif.Cubo Verif.Samp

/-- laue_fz_ori.py:542-544 `n_so3_without_symmetry`. -/
noncomputable def nSo3 (deg : ℝ) : ℝ := (2 * 131.97049 / (deg - 0.03732) + 1) ^ 3

/-- laue_fz_ori.py:545 `edge_length`; `none`: division by zero, or a fractional power of a negative number. -/
noncomputable def edgeLength (mult : ℕ) (deg : ℝ) : Option ℤ :=
  if deg = 0.03732 ∨ nSo3 deg < 0 then none
  else some (MI.trunc ((nSo3 deg / (0.5 * mult)) ^ ((1 : ℝ) / 3) + 1))

/-- laue_fz_ori.py:517-557 `sample_ori_fz_laue_angle`.  `perm` is the drawn permutation (`none`: `permute=False`); `single`
is the default dtype of the grid. -/
noncomputable def sampleAngle (A : Argsort) (single : Bool) (id : ℤ) (deg : ℝ)
    (perm : (l : List Q) → Option (Equiv.Perm (Fin l.length))) : Option (List Q) :=
  (getLaueMult id).bind fun mult => (edgeLength mult deg).bind fun edge =>
    if 1 ≤ id ∧ id ≤ 11 then
      let l := fzFilter (so3CubochoricGrid A single edge.toNat) id
      some ((perm l).elim l fun σ => permuted l σ)
    else none

end Verif.SampleAngle
