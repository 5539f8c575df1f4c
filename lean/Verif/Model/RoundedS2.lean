import Verif.Model.Rounded
import Verif.Model.S2Zone
/-!
The zone test of /repo/ebsdtorch/s2_and_so3/laue_fz_s2.py in floating-point arithmetic.  Simplifications: `torch.atan2`, `acos` and `tan`
are correctly rounded; the bounds, which the code adds in double precision and torch converts to the dtype of the points, are rounded once;
`PI_2 - eta` takes the exact value of `pi / 2`; NaN is `none` and every comparison with it is false.
-/
namespace Verif.S2
open Verif Classical

/-- laue_fz_s2.py:50 `eta` with rounding. -/
noncomputable def rEta (fl : ℝ → ℝ) (p : V) : ℝ := fl (atan2 p.y p.x)

/-- laue_fz_s2.py:51 `chi` with rounding; NaN outside `[-1, 1]`. -/
noncomputable def rChi (fl : ℝ → ℝ) (p : V) : Option ℝ := (acosNan p.z).map fl

/-- laue_fz_s2.py:55-69: the test of the classes 2 to 9 with rounding. -/
def rLune (fl : ℝ → ℝ) (eps lo hi : ℝ) (p : V) : Prop :=
  fl lo ≤ rEta fl p ∧ rEta fl p ≤ fl (hi + eps) ∧ (∃ c, rChi fl p = some c ∧ 0 ≤ c) ∧ ∃ c, rChi fl p = some c ∧ c ≤ fl (Real.pi / 2 + eps)

/-- laue_fz_s2.py:77-80, :90-93: the polar-angle bound of the cubic sectors with rounding. -/
noncomputable def rCubBound (fl : ℝ → ℝ) (t : ℝ) : ℝ :=
  fl (Real.arccos (fl (Real.sqrt (fl (1 / fl (2 + fl (fl (Real.tan t) ^ 2)))))))

/-- laue_fz_s2.py:23-99 `s2_in_fz_laue` for one point with rounding. -/
noncomputable def rS2InFz (fl : ℝ → ℝ) (eps : ℝ) (id : ℤ) (p : V) : Option Bool :=
  if id = 1 then some (decide (p.z ≥ 0))
  else if id = 2 then some (decide (rLune fl eps 0 Real.pi p))
  else if id = 3 ∨ id = 4 then some (decide (rLune fl eps 0 (Real.pi / 2) p))
  else if id = 5 then some (decide (rLune fl eps 0 (Real.pi / 4) p))
  else if id = 6 then some (decide (rLune fl eps (-2 * Real.pi / 3) 0 p))
  else if id = 7 then some (decide (rLune fl eps (-(Real.pi / 2)) (-(Real.pi / 6)) p))
  else if id = 8 then some (decide (rLune fl eps 0 (Real.pi / 3) p))
  else if id = 9 then some (decide (rLune fl eps 0 (Real.pi / 6) p))
  else if id = 10 then some (decide (
    (∃ c, rChi fl p = some c ∧ (if rEta fl p ≥ fl (Real.pi / 4) then c ≤ fl (rCubBound fl (fl (Real.pi / 2 - rEta fl p)) + eps)
      else c ≤ fl (rCubBound fl (rEta fl p) + eps))) ∧
    rEta fl p ≥ 0 ∧ rEta fl p ≤ fl (Real.pi / 2 + eps) ∧ ∃ c, rChi fl p = some c ∧ c ≥ 0))
  else if id = 11 then some (decide (
    (∃ c, rChi fl p = some c ∧ (if rEta fl p > fl (Real.pi / 4) then c < fl (rCubBound fl (fl (Real.pi / 2 - rEta fl p)) + eps)
      else c ≤ fl (rCubBound fl (rEta fl p) + eps))) ∧
    rEta fl p > 0 ∧ rEta fl p < fl (Real.pi / 4 + eps) ∧ ∃ c, rChi fl p = some c ∧ c > 0))
  else none

end Verif.S2
