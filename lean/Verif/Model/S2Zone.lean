import Verif.Model.Laue
import Verif.Model.Sphere
import Verif.Model.Sampling
/-!
Model of /repo/ebsdtorch/s2_and_so3/laue_fz_s2.py: the fundamental sector of the 2-sphere for each
Laue class, the map into it and the rejection samplers.  `none` means that the Python code raises.
-/
open Verif.Samp
namespace Verif.S2

/-- laue_fz_s2.py:45 `EPS = 1e-12 if points.dtype == torch.float64 else 1e-6`. -/
noncomputable def s2Eps (single : Bool) : ℝ := if single then 1e-6 else 1e-12

/-- laue_fz_s2.py:77-80, :90-93: the polar-angle bound of the cubic sectors,
`acos(sqrt(1 / (2 + tan(t) ** 2)))`. -/
noncomputable def cubBound (t : ℝ) : ℝ := Real.arccos (Real.sqrt (1 / (2 + Real.tan t ^ 2)))

/-- laue_fz_s2.py:50-51 `eta`. -/
noncomputable def etaOf (p : V) : ℝ := atan2 p.y p.x
/-- laue_fz_s2.py:50-51 `chi` (`torch.acos` is NaN, and every comparison false, outside `[-1, 1]`;
`Real.arccos` clamps there; all theorems are about unit vectors). -/
noncomputable def chiOf (p : V) : ℝ := Real.arccos p.z

/-- laue_fz_s2.py:54-99: the test of the non-cubic classes from 2 on,
`eta >= lo & eta <= hi + EPS & chi >= 0 & chi <= pi / 2 + EPS`. -/
def Lune (eps lo hi : ℝ) (p : V) : Prop :=
  lo ≤ etaOf p ∧ etaOf p ≤ hi + eps ∧ 0 ≤ chiOf p ∧ chiOf p ≤ Real.pi / 2 + eps

/-- laue_fz_s2.py:23-99 `s2_in_fz_laue` for one point; `eps` is line 45's EPS. -/
noncomputable def s2InFz (eps : ℝ) (id : ℤ) (p : V) : Option Bool :=
  open Classical in
  if id = 1 then some (decide (p.z ≥ 0))
  else if id = 2 then some (decide (Lune eps 0 Real.pi p))
  else if id = 3 ∨ id = 4 then some (decide (Lune eps 0 (Real.pi / 2) p))
  else if id = 5 then some (decide (Lune eps 0 (Real.pi / 4) p))
  else if id = 6 then some (decide (Lune eps (-2 * Real.pi / 3) 0 p))
  else if id = 7 then some (decide (Lune eps (-(Real.pi / 2)) (-(Real.pi / 6)) p))
  else if id = 8 then some (decide (Lune eps 0 (Real.pi / 3) p))
  else if id = 9 then some (decide (Lune eps 0 (Real.pi / 6) p))
  else if id = 10 then some (decide (
    (if etaOf p ≥ Real.pi / 4 then chiOf p ≤ cubBound (Real.pi / 2 - etaOf p) + eps
      else chiOf p ≤ cubBound (etaOf p) + eps) ∧
    etaOf p ≥ 0 ∧ etaOf p ≤ Real.pi / 2 + eps ∧ chiOf p ≥ 0))
  else if id = 11 then some (decide (
    (if etaOf p > Real.pi / 4 then chiOf p < cubBound (Real.pi / 2 - etaOf p) + eps
      else chiOf p ≤ cubBound (etaOf p) + eps) ∧
    etaOf p > 0 ∧ etaOf p < Real.pi / 4 + eps ∧ chiOf p > 0))
  else none

/-- elementwise `-equivalent_points` (laue_fz_s2.py:180) -/
def vneg (p : V) : V := ⟨-p.x, -p.y, -p.z⟩

/-- laue_fz_s2.py:177-180, :217-220: all symmetric images of one point followed by their antipodes. -/
def equivPoints (G : List Q) (p : V) : List V :=
  G.map (fun g => quApply g p) ++ (G.map fun g => quApply g p).map vneg

/-- laue_fz_s2.py:155-193 `s2_to_fz_laue` on a batch of shape `(N, 3)`: boolean-mask selection keeps, in
order, every accepted image of every point, and `.reshape(data_shape)` raises unless exactly `N` were kept
in total. -/
noncomputable def s2ToFz (eps : ℝ) (id : ℤ) (ps : List V) : Option (List V) :=
  (laueElements id).bind fun G =>
    if (s2InFz eps id ⟨0, 0, 1⟩).isNone then none else
    let kept := ps.flatMap fun p => (equivPoints G p).filter fun q => (s2InFz eps id q).getD false
    if kept.length = ps.length then some kept else none

/-- laue_fz_s2.py:197-222 `s2_equiv_laue` on a batch of shape `(N, 3)`: the number of rows handed to
`.reshape(data_shape[:-1] + (len(laue_group), 3))`, and the rows grouped per point when it succeeds. -/
def s2Equiv (G : List Q) (ps : List V) : Option (List (List V)) :=
  let all := ps.map (equivPoints G)
  if all.flatten.length = ps.length * G.length then some all else none

/-- laue_fz_s2.py:226-256 `sample_s2_fz_laue_fibonacci` (float32 samples: `s2_fibonacci` default mode). -/
noncomputable def sampleFibonacci (eps : ℝ) (id : ℤ) (n : ℕ) : Option (List V) :=
  (getLaueMult id).bind fun m => (s2Fibonacci "avg" (n * m)).bind fun l =>
    if (s2InFz eps id ⟨0, 0, 1⟩).isNone then none else
    some (l.filter fun q => (s2InFz eps id q).getD false)

/-- laue_fz_s2.py:260-301 `sample_s2_fz_laue_rosca`; `edge = int((n * mult) ** 0.5)`.  A NaN sample
(`inv_rosca_lambert` at the origin of an odd grid) compares false with everything and is dropped. -/
noncomputable def sampleRosca (eps : ℝ) (id : ℤ) (n : ℕ) : Option (List V) :=
  (getLaueMult id).bind fun m =>
    if (s2InFz eps id ⟨0, 0, 1⟩).isNone then none else
    let c := linspace (-1) 1 (Nat.sqrt (n * m))
    let sq := c.flatMap fun x => c.map fun y => (x, y)
    some ((sq.filterMap invRoscaLambert).filter fun q => (s2InFz eps id q).getD false)

end Verif.S2
