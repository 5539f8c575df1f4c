import Verif.Model.Quat
import Mathlib.LinearAlgebra.Matrix.Notation
import Mathlib.LinearAlgebra.Matrix.Determinant.Basic
import Mathlib.Analysis.SpecialFunctions.Pow.Real
import Mathlib.Analysis.SpecialFunctions.Trigonometric.Arctan
/-!
Model of /repo/ebsdtorch/s2_and_so3/orientations.py, one rotation (one element of the batch) at a
time.  A 3x3 tensor is `Matrix (Fin 3) (Fin 3) ℝ`; an axis-angle tensor `(x, y, z, angle)` is `AX`.
-/
namespace Verif

/-- A 3x3 tensor (last two axes of `matrix` in orientations.py). -/
abbrev M3 := Matrix (Fin 3) (Fin 3) ℝ

/-- Axis-angle `(x, y, z, angle)` (orientations.py:731-746, last axis of `ax`). -/
@[ext] structure AX where
  n : V
  ang : ℝ

/-- Last component of a Rodrigues-Frank vector: a float that may be `inf` (orientations.py:803-805). -/
inductive RoMag where
  | fin (r : ℝ)
  | inf

/-- Rodrigues-Frank `(x, y, z, tan(angle/2))` (orientations.py:688-700). -/
structure RO where
  n : V
  mag : RoMag

namespace V
/-- elementwise scalar multiple of a 3-vector (orientations.py:744) -/
def smul (s : ℝ) (v : V) : V := ⟨s * v.x, s * v.y, s * v.z⟩
/-- elementwise difference (orientations.py:959) -/
def sub (a b : V) : V := ⟨a.x - b.x, a.y - b.y, a.z - b.z⟩
/-- elementwise sum -/
def add (a b : V) : V := ⟨a.x + b.x, a.y + b.y, a.z + b.z⟩
/-- elementwise division by a scalar (orientations.py:958) -/
noncomputable def sdiv (v : V) (s : ℝ) : V := ⟨v.x / s, v.y / s, v.z / s⟩
end V

/-- the vector part `qu[..., 1:]` (orientations.py:43) -/
def Q.vec (q : Q) : V := ⟨q.x, q.y, q.z⟩

/-- `torch.clamp(x, -1, 1)` (orientations.py:161, 763). -/
noncomputable def clamp1 (x : ℝ) : ℝ := max (-1) (min x 1)

/-- orientations.py:28-48 `qu2ho`.  `** (1/3)` of a non-negative number is `Real.rpow`. The in-place
`clamp_` of line 41 also writes the clamped scalar part back to the caller's tensor; that side effect
is not part of the returned value. -/
noncomputable def qu2ho (q : Q) : V :=
  let angle := 2 * Real.arccos (clamp1 q.w)
  let unit := V.sdiv q.vec q.vec.norm
  if angle < 1e-8 then ⟨0, 0, 0⟩
  else V.smul ((3 * (angle - Real.sin angle) / 4) ^ ((1 : ℝ) / 3)) unit

/-- `0.5 * torch.rsqrt(t)` (orientations.py:90-97). -/
noncomputable def hrsqrt (t : ℝ) : ℝ := 0.5 * (1 / Real.sqrt t)

/-- orientations.py:52-130 `om2qu`.  The four boolean masks are disjoint and exhaustive, so the masked
assignments are an `if` cascade; lines 124-128 fix the signs afterwards. -/
noncomputable def om2qu (m : M3) : Q :=
  let q : Q :=
    if m 2 2 < 0 then
      if m 0 0 > m 1 1 then
        let t := 1 + m 0 0 - m 1 1 - m 2 2
        ⟨(m 1 2 - m 2 1) * hrsqrt t, t * hrsqrt t, (m 0 1 + m 1 0) * hrsqrt t, (m 2 0 + m 0 2) * hrsqrt t⟩
      else
        let t := 1 - m 0 0 + m 1 1 - m 2 2
        ⟨(m 2 0 - m 0 2) * hrsqrt t, (m 0 1 + m 1 0) * hrsqrt t, t * hrsqrt t, (m 1 2 + m 2 1) * hrsqrt t⟩
    else
      if m 0 0 < -m 1 1 then
        let t := 1 - m 0 0 - m 1 1 + m 2 2
        ⟨(m 0 1 - m 1 0) * hrsqrt t, (m 2 0 + m 0 2) * hrsqrt t, (m 1 2 + m 2 1) * hrsqrt t, t * hrsqrt t⟩
      else
        let t := 1 + m 0 0 + m 1 1 + m 2 2
        ⟨t * hrsqrt t, (m 1 2 - m 2 1) * hrsqrt t, (m 2 0 - m 0 2) * hrsqrt t, (m 0 1 - m 1 0) * hrsqrt t⟩
  ⟨|q.w|, copysign q.x (m 2 1 - m 1 2), copysign q.y (m 0 2 - m 2 0), copysign q.z (m 1 0 - m 0 1)⟩

/-- orientations.py:134-175 `om2ax` (one matrix of a batch; the code needs exactly one batch axis
because of `factor[:, None]`, line 167). -/
noncomputable def om2ax (m : M3) : AX :=
  let trace := m 0 0 + m 1 1 + m 2 2
  let theta := Real.arccos (clamp1 (0.5 * (trace - 1)))
  let raw : V := ⟨m 2 1 - m 1 2, m 0 2 - m 2 0, m 1 0 - m 0 1⟩
  let factor := if theta > 0.001 then 0.5 / Real.sin theta else 0.5
  let a := V.smul factor raw
  ⟨V.sdiv a a.norm, theta⟩

/-- The antisymmetric matrix filled in orientations.py:200-206. -/
def skewM (w : V) : M3 := !![0, -w.z, w.y; w.z, 0, -w.x; -w.y, w.x, 0]

/-- orientations.py:179-240 `ax2om`: exact factors for `theta > 0.05`, two-term Taylor factors
otherwise (also for every negative angle). -/
noncomputable def ax2om (a : AX) : M3 :=
  let theta := a.ang
  let K := skewM (V.smul theta a.n)
  if theta > 0.05 then
    1 + (Real.sin theta / theta) • K + ((1 - Real.cos theta) / theta ^ 2) • (K * K)
  else
    1 + (1 - theta ^ 2 / 6) • K + (1 / 2 - theta ^ 2 / 24) • (K * K)

/-- orientations.py:671-684 `ax2ho`. -/
noncomputable def ax2ho (a : AX) : V :=
  V.smul ((0.75 * (a.ang - Real.sin a.ang)) ^ ((1 : ℝ) / 3)) a.n

/-- orientations.py:688-700 `ax2ro` (for angles that are no odd multiple of `π`, where `tan` is a
finite number). -/
noncomputable def ax2ro (a : AX) : RO := ⟨a.n, .fin (Real.tan (a.ang / 2))⟩

/-- orientations.py:704-727 `ro2ax`. -/
noncomputable def ro2ax (r : RO) : AX :=
  match r.mag with
  | .inf => ⟨r.n, Real.pi⟩
  | .fin t => if |t| = 0 then ⟨⟨0, 0, 1⟩, 0⟩ else ⟨V.sdiv r.n r.n.norm, 2 * Real.arctan t⟩

/-- orientations.py:731-746 `ax2qu`. -/
noncomputable def ax2qu (a : AX) : Q :=
  ⟨Real.cos (a.ang / 2), a.n.x * Real.sin (a.ang / 2), a.n.y * Real.sin (a.ang / 2),
   a.n.z * Real.sin (a.ang / 2)⟩

/-- orientations.py:750-780 `qu2ax`. -/
noncomputable def qu2ax (q : Q) : AX :=
  let angle := 2 * Real.arccos (clamp1 q.w)
  let s := if q.w ≠ 0 then sgn q.w / q.vec.norm else 1
  if angle = 0 then ⟨⟨0, 0, 1⟩, 0⟩ else ⟨⟨q.x * s, q.y * s, q.z * s⟩, angle⟩

/-- orientations.py:784-806 `qu2ro`, with the float64 threshold 1e-10. -/
noncomputable def qu2ro (q : Q) : RO :=
  let r := 1 / Real.sqrt (q.x ^ 2 + q.y ^ 2 + q.z ^ 2)
  ⟨⟨q.x * r, q.y * r, q.z * r⟩,
    if |q.w| < 1e-10 then .inf else .fin (Real.tan (Real.arccos (clamp1 q.w)))⟩

/-- Bunge Euler angles (orientations.py:810, last axis of `bu`). -/
@[ext] structure BU where
  p1 : ℝ
  P : ℝ
  p2 : ℝ

/-- orientations.py:850-852: add `2π` to negative angles. -/
noncomputable def wrap2pi (a : ℝ) : ℝ := if a < 0 then a + 2 * Real.pi else a

/-- orientations.py:810-854 `qu2bu`. -/
noncomputable def qu2bu (q : Q) : BU :=
  let q03 := q.w ^ 2 + q.z ^ 2
  let q12 := q.x ^ 2 + q.y ^ 2
  let chi := Real.sqrt (q03 * q12)
  let b : BU :=
    if chi = 0 then
      if q12 = 0 then ⟨atan2 (-2 * q.w * q.z) (q.w ^ 2 - q.z ^ 2), 0, 0⟩
      else ⟨atan2 (2 * q.x * q.y) (q.x ^ 2 - q.y ^ 2), Real.pi, 0⟩
    else
      ⟨atan2 ((q.x * q.z - q.w * q.y) / chi) ((-q.w * q.x - q.y * q.z) / chi),
       atan2 (2 * chi) (q03 - q12),
       atan2 ((q.w * q.y + q.x * q.z) / chi) ((q.y * q.z - q.w * q.x) / chi)⟩
  ⟨wrap2pi b.p1, b.P, wrap2pi b.p2⟩

/-- orientations.py:858-882 `bu2qu`. -/
noncomputable def bu2qu (b : BU) : Q :=
  let sigma := 0.5 * (b.p1 + b.p2)
  let delta := 0.5 * (b.p1 - b.p2)
  let c := Real.cos (0.5 * b.P)
  let s := Real.sin (0.5 * b.P)
  let q : Q := ⟨c * Real.cos sigma, -s * Real.cos delta, -s * Real.sin delta, -c * Real.sin sigma⟩
  let f : ℝ := if q.w < 0 then -1 else 1
  ⟨q.w * f, q.x * f, q.y * f, q.z * f⟩

/-- orientations.py:912-937 `qu2om`. -/
def qu2om (q : Q) : M3 :=
  let qb := q.w ^ 2 - (q.x ^ 2 + q.y ^ 2 + q.z ^ 2)
  !![qb + 2 * q.x ^ 2, 2 * (q.x * q.y - q.w * q.z), 2 * (q.x * q.z + q.w * q.y);
     2 * (q.y * q.x + q.w * q.z), qb + 2 * q.y ^ 2, 2 * (q.y * q.z - q.w * q.x);
     2 * (q.z * q.x - q.w * q.y), 2 * (q.z * q.y + q.w * q.x), qb + 2 * q.z ^ 2]

/-- `torch.stack((b1, b2, b3), dim=-2)`: rows (orientations.py:963). -/
def rows3 (a b c : V) : M3 := !![a.x, a.y, a.z; b.x, b.y, b.z; c.x, c.y, c.z]

/-- orientations.py:941-963 `zh2om`. -/
noncomputable def zh2om (a1 a2 : V) : M3 :=
  let b1 := V.sdiv a1 a1.norm
  let b2' := V.sub a2 (V.smul (V.dot b1 a2) b1)
  let b2 := V.sdiv b2' b2'.norm
  let b3' := V.cross b1 b2
  let b3 := V.sdiv b3' b3'.norm
  rows3 b1 b2 b3

/-- orientations.py:967-983 `om2zh`: the first two rows. -/
def om2zh (m : M3) : V × V := (⟨m 0 0, m 0 1, m 0 2⟩, ⟨m 1 0, m 1 1, m 1 2⟩)

/-- orientations.py:987-1004 `zh2qu`. -/
noncomputable def zh2qu (a1 a2 : V) : Q := om2qu (zh2om a1 a2)
/-- orientations.py:1009-1019 `qu2zh`. -/
def qu2zh (q : Q) : V × V := om2zh (qu2om q)
/-- orientations.py:1067-1076 `ro2qu`. -/
noncomputable def ro2qu (r : RO) : Q := ax2qu (ro2ax r)
/-- orientations.py:1039-1048 `om2ho`. -/
noncomputable def om2ho (m : M3) : V := ax2ho (om2ax m)
/-- orientations.py:1249-1258 `bu2om`. -/
noncomputable def bu2om (b : BU) : M3 := qu2om (bu2qu b)
/-- orientations.py:1319-1328 `om2bu`. -/
noncomputable def om2bu (m : M3) : BU := qu2bu (om2qu m)
/-- orientations.py:1263-1272 `bu2ax`. -/
noncomputable def bu2ax (b : BU) : AX := qu2ax (bu2qu b)
/-- orientations.py:1221-1230 `om2ro`. -/
noncomputable def om2ro (m : M3) : RO := qu2ro (om2qu m)

end Verif
