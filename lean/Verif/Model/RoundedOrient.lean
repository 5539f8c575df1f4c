import Verif.Model.Rounded
import Verif.Model.Orient
/-!
The conversions between quaternions and matrices of /repo/ebsdtorch/s2_and_so3/orientations.py in floating-point arithmetic, with the conventions of
`Verif.Model.Rounded`: every elementary operation is followed by a rounding `fl`, in the order in which Python evaluates the expressions.
Simplification: `torch.rsqrt(t)` is the rounded quotient of 1 and the rounded square root.
-/
namespace Verif

/-- orientations.py:922 `q_bar` with rounding (`torch.sum` adds from left to right). -/
def rQbar (fl : ℝ → ℝ) (q : Q) : ℝ :=
  fl (fl (q.w * q.w) - fl (fl (fl (q.x * q.x) + fl (q.y * q.y)) + fl (q.z * q.z)))

/-- orientations.py:925,930,935: a diagonal entry with rounding. -/
def rDiag (fl : ℝ → ℝ) (q : Q) (c : ℝ) : ℝ := fl (rQbar fl q + fl (2 * fl (c * c)))

/-- orientations.py:926-934: an entry `2 * (a * b + s * c * d)`, `s` = 1 or -1, with rounding. -/
def rOff (fl : ℝ → ℝ) (s a b c d : ℝ) : ℝ := fl (2 * fl (fl (a * b) + s * fl (c * d)))

/-- orientations.py:912-937 `qu2om` with rounding. -/
def rQu2om (fl : ℝ → ℝ) (q : Q) : M3 :=
  !![rDiag fl q q.x, rOff fl (-1) q.x q.y q.w q.z, rOff fl 1 q.x q.z q.w q.y;
     rOff fl 1 q.y q.x q.w q.z, rDiag fl q q.y, rOff fl (-1) q.y q.z q.w q.x;
     rOff fl (-1) q.z q.x q.w q.y, rOff fl 1 q.z q.y q.w q.x, rDiag fl q q.z]

/-- orientations.py:94-100: `0.5 * torch.rsqrt(t)` with rounding. -/
noncomputable def rHrsqrt (fl : ℝ → ℝ) (t : ℝ) : ℝ := fl (0.5 * fl (1 / fl (Real.sqrt t)))

/-- orientations.py:93-99: `1 + a + b + c` (with signs) with rounding. -/
def rTrace (fl : ℝ → ℝ) (a b c : ℝ) : ℝ := fl (fl (fl (1 + a) + b) + c)

/-- orientations.py:52-130 `om2qu` with rounding. -/
noncomputable def rOm2qu (fl : ℝ → ℝ) (m : M3) : Q :=
  let q : Q :=
    if m 2 2 < 0 then
      if m 0 0 > m 1 1 then
        let t := rTrace fl (m 0 0) (-m 1 1) (-m 2 2)
        let r := rHrsqrt fl t
        ⟨fl (fl (m 1 2 - m 2 1) * r), fl (t * r), fl (fl (m 0 1 + m 1 0) * r), fl (fl (m 2 0 + m 0 2) * r)⟩
      else
        let t := rTrace fl (-m 0 0) (m 1 1) (-m 2 2)
        let r := rHrsqrt fl t
        ⟨fl (fl (m 2 0 - m 0 2) * r), fl (fl (m 0 1 + m 1 0) * r), fl (t * r), fl (fl (m 1 2 + m 2 1) * r)⟩
    else
      if m 0 0 < -m 1 1 then
        let t := rTrace fl (-m 0 0) (-m 1 1) (m 2 2)
        let r := rHrsqrt fl t
        ⟨fl (fl (m 0 1 - m 1 0) * r), fl (fl (m 2 0 + m 0 2) * r), fl (fl (m 1 2 + m 2 1) * r), fl (t * r)⟩
      else
        let t := rTrace fl (m 0 0) (m 1 1) (m 2 2)
        let r := rHrsqrt fl t
        ⟨fl (t * r), fl (fl (m 1 2 - m 2 1) * r), fl (fl (m 2 0 - m 0 2) * r), fl (fl (m 0 1 - m 1 0) * r)⟩
  ⟨|q.w|, copysign q.x (fl (m 2 1 - m 1 2)), copysign q.y (fl (m 0 2 - m 2 0)), copysign q.z (fl (m 1 0 - m 0 1))⟩

/-- orientations.py:731-746 `ax2qu` with rounding; simplification: `torch.cos` and `torch.sin` are correctly rounded. -/
noncomputable def rAx2qu (fl : ℝ → ℝ) (a : AX) : Q :=
  let h := fl (a.ang / 2)
  let s := fl (Real.sin h)
  ⟨fl (Real.cos h), fl (a.n.x * s), fl (a.n.y * s), fl (a.n.z * s)⟩

/-- orientations.py:750-780 `qu2ax` with rounding; simplification: `torch.acos` is correctly rounded; a division by a norm 0 does not occur with
`w ≠ 1` close to unit quaternions and is not modelled. -/
noncomputable def rQu2ax (fl : ℝ → ℝ) (q : Q) : AX :=
  let angle := fl (2 * fl (Real.arccos (clamp1 q.w)))
  let s := if q.w ≠ 0 then fl (sgn q.w / rNormVal fl ⟨0, q.x, q.y, q.z⟩) else 1
  if angle = 0 then ⟨⟨0, 0, 1⟩, 0⟩ else ⟨⟨fl (q.x * s), fl (q.y * s), fl (q.z * s)⟩, angle⟩

end Verif
