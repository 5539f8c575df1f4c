import Verif.Model.S2Zone
import Verif.Model.MutualInfo
/-!
Model of `ori_color_laue`, /repo/ebsdtorch/s2_and_so3/laue_fz_ori.py:561-613.
-/
namespace Verif.Color
open Verif.S2

/-- `.byte()` of a float (laue_fz_ori.py:590, :613): truncation; `none` outside the range of `uint8`, where C leaves the
conversion undefined. -/
noncomputable def toByte (x : ℝ) : Option ℕ := if -1 < x ∧ x < 256 then some ⌊x⌋₊ else none

/-- laue_fz_ori.py:577-579: the hue, `fmod((theta * 2 + 0.5) / (2 pi), 1)`. -/
noncomputable def hueOf (theta : ℝ) : ℝ :=
  let x := (theta * 2 + 0.5) / (2 * Real.pi)
  x - MI.trunc x

/-- laue_fz_ori.py:581-611 for one row: hue, saturation, lightness to the float channels. -/
noncomputable def channels (h s l : ℝ) : ℝ × ℝ × ℝ :=
  let l2 := l * 2
  let s2 := s * (if l2 ≤ 1 then l2 else 2 - l2)
  let val := (l2 + s2) / 2
  let h6 : ℝ := (⌊h * 6⌋ : ℤ)
  let byte := toByte h6
  let f := h * 6 - h6
  let p := val * (1 - s2)
  let q := val * (1 - s2 * f)
  let t := val * (1 - s2 * (1 - f))
  if byte = some 0 then (val, t, p)
  else if byte = some 1 then (q, val, p)
  else if byte = some 2 then (p, val, t)
  else if byte = some 3 then (p, q, val)
  else if byte = some 4 then (t, p, val)
  else if byte = some 5 then (val, p, q)
  else (0, 0, 0)

/-- laue_fz_ori.py:576-613 for one direction of the sector: the three stored bytes. -/
noncomputable def colorOf (d : V) : Option ℕ × Option ℕ × Option ℕ :=
  let tp := xyzToThetaPhi d
  let c := channels (hueOf tp.1) 1 tp.2
  (toByte (c.1 * 255), toByte (c.2.1 * 255), toByte (c.2.2 * 255))

/-- laue_fz_ori.py:561-613 `ori_color_laue` on a batch of shape `(N, 4)`; `none`: `s2_to_fz_laue` raises.  `eps` is the
tolerance of `s2_in_fz_laue`. -/
noncomputable def oriColor (eps : ℝ) (qs : List Q) (ref : V) (id : ℤ) : Option (List (Option ℕ × Option ℕ × Option ℕ)) :=
  (s2ToFz eps id (qs.map fun q => quApply q ref)).map fun ds => ds.map colorOf

end Verif.Color
