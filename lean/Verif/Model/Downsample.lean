import Verif.Model.Blur
/-!
Model of /repo/ebsdtorch/preprocessing/resampling.py `BlurAndDownsample`, for one image of shape (1, 1, H, W).
`F.interpolate` is modelled by torch's documented formulas (bicubic with A = -0.75, clamped taps).
-/
namespace Verif.Blur

/-- torch `cubic_convolution1` with A = -3/4 (used by `F.interpolate`, called at resampling.py:114-119). -/
noncomputable def cubic1 (x : ℝ) : ℝ := ((-3 / 4 + 2) * x - (-3 / 4 + 3)) * x * x + 1

/-- torch `cubic_convolution2` with A = -3/4 (used by `F.interpolate`, called at resampling.py:114-119). -/
noncomputable def cubic2 (x : ℝ) : ℝ := ((-3 / 4 * x - 5 * (-3 / 4)) * x + 8 * (-3 / 4)) * x - 4 * (-3 / 4)

/-- torch `area_pixel_compute_source_index` when `size` is given (resampling.py:114-119): the scale is the ratio of the
sizes, or of the sizes less one with `align_corners` (0 for a single output). -/
noncomputable def srcCoord (align : Bool) (n out i : ℕ) : ℝ :=
  if align then (if 1 < out then ((n : ℝ) - 1) / ((out : ℝ) - 1) else 0) * i
  else (n : ℝ) / out * (i + 1 / 2) - 1 / 2

/-- clamping of a tap position into the image -/
def clampIdx (n : ℕ) (p : ℤ) : ℕ := (min (max p 0) ((n : ℤ) - 1)).toNat

/-- weights of `F.interpolate(mode="bicubic")` along one axis (resampling.py:114-119): four (position, weight) pairs. -/
noncomputable def bicubicTaps (align : Bool) (n out i : ℕ) : List (ℕ × ℝ) :=
  let src := srcCoord align n out i
  let f := ⌊src⌋
  let t := src - f
  [(clampIdx n (f - 1), cubic2 (t + 1)), (clampIdx n f, cubic1 t), (clampIdx n (f + 1), cubic1 (1 - t)),
    (clampIdx n (f + 2), cubic2 (2 - t))]

/-- weights of `F.interpolate(mode="bilinear")` along one axis: the source position is clamped at 0 from below and the
second tap at the last entry (resampling.py:114-119). -/
noncomputable def bilinearTaps (align : Bool) (n out i : ℕ) : List (ℕ × ℝ) :=
  let src := max (srcCoord align n out i) 0
  let f := ⌊src⌋
  let t := src - f
  [(clampIdx n f, 1 - t), (clampIdx n (f + 1), t)]

/-- one output value from the taps of its row and of its column -/
noncomputable def applyTaps (ty tx : List (ℕ × ℝ)) (px : ℕ → ℕ → ℝ) : ℝ :=
  (ty.map fun a : ℕ × ℝ => (tx.map fun b : ℕ × ℝ => a.2 * b.2 * px a.1 b.1).sum).sum

/-- resampling.py:114-119 `F.interpolate(x, size=(oh, ow), mode=mode, align_corners=align)`: an empty output raises, and
so does every mode other than `bilinear` and `bicubic`, because `align_corners` is a bool (`nearest`, `nearest-exact`,
`area` accept only None) or the input has four axes (`linear`, `trilinear`). -/
noncomputable def interpolate (mode : String) (align : Bool) (oh ow : ℕ) (x : Img) : Option Img :=
  if oh = 0 ∨ ow = 0 ∨ x.h = 0 ∨ x.w = 0 then none
  else if mode = "bicubic" then
    some ⟨oh, ow, fun i j => applyTaps (bicubicTaps align x.h oh i) (bicubicTaps align x.w ow j) x.px⟩
  else if mode = "bilinear" then
    some ⟨oh, ow, fun i j => applyTaps (bilinearTaps align x.h oh i) (bilinearTaps align x.w ow j) x.px⟩
  else none

/-- resampling.py:117 `int(H * self.downscale)` with `downscale = 1.0 / scale_factor` (line 106). -/
noncomputable def outLen (scale : ℝ) (n : ℕ) : ℕ := ⌊(n : ℝ) * (1 / scale)⌋.toNat

/-- resampling.py:89-119 `BlurAndDownsample`: `GaussianBlur2d(sigma = 2 scale / 6)` with its defaults (cut-off 3, reflect),
then `F.interpolate`. -/
noncomputable def blurAndDownsample (scale : ℝ) (mode : String) (align : Bool) (x : Img) : Option Img :=
  (blur (2 * scale / 6) 3 true x).bind (interpolate mode align (outLen scale x.h) (outLen scale x.w))

end Verif.Blur
