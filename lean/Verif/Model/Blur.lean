import Mathlib.Analysis.SpecialFunctions.Exp
import Mathlib.Algebra.BigOperators.Group.Finset.Basic
import Mathlib.Algebra.Order.Floor.Ring
import Mathlib.Data.Real.Archimedean
/-!
Model of /repo/ebsdtorch/preprocessing/resampling.py `GaussianBlur2d`, for one image of shape (1, 1, H, W)
(the batch axis is mapped over; `conv2d` with this kernel accepts one channel only).
-/
namespace Verif.Blur

/-- A grey-level image of `h` rows and `w` columns; entries outside are irrelevant. -/
structure Img where
  h : ℕ
  w : ℕ
  px : ℕ → ℕ → ℝ

/-- resampling.py:54-57: `2 * z_score_cutoff * sigma + 1`, plus one when that is an even number. -/
noncomputable def kernelSize (sigma : ℝ) (cutoff : ℤ) : ℝ :=
  let k := 2 * (cutoff : ℝ) * sigma + 1
  open Classical in if ∃ m : ℤ, k = 2 * m then k + 1 else k

/-- resampling.py:59-65: `torch.arange(-k // 2 + 1, k // 2 + 1)`; Python's `//` floors and unary minus binds
tighter, so `-k // 2` is `⌊-k/2⌋`. -/
noncomputable def coords (k : ℝ) : List ℤ :=
  let start := ⌊-k / 2⌋ + 1
  let stop := ⌊k / 2⌋ + 1
  (List.range (stop - start).toNat).map fun i : ℕ => start + (i : ℤ)

/-- resampling.py:66-69: the unnormalised kernel entry. -/
noncomputable def gauss (sigma : ℝ) (xx yy : ℤ) : ℝ :=
  Real.exp (-((xx : ℝ) ^ 2 + (yy : ℝ) ^ 2) / (2 * sigma ^ 2))

/-- resampling.py:53-71 `_get_gaussian_kernel` (indexing="ij": the first index is `xx`). -/
noncomputable def kernel (sigma : ℝ) (cutoff : ℤ) : Img :=
  let x := coords (kernelSize sigma cutoff)
  let n := x.length
  let raw := fun a b => gauss sigma (x.getD a 0) (x.getD b 0)
  let total := ∑ a ∈ Finset.range n, ∑ b ∈ Finset.range n, raw a b
  ⟨n, n, fun a b => raw a b / total⟩

/-- resampling.py:73-82 `_compute_padding`: (left, right, top, bottom). -/
def padding (k : ℕ) (x : Img) : ℕ × ℕ × ℕ × ℕ :=
  (k / 2, k / 2 + (if x.w % 2 = 0 then 1 else 0), k / 2, k / 2 + (if x.h % 2 = 0 then 1 else 0))

/-- `F.pad(mode="reflect")` along one axis of length `n` with `l` entries in front: the source index. -/
def reflectIdx (n l p : ℕ) : ℕ :=
  if p < l then l - p else if p - l < n then p - l else 2 * (n - 1) - (p - l)

/-- resampling.py:32-37 `F.pad`: `reflect` raises when a pad width reaches the image size. -/
def pad (reflect : Bool) (p : ℕ × ℕ × ℕ × ℕ) (x : Img) : Option Img :=
  let (l, r, t, b) := p
  if reflect then
    if l < x.w ∧ r < x.w ∧ t < x.h ∧ b < x.h then
      some ⟨t + x.h + b, l + x.w + r, fun i j => x.px (reflectIdx x.h t i) (reflectIdx x.w l j)⟩
    else none
  else
    some ⟨t + x.h + b, l + x.w + r, fun i j =>
      if t ≤ i ∧ i - t < x.h ∧ l ≤ j ∧ j - l < x.w then x.px (i - t) (j - l) else 0⟩

/-- resampling.py:40 `F.conv2d(x, kernel, padding=0)` (cross-correlation); raises when the kernel does not fit. -/
noncomputable def conv2d (k x : Img) : Option Img :=
  if k.h ≤ x.h ∧ k.w ≤ x.w then
    some ⟨x.h - k.h + 1, x.w - k.w + 1, fun i j =>
      ∑ a ∈ Finset.range k.h, ∑ b ∈ Finset.range k.w, k.px a b * x.px (i + a) (j + b)⟩
  else none

/-- resampling.py:42-50: drop the last two rows (columns) if their number is even, else the last one. -/
def crop (x : Img) : Img :=
  ⟨x.h - (if x.h % 2 = 0 then 2 else 1), x.w - (if x.w % 2 = 0 then 2 else 1), x.px⟩

/-- resampling.py:31-51 `GaussianBlur2d.forward`. -/
noncomputable def blur (sigma : ℝ) (cutoff : ℤ) (reflect : Bool) (x : Img) : Option Img :=
  let k := kernel sigma cutoff
  ((pad reflect (padding k.w x) x).bind (conv2d k)).map crop

end Verif.Blur
