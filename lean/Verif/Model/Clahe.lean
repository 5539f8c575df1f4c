import Verif.Model.Blur
import Verif.Model.MutualInfo
/-!
Model of /repo/ebsdtorch/preprocessing/clahe.py `clahe_grayscale`, for one image (the batch axes are flattened and mapped
over, lines 40-42 and 128-130).
-/
namespace Verif.Clahe
open Verif.Blur Verif.MI

/-- clahe.py:46-47 `math.ceil(img / grid)`. -/
def tileSize (img grid : ℕ) : ℕ := (img + grid - 1) / grid

/-- clahe.py:50-51. -/
def padSize (img grid : ℕ) : ℕ := if img % grid ≠ 0 then grid - img % grid else 0

/-- clahe.py:60-65: `unfold` with stride equal to the kernel size, tiles in row-major order: the pixels of tile `(ti, tj)`. -/
def tilePixels (p : Img) (ht wt ti tj : ℕ) : List ℝ :=
  (List.range ht).flatMap fun a => (List.range wt).map fun b => p.px (ti * ht + a) (tj * wt + b)

/-- clahe.py:70: `(tiles * (n_bins - 1)).to(torch.int64)`. -/
noncomputable def discrete (n : ℕ) (px : List ℝ) : List ℤ := px.map fun v : ℝ => trunc (v * ((n : ℝ) - 1))

/-- clahe.py:82: `max(clip_limit * voxels_per_tile // n_bins, 1)`. -/
noncomputable def limitOf (clip : ℝ) (vpt n : ℕ) : ℤ := max ⌊clip * vpt / n⌋ 1

/-- clahe.py:77-94: from the counts of one tile to the clipped and redistributed histogram.
Simplification: counts are integers here (the code stores them as float32 after dividing and multiplying by their sum). -/
noncomputable def clipHist (clip : ℝ) (vpt n : ℕ) (counts : ℕ → ℤ) : ℕ → ℤ :=
  open Classical in
  if 0 < clip then
    let h1 := fun k => min (counts k) (limitOf clip vpt n)
    let clipped := (vpt : ℤ) - ∑ k ∈ Finset.range n, h1 k
    let residual := clipped % (n : ℤ)
    let redist := (clipped - residual) / (n : ℤ)
    fun k => h1 k + redist + if (k : ℤ) < residual then 1 else 0
  else counts

/-- clahe.py:96-97: `cumsum / voxels_per_tile` clamped to `[0, 1]`. -/
noncomputable def cdf (vpt : ℕ) (h : ℕ → ℤ) : ℕ → ℝ := fun k =>
  min (max (((∑ l ∈ Finset.range (k + 1), h l : ℤ) : ℝ) / vpt) 0) 1

/-- clahe.py:52-97: look-up table of each tile; `none` if a grey level falls outside the bins (`scatter_` raises). -/
noncomputable def luts (p : Img) (clip : ℝ) (n hg wg ht wt : ℕ) : Option (ℕ → ℕ → ℕ → ℝ) :=
  open Classical in
  let vpt := ht * wt
  if ∀ ti < hg, ∀ tj < wg, ∀ k ∈ discrete n (tilePixels p ht wt ti tj), 0 ≤ k ∧ k < n then
    some fun ti tj => cdf vpt (clipHist clip vpt n fun k : ℕ => ((discrete n (tilePixels p ht wt ti tj)).count (k : ℤ) : ℤ))
  else none

/-- `torch.linspace(-1, 1, n)[i]` (clahe.py:106-107). -/
noncomputable def lin (n i : ℕ) : ℝ := if n ≤ 1 then -1 else -1 + 2 * (i : ℝ) / ((n : ℝ) - 1)

/-- `grid_sample(align_corners=False, padding_mode="border")`: a coordinate in `[-1, 1]` to a clipped position. -/
noncomputable def unnorm (size : ℕ) (c : ℝ) : ℝ := min (max (((c + 1) * size - 1) / 2) 0) ((size : ℝ) - 1)

/-- linear interpolation of `f` (defined on `0 .. size-1`) at position `t ≥ 0`; the upper neighbour is skipped if outside. -/
noncomputable def lerp (size : ℕ) (f : ℕ → ℝ) (t : ℝ) : ℝ :=
  let i := ⌊t⌋.toNat
  let w := t - (⌊t⌋ : ℝ)
  (1 - w) * f i + w * (if i + 1 < size then f (i + 1) else 0)

/-- clahe.py:112-130: trilinear look-up of grey level `v` at pixel `(i, j)`; the axes of `cdfs` are (grid row, grid column,
bin) and the grid holds (bin, column, row) coordinates. -/
noncomputable def lookup (lut : ℕ → ℕ → ℕ → ℝ) (n hg wg h w : ℕ) (i j : ℕ) (v : ℝ) : ℝ :=
  lerp hg (fun ti => lerp wg (fun tj => lerp n (lut ti tj) (unnorm n (v * 2 - 1))) (unnorm wg (lin w j))) (unnorm hg (lin h i))

/-- clahe.py:18-130 `clahe_grayscale`, one image. -/
noncomputable def clahe (x : Img) (clip : ℝ) (n hg wg : ℕ) : Option Img :=
  if 0 < hg ∧ 0 < wg ∧ 0 < n then
    (pad true (0, padSize x.w wg, 0, padSize x.h hg) x).bind fun p =>
      (luts p clip n hg wg (tileSize x.h hg) (tileSize x.w wg)).map fun lut =>
        ⟨x.h, x.w, fun i j => lookup lut n hg wg x.h x.w i j (x.px i j)⟩
  else none

end Verif.Clahe
