import Verif.Model.Blur
import Mathlib.Analysis.SpecialFunctions.Complex.Log
/-!
Model of the torch.fft calls used by /repo/ebsdtorch/ebsd/fitting.py and
/repo/ebsdtorch/utils/mutual_information.py: `rfft2`, `irfft2`, `fftshift`, in exact arithmetic.
-/
namespace Verif.Fft
open Verif.Blur

/-- `exp(2 pi i t)`. -/
noncomputable def cis (t : ℝ) : ℂ := Complex.exp (2 * Real.pi * t * Complex.I)

/-- A half spectrum: `rows` by `cols` complex numbers (what `rfft2` returns). -/
structure Half where
  rows : ℕ
  cols : ℕ
  at_ : ℕ → ℕ → ℂ

/-- `torch.fft.rfft2` (fitting.py:413, 484; mutual_information.py:407-408): the 2D discrete Fourier transform, columns
`0 .. w/2` only. -/
noncomputable def rfft2 (x : Img) : Half :=
  ⟨x.h, x.w / 2 + 1, fun u v => ∑ i ∈ Finset.range x.h, ∑ j ∈ Finset.range x.w,
    (x.px i j : ℂ) * (cis (-((u : ℝ) * i / x.h)) * cis (-((v : ℝ) * j / x.w)))⟩

/-- Elementwise product of a spectrum with a conjugated one, `a * b.conj()` (fitting.py:413, 485;
mutual_information.py:408, 568-572).  `none`: shapes differ. -/
noncomputable def Half.mulConj (a b : Half) : Option Half :=
  if a.rows = b.rows ∧ a.cols = b.cols then
    some ⟨a.rows, a.cols, fun u v => a.at_ u v * (starRingEnd ℂ) (b.at_ u v)⟩ else none

/-- Weight of column `v` of an `n`-column half spectrum in the complex-to-real transform: the first and the last column
count once, the others stand for themselves and their mirror images. -/
def colWeight (n v : ℕ) : ℝ := if v = 0 ∨ v + 1 = n then 1 else 2

/-- `torch.fft.irfft2` without an explicit size (fitting.py:485; mutual_information.py:573): the output has
`2 * (cols - 1)` columns; imaginary parts that a real image cannot have are ignored.  `none`: an output of size zero
(torch raises). -/
noncomputable def irfft2 (f : Half) : Option Img :=
  let w := 2 * (f.cols - 1)
  if f.rows = 0 ∨ w = 0 then none
  else some ⟨f.rows, w, fun y x =>
    (∑ v ∈ Finset.range f.cols, colWeight f.cols v *
      ((∑ u ∈ Finset.range f.rows, f.at_ u v * cis ((u : ℝ) * y / f.rows)) * cis ((v : ℝ) * x / w)).re)
      / ((f.rows : ℝ) * w)⟩

/-- `torch.fft.fftshift(dim=(-2, -1))` (fitting.py:485): a roll by half the size (rounded down) along both axes. -/
def fftshift2 (x : Img) : Img :=
  ⟨x.h, x.w, fun i j => x.px ((i + (x.h - x.h / 2)) % x.h) ((j + (x.w - x.w / 2)) % x.w)⟩

/-- `fftshift(irfft2(rfft2(a) * rfft2(b).conj()))` (fitting.py:413, 484-485). -/
noncomputable def xcorr (a b : Img) : Option Img :=
  ((rfft2 a).mulConj (rfft2 b)).bind fun f => (irfft2 f).map fftshift2

end Verif.Fft
