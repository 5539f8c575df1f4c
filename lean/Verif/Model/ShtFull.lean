import Verif.Model.Sht
import Verif.Model.Wigner
import Verif.Model.Fft
/-!
Model of the spherical harmonic transforms of /repo/ebsdtorch/harmonics/sht.py (lines 30-573) and of the sparse weight
matrices they use (wigner_d_logspace.py:1042-1314).  Exact real arithmetic, unbounded integers; one batch element at a time
(the batch dimension only stacks independent rows).  A tensor is a function of its indices.
-/
namespace Verif.Sht
open Verif.Wigner Verif.Fft

/-! ### The weight matrices -/

/-- wigner_d_logspace.py:1065 and 1208: `max_index`. -/
def maxIndex (L : ℕ) : ℕ := (((L - 1) * L) / 2 * (L + 1)) / 3 + ((L - 1) * L) / 2 + L

/-- wigner_d_logspace.py:1071-1077 (and 1215-1221): the batches `arange(start, min(start + batch_size, max_index))` for `start` in
`range(0, max_index, batch_size)`. -/
def batches (mx bs : ℕ) : List (List ℕ) :=
  (List.range ((mx + bs - 1) / bs)).map fun b => (List.range (min (b * bs + bs) mx - b * bs)).map (b * bs + ·)

/-- A row `(l, m, n)` of the coordinate tensors. -/
abbrev Lmn := ℕ × ℤ × ℤ

/-- wigner_d_logspace.py:1078 (and 1222): `coords_from_index`. -/
noncomputable def lmkOf (is : List ℕ) : List Lmn :=
  is.map fun i => ((coordsFromIndex i).1, ((coordsFromIndex i).2.1 : ℤ), ((coordsFromIndex i).2.2 : ℤ))

/-- wigner_d_logspace.py:1080-1090 (and 1224-1234): the entries with `m != n` are repeated with `m` and `n` exchanged. -/
def lmkHalf (a : List Lmn) : List Lmn :=
  a ++ (a.filter fun e => e.2.1 ≠ e.2.2).map fun e => (e.1, e.2.2, e.2.1)

/-- wigner_d_logspace.py:1092-1099: the entries with `m != 0` are repeated with `m` negated. -/
def lmkFull (h : List Lmn) : List Lmn :=
  h ++ (h.filter fun e => e.2.1 ≠ 0).map fun e => (e.1, -e.2.1, e.2.2)

/-- wigner_d_logspace.py:1103-1126 (and 1238-1261): `term`. -/
noncomputable def wTerm (L : ℕ) (e : Lmn) : ℝ :=
  if e.2.1 % 2 = 0 then
    (if e.2.2 = 0 then Real.sqrt ((2 * L : ℕ) * (2 * (e.1 : ℝ) + 1) / 2.0) else Real.sqrt ((2 * L : ℕ) * (2 * (e.1 : ℝ) + 1)))
      * (if e.2.1 % 4 = 2 then -1 else 1)
  else if e.2.2 = e.1 then 0
  else Real.sqrt ((2 * L : ℕ) * (2 * (e.1 : ℝ) + 1)) * (if e.2.1 % 4 = 1 then -1 else 1)

/-- One read of the half-pi table with `swap_mn=True` (wigner_d_logspace.py:1136-1147, 1270-1281).  `none`: an `IndexError` or a read of
memory that was never written. -/
noncomputable def wRead (t : Table ℝ) (l : ℕ) (m n : ℤ) : Option ℝ :=
  (t (readHalfPi l m n true).1).map fun x => x * (readHalfPi l m n true).2

/-- wigner_d_logspace.py:1134-1148 (and 1268-1282): `wig_prod`; `torch.where` evaluates both branches. -/
noncomputable def wigProd (t : Table ℝ) (e : Lmn) : Option ℝ :=
  (wRead t e.1 e.2.2 (-e.2.1)).bind fun a => (wRead t e.1 e.2.2 0).bind fun b =>
  (wRead t e.1 (e.2.2 + 1) (-e.2.1)).bind fun c => (wRead t e.1 (e.2.2 + 1) 0).map fun d =>
    if e.2.1 % 2 = 0 then a * b else c * d

/-- wigner_d_logspace.py:1150 (and 1283): `coeff = term * wig_prod`. -/
noncomputable def coeff (L : ℕ) (t : Table ℝ) (e : Lmn) : Option ℝ := (wigProd t e).map fun w => wTerm L e * w

/-- wigner_d_logspace.py:1158-1169 (and 1291-1302): row index, column index, value, where the magnitude exceeds `1e-14`.
`off` is `L - 1` in the complex version and `0` in the real one. -/
noncomputable def triples (L off : ℕ) (vals : List (Lmn × ℝ)) : List (ℤ × ℤ × ℝ) :=
  open Classical in
  (vals.filter fun p => |p.2| > (1.0e-14 : ℝ)).map fun p =>
    ((p.1.2.1 + off) * L + p.1.1, (2 * L) * (p.1.2.1 + off) + p.1.2.2, p.2)

/-- `torch.sparse_coo_tensor(indices, values, [rows, cols])` as a dense matrix: duplicates are added; an index out of range
raises. -/
noncomputable def sparse (rows cols : ℕ) (es : List (ℤ × ℤ × ℝ)) : Option (ℕ → ℕ → ℝ) :=
  if ∀ e ∈ es, 0 ≤ e.1 ∧ e.1 < rows ∧ 0 ≤ e.2.1 ∧ e.2.1 < cols then
    some fun (i j : ℕ) => (es.map fun e => if e.1 = (i : ℤ) ∧ e.2.1 = (j : ℤ) then e.2.2 else 0).sum
  else none

/-- The common text of wigner_d_logspace.py:1061-1181 and 1204-1314; `expand` makes the coordinate list of a batch. -/
noncomputable def weights (L off rows bs : ℕ) (expand : List Lmn → List Lmn) : Option (ℕ → ℕ → ℝ) :=
  (wignerEq L).bind fun t =>
  ((batches (maxIndex L) bs).mapM fun is => (expand (lmkOf is)).mapM fun e => (coeff L t e).map fun v => (e, v)).bind fun vs =>
  sparse (L * rows) (2 * L * rows) (vs.flatMap (triples L off))

/-- wigner_d_logspace.py:1042-1181 `csht_weights_half_pi`. -/
noncomputable def cshtWeights (L : ℕ) (bs : ℕ := 10000000) : Option (ℕ → ℕ → ℝ) :=
  weights L (L - 1) (2 * L - 1) bs fun a => lmkFull (lmkHalf a)

/-- wigner_d_logspace.py:1184-1314 `rsht_weights_half_pi`. -/
noncomputable def rshtWeights (L : ℕ) (bs : ℕ := 10000000) : Option (ℕ → ℕ → ℝ) := weights L 0 L bs lmkHalf

/-! ### The discrete Legendre transform -/

/-- The buffers of a `DLT` or `RDLT` module. -/
structure Dlt where
  L : ℕ
  rows : ℕ
  Cm : ℕ → ℝ
  iCm : ℕ → ℝ
  cInd : List ℕ
  sInd : List ℕ
  D : ℕ → ℕ → ℝ

/-- `torch.arange(a, b, 2)`. -/
def arange2 (a b : ℕ) : List ℕ := (List.range ((b - a + 1) / 2)).map fun i => a + 2 * i

/-- sht.py:51-65 `normCm`. -/
noncomputable def normCm (L : ℕ) (i : ℕ) : ℝ := (-1) ^ ((i : ℤ) - (L - 1)) * (2.0 * Real.pi) ^ (0.5 : ℝ)

/-- sht.py:70-84 `rnormCm`. -/
noncomputable def rnormCm (i : ℕ) : ℝ := (-1) ^ (i : ℤ) * (2.0 * Real.pi) ^ (0.5 : ℝ)

/-- sht.py:222-257 `DLT.__init__`. -/
noncomputable def mkDlt (L : ℕ) : Option Dlt :=
  (cshtWeights L).map fun D =>
    ⟨L, 2 * L - 1, normCm L, fun i => 1 / normCm L i,
      if (L - 1) % 2 = 1 then arange2 1 (2 * L - 1) else arange2 0 (2 * L - 1),
      if (L - 1) % 2 = 1 then arange2 0 (2 * L - 1) else arange2 1 (2 * L - 1), D⟩

/-- sht.py:389-420 `RDLT.__init__`. -/
noncomputable def mkRdlt (L : ℕ) : Option Dlt :=
  (rshtWeights L).map fun D => ⟨L, L, rnormCm, fun i => 1 / rnormCm i, arange2 0 L, arange2 1 L, D⟩

/-- A `weightedDCST` layer on one row. -/
noncomputable def layer (L : ℕ) (t : Xform) (x : ℕ → ℝ) (n : ℕ) : ℝ :=
  if h : n < 2 * L then dcst L t (fun k => x k) ⟨n, h⟩ else 0

/-- `x[:, ind, :] = layer(x[:, ind, :])`. -/
noncomputable def onRows (ind : List ℕ) (f : (ℕ → ℝ) → ℕ → ℝ) (x : ℕ → ℕ → ℝ) : ℕ → ℕ → ℝ :=
  fun i => if i ∈ ind then f (x i) else x i

/-- sht.py:259-276 and 422-439 `fdlt`. -/
noncomputable def fdlt (d : Dlt) (psiHat : ℕ → ℕ → ℝ) : ℕ → ℕ → ℝ :=
  let y := fun i k => d.Cm i * psiHat i k
  let z := onRows d.sInd (layer d.L .s) (onRows d.cInd (layer d.L .c) y)
  fun i l => ∑ j ∈ Finset.range (2 * d.L * d.rows), z (j / (2 * d.L)) (j % (2 * d.L)) * d.D (i * d.L + l) j

/-- sht.py:278-292 and 441-455 `idlt`. -/
noncomputable def idlt (d : Dlt) (Psi : ℕ → ℕ → ℝ) : ℕ → ℕ → ℝ :=
  let y := fun i k => ∑ j ∈ Finset.range (d.L * d.rows), Psi (j / d.L) (j % d.L) * d.D j (i * (2 * d.L) + k)
  let z := onRows d.sInd (layer d.L .is) (onRows d.cInd (layer d.L .ic) y)
  fun i k => d.iCm i * z i k

/-! ### The transforms -/

/-- Real and imaginary part through `f` separately (`view_as_real`, `view_as_complex`: sht.py:327-341, 358-368, 488-503,
522-533). -/
noncomputable def onParts (f : (ℕ → ℕ → ℝ) → ℕ → ℕ → ℝ) (x : ℕ → ℕ → ℂ) : ℕ → ℕ → ℂ :=
  fun i k => ⟨f (fun i k => (x i k).re) i k, f (fun i k => (x i k).im) i k⟩

/-- `torch.fft.fft(dim=1, norm="forward")` of `N` rows. -/
noncomputable def fftRows (N : ℕ) (x : ℕ → ℕ → ℂ) : ℕ → ℕ → ℂ :=
  fun r k => (∑ j ∈ Finset.range N, x j k * cis (-((r : ℝ) * j / N))) / N

/-- `torch.fft.ifft(dim=1, norm="forward")` of `N` rows. -/
noncomputable def ifftRows (N : ℕ) (x : ℕ → ℕ → ℂ) : ℕ → ℕ → ℂ :=
  fun j k => ∑ r ∈ Finset.range N, x r k * cis ((r : ℝ) * j / N)

/-- `torch.fft.fftshift(dim=1)`: a roll by `N // 2`. -/
def shiftRows (N : ℕ) (x : ℕ → ℕ → ℂ) : ℕ → ℕ → ℂ := fun r k => x ((r + (N - N / 2)) % N) k

/-- `torch.fft.ifftshift(dim=1)`: a roll by `(N + 1) // 2`. -/
def unshiftRows (N : ℕ) (x : ℕ → ℕ → ℂ) : ℕ → ℕ → ℂ := fun r k => x ((r + N / 2) % N) k

/-- sht.py:302-341 `CSHT.fsht`. -/
noncomputable def cFsht (d : Dlt) (psi : ℕ → ℕ → ℂ) : ℕ → ℕ → ℂ :=
  onParts (fdlt d) fun i k => shiftRows (2 * d.L) (fftRows (2 * d.L) psi) (i + 1) k

/-- sht.py:343-385 `CSHT.isht`. -/
noncomputable def cIsht (d : Dlt) (Psi : ℕ → ℕ → ℂ) : ℕ → ℕ → ℂ :=
  let psiHat := onParts (idlt d) Psi
  ifftRows (2 * d.L) (unshiftRows (2 * d.L) fun i k => if i = 0 then 0 else psiHat (i - 1) k)

/-- sht.py:465-503 `RSHT.fsht` (`rfft` keeps the first `L + 1` rows, of which the first `L` are used). -/
noncomputable def rFsht (d : Dlt) (psi : ℕ → ℕ → ℝ) : ℕ → ℕ → ℂ :=
  onParts (fdlt d) fun i k => fftRows (2 * d.L) (fun j k => (psi j k : ℂ)) i k

/-- `torch.fft.irfft(dim=1, norm="forward")` of `n` rows without an explicit size: `2 (n - 1)` real rows; the first and the
last row count once, and only what a real signal can have is used of them. -/
noncomputable def irfftRows (n : ℕ) (x : ℕ → ℕ → ℂ) : ℕ → ℕ → ℝ :=
  fun j k => ∑ v ∈ Finset.range n, colWeight n v * (x v k * cis ((v : ℝ) * j / (2 * (n - 1) : ℕ))).re

/-- sht.py:505-548 `RSHT.isht`: a zero row is appended before `irfft`. -/
noncomputable def rIsht (d : Dlt) (Psi : ℕ → ℕ → ℂ) : ℕ → ℕ → ℝ :=
  let psiHat := onParts (idlt d) Psi
  irfftRows (d.L + 1) fun i k => if i < d.L then psiHat i k else 0

/-- sht.py:30-47 `grid_DriscollHealy`: the pair (`theta`: azimuth, `phi`: colatitude) of grid point `(j, k)`. -/
noncomputable def gridDH (B j k : ℕ) : ℝ × ℝ :=
  (Real.pi * (2 * j) / (2 * B), Real.pi * (2 * k + 1) / (4 * B))

/-- sht.py:552-573 `theta_phi_to_xyz`. -/
noncomputable def thetaPhiToXyz (p : ℝ × ℝ) : ℝ × ℝ × ℝ :=
  (Real.cos p.1 * Real.sin p.2, Real.sin p.1 * Real.sin p.2, Real.cos p.2)

end Verif.Sht
