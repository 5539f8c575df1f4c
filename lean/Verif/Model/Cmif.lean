import Verif.Model.Fft
import Verif.Model.MutualInfo
/-!
Model of `cmif` in /repo/ebsdtorch/utils/mutual_information.py:303-675 (cross mutual information of image stacks by FFT), in
exact arithmetic.  The whole result of a call is an `Option`: `none` stands for a raised exception.  Entries of the maps are
`Option ℝ`: `none` stands for NaN or an infinity.
-/
namespace Verif.Cmif
open Verif.Blur Verif.Fft Verif.MI

/-- A map of `h` by `w` entries. -/
structure OMap where
  h : ℕ
  w : ℕ
  at_ : ℕ → ℕ → Option ℝ

/-- `.byte()` (mutual_information.py:375, 383).  Simplification: the conversion of values outside `[0, 256)`, which C++
leaves undefined, is taken to wrap around. -/
noncomputable def byteOf (x : ℝ) : ℤ := trunc x % 256

/-- mutual_information.py:375-389: the indicator image of level `i`. -/
noncomputable def level (bins : ℕ) (img : Img) (i : ℕ) : Img :=
  ⟨img.h, img.w, fun r c => open Classical in if byteOf (bins * img.px r c) = (i : ℤ) then 1 else 0⟩

/-- mutual_information.py:393, 398: `torch.ones_like`. -/
def ones (img : Img) : Img := ⟨img.h, img.w, fun _ _ => 1⟩

/-- mutual_information.py:403-404: slice 0 is the indicator of the foreground, slice `i + 1` that of level `i`. -/
noncomputable def stack (ind : Img) (bins : ℕ) (img : Img) (i : ℕ) : Img :=
  if i = 0 then ind else level bins img (i - 1)

/-- One entry of `fftshift(irfft2(a * b.conj()))` (mutual_information.py:447-454, 489-490, 568-573, 598-603). -/
noncomputable def corrAt (a b : Img) (y x : ℕ) : ℝ := ((xcorr a b).map fun c => c.px y x).getD 0

/-- mutual_information.py:492, 503, 576, 606: occupancies below one are set to zero. -/
noncomputable def thresh (v : ℝ) : ℝ := open Classical in if v < 1 then 0 else v

/-- `torch.where(p > 0, p * log(p), 0)` (mutual_information.py:461-470 and alike).  When a histogram is empty the code
computes `0 / 0 = NaN`, which this test maps to 0, as division by zero does here. -/
noncomputable def pl (p : ℝ) : ℝ := plogp false p

/-- Entropy of a histogram of `n` entries after division by its sum (mutual_information.py:457-474, 612-641). -/
noncomputable def entOf (n : ℕ) (f : ℕ → ℝ) : ℝ :=
  -∑ i ∈ Finset.range n, pl (f i / ∑ k ∈ Finset.range n, f k)

/-- mutual_information.py:593-641, at most 8 bins: the variables (ent_src, ent_dst, ent_joint) for one pair of images at one
place. `D`, `S` are the stacks of slices of the destination and the source image. -/
noncomputable def entSmall (nd ns : ℕ) (D S : ℕ → Img) (y x : ℕ) : ℝ × ℝ × ℝ :=
  let t : ℕ → ℕ → ℝ := fun i j => thresh (corrAt (D i) (S j) y x)
  let total := ∑ i ∈ Finset.range nd, ∑ j ∈ Finset.range ns, t (i + 1) (j + 1)
  (entOf nd fun i => t (i + 1) 0, entOf ns fun j => t 0 (j + 1),
    -∑ i ∈ Finset.range nd, ∑ j ∈ Finset.range ns, pl (t (i + 1) (j + 1) / total))

/-- mutual_information.py:446-474, more than 8 bins: (ent_src, ent_dst). -/
noncomputable def entMarg (nd ns : ℕ) (D S : ℕ → Img) (y x : ℕ) : ℝ × ℝ :=
  (entOf ns fun j => corrAt (D 0) (S (j + 1)) y x, entOf nd fun i => corrAt (D (i + 1)) (S 0) y x)

/-- mutual_information.py:484-488, 495-499: the slices visited by `for i in range(1, bins, chunk_size)` with the slice
`i : i + chunk_size` of a stack of `bins + 1`. -/
def visited (bins chunk : ℕ) : List ℕ :=
  ((List.range ((bins - 1 + chunk - 1) / chunk)).map fun k => 1 + k * chunk).flatMap fun i =>
    ((List.range chunk).map fun r => i + r).filter fun l => l ≤ bins

/-- mutual_information.py:477-511: ent_joint, accumulated over the chunks. -/
noncomputable def entJoint (nd ns chunk : ℕ) (D S : ℕ → Img) (y x : ℕ) : ℝ :=
  let t : ℕ → ℕ → ℝ := fun i j => thresh (corrAt (D i) (S j) y x)
  let tally := ((visited nd chunk).map fun i => ((visited ns chunk).map fun j => t i j).sum).sum
  0 - ((visited nd chunk).map fun i => ((visited ns chunk).map fun j => pl (t i j / tally)).sum).sum

/-- mutual_information.py:516-517, 532-543: the bins of all pixels and their counts; `none` when an index is out of range
(`scatter_` raises). -/
noncomputable def constHist (n : ℕ) (img : Img) : Option (ℕ → ℕ) :=
  scatterCount n ((List.range img.h).flatMap fun r => (List.range img.w).map fun c => trunc (n * img.px r c * 0.99999))

/-- mutual_information.py:546-563, constant marginals: the entropy of one image. -/
noncomputable def entConst (n : ℕ) (img : Img) : Option ℝ :=
  (constHist n img).map fun h => entOf n fun k => (h k : ℝ)

/-- mutual_information.py:643-674: mutual information from the three entropies, negative values replaced by 0, and its
normalisation.  A zero denominator gives NaN or an infinity: `none`. -/
noncomputable def finish (m : Norm) (es ed ej : ℝ) : Option ℝ :=
  let mi0 := ed + es - ej
  let mi := open Classical in if mi0 < 0 then 0 else mi0
  let over := fun (num d : ℝ) => if d = 0 then Option.none else some (num / d)
  match m with
  | .none => some mi
  | .kvalsethSum => over (2 * mi) (es + ed)
  | .kvalsethMin => over mi (min es ed)
  | .kvalsethMax => over mi (max es ed)
  | .yao => over mi ej
  | .strehlGhosh => over mi (Real.sqrt (es * ed))
  | .logarithmic =>
    open Classical in
    over mi (if |es - ed| < 1e-6 then ed else (es - ed) / (Real.log es - Real.log ed))

/-- The arguments of `cmif` besides the images and the masks (mutual_information.py:308-312). -/
structure Args where
  binsDst : ℕ
  binsSrc : ℕ
  chunk : ℕ
  constantMarginal : Bool
  norm : Norm

/-- Stacks of slices of a list of images with optional masks (mutual_information.py:391-404). -/
noncomputable def slices (bins : ℕ) (imgs : List Img) (ind : Option (List Img)) (b : ℕ) : ℕ → Img :=
  let img := imgs.getD b ⟨0, 0, fun _ _ => 0⟩
  stack ((ind.map fun l => l.getD b ⟨0, 0, fun _ _ => 0⟩).getD (ones img)) bins img

/-- The shapes `cmif` accepts: all images (and masks) `h` by `w` (mutual_information.py:350-355; others raise), one mask per
image, and a size that `irfft2` accepts.  Simplifications: empty stacks and bin counts outside `1 .. 256` are excluded. -/
def shapesOk (a : Args) (h w : ℕ) (dst src : List Img) (dInd sInd : Option (List Img)) : Prop :=
  (∀ i ∈ dst ++ src ++ dInd.getD [] ++ sInd.getD [], i.h = h ∧ i.w = w) ∧
  (∀ l ∈ dInd, l.length = dst.length) ∧ (∀ l ∈ sInd, l.length = src.length) ∧
  0 < h ∧ 2 ≤ w ∧ dst ≠ [] ∧ src ≠ [] ∧ 0 < a.binsDst ∧ a.binsDst ≤ 256 ∧ 0 < a.binsSrc ∧ a.binsSrc ≤ 256

/-- mutual_information.py:512-674 with `constant_marginal=False` and at most 8 bins: entry `[b][c]` of the result. The maps
have `2 * (w / 2)` columns, as `irfft2` returns them. -/
noncomputable def smallEntry (a : Args) (h w : ℕ) (D S : ℕ → Img) : OMap :=
  ⟨h, 2 * (w / 2), fun y x =>
    let e := entSmall a.binsDst a.binsSrc D S y x
    finish a.norm e.1 e.2.1 e.2.2⟩

/-- mutual_information.py:446-511, 643-674, more than 8 bins: the result has the shape obtained by adding the marginal
entropies of shape `(B, h, w)` to the joint entropies of shape `(Bd, Bs, h, w)`: the batch axis of the marginals meets the
source axis.  The joint entropies are added into tensors of `w` columns, which raises for odd `w`. -/
noncomputable def bigResult (a : Args) (h w : ℕ) (D S : ℕ → ℕ → Img) (nd ns : ℕ) : Option (List (List OMap)) :=
  if w % 2 = 0 ∧ 0 < a.chunk ∧ (nd = ns ∨ nd = 1 ∨ ns = 1) then
    some ((List.range nd).map fun b => (List.range (max nd ns)).map fun c =>
      ⟨h, w, fun y x =>
        let e := entMarg a.binsDst a.binsSrc (D (if nd = 1 then 0 else c)) (S (if ns = 1 then 0 else c)) y x
        let ej := entJoint a.binsDst a.binsSrc a.chunk (D b) (S (if ns = 1 then 0 else c)) y x
        finish a.norm e.1 e.2 ej⟩)
  else none

/-- mutual_information.py:513-591, 643-674, at most 8 bins, constant marginals.  Simplification: normalisation modes other
than "none" and "Yao" divide by vectors of length `Bs`, `Bd`; with more than one image these raise or meet the
column axis, and are excluded. -/
noncomputable def constResult (a : Args) (h w : ℕ) (dst src : List Img) (D S : ℕ → ℕ → Img) :
    Option (List (List OMap)) :=
  open Classical in
  if (∀ i ∈ dst, (entConst a.binsDst i).isSome) ∧ (∀ i ∈ src, (entConst a.binsSrc i).isSome) ∧
      (a.norm = .none ∨ a.norm = .yao ∨ (dst.length = 1 ∧ src.length = 1)) then
    some ((List.range dst.length).map fun b => (List.range src.length).map fun c =>
      ⟨h, 2 * (w / 2), fun y x =>
        finish a.norm ((entConst a.binsSrc (src.getD c ⟨0, 0, fun _ _ => 0⟩)).getD 0)
          ((entConst a.binsDst (dst.getD b ⟨0, 0, fun _ _ => 0⟩)).getD 0)
          (entSmall a.binsDst a.binsSrc (D b) (S c) y x).2.2⟩)
  else none

/-- mutual_information.py:303-675 `cmif`: entry `[b][c]` is the map for destination image `b` and source image `c`.  With more
than 8 bins and constant marginals the code always raises: it indexes with the float mask (`dst_discrete[src_ind]`,
lines 418-423), and `ent_dst[:, None, None, None]` (line 645) indexes a scalar. -/
noncomputable def cmif (a : Args) (dst src : List Img) (dInd sInd : Option (List Img)) : Option (List (List OMap)) :=
  let h := (src.getD 0 ⟨0, 0, fun _ _ => 0⟩).h
  let w := (src.getD 0 ⟨0, 0, fun _ _ => 0⟩).w
  let D := slices a.binsDst dst dInd
  let S := slices a.binsSrc src sInd
  open Classical in
  if shapesOk a h w dst src dInd sInd then
    if 8 < a.binsSrc ∨ 8 < a.binsDst then
      if a.constantMarginal then none else bigResult a h w D S dst.length src.length
    else if a.constantMarginal then constResult a h w dst src D S
    else some ((List.range dst.length).map fun b => (List.range src.length).map fun c => smallEntry a h w (D b) (S c))
  else none

end Verif.Cmif
