import Verif.Model.Fft
import Verif.Model.Geometry
import Verif.Model.Fz
import Verif.Model.Indexing
import Verif.Model.MutualInfo
/-!
Model of /repo/ebsdtorch/ebsd/fitting.py: the pattern-centre search `spatial_fft_pc_fitter` with `metric="dot"`.
The master pattern (already binned and interpolated bilinearly) is an arbitrary function of the direction, the sampled
dictionary (`sample_ori_fz_laue_angle`) an arbitrary list of quaternions.  `none` = an exception, or NaN in the patterns.
-/
namespace Verif.Fit
open Verif.Blur Verif.Fft

/-- The arguments of the search that are not the patterns (fitting.py:359-375). -/
structure Args where
  master : V → ℝ
  dict : List Q
  rows : ℕ
  cols : ℕ
  pcxMin : ℝ
  pcxMax : ℝ
  pcyMin : ℝ
  pcyMax : ℝ
  pczMin : ℝ
  pczMax : ℝ
  zSteps : ℕ
  primary : ℝ
  secondary : ℝ
  batch : ℕ
  binning : ℕ

/-- fitting.py:248-251, one axis of `n` pixels: entries put before and after.  Simplification: a range that does not
contain 0.5 gives a negative width (cropping); it is cut at 0 here. -/
noncomputable def padWidths (lo hi : ℝ) (n b : ℕ) : ℕ × ℕ :=
  ((MI.trunc ((0.5 - lo) * n / b)).toNat, (MI.trunc ((hi - 0.5) * n / b)).toNat)

/-- fitting.py:248-251: (w_pad_prior, w_pad_after, h_pad_prior, h_pad_after). -/
noncomputable def Args.pads (g : Args) : ℕ × ℕ × ℕ × ℕ :=
  let w := padWidths g.pcxMin g.pcxMax g.cols g.binning
  let h := padWidths g.pcyMin g.pcyMax g.rows g.binning
  (w.1, w.2, h.1, h.2)

/-- fitting.py:253-256: one axis of the padded shape. -/
def paddedSize (n b p a : ℕ) : ℕ := n / b + p + a

/-- fitting.py:258-277, one axis: entry `i` of `torch.linspace(0.5*(b-1) - p, n + a - 0.5*(b-1), n//b + p + a)`. -/
noncomputable def axisPeriphery (n b p a : ℕ) (i : ℕ) : ℝ :=
  (linspace (0.5 * ((b : ℝ) - 1) - p) ((n : ℝ) + a - 0.5 * ((b : ℝ) - 1)) (paddedSize n b p a)).getD i 0

/-- Division by the Euclidean norm (fitting.py:348-350); the zero vector, NaN in the code, stays zero. -/
noncomputable def unit (v : V) : V := V.smul (1 / Real.sqrt (v.x ^ 2 + v.y ^ 2 + v.z ^ 2)) v

/-- fitting.py:342-350: the direction, in the sample frame, of the detector point `(r, c)`. -/
noncomputable def direction (R : M3) (t : V) (r c : ℝ) : V := unit (V.add (mulV R ⟨r, c, 0⟩) t)

/-- fitting.py:466-481: the simulated pattern for orientation `q` on the padded detector, with the pattern centre
`(0.5, 0.5, pcz)`.  `bruker_geometries_to_SE3` (fitting.py:54-117) has the formulas of geometry.py:32-92. -/
noncomputable def Args.sim (g : Args) (pcz : ℝ) (q : Q) : Img :=
  let (wl, wr, ht, hb) := g.pads
  let R := brukerRot (-1 * g.primary) g.secondary
  let t := brukerTrans ⟨0.5, 0.5, pcz⟩ (-1 * g.primary) g.secondary g.rows g.cols
  ⟨paddedSize g.rows g.binning ht hb, paddedSize g.cols g.binning wl wr, fun i j =>
    g.master (quApply q (direction R t (axisPeriphery g.rows g.binning ht hb i) (axisPeriphery g.cols g.binning wl wr j)))⟩

/-- fitting.py:386-391 `avg_pool2d` with stride = kernel = `b`. -/
noncomputable def avgPool (b : ℕ) (x : Img) : Img :=
  ⟨x.h / b, x.w / b, fun i j =>
    (∑ k ∈ Finset.range b, ∑ l ∈ Finset.range b, x.px (b * i + k) (b * j + l)) / ((b : ℝ) * b)⟩

/-- The pixels row by row (`patterns.view(B, -1)`). -/
def pixels (x : Img) : List ℝ := (List.range x.h).flatMap fun i => (List.range x.w).map fun j => x.px i j

/-- Apply a function to every pixel. -/
def mapImg (f : ℝ → ℝ) (x : Img) : Img := ⟨x.h, x.w, fun i j => f (x.px i j)⟩

/-- fitting.py:393-394: subtract the minimum, divide by the maximum of the result.  `none`: an empty pattern raises, a
constant one gives `0/0`. -/
noncomputable def rescale (x : Img) : Option Img :=
  (MI.minOf (pixels x)).bind fun mn =>
    let y := mapImg (fun v => v - mn) x
    (MI.maxOf (pixels y)).bind fun mx => if mx = 0 then none else some (mapImg (fun v => v / mx) y)

/-- fitting.py:396-397: subtract the mean. -/
noncomputable def demean (x : Img) : Img :=
  mapImg (fun v => v - (pixels x).sum / (pixels x).length) x

/-- fitting.py:379-397: the preprocessing of one pattern. -/
noncomputable def prep (b : ℕ) (x : Img) : Option Img :=
  (rescale (if b > 1 then avgPool b x else x)).map demean

/-- What the caller's pattern tensor holds afterwards: without binning the operations of fitting.py:393-397 are in place. -/
noncomputable def callerPattern (b : ℕ) (x : Img) : Option Img := if b > 1 then some x else prep b x

/-- fitting.py:485 and the shapes required by fitting.py:500-508: the correlation map of a simulated and a padded pattern;
`none` when its shape is not that of `best_dots`. -/
noncomputable def scoreMap (sim pat : Img) : Option (ℕ → ℕ → ℝ) :=
  (xcorr sim pat).bind fun c => if c.h = sim.h ∧ c.w = sim.w then some c.px else none

/-- fitting.py:500-508: one batch; the running best score and the index of the orientation. -/
noncomputable def batchStep (st : (ℕ → ℕ → ℝ) × (ℕ → ℕ → ℕ)) (scores : List (ℕ → ℕ → ℝ)) :
    (ℕ → ℕ → ℝ) × (ℕ → ℕ → ℕ) :=
  let bv := fun y x => (rowMax (scores.map fun s => s y x)).getD 0
  let bi := fun y x => argmaxFirst (scores.map fun s => s y x)
  let best := fun y x => max (st.1 y x) (bv y x)
  open Classical in
  (best, fun y x => if best y x = bv y x then bi y x else st.2 y x)

/-- fitting.py:426-433, 463-510, for one `pc_z` and one pattern: the tables `best_dots[z]`, `best_orientations[z]`. -/
noncomputable def tables (sims : List Img) (pat : Img) (batch : ℕ) : Option ((ℕ → ℕ → ℝ) × (ℕ → ℕ → ℕ)) :=
  if batch = 0 then none
  else (torchSplit batch sims).foldlM (fun st chunk => (chunk.mapM fun s => scoreMap s pat).map (batchStep st))
    (fun _ _ => 0, fun _ _ => 0)

/-- fitting.py:409-410: the zero-padded preprocessed pattern. -/
noncomputable def Args.padded (g : Args) (x : Img) : Option Img :=
  (prep g.binning x).bind fun y => pad false g.pads y

/-- All tables: first index `pc_z`, second index the pattern (fitting.py:452-513). -/
noncomputable def Args.allTables (g : Args) (patterns : List Img) : Option (List (List ((ℕ → ℕ → ℝ) × (ℕ → ℕ → ℕ)))) :=
  (patterns.mapM g.padded).bind fun pats =>
    (linspace g.pczMin g.pczMax g.zSteps).mapM fun pcz =>
      pats.mapM fun p => tables (g.dict.map (g.sim pcz)) p g.batch

/-- fitting.py:516 `best_dots.mean(dim=1)`. -/
noncomputable def avgScore (ts : List ((ℕ → ℕ → ℝ) × (ℕ → ℕ → ℕ))) (y x : ℕ) : ℝ :=
  (ts.map fun t => t.1 y x).sum / ts.length

/-- fitting.py:519-521: the averaged scores in row-major order. -/
noncomputable def flatScores (tabs : List (List ((ℕ → ℕ → ℝ) × (ℕ → ℕ → ℕ)))) (P W : ℕ) : List ℝ :=
  tabs.flatMap fun ts => (List.range P).flatMap fun y => (List.range W).map fun x => avgScore ts y x

/-- fitting.py:524-525: the pattern-centre coordinate for index `y` of an axis of `n` binned pixels with `p` before. -/
noncomputable def pcOf (n p y : ℕ) : ℝ := 0.5 + (((y : ℤ) - p - ((n + 1) / 2 : ℕ) : ℤ) : ℝ) / n

/-- fitting.py:516-548: the pattern centre of the best entry of the tables and one quaternion per pattern. -/
noncomputable def select (g : Args) (tabs : List (List ((ℕ → ℕ → ℝ) × (ℕ → ℕ → ℕ)))) : Option (V × List Q) :=
  let P := paddedSize g.rows g.binning g.pads.2.2.1 g.pads.2.2.2
  let W := paddedSize g.cols g.binning g.pads.1 g.pads.2.1
  let k := argmaxFirst (flatScores tabs P W)
  let z := k / (P * W)
  let y := k / W % P
  let x := k % W
  let Hb := g.rows / g.binning
  let Wb := g.cols / g.binning
  ((tabs.getD z []).mapM fun t => g.dict[t.2 y x]?).map fun qs =>
    (⟨pcOf Wb g.pads.1 x, pcOf Hb g.pads.2.2.1 y, (linspace g.pczMin g.pczMax g.zSteps).getD z 0⟩, qs)

/-- fitting.py:376-384 and the inputs on which a later line raises: the checks before the search. -/
def Args.rejects (g : Args) (patterns : List Img) : Prop :=
  (patterns = [] ∨ g.dict = [] ∨ g.binning = 0 ∨ g.zSteps = 0) ∨ (g.rows % g.binning ≠ 0 ∨ g.cols % g.binning ≠ 0) ∨
    ∃ x ∈ patterns, x.h ≠ g.rows ∨ x.w ≠ g.cols

open Classical in
/-- fitting.py:359-548 `spatial_fft_pc_fitter`, `metric="dot"`: the pattern centre and one quaternion per pattern.
Simplification: the master pattern's own state (its binned cache) is not part of this model. -/
noncomputable def fitter (g : Args) (patterns : List Img) : Option (V × List Q) :=
  if g.rejects patterns then none else (g.allTables patterns).bind (select g)

end Verif.Fit
