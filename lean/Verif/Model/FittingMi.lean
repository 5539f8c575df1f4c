import Verif.Model.Fitting
import Verif.Model.Cmif
/-!
Model of /repo/ebsdtorch/ebsd/fitting.py: the pattern-centre search `spatial_fft_pc_fitter` with `metric="mi"`.
-/
namespace Verif.Fit
open Verif.Blur Verif.Fft

/-- fitting.py:379-394: the preprocessing of one pattern; the mean is subtracted for `metric="dot"` only. -/
noncomputable def prepMi (b : ℕ) (x : Img) : Option Img := rescale (if b > 1 then avgPool b x else x)

/-- fitting.py:409-410: the zero-padded preprocessed pattern. -/
noncomputable def Args.paddedMi (g : Args) (x : Img) : Option Img := (prepMi g.binning x).bind fun y => pad false g.pads y

/-- fitting.py:435-440: one image of `src_ind`, ones on the detector and zeros on the padding. -/
noncomputable def Args.window (g : Args) : Option Img := pad false g.pads ⟨g.rows / g.binning, g.cols / g.binning, fun _ _ => 1⟩

/-- fitting.py:486-508: one batch of simulations against all patterns; one table per pattern.  `P`, `W`: the shape of
`best_dots`; a map of another shape raises.  (With `norm_mode="none"` no entry of the maps is NaN.) -/
noncomputable def stepMi (pats : List Img) (mask : Img) (P W : ℕ) (st : List ((ℕ → ℕ → ℝ) × (ℕ → ℕ → ℕ))) (chunk : List Img) :
    Option (List ((ℕ → ℕ → ℝ) × (ℕ → ℕ → ℕ))) :=
  (Cmif.cmif ⟨4, 4, 8, false, .none⟩ chunk pats none (some (pats.map fun _ => mask))).bind fun m =>
    if ∀ r ∈ m, ∀ o ∈ r, o.h = P ∧ o.w = W then
      some (st.zipIdx.map fun t => batchStep t.1 (m.map fun r y x => ((r[t.2]?).bind fun o => o.at_ y x).getD 0))
    else none

/-- fitting.py:426-433, 463-510, for one `pc_z`: the tables of all patterns. -/
noncomputable def tablesMi (sims pats : List Img) (mask : Img) (P W batch : ℕ) : Option (List ((ℕ → ℕ → ℝ) × (ℕ → ℕ → ℕ))) :=
  if batch = 0 then none
  else (torchSplit batch sims).foldlM (stepMi pats mask P W) (pats.map fun _ => (fun _ _ => 0, fun _ _ => 0))

/-- All tables: first index `pc_z`, second index the pattern (fitting.py:452-513). -/
noncomputable def Args.allTablesMi (g : Args) (patterns : List Img) : Option (List (List ((ℕ → ℕ → ℝ) × (ℕ → ℕ → ℕ)))) :=
  (patterns.mapM g.paddedMi).bind fun pats => g.window.bind fun mask =>
    (linspace g.pczMin g.pczMax g.zSteps).mapM fun pcz => tablesMi (g.dict.map (g.sim pcz)) pats mask
      (paddedSize g.rows g.binning g.pads.2.2.1 g.pads.2.2.2) (paddedSize g.cols g.binning g.pads.1 g.pads.2.1) g.batch

open Classical in
/-- fitting.py:359-548 `spatial_fft_pc_fitter`: an unknown metric raises (fitting.py:495-496). -/
noncomputable def fitterBy (metric : String) (g : Args) (patterns : List Img) : Option (V × List Q) :=
  if metric = "dot" then fitter g patterns
  else if metric = "mi" then (if g.rejects patterns then none else (g.allTablesMi patterns).bind (select g))
  else none

end Verif.Fit
