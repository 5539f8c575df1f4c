import Verif.Model.McKernel
import Verif.Model.Numerics
/-!
Model of the host class `MonteCarloSimulator` of /repo/ebsdtorch/crystallography/ebsd_mc.py (lines 250-632).  Real arithmetic instead of
float32; the launches of the kernel are arbitrary histograms here, `launchHist` connects them to the kernel model.
-/
namespace Verif.Mck
open Verif

/-- The attributes of `MonteCarloSimulator` (ebsd_mc.py:285-296). -/
structure McSim where
  kV : ℝ
  incidence : ℝ
  binE : ℝ
  binDepth : ℝ
  nDepth : ℕ
  depthMode : String
  nDir : ℕ
  nExtra : ℕ
  minMass : ℝ
  omega : ℝ

/-- `self.n_fillable_bins = int(kV // binsize_exit_energy)` (ebsd_mc.py:299). -/
noncomputable def McSim.nFillable (m : McSim) : ℕ := ⌊m.kV / m.binE⌋₊

/-- ebsd_mc.py:299-326, :228, :588-592: the kernel arguments of a launch; `Z`, `rho`, `A` are the material parameters. -/
noncomputable def McSim.kparams (m : McSim) (Z rho A : ℝ) (trials maxSteps : ℕ) : KParams :=
  ⟨trials, m.kV + m.nExtra * m.binE, m.nFillable + m.nExtra, m.nDir, m.nDepth, m.binE, m.binDepth, Z, rho, A, maxSteps, m.incidence, m.omega,
    decide (m.depthMode ≠ "linear")⟩

/-- A histogram tensor: energy, depth, vertical and horizontal index (only entries within the shape are meaningful). -/
abbrev Hist := ℕ → ℕ → ℕ → ℕ → ℝ

/-- ebsd_mc.py:238, :247: the accumulator of a launch as a tensor. -/
def launchHist (p : KParams) (sched : List ℤ) : Hist := fun e d x y => ((kLaunch sched (kIndex p (e, d, x, y))).toNat : ℝ)

/-- `histogram[self.n_energy_bins_extra:]` and, for `omega == 0.0`, `(histogram + histogram.flip(3)) / 2` (ebsd_mc.py:604-607, :617-620,
:360-363). -/
noncomputable def McSim.clean (m : McSim) (h : Hist) : Hist := fun e d x y =>
  open Classical in
  if m.omega = 0 then (h (e + m.nExtra) d x y + h (e + m.nExtra) d x (m.nDir - 1 - y)) / 2 else h (e + m.nExtra) d x y

/-- The sum over depth and direction of energy bin `e` (ebsd_mc.py:366). -/
noncomputable def McSim.marginal (m : McSim) (h : Hist) (e : ℕ) : ℝ :=
  ∑ d ∈ Finset.range m.nDepth, ∑ x ∈ Finset.range m.nDir, ∑ y ∈ Finset.range m.nDir, h e d x y

/-- `histogram.sum()` of a tensor without the extra energy bins (ebsd_mc.py:609, :622). -/
noncomputable def McSim.mass (m : McSim) (h : Hist) : ℝ := ∑ e ∈ Finset.range m.nFillable, m.marginal h e

/-- ebsd_mc.py:612-630: the `while` loop, at most `fuel` rounds (`none`: still running).  `runs r` is the accumulator of launch `r`,
`per` the number of simulated electrons per launch. -/
noncomputable def McSim.loop (m : McSim) (per : ℕ) (runs : ℕ → Hist) : ℕ → ℕ → Hist → ℝ → ℕ → Option (Hist × ℕ)
  | 0, _, _, _, _ => none
  | fuel + 1, r, h, bse, sim =>
    open Classical in
    if bse < m.minMass then
      let hn := m.clean (runs r)
      m.loop per runs fuel (r + 1) (fun e d x y => h e d x y + hn e d x y) (bse + m.mass hn) (sim + per)
    else some (h, sim)

/-- ebsd_mc.py:569-632 `run_simulation`. -/
noncomputable def McSim.run (m : McSim) (nElectrons trials : ℕ) (runs : ℕ → Hist) (fuel : ℕ) : Option (Hist × ℕ) :=
  m.loop (nElectrons * trials) runs fuel 1 (m.clean (runs 0)) (0 + m.mass (m.clean (runs 0))) (0 + nElectrons * trials)

/-- ebsd_mc.py:345 -/
def stepSizes : List ℕ := [250, 500, 750, 1000, 1250, 1500, 1750, 2000]

/-- ebsd_mc.py:365-370: the test on the energy marginal.  If the marginal sums to zero, the quotients are NaN and no comparison holds. -/
def McSim.filled (m : McSim) (h : Hist) (threshold : ℝ) : Prop :=
  ∀ e < m.nFillable, (∑ i ∈ Finset.range m.nFillable, m.marginal (m.clean h) i) ≠ 0 ∧
    m.marginal (m.clean h) e / (∑ i ∈ Finset.range m.nFillable, m.marginal (m.clean h) i) > threshold

/-- ebsd_mc.py:353-376 -/
noncomputable def McSim.findLoop (m : McSim) (test : ℕ → Hist) (threshold : ℝ) : List ℕ → ℕ
  | [] => stepSizes.foldl max 0
  | n :: l => open Classical in if m.filled (test n) threshold then n else m.findLoop test threshold l

/-- ebsd_mc.py:335-376 `_find_required_steps`; `test n` is the accumulator of the test launch with `n` steps. -/
noncomputable def McSim.findSteps (m : McSim) (test : ℕ → Hist) (threshold : ℝ) : ℕ := m.findLoop test threshold stepSizes

/-- `torch.arange(start, stop, step)` for a positive step. -/
noncomputable def arange (start stop step : ℝ) : List ℝ := (List.range ⌈(stop - start) / step⌉₊).map fun i : ℕ => start + (i : ℝ) * step

/-- `bin_edges` (ebsd_mc.py:504-516). -/
noncomputable def McSim.edges (m : McSim) : List ℝ := (arange 0 (m.nDepth * m.binDepth + m.binDepth) m.binDepth).map fun t => Real.exp t - 1

/-- `bin_markers` (ebsd_mc.py:517). -/
noncomputable def McSim.markers (m : McSim) : List ℝ := List.zipWith (fun a b => (a + b) / 2) m.edges.tail m.edges.dropLast

/-- `bin_sizes` (ebsd_mc.py:518). -/
noncomputable def McSim.sizes (m : McSim) : List ℝ := List.zipWith (fun a b => a - b) m.edges.tail m.edges.dropLast

/-- ebsd_mc.py:482-563 `resample_to_linear` before the normalisation, for one energy and direction: `row` are the counts per depth bin. -/
noncomputable def McSim.resampleRow (m : McSim) (row : List ℝ) (nLinear : ℕ) (binsize : ℝ) (interpolation : String) :
    Except Numerics.Err (List ℝ) :=
  if m.depthMode ≠ "log" then .error .valueError
  else
    let density := List.zipWith (fun h s => h / s) row m.sizes
    let centers := arange (binsize / 2) (nLinear * binsize) binsize
    if interpolation = "linear" then (centers.mapM fun x => Numerics.interp x m.markers density "error").map (List.map fun v => max v 0)
    else if interpolation = "quadratic" then .ok (centers.map fun x => max (Numerics.interpquad x m.markers density "error") 0)
    else .error .valueError

/-- ebsd_mc.py:482-567 `resample_to_linear`: the rows of all energies and directions, and the normalisation over the whole tensor. -/
noncomputable def McSim.resample (m : McSim) (rows : List (List ℝ)) (nLinear : ℕ) (binsize : ℝ) (interpolation : String) (normalize : Bool) :
    Except Numerics.Err (List (List ℝ)) :=
  (rows.mapM fun r => m.resampleRow r nLinear binsize interpolation).map fun out =>
    if normalize then out.map (List.map fun v => v / (out.map List.sum).sum) else out

end Verif.Mck
