import Verif.Model.Sphere
import Mathlib.Analysis.SpecialFunctions.Pow.Real
import Mathlib.Algebra.BigOperators.Fin
import Mathlib.Data.Finset.Prod
/-!
Model of /repo/ebsdtorch/simulation/monte_carlo.py `bse_sim_mc` (lines 54-262).
The random numbers of iteration `t` are an arbitrary function of `t` and the electron, so that a theorem about all
draws covers every stream of the generator.  Simplifications: real arithmetic (no NaN, no float32 saturation of
the accumulator at 2^24), no int32 overflow of the bin indices, printing is not modelled.
-/
namespace Verif
open Classical

/-- Arguments of `bse_sim_mc` (monte_carlo.py:54-73) except the number of electrons, dtype and device. -/
structure McParams where
  startE : ℝ
  nEnergy : ℕ
  nDir : ℕ
  nDepth : ℕ
  binE : ℝ
  binDepth : ℝ
  atomNum : ℝ
  rho : ℝ
  weightA : ℝ
  bseMax : ℕ
  simMax : ℕ
  maxSteps : ℕ
  sigma : ℝ
  omega : ℝ

/-- One electron: entries of `energies`, `depths`, `current_directions`, `ticks`. -/
structure Electron where
  energy : ℝ
  depth : ℝ
  dir : V
  tick : ℕ

/-- The three random numbers drawn per electron and iteration (lines 137, 155, 158). -/
structure McDraw where
  step : ℝ
  phi : ℝ
  psi : ℝ

/-- `v / torch.norm(v)` (lines 112, 196, 241). -/
noncomputable def vnormalize (v : V) : V := v.sdiv v.norm

/-- Initial direction, lines 98-112 (and the reset of lines 236-243). -/
noncomputable def mcStartDir (p : McParams) : V :=
  let s := p.sigma * Real.pi / 180
  let o := p.omega * Real.pi / 180
  vnormalize ⟨Real.sin s * Real.cos o, Real.sin s * Real.sin o, Real.cos s⟩

/-- Lines 118-120: the screening factor `alpha`. -/
noncomputable def mcAlpha (p : McParams) (energy : ℝ) : ℝ := 3.4e-3 * p.atomNum ^ (0.66667 : ℝ) / energy

/-- Lines 122-141: the random step length in nm. -/
noncomputable def mcStep (p : McParams) (energy u : ℝ) : ℝ :=
  let alpha := mcAlpha p energy
  let sigmaE := 5.21 * 602.2 * (p.atomNum / energy) ^ 2 * (4 * Real.pi / (alpha * (1 + alpha)))
    * ((511 + energy) / (1024 + energy)) ^ 2
  let mfp := 1.0e7 * p.weightA / (p.rho * sigmaE)
  (-1) * mfp * Real.log u

/-- Lines 114, 146-150: energy loss per length. -/
noncomputable def mcDeDs (p : McParams) (energy : ℝ) : ℝ :=
  let mip := ((9.76 * p.atomNum) + (58.5 * p.atomNum ^ (-0.19 : ℝ))) * 1.0e-3
  (-0.00785) * (p.atomNum / (p.weightA * energy)) * Real.log ((1.166 * energy / mip) + 0.9911)

/-- Lines 154-156: the polar scattering angle. -/
noncomputable def mcPhi (alpha u : ℝ) : ℝ := Real.arccos (1 - ((2 * alpha * u) / (1 + alpha - u)))

/-- Lines 162-190: the new direction cosines before renormalisation. -/
noncomputable def mcScatter (c : V) (phi psi : ℝ) : V :=
  let dsq := Real.sqrt (max (1 - c.z ^ 2) 0)
  let dsqi := 1 / dsq
  if |c.z| > 0.99999 then
    ⟨Real.sin phi * Real.cos psi, Real.sin phi * Real.sin psi, (c.z / |c.z|) * Real.cos phi⟩
  else
    ⟨Real.sin phi * (c.x * c.z * Real.cos psi - c.y * Real.sin psi) * dsqi + c.x * Real.cos phi,
     Real.sin phi * (c.y * c.z * Real.cos psi + c.x * Real.sin psi) * dsqi + c.y * Real.cos phi,
     -1 * Real.sin phi * Real.cos psi * dsq + c.z * Real.cos phi⟩

/-- Conversion of a float to an integer dtype: truncation towards zero (lines 205-218). -/
noncomputable def truncInt (x : ℝ) : ℤ := if 0 ≤ x then ⌊x⌋ else ⌈x⌉

/-- A cell of the accumulator: energy, depth and two direction indices. -/
abbrev McBin := ℤ × ℤ × ℤ × ℤ

/-- One electron after the move of lines 162-207: new direction, escape depth, new depth, new energy. -/
structure Moved where
  dir : V
  escape : ℝ
  depth : ℝ
  energy : ℝ

/-- Lines 118-207 for one electron. -/
noncomputable def mcMove (p : McParams) (e : Electron) (d : McDraw) : Moved :=
  let step := mcStep p e.energy d.step
  let dir := vnormalize (mcScatter e.dir (mcPhi (mcAlpha p e.energy) d.phi) d.psi)
  { dir := dir, escape := |e.depth / dir.z|, depth := e.depth + step * dir.z,
    energy := e.energy + step * p.rho * mcDeDs p e.energy }

/-- Lines 204-218: the bin indices of an electron that has left the sample. -/
noncomputable def mcBin (p : McParams) (m : Moved) : McBin :=
  let depthMax := p.nDepth * p.binDepth
  let r := roscaLambert m.dir
  (truncInt ((p.startE - m.energy) / p.binE), truncInt (m.escape / depthMax * p.nDepth),
   truncInt ((r.1 * 0.499999 + 0.5) * p.nDir), truncInt ((r.2 * 0.499999 + 0.5) * p.nDir))

/-- Lines 221-226: `valid_mask`. Only energy and depth are checked. -/
noncomputable def mcValid (p : McParams) (m : Moved) : Prop :=
  let b := mcBin p m
  b.2.1 < p.nDepth ∧ b.1 < p.nEnergy ∧ 0 ≤ b.1 ∧ 0 ≤ b.2.1

/-- The state of the `while` loop for `n` electrons. -/
structure McState (n : ℕ) where
  el : Fin n → Electron
  acc : McBin → ℕ
  bse : ℕ
  sims : ℕ

/-- Lines 78-114: the initial state. -/
noncomputable def mcInit (p : McParams) (n : ℕ) : McState n :=
  { el := fun _ => ⟨p.startE, 0, mcStartDir p, 0⟩, acc := fun _ => 0, bse := 0, sims := 0 }

/-- Line 116: the loop condition. -/
def mcGuard (p : McParams) {n : ℕ} (s : McState n) : Prop := s.bse < p.bseMax ∧ s.sims < p.simMax

/-- Line 207: electrons that left the sample in this iteration. -/
noncomputable def mcExited (p : McParams) {n : ℕ} (s : McState n) (d : Fin n → McDraw) : Finset (Fin n) :=
  Finset.univ.filter fun i => (mcMove p (s.el i) (d i)).depth < 0

/-- Lines 221-229: the exited electrons with valid indices. -/
noncomputable def mcCounted (p : McParams) {n : ℕ} (s : McState n) (d : Fin n → McDraw) : Finset (Fin n) :=
  (mcExited p s d).filter fun i => mcValid p (mcMove p (s.el i) (d i))

/-- Lines 239-241: electrons reset in this iteration. -/
noncomputable def mcReset (p : McParams) {n : ℕ} (s : McState n) (d : Fin n → McDraw) : Finset (Fin n) :=
  Finset.univ.filter fun i => (s.el i).tick + 1 > p.maxSteps ∨ (mcMove p (s.el i) (d i)).depth < 0

/-- The index check of `accumulator[...] += 1` (lines 231-236): all four indices within the shape.
Simplification: torch also accepts negative indices down to `-n`; they are treated as errors here, and shown not to
occur. -/
def mcIndexOk (p : McParams) (b : McBin) : Prop :=
  (0 ≤ b.1 ∧ b.1 < p.nEnergy) ∧ (0 ≤ b.2.1 ∧ b.2.1 < p.nDepth) ∧
  (0 ≤ b.2.2.1 ∧ b.2.2.1 < p.nDir) ∧ (0 ≤ b.2.2.2 ∧ b.2.2.2 < p.nDir)

/-- Lines 116-258: the body of the loop; `none` is an `IndexError`.
`accumulator[idx] += 1` reads, adds and writes back once per *distinct* index. -/
noncomputable def mcBody (p : McParams) {n : ℕ} (s : McState n) (d : Fin n → McDraw) : Option (McState n) :=
  let bin := fun i => mcBin p (mcMove p (s.el i) (d i))
  if ∀ i ∈ mcCounted p s d, mcIndexOk p (bin i) then
    some {
      el := fun i =>
        let m := mcMove p (s.el i) (d i)
        if i ∈ mcReset p s d then ⟨p.startE, 0, mcStartDir p, 0⟩
        else ⟨m.energy, m.depth, m.dir, (s.el i).tick + 1⟩,
      acc := fun b => if ∃ i ∈ mcCounted p s d, bin i = b then s.acc b + 1 else s.acc b,
      bse := s.bse + (mcExited p s d).card,
      sims := s.sims + (mcReset p s d).card }
  else none

/-- The loop with fuel `k`: the state after at most `k` iterations, or `none` after an `IndexError`.
`draws t i` are the random numbers of electron `i` in iteration `t`. -/
noncomputable def mcRun (p : McParams) {n : ℕ} (draws : ℕ → Fin n → McDraw) : ℕ → Option (McState n)
  | 0 => some (mcInit p n)
  | k + 1 => (mcRun p draws k).bind fun s => if mcGuard p s then mcBody p s (draws k) else some s

end Verif
