import Verif.Model.Cell
import Mathlib.Analysis.Normed.Algebra.MatrixExponential
import Mathlib.Analysis.SpecialFunctions.Complex.Circle
/-!
Model of /repo/ebsdtorch/crystallography/diffraction.py (`calc_lambda`, `calc_sgh`, `calc_helper_bloch_formalism`,
`calc_sg`) and /repo/ebsdtorch/crystallography/ebsd_master.py (`calc_sg_batched`, `ebsd_master_pattern`), in exact real and
complex arithmetic.

Simplifications.  The atomic scattering factors (`scatter_factor_WK`, `scatter_factor_hybrid`) are a parameter `sf`, called
with exactly the arguments the code passes (voltage, atomic number, thermal sigma, `0.2π|g|`); `torch.unique` followed by
re-indexing with the inverse is the identity and left out.  Dtypes and devices are not modelled.  The directions returned
by `kvectors_grid` are the parameter `dirs` (their model is in `Verif.Model.KVec`).
-/
namespace Verif.Diff
open Cryst
open SG (Err)

/-- diffraction.py:110-143 `calc_lambda` for one voltage in kV: wavelength, relativistic factor, potential. -/
noncomputable def calcLambda (kV : ℝ) : ℝ × ℝ × ℝ :=
  let temp1 := 1.22642584554
  let temp2 := 0.00097847561649 * kV
  let relCorr := 1 + 2 * temp2
  let psiHat := kV * (1 + temp2) * 1000
  (temp1 / Real.sqrt psiHat, relCorr, psiHat)

/-- One site of the asymmetric unit: `atom_types[i]`, `atom_data[i, 3]` (occupancy), `atom_data[i, 4]` (Debye–Waller) and
the equivalent positions `apos[i]` (unit_cell.py:333-358). -/
structure Site where
  (Z occ dw : ℝ)
  pos : List Vec

/-- The parts of a `Cell` used by the diffraction code. -/
structure Crystal where
  l : Lattice
  sg : ℕ
  sites : List Site

/-- Componentwise difference of Miller indices. -/
def sub (g h : Hkl) : Hkl := (g.1 - h.1, g.2.1 - h.2.1, g.2.2 - h.2.2)

/-- diffraction.py:165-174, 366-378: `get_reflections(dmin, difference_table=False)` with `000` prepended. -/
noncomputable def beams (c : Crystal) (dmin : ℝ) : Except Err (List Hkl) :=
  (getReflections c.l c.sg dmin false true).map fun t => (0, 0, 0) :: t

/-- diffraction.py:252-264: `get_reflections(dmin, difference_table=True)` with `000` prepended. -/
noncomputable def diffs (c : Crystal) (dmin : ℝ) : Except Err (List Hkl) :=
  (getReflections c.l c.sg dmin true true).map fun t => (0, 0, 0) :: t

/-- `hkl @ pos`. -/
def hklDot (g : Hkl) (r : Vec) : ℝ := g.1 * r 0 + g.2.1 * r 1 + g.2.2 * r 2

/-- diffraction.py:186-209: one entry of `Sgh[ip]`, for the difference `d` of two beams. -/
noncomputable def sghTerm (l : Lattice) (s : Site) (d : Hkl) : ℂ :=
  let sSq := 0.25 * calcLength l (hklVec d) .r ^ 2
  let dwf := s.Z ^ 2 * s.occ * Real.exp (-s.dw * sSq)
  (s.pos.map fun r => (Real.cos (2 * Real.pi * hklDot d r) : ℂ) + Complex.I * Real.sin (2 * Real.pi * hklDot d r)).sum * (dwf : ℂ)

/-- diffraction.py:146-211 `calc_sgh` for one site: `g_minus_h[i, j] = g[j] - g[i]`. -/
noncomputable def sgh (l : Lattice) (s : Site) (gs : List Hkl) : Matrix (Fin gs.length) (Fin gs.length) ℂ :=
  fun i j => sghTerm l s (sub (gs.get j) (gs.get i))

/-- The scattering factors: voltage (kV), atomic number, thermal sigma (Å), `0.2π|g|` ↦ complex factor. -/
abbrev ScatterFactor := ℝ → ℝ → ℝ → ℝ → ℂ

/-- diffraction.py:268-304: the factor of one site at `g`. -/
noncomputable def factor (sf : ScatterFactor) (l : Lattice) (kV : ℝ) (s : Site) (g : Hkl) : ℂ :=
  sf kV s.Z (10 * Real.sqrt (s.dw / (8 * Real.pi ^ 2))) (0.1 * 2 * Real.pi * calcLength l (hklVec g) .r)

/-- diffraction.py:323-328: `p1`. -/
noncomputable def p1 (s : Site) (g : Hkl) : ℂ :=
  (s.pos.map fun r => Complex.exp (-2 * Complex.I * Real.pi * (hklDot g r : ℝ))).sum

/-- diffraction.py:314-331: `ff` at `g`. -/
noncomputable def ff (sf : ScatterFactor) (c : Crystal) (kV : ℝ) (g : Hkl) : ℂ :=
  (c.sites.map fun s => p1 s g * ((factor sf c.l kV s g).re : ℂ) * (s.occ : ℂ)).sum

/-- diffraction.py:315-332: `gg` at `g`. -/
noncomputable def gg (sf : ScatterFactor) (c : Crystal) (kV : ℝ) (g : Hkl) : ℂ :=
  (c.sites.map fun s => p1 s g * ((factor sf c.l kV s g).im : ℂ) * (s.occ : ℂ)).sum

/-- diffraction.py:309: `pref`. -/
noncomputable def pref (c : Crystal) : ℝ := 0.04787801 / c.l.vol
/-- diffraction.py:310: `preg`. -/
noncomputable def preg : ℝ := 0.664840340614319

/-- diffraction.py:311, 337-343: `ucg` at `g`. -/
noncomputable def ucg (sf : ScatterFactor) (c : Crystal) (kV : ℝ) (absorption : Bool) (g : Hkl) : ℂ :=
  let f := ff sf c kV g
  let a := gg sf c kV g
  if absorption then ((pref c * preg : ℝ) : ℂ) * ⟨f.re - a.im, f.im + a.re⟩ else ((pref c * preg : ℝ) : ℂ) * f

/-- diffraction.py:337-342, 418-419: `upmod_000`. -/
noncomputable def upmod0 (sf : ScatterFactor) (c : Crystal) (kV : ℝ) (absorption : Bool) : ℝ :=
  if absorption then preg * pref c * ‖gg sf c kV (0, 0, 0)‖ else 0

/-- diffraction.py:334, 349-359: `mlambdas`. -/
noncomputable def mlambda (sf : ScatterFactor) (c : Crystal) (kV : ℝ) : ℝ :=
  let temp2 := 0.00097847561649 * kV
  let psiHat := pref c * ‖ff sf c kV (0, 0, 0)‖ + kV * (1 + temp2) * 1000
  1.22642584554 / Real.sqrt psiHat

/-- diffraction.py:394-398, 408-412: flattened position of a difference in the table. -/
def flatIndex (m : ℕ × ℕ × ℕ) (g : Hkl) : ℤ :=
  (g.1 + 2 * m.1) * (4 * m.2.1 + 1) * (4 * m.2.2 + 1) + (g.2.1 + 2 * m.2.1) * (4 * m.2.2 + 1) + (g.2.2 + 2 * m.2.2)

/-- diffraction.py:387-392: number of entries of the table. -/
def tableSize (m : ℕ × ℕ × ℕ) : ℤ := (4 * m.1 + 1) * (4 * m.2.1 + 1) * (4 * m.2.2 + 1)

/-- diffraction.py:388-405: the table.  `torch.empty` leaves whatever the memory `mem` contains; the writes overwrite it. -/
noncomputable def table (mem : ℤ → ℂ) (m : ℕ × ℕ × ℕ) (ds : List Hkl) (u : Hkl → ℂ) : ℤ → ℂ :=
  ds.foldl (fun t d => Function.update t (flatIndex m d) (u d)) mem

/-- diffraction.py:380-381, 408-416: `ucg_diff`; entry `[i, j]` is looked up at `hkl[j] - hkl[i]`. -/
noncomputable def ucgDiff (mem : ℤ → ℂ) (sf : ScatterFactor) (c : Crystal) (dmin kV : ℝ) (absorption : Bool)
    (gs ds : List Hkl) : Matrix (Fin gs.length) (Fin gs.length) ℂ :=
  fun i j => table mem (hklLimits c.l dmin) ds (ucg sf c kV absorption)
    (flatIndex (hklLimits c.l dmin) (sub (gs.get j) (gs.get i)))

/-- What `calc_helper_bloch_formalism` (diffraction.py:214-421) returns, for one voltage. -/
structure Bloch where
  gs : List Hkl
  U : Matrix (Fin gs.length) (Fin gs.length) ℂ
  up : ℝ
  lam : ℝ

/-- diffraction.py:214-421 `calc_helper_bloch_formalism` for one voltage. -/
noncomputable def bloch (mem : ℤ → ℂ) (sf : ScatterFactor) (c : Crystal) (dmin kV : ℝ) (absorption : Bool) : Except Err Bloch :=
  (diffs c dmin).bind fun ds => (beams c dmin).map fun gs =>
    ⟨gs, ucgDiff mem sf c dmin kV absorption gs ds, upmod0 sf c kV absorption, mlambda sf c kV⟩

/-- `einsum("i,ij,j->", p, M, q)`. -/
def form (M : M3) (p q : Vec) : ℝ := ∑ i, ∑ j, p i * M i j * q j

/-- ebsd_master.py:131-175 `calc_sg_batched` for one beam and one wave vector (`rmt`, `hkl`, `k`). -/
noncomputable def sgBatched (rmt : M3) (g k : Vec) : ℝ :=
  let kpg := k + g
  let tkpg := (2 : ℝ) • k + g
  let xnom := -form rmt g tkpg
  let q1 := Real.sqrt (form rmt kpg kpg)
  let kLen := Real.sqrt (form rmt k k)
  let dot := form rmt kpg k
  let xden := 2 * q1 * (dot / (q1 * kLen))
  xnom / xden

/-- diffraction.py:664-715 `calc_sg` for one beam and one wave vector; `calc_angle` raises for a zero vector. -/
noncomputable def calcSg (l : Lattice) (g k : Vec) : Except Err ℝ :=
  let kpg := k + g
  let tkpg := (2 : ℝ) • k + g
  let xnom := -calcDot l g tkpg .r
  let q1 := calcLength l kpg .r
  (calcAngle l kpg k .r).map fun q2 => xnom / (2 * q1 * Real.cos q2)

/-- ebsd_master.py:228-230: the wave vector of a direction: normalised, divided by the wavelength, in reciprocal space. -/
noncomputable def waveVector (l : Lattice) (lam : ℝ) (d : Vec) : Vec :=
  transformSpace l (fun i => normVec l d .c i / lam) .c .r

/-- ebsd_master.py:270-276: excitation errors of the beams, with the entry of the first beam set to zero. -/
noncomputable def sgRow (l : Lattice) (gs : List Hkl) (k : Vec) (i : Fin gs.length) : ℝ :=
  if i.val = 0 then 0 else sgBatched l.rmt (hklVec (gs.get i)) k

/-- ebsd_master.py:232-234, 278-283: the matrix whose exponential is taken.  The diagonal of `U` is zeroed first; `up i` is
the absorption entry that broadcasting pairs with beam `i`. -/
noncomputable def structMatrix (l : Lattice) (gs : List Hkl) (U : Matrix (Fin gs.length) (Fin gs.length) ℂ)
    (up : Fin gs.length → ℝ) (lam : ℝ) (k : Vec) : Matrix (Fin gs.length) (Fin gs.length) ℂ :=
  fun i j => ((if i = j then 0 else U i j) + (if i = j then (⟨2 * sgRow l gs k i / lam, up i⟩ : ℂ) else 0)) *
    (Complex.I * Real.pi * (lam : ℂ))

/-- ebsd_master.py:243-245: `psi_0 = [1, 0, 0, …]`. -/
def psi0 (n : ℕ) : Fin n → ℂ := fun i => if i.val = 0 then 1 else 0

/-- ebsd_master.py:285-299: the depth loop: `psi = exp_A @ psi; Lgh += w[d] * psi psi^*`. -/
noncomputable def depthLoop {n : ℕ} (expA : Matrix (Fin n) (Fin n) ℂ) (ws : List ℝ) :
    (Fin n → ℂ) × Matrix (Fin n) (Fin n) ℂ :=
  ws.foldl (fun (s : (Fin n → ℂ) × Matrix (Fin n) (Fin n) ℂ) (w : ℝ) =>
    let psi := expA.mulVec s.1
    (psi, s.2 + (w : ℂ) • Matrix.of fun i j => psi i * (starRingEnd ℂ) (psi j))) (psi0 n, 0)

/-- `torch.cumsum`. -/
def cumsum (l : List ℝ) : List ℝ := (l.foldl (fun s x => (s.1 ++ [s.2 + x], s.2 + x)) (([] : List ℝ), (0 : ℝ))).1

/-- ebsd_master.py:253-256: `depth_cutoffs` of one row of weights: position of the first cumulative fraction ≥ 0.95
(`argmax` of an all-false row is 0; NaN rows compare false). -/
noncomputable def depthCutoff (row : List ℝ) : ℕ :=
  ((cumsum (row.map (· / row.sum))).findIdx? fun x => decide (0.95 ≤ x)).getD 0

/-- ebsd_master.py:301-304: the intensities of all sites for one wave vector. -/
noncomputable def siteIntensity {n : ℕ} (S L : Matrix (Fin n) (Fin n) ℂ) : ℝ := ∑ i, ∑ j, (S i j * L i j).re

/-- ebsd_master.py:268-304, the column of `master_pattern` for one wave vector: one intensity per site.  `ws` are the
weights of the depths that the loop visits. -/
noncomputable def column (c : Crystal) (gs : List Hkl) (U : Matrix (Fin gs.length) (Fin gs.length) ℂ)
    (up : Fin gs.length → ℝ) (lam : ℝ) (ws : List ℝ) (k : Vec) : List ℝ :=
  let L := (depthLoop (NormedSpace.exp (structMatrix c.l gs U up lam k)) ws).2
  c.sites.map fun s => siteIntensity (sgh c.l s gs) L

/-- `x[start:start+len] += vals` on a list of columns. -/
def addSlice (arr : List (List ℝ)) (start : ℕ) (vals : List (List ℝ)) : List (List ℝ) :=
  arr.take start ++ List.zipWith (List.zipWith (· + ·)) ((arr.drop start).take vals.length) vals ++ arr.drop (start + vals.length)

/-- ebsd_master.py:236-241, 262-268, 302-304: the loop over chunks of `k`; `nSites` zero intensities per wave vector to begin with.
`range(0, n, 0)` raises `ValueError`. -/
def chunkLoop (nSites chunk : ℕ) (ks : List Vec) (f : Vec → List ℝ) : Except Err (List (List ℝ)) :=
  if chunk = 0 then .error .valueError
  else .ok (((List.range ((ks.length + chunk - 1) / chunk)).map (· * chunk)).foldl
    (fun arr s => addSlice arr s (((ks.drop s).take chunk).map f)) (List.replicate ks.length (List.replicate nSites 0)))

/-- ebsd_master.py:281: `torch.complex(2.0 * sg / mlambdas[v], upmod_000)` broadcasts `(n_k, n_g)` against `(n_v,)`. -/
def broadcastUp (ups : List ℝ) (n : ℕ) : Except Err (Fin n → ℝ) :=
  if ups.length = 1 then .ok fun _ => ups.getD 0 0
  else if ups.length = n then .ok fun i => ups.getD i 0
  else .error .runtimeError

/-- ebsd_master.py:250-251: `mc_weights /= mc_weights.sum()`. -/
noncomputable def normWeights (mc : List (List ℝ)) : List (List ℝ) :=
  let t := (mc.map List.sum).sum
  mc.map fun r => r.map (· / t)

/-- ebsd_master.py:178-306 `ebsd_master_pattern`: for every voltage the list of columns (one per direction).  `depth_step`
is accepted and never used.  With `absorption=False`, `upmod_000` is complex and `torch.complex` raises. -/
noncomputable def masterPattern (mem : ℤ → ℂ) (sf : ScatterFactor) (c : Crystal) (kVs : List ℝ) (_depthStep : ℝ)
    (mc : List (List ℝ)) (dmin : ℝ) (chunk : ℕ) (dirs : List Vec) (absorption : Bool) :
    Except Err (List (List (List ℝ))) :=
  (diffs c dmin).bind fun ds => (beams c dmin).bind fun gs =>
    let w := normWeights mc
    kVs.zipIdx.mapM fun p =>
      if chunk = 0 then .error .valueError
      else if dirs = [] then .ok []
      else if absorption = false then .error .runtimeError
      else (broadcastUp (kVs.map fun v => upmod0 sf c v absorption) gs.length).bind fun up =>
        match w[p.2]? with
        | none => .error .indexError
        | some row =>
          let lam := mlambda sf c p.1
          chunkLoop c.sites.length chunk (dirs.map (waveVector c.l lam))
            (column c gs (ucgDiff mem sf c dmin p.1 absorption gs ds) up lam (row.take (min (depthCutoff row) 100)))

end Verif.Diff
