import Verif.Model.MonteCarlo
import Mathlib.Data.BitVec
/-!
Model of the OpenCL kernel `bse_sim_mc` of /repo/ebsdtorch/crystallography/ebsd_mc.py (the string `EBSD_MC_KERNEL`, lines 18-191) and of
the host code that launches it (lines 194-247).  The generator works on 32-bit words exactly as in the kernel; the physics is in real
arithmetic instead of float32, and `int` indices do not overflow.
-/
namespace Verif.Mck
open Verif

/-- `#define PI 3.14159265359f` (ebsd_mc.py:19). -/
noncomputable def kPi : ℝ := 3.14159265359

/-- ebsd_mc.py:26-36 `rosca_lambert` of the kernel. -/
noncomputable def kLambert (p : V) : ℝ × ℝ :=
  let factor := Real.sqrt (max (2 * (1 - |p.z|)) 0)
  open Classical in
  let big := if |p.y| ≤ |p.x| then p.x else p.y
  open Classical in
  let sml := if |p.y| ≤ |p.x| then p.y else p.x
  let s : ℝ := if big < 0 then -1 else 1
  let simpler := s * factor * (2 / Real.sqrt 8)
  let arctanTerm := s * factor * atan2 (sml * s) |big| * (2 * Real.sqrt 2 / kPi)
  open Classical in
  (if |p.y| ≤ |p.x| then simpler else arctanTerm, if |p.y| ≤ |p.x| then arctanTerm else simpler)

/-- A `uint4` of generator state (ebsd_mc.py:38). -/
@[ext] structure Seed where
  x : BitVec 32
  y : BitVec 32
  z : BitVec 32
  w : BitVec 32
deriving DecidableEq

/-- ebsd_mc.py:38-49 `lfsr113_Bits`. -/
def lfsr (s : Seed) : Seed :=
  ⟨((s.x &&& 4294967294#32) <<< 18) ^^^ (((s.x <<< 6) ^^^ s.x) >>> 13),
   ((s.y &&& 4294967288#32) <<< 2) ^^^ (((s.y <<< 2) ^^^ s.y) >>> 27),
   ((s.z &&& 4294967280#32) <<< 7) ^^^ (((s.z <<< 13) ^^^ s.z) >>> 21),
   ((s.w &&& 4294967168#32) <<< 13) ^^^ (((s.w <<< 3) ^^^ s.w) >>> 12)⟩

/-- `seed.x ^ seed.y ^ seed.z ^ seed.w` (ebsd_mc.py:106, :112, :116). -/
def Seed.word (s : Seed) : BitVec 32 := s.x ^^^ s.y ^^^ s.z ^^^ s.w

/-- ebsd_mc.py:82, :106: the word times `rand_factor`.  The literal `2.32830643708079737543146996187e-10f` is the float32 number `2^-32`. -/
noncomputable def Seed.rand (s : Seed) : ℝ := (s.word.toNat : ℝ) / 2 ^ 32

/-- The scalar arguments of the kernel (ebsd_mc.py:51-68); `logDepth` is `depth_mode ≠ 0`. -/
structure KParams where
  trials : ℕ
  startE : ℝ
  nEnergy : ℕ
  nDir : ℕ
  nDepth : ℕ
  binE : ℝ
  binDepth : ℝ
  atomNum : ℝ
  rho : ℝ
  weightA : ℝ
  maxSteps : ℕ
  sigma : ℝ
  omega : ℝ
  logDepth : Bool

/-- One electron inside the sample: `current_direction` (its `w` component is `depth`) and `energy` (ebsd_mc.py:87-95). -/
@[ext] structure KState where
  dir : V
  depth : ℝ
  energy : ℝ

/-- ebsd_mc.py:71-72, :87-95: the start of a trial. -/
noncomputable def kStart (p : KParams) : KState :=
  let s := p.sigma * kPi / 180
  let o := p.omega * kPi / 180
  ⟨vnormalize ⟨Real.sin s * Real.cos o, Real.sin s * Real.sin o, Real.cos s⟩, 0, p.startE⟩

/-- ebsd_mc.py:73: mean ionisation potential. -/
noncomputable def kMip (p : KParams) : ℝ := ((9.76 * p.atomNum) + (58.5 * p.atomNum ^ (-0.19 : ℝ))) * 1.0e-3

/-- ebsd_mc.py:78, :98-99: `alpha`. -/
noncomputable def kAlpha (p : KParams) (energy : ℝ) : ℝ := 3.4e-3 * p.atomNum ^ (0.66667 : ℝ) * (1 / energy)

/-- ebsd_mc.py:77, :79, :100-103: the mean free path in nm. -/
noncomputable def kMfp (p : KParams) (energy : ℝ) : ℝ :=
  let alpha := kAlpha p energy
  let sigmaE := 5.21 * 602.2 * p.atomNum ^ (2.0 : ℝ) * (1 / energy) * (1 / energy) * (4 * kPi / (alpha * (1 + alpha)))
    * (((511 + energy) / (1024 + energy)) * ((511 + energy) / (1024 + energy)))
  1.0e7 * p.weightA / p.rho / sigmaE

/-- ebsd_mc.py:107: the step length in nm. -/
noncomputable def kStepNm (p : KParams) (energy u : ℝ) : ℝ := -kMfp p energy * Real.log u

/-- ebsd_mc.py:76, :109: energy loss per length. -/
noncomputable def kDeDs (p : KParams) (energy : ℝ) : ℝ :=
  -0.00785 * (p.atomNum / p.weightA) * (1 / energy) * Real.log ((1.166 * energy / kMip p) + 0.9911)

/-- ebsd_mc.py:113: the polar scattering angle. -/
noncomputable def kPhi (alpha u : ℝ) : ℝ := Real.arccos (1 - ((2 * alpha * u) / (1 + alpha - u)))

/-- ebsd_mc.py:119-144: the new direction before renormalisation. -/
noncomputable def kScatter (c : V) (phi psi : ℝ) : V :=
  open Classical in
  if |c.z| > 0.99999 then
    ⟨Real.sin phi * Real.cos psi, Real.sin phi * Real.sin psi, (if c.z > 0 then 1 else -1) * Real.cos phi⟩
  else
    let dsq := Real.sqrt (1 - c.z * c.z)
    let dsqi := 1 / dsq
    ⟨Real.sin phi * (c.x * c.z * Real.cos psi - c.y * Real.sin psi) * dsqi + c.x * Real.cos phi,
     Real.sin phi * (c.y * c.z * Real.cos psi + c.x * Real.sin psi) * dsqi + c.y * Real.cos phi,
     -Real.sin phi * Real.cos psi * dsq + c.z * Real.cos phi⟩

/-- ebsd_mc.py:98-152: one scattering event with polar angle `phi`, azimuth `psi` and step length `step`: escape depth and new state. -/
noncomputable def kMoveWith (p : KParams) (st : KState) (step phi psi : ℝ) : ℝ × KState :=
  let dir := vnormalize (kScatter st.dir phi psi)
  (|st.depth / dir.z|, ⟨dir, st.depth + step * dir.z, st.energy + step * p.rho * kDeDs p st.energy⟩)

/-- ebsd_mc.py:98-152 with the three random numbers `u1`, `u2`, `u3`. -/
noncomputable def kMove (p : KParams) (st : KState) (u1 u2 u3 : ℝ) : ℝ × KState :=
  kMoveWith p st (kStepNm p st.energy u1) (kPhi (kAlpha p st.energy) u2) (2 * kPi * u3)

/-- Energy, depth and two direction indices. -/
abbrev KBin := ℤ × ℤ × ℤ × ℤ

/-- ebsd_mc.py:160-171: the four indices of an escaping electron. `(int)` truncates towards zero. -/
noncomputable def kBin (p : KParams) (escape : ℝ) (st : KState) : KBin :=
  let l := kLambert st.dir
  (truncInt ((p.startE - st.energy) * (1 / p.binE)),
   if p.logDepth then truncInt (Real.log (escape + 1) / p.binDepth) else truncInt (escape / p.binDepth),
   truncInt ((l.1 * 0.499999 + 0.5) * p.nDir), truncInt ((l.2 * 0.499999 + 0.5) * p.nDir))

/-- ebsd_mc.py:173-176: the bounds check. -/
def kValid (p : KParams) (b : KBin) : Prop :=
  0 ≤ b.1 ∧ b.1 < p.nEnergy ∧ 0 ≤ b.2.1 ∧ b.2.1 < p.nDepth ∧ 0 ≤ b.2.2.1 ∧ b.2.2.1 < p.nDir ∧ 0 ≤ b.2.2.2 ∧ b.2.2.2 < p.nDir

/-- ebsd_mc.py:177-180: the flat index into the accumulator. -/
def kIndex (p : KParams) (b : KBin) : ℤ :=
  b.1 * (p.nDepth * p.nDir * p.nDir) + b.2.1 * (p.nDir * p.nDir) + b.2.2.1 * p.nDir + b.2.2.2

/-- ebsd_mc.py:97-186: the loop over steps of one trial, with `fuel` steps left.  Returns the flat index that is incremented, if any,
and the generator state.  A zero random number in the step length (line 107: `log(0)`, an infinite step) drives the energy to
minus infinity, so the trial ends without a count; this uses that the stopping power is positive at the present energy. -/
noncomputable def kTrial (p : KParams) : ℕ → KState → Seed → Option ℤ × Seed
  | 0, _, s => (none, s)
  | fuel + 1, st, s =>
    let s1 := lfsr s
    let s2 := lfsr s1
    let s3 := lfsr s2
    let m := kMove p st s1.rand s2.rand s3.rand
    open Classical in
    if s1.word = 0 ∨ m.2.energy ≤ 0 then (none, s3)
    else if m.2.depth < 0 then (if kValid p (kBin p m.1 m.2) then some (kIndex p (kBin p m.1 m.2)) else none, s3)
    else kTrial p fuel m.2 s3

/-- ebsd_mc.py:86-189: the trials of one work item: the indices it increments, in order, and the seed it stores back. -/
noncomputable def kItem (p : KParams) : ℕ → Seed → List ℤ × Seed
  | 0, s => ([], s)
  | n + 1, s =>
    let r := kTrial p p.maxSteps (kStart p) s
    let q := kItem p n r.2
    (r.1.toList ++ q.1, q.2)

/-- `atomic_inc(&accumulator[index])` on a 32-bit word (ebsd_mc.py:181). -/
def atomicInc (acc : ℤ → BitVec 32) (i : ℤ) : ℤ → BitVec 32 := fun j => if j = i then acc j + 1#32 else acc j

/-- The increments of all work items in the order in which the device happens to execute them. -/
inductive Interleaving : List (List ℤ) → List ℤ → Prop
  | nil (ls : List (List ℤ)) (h : ∀ l ∈ ls, l = []) : Interleaving ls []
  | step (pre post : List (List ℤ)) (i : ℤ) (l sched : List ℤ) (h : Interleaving (pre ++ l :: post) sched) :
      Interleaving (pre ++ (i :: l) :: post) (i :: sched)

/-- ebsd_mc.py:195-238, :241-247: a launch on a zeroed accumulator with the seeds `seeds` of the work items; `sched` is the order of the
increments. -/
def kLaunch (sched : List ℤ) : ℤ → BitVec 32 := sched.foldl atomicInc fun _ => 0#32

end Verif.Mck
