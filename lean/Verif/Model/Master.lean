import Verif.Model.Factorize
import Verif.Model.Quat
/-!
Model of the state of /repo/ebsdtorch/ebsd/master_pattern.py `MasterPattern`: the pattern, the cached
binned pattern and the cache of factor pairs.  The projection `rosca_lambert_side_by_side` (modelled in
Model/Sphere.lean) and the per-point sampling of `grid_sample` are parameters `proj` and `samp`.
-/
namespace Verif

/-- A 2D tensor, list of rows. -/
abbrev Image := List (List ℝ)

/-- `torch.nn.functional.avg_pool2d(img, b, stride=b)` (master_pattern.py:111-113): block means; incomplete
blocks at the end are dropped. -/
noncomputable def avgPool (b : ℕ) (img : Image) : Image :=
  (List.range (img.length / b)).map fun i =>
    (List.range ((img.headD []).length / b)).map fun j =>
      ((List.range b).map fun di => ((List.range b).map fun dj =>
        (img.getD (b * i + di) []).getD (b * j + dj) 0).sum).sum / ((b : ℝ) * b)

/-- Attributes of `MasterPattern` that change after construction (master_pattern.py:90-92). -/
structure Master where
  pattern : Image
  binned : Option Image
  factorDict : List (ℕ × ℕ × ℕ)

/-- master_pattern.py:40-92 `__init__` (validation of the symmetry arguments: C35/C36). -/
def Master.init (img : Image) : Master := ⟨img, none, []⟩

/-- master_pattern.py:94-113 `bin`; torch raises for kernel size 0. -/
noncomputable def Master.bin (s : Master) (b : ℕ) : Option Master :=
  if b = 0 then none else some { s with binned := some (avgPool b s.pattern) }

/-- master_pattern.py:126-130 in-place minmax normalisation. -/
noncomputable def normMinmax (img : Image) : Image :=
  let lo := (img.flatten).foldl min ((img.flatten).headD 0)
  let hi := (img.flatten).foldl max ((img.flatten).headD 0)
  img.map fun r => r.map fun x => (x - lo) / (1e-4 + hi - lo)

/-- master_pattern.py:131-132 zero-mean normalisation. -/
noncomputable def normZeromean (img : Image) : Image :=
  let m := (img.flatten).sum / (img.flatten).length
  img.map fun r => r.map fun x => x - m

/-- master_pattern.py:115-139 `normalize` and :211-231 `apply_clahe`: both replace the pattern by a
function of it (`normMinmax`, `normZeromean`, standardisation, CLAHE) and touch nothing else. -/
def Master.transform (s : Master) (f : Image → Image) : Master := { s with pattern := f s.pattern }

/-- `t.view(H, W)` of a flat tensor; `none`: torch raises when the sizes do not match. -/
def viewGrid {β : Type} (H W : ℕ) (l : List β) : Option (List (List β)) :=
  if H * W = l.length then some ((List.range H).map fun i => (l.drop (i * W)).take W) else none

/-- master_pattern.py:170-172: fill the binned cache if needed. -/
noncomputable def Master.prepare (s : Master) (vb : ℕ) : Option Master :=
  if vb > 1 ∧ s.binned = none then s.bin vb else some s

/-- master_pattern.py:170-175: the pattern to sample. -/
def Master.chosen (s : Master) (vb : ℕ) : Option Image := if vb > 1 then s.binned else some s.pattern

/-- master_pattern.py:186-193: factor pair of the number of points, through the cache. -/
def Master.factors (s : Master) (rand : ℕ → ℕ) (fuel n : ℕ) : Option (Master × ℕ × ℕ) :=
  match s.factorDict.lookup n with
  | some hw => some (s, hw)
  | none => (nearlySquareFactors rand fuel n).map fun hw =>
      ({ s with factorDict := (n, hw) :: (if s.factorDict.length > 100 then [] else s.factorDict) }, hw)

/-- master_pattern.py:141-209 `interpolate` on a flat list of directions.  Normalisation of the
coordinates (:166-167) is applied by the caller of the model.  `rand`/`fuel` feed
`nearly_square_factors` (`none`: raises or has not returned). -/
noncomputable def Master.interpolate (proj : V → ℝ × ℝ) (samp : Image → ℝ × ℝ → ℝ) (s : Master) (rand : ℕ → ℕ)
    (fuel : ℕ) (coords : List V) (vb : ℕ) : Option (Master × List ℝ) :=
  (s.prepare vb).bind fun s1 =>
  (s1.chosen vb).bind fun img =>
  (s1.factors rand fuel (coords.map proj).length).bind fun r =>
  (viewGrid r.2.1 r.2.2 (coords.map proj)).bind fun grid =>
  let out := (grid.map fun row => row.map (samp img)).flatten
  if out.length = coords.length then some (r.1, out) else none

/-- Public calls on a `MasterPattern`. -/
inductive MpOp
  | bin (b : ℕ)
  | transform (f : Image → Image)
  | interpolate (rand : ℕ → ℕ) (fuel : ℕ) (coords : List V) (vb : ℕ)

/-- Effect of one call on the object. -/
noncomputable def Master.call (proj : V → ℝ × ℝ) (samp : Image → ℝ × ℝ → ℝ) (s : Master) : MpOp → Option Master
  | .bin b => s.bin b
  | .transform f => some (s.transform f)
  | .interpolate rand fuel coords vb => (s.interpolate proj samp rand fuel coords vb).map Prod.fst

/-- A call history. -/
noncomputable def Master.run (proj : V → ℝ × ℝ) (samp : Image → ℝ × ℝ → ℝ) (s : Master) (h : List MpOp) :
    Option Master := h.foldlM (Master.call proj samp) s

end Verif
