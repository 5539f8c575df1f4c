import Mathlib.Data.Real.Basic
import Mathlib.Data.List.Basic
import Mathlib.Analysis.Real.Sqrt
import Mathlib.Order.ConditionallyCompleteLattice.Finset
import Mathlib.Algebra.BigOperators.Field
/-!
Models of small utilities: /repo/ebsdtorch/utils/progressbar.py, utils/symmetry_classes.py,
preprocessing/radial_mask.py, and `normalize_per_pattern` of ebsd/experiment_pats.py.
-/
namespace Verif

/-- Observable events of the generator `progressbar` (utils/progressbar.py:12-59). -/
inductive PbEvent (α : Type)
  /-- `yield item` -/
  | item (a : α)
  /-- the line printed after the `j`-th of `count` items: `x` full and `dots` empty cells, to the stream `out` -/
  | bar (j count x dots : ℕ)
  /-- the final `print("\n")`, which goes to the standard output whatever `out` is -/
  | newline

/-- The loop body of progressbar.py:29-58 for items `i, i+1, …`. `int(size * j / count)` is a floor.
Simplification: elapsed and remaining times are not part of the event. -/
def pbLoop {α : Type} (size count : ℕ) : ℕ → List α → List (PbEvent α)
  | _, [] => []
  | i, a :: rest =>
    let j := i + 1
    let x := size * j / count
    .item a :: .bar j count x (size - x) :: pbLoop size count j rest

/-- progressbar.py:12-59. `lenIt` is `len(it)`: `none` is the `TypeError` of an iterable without a length. -/
def progressbar {α : Type} (size : ℕ) (lenIt : Option ℕ) (it : List α) : Option (List (PbEvent α)) :=
  lenIt.map fun count => pbLoop size count 0 it ++ [.newline]

/-- utils/symmetry_classes.py:5-30 `space_group_to_laue`; `none` is `ValueError`. -/
def spaceGroupToLaue (sg : ℤ) : Option ℕ :=
  if sg < 1 ∨ sg > 230 then none
  else some <|
    if sg > 206 then 11
    else if sg > 193 then 10
    else if sg > 176 then 9
    else if sg > 167 then 8
    else if sg > 155 then 7
    else if sg > 142 then 6
    else if sg > 88 then 5
    else if sg > 74 then 4
    else if sg > 15 then 3
    else if sg > 2 then 2
    else 1

/-- utils/symmetry_classes.py:34-64 `point_group_to_laue`; `none` is `ValueError`. -/
def pointGroupToLaue (pg : String) : Option ℕ :=
  if pg ∈ ["m3-m", "4-3m", "432"] then some 11
  else if pg ∈ ["m3-", "23"] then some 10
  else if pg ∈ ["6/mmm", "6-m2", "6mm", "622"] then some 9
  else if pg ∈ ["6/m", "6-", "6"] then some 8
  else if pg ∈ ["3-m", "3m", "32"] then some 7
  else if pg ∈ ["3-", "3"] then some 6
  else if pg ∈ ["4/mmm", "4-2m", "4mm", "422"] then some 5
  else if pg ∈ ["4/m", "4-", "4"] then some 4
  else if pg ∈ ["mmm", "mm2", "222"] then some 3
  else if pg ∈ ["2/m", "m", "2"] then some 2
  else if pg ∈ ["1-", "1"] then some 1
  else none

/-- preprocessing/radial_mask.py:6-40 `get_radial_mask` at pixel `(i, j)`. -/
noncomputable def radialMask (h w : ℕ) (radius : Option ℝ) (ci cj : ℝ) (i : Fin h) (j : Fin w) : Prop :=
  let r : ℝ := radius.getD ((min h w : ℕ) / 2)
  ((i.val : ℝ) - ci * ((h : ℝ) - 1)) ^ 2 + ((j.val : ℝ) - cj * ((w : ℝ) - 1)) ^ 2 < r ^ 2

/-- The three normalisations of ebsd/experiment_pats.py:256-283 `normalize_per_pattern` on one pattern of
`p` pixels. -/
noncomputable def patMinmax {p : ℕ} (x : Fin p → ℝ) : Fin p → ℝ :=
  fun i => (x i - ⨅ k, x k) / (1e-4 + (⨆ k, x k) - ⨅ k, x k)
/-- experiment_pats.py:274-275. -/
noncomputable def patZeromean {p : ℕ} (x : Fin p → ℝ) : Fin p → ℝ := fun i => x i - (∑ k, x k) / p
/-- `torch.std` (unbiased) along the pixels. -/
noncomputable def patStd {p : ℕ} (x : Fin p → ℝ) : ℝ :=
  Real.sqrt ((∑ k, (x k - (∑ l, x l) / p) ^ 2) / ((p : ℝ) - 1))
/-- experiment_pats.py:276-278. -/
noncomputable def patStandard {p : ℕ} (x : Fin p → ℝ) : Fin p → ℝ :=
  fun i => patZeromean x i / patStd (patZeromean x)

/-- experiment_pats.py:256-283 `normalize_per_pattern` on all patterns; `none` is `ValueError` (unknown method). -/
noncomputable def normalizePerPattern {n p : ℕ} (kind : String) (pats : Fin n → Fin p → ℝ) :
    Option (Fin n → Fin p → ℝ) :=
  if kind = "minmax" then some fun k => patMinmax (pats k)
  else if kind = "zeromean" then some fun k => patZeromean (pats k)
  else if kind = "standard" then some fun k => patStandard (pats k)
  else none

end Verif
