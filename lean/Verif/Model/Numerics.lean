import Mathlib.Analysis.SpecialFunctions.Pow.Real
import Mathlib.Algebra.BigOperators.Intervals
/-!
Model of the one-dimensional numerical helpers: `simpson_composite`
(/repo/ebsdtorch/crystallography/scattering_factors/scattering_factors_LVD_TCB.py) and the two interpolators of
/repo/ebsdtorch/crystallography/ebsd_mc.py.  Tensors with batch dimensions are modelled one row at a time; real arithmetic.
-/
namespace Verif.Numerics

/-- Python exceptions that can occur. -/
inductive Err | valueError | indexError
  deriving DecidableEq

/-- Entry `i` of a tensor (only used within bounds). -/
def at' (l : List ℝ) (i : ℕ) : ℝ := l.getD i 0

/-- `h_all = x[1:] - x[:-1]` (scattering_factors_LVD_TCB.py:247). -/
def gap (x : List ℝ) (i : ℕ) : ℝ := at' x (i + 1) - at' x i

/-- Lines 257-270: the contribution of the intervals `2j` and `2j+1`. -/
noncomputable def simpsonPair (y x : List ℝ) (j : ℕ) : ℝ :=
  let he := gap x (2 * j)
  let ho := gap x (2 * j + 1)
  ((he + ho) / 6) *
    (at' y (2 * j) * (2 - ho / he) + at' y (2 * j + 1) * ((he + ho) ^ 2 / (he * ho))
      + at' y (2 * j + 2) * (2 - he / ho))

/-- scattering_factors_LVD_TCB.py:226-281 `simpson_composite`.  The number of intervals is `len(h_all) = len(x) - 1`
(zero for an empty `x`).  With one interval `h_all[-2]` raises. -/
noncomputable def simpson (y x : List ℝ) : Except Err ℝ :=
  if y.length ≠ x.length then .error .valueError
  else
    let n := x.length - 1
    let totals := ∑ j ∈ Finset.range (n / 2), simpsonPair y x j
    if n % 2 = 1 then
      if n = 1 then .error .indexError
      else
        let h1 := gap x (n - 1)
        let h2 := gap x (n - 2)
        let alpha := (2 * h1 ^ 2 + 3 * h1 * h2) / (6 * (h2 + h1))
        let beta := (h1 ^ 2 + 3 * h1 * h2) / (6 * h2)
        let eta := h1 ^ 3 / (6 * h2 * (h2 + h1))
        .ok (totals + (alpha * at' y n + beta * at' y (n - 1) - eta * at' y (n - 2)))
    else .ok totals

/-- `torch.searchsorted(xp, x, right=False)` on a sorted row: the number of entries below `x`. -/
noncomputable def searchsorted (xp : List ℝ) (x : ℝ) : ℕ := xp.countP fun t => decide (t < x)

/-- The slope and offset of segment `i` (ebsd_mc.py:404-405). -/
noncomputable def slope (xp fp : List ℝ) (i : ℕ) : ℝ := (at' fp (i + 1) - at' fp i) / (at' xp (i + 1) - at' xp i)
@[inherit_doc slope]
noncomputable def offset (xp fp : List ℝ) (i : ℕ) : ℝ := at' fp i - slope xp fp i * at' xp i

/-- ebsd_mc.py:378-424 `_interp` for one query point; `xp` and `fp` of equal length at least two.  `mode` is the `extrapolate`
argument: anything other than "error" and "const" means linear extrapolation. -/
noncomputable def interp (x : ℝ) (xp fp : List ℝ) (mode : String) : Except Err ℝ :=
  let n := xp.length
  let i := searchsorted xp x
  if mode = "error" then
    if i ≥ n - 1 then .error .valueError
    else .ok (slope xp fp i * x + offset xp fp i)
  else if mode = "const" then
    let m := if i = 0 then 0 else if i = n then 0 else slope xp fp (i - 1)
    let b := if i = 0 then at' fp 0 else if i = n then at' fp (n - 1) else offset xp fp (i - 1)
    .ok (m * x + b)
  else
    let k := min (i - 1) (n - 2)
    .ok (slope xp fp k * x + offset xp fp k)

/-- ebsd_mc.py:426-480 `_interpquad` for one query point; `xp` and `fp` of equal length at least three. -/
noncomputable def interpquad (x : ℝ) (xp fp : List ℝ) (mode : String) : ℝ :=
  let n := xp.length
  let i := min (max (searchsorted xp x) 1) (n - 2)
  let x0 := at' xp (i - 1)
  let x1 := at' xp i
  let x2 := at' xp (i + 1)
  let l0 := ((x - x1) * (x - x2)) / ((x0 - x1) * (x0 - x2))
  let l1 := ((x - x0) * (x - x2)) / ((x1 - x0) * (x1 - x2))
  let l2 := ((x - x0) * (x - x1)) / ((x2 - x0) * (x2 - x1))
  let v := at' fp (i - 1) * l0 + at' fp i * l1 + at' fp (i + 1) * l2
  if mode = "const" then
    let v := if x < at' xp 0 then at' fp 0 else v
    if x > at' xp (n - 1) then at' fp (n - 1) else v
  else v

end Verif.Numerics
