import Verif.Model.Master
import Mathlib.Algebra.BigOperators.Fin
/-!
Model of pattern retrieval with binning, background subtraction and the per-phase index lists of
/repo/ebsdtorch/ebsd/experiment_pats.py.
-/
namespace Verif

/-- experiment_pats.py:318-346 `get_patterns`: the selected patterns, binned if `binning > 1`.  `none`: index out of
range.  Simplification: torch also accepts negative indices; here the indices are non-negative. -/
noncomputable def getPatterns (pats : List Image) (idx : List ℕ) (binning : ℕ) : Option (List Image) :=
  idx.mapM fun i => (pats[i]?).map fun img => if binning > 1 then avgPool binning img else img

/-- experiment_pats.py:223-232 `subtract_overall_background` on `n` patterns of `p` pixels. -/
noncomputable def subtractBackground {n p : ℕ} (pats : Fin n → Fin p → ℝ) : Fin n → Fin p → ℝ :=
  fun k i => pats k i - (∑ l, pats l i) / n

/-- experiment_pats.py:348-365 `get_indices_per_phase`: for `i = 0, ..., max` the positions holding phase `i`; `none`:
phases not set, or `max` of an empty tensor (raises).  Simplification: the final `.squeeze()` turns a list with exactly
one position into a 0-dimensional tensor; the positions are the same. -/
def indicesPerPhase (phases : Option (List ℤ)) : Option (List (List ℕ)) :=
  phases.bind fun ph =>
    ph.max?.map fun m => (List.range (m + 1).toNat).map fun i : ℕ =>
      (List.range ph.length).filter fun k => ph[k]? == some (i : ℤ)

/-- Number of axes of the `i`-th returned tensor (experiment_pats.py:362-365): `nonzero(..., as_tuple=False)` has shape
`(c, 1)`, and `squeeze()` drops every axis of length one. -/
def indicesRank (c : ℕ) : ℕ := if c = 1 then 0 else 1

end Verif
