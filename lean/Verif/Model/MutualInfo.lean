import Mathlib.Analysis.SpecialFunctions.Log.Base
import Mathlib.Algebra.Order.Floor.Ring
import Mathlib.Algebra.BigOperators.Group.Finset.Basic
/-!
Model of /repo/ebsdtorch/utils/mutual_information.py: `mutual_information`, `binned_nmi`, `batch_binned_nmi`
(`cmif` is in Model/Cmif.lean).  A pixel list is a `List ℝ`.  `none` stands for a raised exception or a NaN result,
as said at each place.
-/
namespace Verif.MI

/-- `.long()` on a finite value: truncation towards zero. -/
noncomputable def trunc (x : ℝ) : ℤ := if 0 ≤ x then ⌊x⌋ else ⌈x⌉

/-- `a.min(dim=-1)`; `none` for an empty row (torch raises). -/
noncomputable def minOf : List ℝ → Option ℝ
  | [] => none
  | x :: xs => some (xs.foldl min x)

/-- `a.max(dim=-1)`. -/
noncomputable def maxOf : List ℝ → Option ℝ
  | [] => none
  | x :: xs => some (xs.foldl max x)

/-- mutual_information.py:38-49: the bin of every pixel of one row.  With `normalize` a constant row gives `0/0 = NaN`,
whose `.long()` is no valid index, so that the later `scatter_` raises: `none`. -/
noncomputable def bins (a : List ℝ) (n : ℕ) (normalize : Bool) : Option (List ℤ) :=
  (minOf a).bind fun mn => (maxOf a).bind fun mx =>
    if normalize then
      if mx = mn then none
      else some (a.map fun v : ℝ => trunc ((v - mn) / (mx - mn) * n * 0.999999))
    else some (a.map fun v : ℝ => trunc (v * n * 0.999999))

/-- `torch.zeros(size).scatter_(0, idx, 1, reduce="add")`: the number of occurrences of each index; raises (`none`) when an
index is out of bounds (mutual_information.py:61-73). -/
def scatterCount (size : ℕ) (idx : List ℤ) : Option (ℕ → ℕ) :=
  if ∀ i ∈ idx, 0 ≤ i ∧ i < size then some fun k => idx.count (k : ℤ) else none

/-- mutual_information.py:51: the joint bin of each pixel pair. -/
def jointBins (ab bb : List ℤ) (n : ℕ) : List ℤ := List.zipWith (fun i j => i * ((n : ℤ) - 1) + j) ab bb

/-- mutual_information.py:75-78: `h / h.sum()`. -/
noncomputable def normalise (size : ℕ) (h : ℕ → ℝ) : ℕ → ℝ := fun k => h k / ∑ l ∈ Finset.range size, h l

/-- mutual_information.py:80-92: entropy with the infinite logarithms replaced by 0 (`Real.log 0 = 0`). -/
noncomputable def entropy (size : ℕ) (p : ℕ → ℝ) : ℝ := -∑ k ∈ Finset.range size, p k * Real.log (p k)

/-- mutual_information.py:15-94 `mutual_information`, one row of each argument.  Rows of different lengths raise
(simplification: a row of length one, which torch would broadcast, is not special-cased). -/
noncomputable def mutualInformation (a b : List ℝ) (n : ℕ) (normalize : Bool) : Option ℝ :=
  if a.length = b.length then
    (bins a n normalize).bind fun ab => (bins b n normalize).bind fun bb =>
      (scatterCount (n * n) (jointBins ab bb n)).bind fun hj =>
        (scatterCount n ab).bind fun ha => (scatterCount n bb).map fun hb =>
          entropy n (normalise n fun k => (ha k : ℝ)) + entropy n (normalise n fun k => (hb k : ℝ))
            - entropy (n * n) (normalise (n * n) fun k => (hj k : ℝ))
  else none

/-- `torch.histc(v, bins, min=0, max=hi)` with `hi > 0`: values outside `[0, hi]` are dropped, `v = hi` goes to the last bin. -/
noncomputable def histc (nb : ℕ) (hi : ℝ) (vals : List ℝ) : ℕ → ℕ := fun k =>
  open Classical in
  (vals.filter fun v => decide (0 ≤ v ∧ v ≤ hi ∧ min ⌊v / hi * nb⌋ ((nb : ℤ) - 1) = (k : ℤ))).length

/-- mutual_information.py:179-184: the joint histogram, `joint_hist[i][j] = hist[i * binsy + j]`. -/
noncomputable def jointHist (x y : List ℝ) (bx byy : ℕ) : ℕ → ℕ → ℕ :=
  let combined := List.zipWith (fun u v : ℝ => ((⌊u * bx⌋ : ℤ) : ℝ) * byy + ((⌊v * byy⌋ : ℤ) : ℝ)) x y
  let hist := histc (bx * byy) ((bx * byy : ℕ) : ℝ) combined
  fun i j => hist (i * byy + j)

/-- mutual_information.py:204-217: `-sum(p[p > 0] * log(p[p > 0]))` over a vector, with `log2` in mode "bits". -/
noncomputable def plogp (bits : Bool) (p : ℝ) : ℝ :=
  if 0 < p then p * (if bits then Real.logb 2 p else Real.log p) else 0

/-- mutual_information.py:192-217: the three entropies (ent_x, ent_y, ent_joint) of an `nx` by `ny` table `t`.  `none` when
the table is empty, where the code computes `0/0 = NaN`. -/
noncomputable def tableEntropies (bits : Bool) (nx ny : ℕ) (t : ℕ → ℕ → ℝ) : Option (ℝ × ℝ × ℝ) :=
  let total := ∑ i ∈ Finset.range nx, ∑ j ∈ Finset.range ny, t i j
  if total = 0 then none
  else
    let p : ℕ → ℕ → ℝ := fun i j => t i j / total
    let mx0 : ℕ → ℝ := fun i => ∑ j ∈ Finset.range ny, p i j
    let my0 : ℕ → ℝ := fun j => ∑ i ∈ Finset.range nx, p i j
    let mx : ℕ → ℝ := fun i => mx0 i / ∑ k ∈ Finset.range nx, mx0 k
    let my : ℕ → ℝ := fun j => my0 j / ∑ k ∈ Finset.range ny, my0 k
    some (-∑ i ∈ Finset.range nx, plogp bits (mx i), -∑ j ∈ Finset.range ny, plogp bits (my j),
      -∑ i ∈ Finset.range nx, ∑ j ∈ Finset.range ny, plogp bits (p i j))

/-- mutual_information.py:186-217: the entropies of the joint histogram, without its first row and column if
`exclude_lowest_bin`. -/
noncomputable def entropies (x y : List ℝ) (bx byy : ℕ) (bits exclude : Bool) : Option (ℝ × ℝ × ℝ) :=
  let h := jointHist x y bx byy
  if exclude then tableEntropies bits (bx - 1) (byy - 1) fun i j => (h (i + 1) (j + 1) : ℝ)
  else tableEntropies bits bx byy fun i j => (h i j : ℝ)

/-- The normalisation modes (mutual_information.py:222-243). -/
inductive Norm
  | none | kvalsethSum | kvalsethMin | kvalsethMax | yao | strehlGhosh | logarithmic

/-- mutual_information.py:219-243.  A zero denominator gives NaN or an infinity in the code: `none`. -/
noncomputable def applyNorm (m : Norm) (ex ey ej : ℝ) : Option ℝ :=
  let mi := ex + ey - ej
  let over := fun (num d : ℝ) => if d = 0 then Option.none else some (num / d)
  match m with
  | .none => some mi
  | .kvalsethSum => over (2 * mi) (ex + ey)
  | .kvalsethMin => over mi (min ex ey)
  | .kvalsethMax => over mi (max ex ey)
  | .yao => over mi ej
  | .strehlGhosh => over mi (Real.sqrt (ex * ey))
  | .logarithmic =>
    open Classical in
    over mi (if |ex - ey| < 1e-6 then ey else (ex - ey) / (Real.log ex - Real.log ey))

/-- mutual_information.py:149-244 `binned_nmi` (images flattened); images of different sizes or no bins raise.
Simplification: torch would broadcast an image of one pixel. -/
noncomputable def binnedNmi (x y : List ℝ) (bx byy : ℕ) (bits : Bool) (m : Norm) (exclude : Bool) : Option ℝ :=
  if x.length = y.length ∧ 0 < bx ∧ 0 < byy then
    (entropies x y bx byy bits exclude).bind fun e => applyNorm m e.1 e.2.1 e.2.2
  else none

/-- mutual_information.py:247-300 `batch_binned_nmi`: `none` is the `ValueError`; each entry of the result is the value for
one pair of images (`none` = NaN). An error raised inside one entry is recorded as that entry (simplification). -/
noncomputable def batchBinnedNmi (x y : List (List ℝ)) (bx byy : ℕ) (bits : Bool) (m : Norm) (exclude : Bool) :
    Option (List (Option ℝ)) :=
  let nx := x.length
  let ny := y.length
  if nx ≠ ny ∧ ¬ (nx = 1 ∨ ny = 1) then none
  else
    let batch := if nx ≠ ny then max nx ny else nx
    some ((List.range batch).map fun i =>
      let xi := if nx = 1 then x.flatten else x.getD i []
      let yi := if ny = 1 then y.flatten else y.getD i []
      binnedNmi xi yi bx byy bits m exclude)

end Verif.MI
