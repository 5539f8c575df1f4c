import Mathlib.Analysis.SpecialFunctions.Exp
import Mathlib.Analysis.Real.Sqrt
import Mathlib.Algebra.BigOperators.Group.Finset.Basic
import Mathlib.Data.List.Perm.Basic
/-!
Model of /repo/ebsdtorch/preprocessing/nlpar.py `nlpar`.  `none` stands for a raised exception, or for a division by zero whose
NaN or infinity spreads to the result, as said at each place.
-/
namespace Verif.Nlpar

/-- A scan of `h` by `w` patterns of `n` pixels (`h_pat * w_pat`, flattened). -/
structure Scan where
  h : ℕ
  w : ℕ
  n : ℕ
  pat : ℕ → ℕ → ℕ → ℝ

/-- inside the scan -/
def Scan.on (S : Scan) (i j : ℤ) : Bool := decide (0 ≤ i ∧ i < S.h ∧ 0 ≤ j ∧ j < S.w)

/-- nlpar.py:57-62: the zero-padded data (index 0 is the first scan row, not the first padded row). -/
noncomputable def Scan.padded (S : Scan) (i j : ℤ) (k : ℕ) : ℝ := if S.on i j then S.pat i.toNat j.toNat k else 0

/-- nlpar.py:84-91: the `(2 k + 1)²` offsets in row-major order. -/
def offsets (k : ℕ) : List (ℤ × ℤ) :=
  (List.range (2 * k + 1)).flatMap fun a : ℕ => (List.range (2 * k + 1)).map fun b : ℕ => ((a : ℤ) - k, (b : ℤ) - k)

/-- `torch.sum(torch.abs(offset), dim=-1)` -/
def l1 (o : ℤ × ℤ) : ℤ := |o.1| + |o.2|

/-- nlpar.py:93-97 `offset_coords[torch.argsort(l1)]`: some ordering of the offsets by `l1`; torch does not specify the order of
ties. -/
structure OffsetSort where
  run : ℕ → List (ℤ × ℤ)
  perm : ∀ k, (run k).Perm (offsets k)
  sorted : ∀ k, (run k).Pairwise fun a b => l1 a ≤ l1 b

/-- nlpar.py:105-114: sum of squared differences. -/
noncomputable def dist0 (S : Scan) (i j : ℕ) (o : ℤ × ℤ) : ℝ :=
  ∑ k ∈ Finset.range S.n, (S.padded (i + o.1) (j + o.2) k - S.padded i j k) ^ 2

/-- minimum of a non-empty list of distances; `torch.min` of an empty slice raises. -/
noncomputable def minList : List ℝ → Option ℝ
  | [] => none
  | x :: xs => some (xs.foldl min x)

/-- nlpar.py:120-122 `sigma_hat`: from the distances `1:9` in the sorted order. -/
noncomputable def sigmaHat (S : Scan) (O : List (ℤ × ℤ)) (i j : ℕ) : Option ℝ :=
  (minList (((O.drop 1).take 8).map (dist0 S i j))).map fun m => Real.sqrt (m / (2 * S.n))

/-- `sigma_hat` as a table; 0 stands for a missing value (excluded by `nlpar` below). -/
noncomputable def sig (S : Scan) (O : List (ℤ × ℤ)) (i j : ℕ) : ℝ := (sigmaHat S O i j).getD 0

/-- nlpar.py:124-129 `sigma_hat_padded` (padding value 1). -/
noncomputable def sigmaPad (S : Scan) (O : List (ℤ × ℤ)) (i j : ℤ) : ℝ :=
  if S.on i j then sig S O i.toNat j.toNat else 1

/-- the sum of variances that nlpar.py:134-135 divides by -/
noncomputable def var2 (S : Scan) (O : List (ℤ × ℤ)) (i j : ℕ) (o : ℤ × ℤ) : ℝ :=
  sig S O i j ^ 2 + sigmaPad S O (i + o.1) (j + o.2) ^ 2

/-- nlpar.py:131-138: the normalised distance, clamped at 0 and negated. -/
noncomputable def weight0 (S : Scan) (O : List (ℤ × ℤ)) (i j : ℕ) (o : ℤ × ℤ) : ℝ :=
  -max ((dist0 S i j o - S.n * var2 S O i j o) / (Real.sqrt 2 * Real.sqrt S.n * var2 S O i j o)) 0

/-- `torch.mean` over the scan -/
noncomputable def meanScan (S : Scan) (f : ℕ → ℕ → ℝ) : ℝ :=
  (∑ i ∈ Finset.range S.h, ∑ j ∈ Finset.range S.w, f i j) / ((S.h : ℝ) * S.w)

/-- nlpar.py:151-154: the objective at `g`. -/
noncomputable def objective (S : Scan) (nn : ℕ → ℕ → List ℝ) (coeff g : ℝ) : ℝ :=
  meanScan S (fun i j => Real.exp ((nn i j).headD 0 / g ^ 2) / ((nn i j).map fun v => Real.exp (v / g ^ 2)).sum) - coeff

/-- nlpar.py:155-168: the gradient at `g`. -/
noncomputable def gradient (S : Scan) (nn : ℕ → ℕ → List ℝ) (g : ℝ) : ℝ :=
  meanScan S fun i j =>
    let w0 := (nn i j).headD 0
    (-2 : ℝ) * Real.exp (w0 / g ^ 2)
      * (((nn i j).map fun v => w0 * Real.exp (v / g ^ 2)).sum - ((nn i j).map fun v => v * Real.exp (v / g ^ 2)).sum)
      / (g ^ 3 * ((nn i j).map fun v => Real.exp (v / g ^ 2)).sum ^ 2)

/-- nlpar.py:147-171: at most ten Newton steps; `none` when the guess or the gradient is zero (division by zero). -/
noncomputable def newton (S : Scan) (nn : ℕ → ℕ → List ℝ) (coeff tol : ℝ) : ℕ → ℝ → Option ℝ
  | 0, g => some g
  | fuel + 1, g =>
    open Classical in
    if g = 0 ∨ gradient S nn g = 0 then none
    else
      let obj := objective S nn coeff g
      let g' := g - obj / gradient S nn g
      if |obj| < tol then some g' else newton S nn coeff tol fuel g'

/-- nlpar.py:173-178: the logit of offset number `idx`. -/
noncomputable def logit (S : Scan) (O : List (ℤ × ℤ)) (g bias : ℝ) (i j idx : ℕ) : ℝ :=
  weight0 S O i j (O.getD idx (0, 0)) / g ^ 2 + if 0 < bias ∧ idx = 0 then bias else 0

/-- nlpar.py:180-183: `-inf` outside the scan, then softmax over the offsets. -/
noncomputable def softWeight (S : Scan) (O : List (ℤ × ℤ)) (g bias : ℝ) (i j idx : ℕ) : ℝ :=
  let inside := fun l : ℕ => S.on (i + (O.getD l (0, 0)).1) (j + (O.getD l (0, 0)).2)
  let e := fun l : ℕ => if inside l then Real.exp (logit S O g bias i j l) else 0
  e idx / ∑ l ∈ Finset.range O.length, e l

/-- nlpar.py:20-191 `nlpar`: the denoised pixel `k` of the pattern at `(i, j)`. -/
noncomputable def nlpar (A : OffsetSort) (S : Scan) (kRad : ℕ) (coeff tol bias : ℝ) : Option (ℕ → ℕ → ℕ → ℝ) :=
  open Classical in
  let O := A.run kRad
  if (∀ i < S.h, ∀ j < S.w, (sigmaHat S O i j).isSome) ∧ 0 < S.n ∧ 0 < S.h ∧ 0 < S.w ∧
      (∀ i < S.h, ∀ j < S.w, ∀ o ∈ O, var2 S O i j o ≠ 0) then
    (newton S (fun i j => (O.take 9).map (weight0 S O i j)) coeff tol 10 1).bind fun g =>
      if g = 0 then none
      else some fun i j k => ∑ l ∈ Finset.range O.length,
        S.padded (i + (O.getD l (0, 0)).1) (j + (O.getD l (0, 0)).2) k * softWeight S O g bias i j l
  else none

end Verif.Nlpar
