import Mathlib.Data.EReal.Basic
import Mathlib.Data.List.Sort
import Verif.Model.Knn
/-! Specification of a k-nearest-neighbour answer, independent of the chunked implementation. -/
namespace Verif.Spec

/-- `res` is a correct answer for one query: its positions `idx` are `k` distinct valid positions of
`data`, each reported with its own distance and its position, listed from best to worst, and no
position left out is strictly better than one that is reported.  `big` = larger is better. -/
def IsTopK {α : Type} (big : Bool) (dist : α → ℝ) (data : List α) (k : ℕ)
    (res : List (EReal × ℤ)) : Prop :=
  ∃ idx : List (Fin data.length), idx.length = k ∧ idx.Nodup ∧
    res = idx.map (fun i => ((dist (data.get i) : EReal), ((i : ℕ) : ℤ))) ∧
    idx.Pairwise (fun i j => if big then dist (data.get j) ≤ dist (data.get i)
      else dist (data.get i) ≤ dist (data.get j)) ∧
    ∀ j : Fin data.length, j ∉ idx → ∀ i ∈ idx,
      if big then dist (data.get j) ≤ dist (data.get i) else dist (data.get i) ≤ dist (data.get j)

/-- `res` is an answer for one query up to an error `ε`: `k` distinct valid positions, each reported with a value within `ε`
of its own distance, listed by reported value from best to worst, and no position left out is better than a reported one by
more than `2 ε`. -/
def IsTopKWithin {α : Type} (big : Bool) (dist : α → ℝ) (data : List α) (k : ℕ) (ε : ℝ)
    (res : List (EReal × ℤ)) : Prop :=
  ∃ idx : List (Fin data.length), idx.length = k ∧ idx.Nodup ∧
    res.map Prod.snd = idx.map (fun i : Fin data.length => ((i : ℕ) : ℤ)) ∧
    (∀ e ∈ res, ∀ i : Fin data.length, e.2 = ((i : ℕ) : ℤ) → ∃ x : ℝ, e.1 = (x : EReal) ∧ |x - dist (data.get i)| ≤ ε) ∧
    (res.map Prod.fst).Pairwise (fun a b => if big then b ≤ a else a ≤ b) ∧
    ∀ j : Fin data.length, j ∉ idx → ∀ i ∈ idx,
      if big then dist (data.get j) ≤ dist (data.get i) + 2 * ε else dist (data.get i) ≤ dist (data.get j) + 2 * ε

/-- All distances, best first. -/
noncomputable def sortedDists {α : Type} (big : Bool) (dist : α → ℝ) (data : List α) : List ℝ :=
  if big then (data.map dist).insertionSort (· ≥ ·) else (data.map dist).insertionSort (· ≤ ·)

/-- Which metrics are similarities (larger is better). -/
def specBig : Metric → Bool
  | .angular => true
  | .euclidean => false
  | .manhattan => false

/-- The quantity each metric name stands for: squared Euclidean distance, sum of absolute differences, inner
product. -/
noncomputable def specScore {d : ℕ} : Metric → (Fin d → ℝ) → (Fin d → ℝ) → ℝ
  | .euclidean, q, x => ∑ i, (q i - x i) ^ 2
  | .manhattan, q, x => ∑ i, |q i - x i|
  | .angular, q, x => ∑ i, q i * x i

/-- A pattern minus its mean. -/
noncomputable def centred {d : ℕ} (p : Fin d → ℝ) : Fin d → ℝ := fun i => p i - (∑ j, p j) / d

end Verif.Spec
