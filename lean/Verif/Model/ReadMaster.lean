import Verif.Model.Utils
import Mathlib.Algebra.BigOperators.Fin
import Mathlib.Algebra.BigOperators.Intervals
import Mathlib.Data.Real.Basic
/-!
Model of /repo/ebsdtorch/io/read_master_pattern.py and of the constructor of `MasterPattern`.
-/
namespace Verif.ReadMp

/-- a numpy array: shape and entries (multi-index as a list) -/
structure Arr where
  shape : List ℕ
  get : List ℕ → ℝ

/-- `squeeze()`: the axes of length one are dropped; `unsq` puts the index 0 back. -/
def unsq : List ℕ → List ℕ → List ℕ
  | [], _ => []
  | 1 :: s, ix => 0 :: unsq s ix
  | _ :: s, i :: ix => i :: unsq s ix
  | _ :: s, [] => 0 :: unsq s []

/-- read_master_pattern.py:25-30 `.squeeze()` -/
def squeeze (a : Arr) : Arr := ⟨a.shape.filter (· ≠ 1), fun ix => a.get (unsq a.shape ix)⟩

/-- read_master_pattern.py:36-38: the counts `accum_e` (`eh × ew × ne`) summed over the projection and divided by their total. -/
noncomputable def pdf (eh ew ne : ℕ) (accum : ℕ → ℕ → ℕ → ℝ) (e : ℕ) : ℝ :=
  (∑ i ∈ Finset.range eh, ∑ j ∈ Finset.range ew, accum i j e) /
    ∑ k ∈ Finset.range ne, ∑ i ∈ Finset.range eh, ∑ j ∈ Finset.range ew, accum i j k

/-- read_master_pattern.py:41-42 `(pdf[:, None, None] * x).sum(axis=0)` with numpy's broadcasting of `(ne, 1, 1)` against the shape of
`x`; `none`: shapes that do not fit (ValueError) or patterns of fewer than two axes, which are outside the model. -/
noncomputable def weighted (ne : ℕ) (p : ℕ → ℝ) (x : Arr) : Option Arr :=
  match x.shape with
  | [h, w] => some ⟨[h, w], fun ix => ∑ e ∈ Finset.range ne, p e * x.get ix⟩
  | [k, h, w] =>
    if k = ne then some ⟨[h, w], fun ix => ∑ e ∈ Finset.range ne, p e * x.get (e :: ix)⟩
    else if ne = 1 then some ⟨[h, w], fun ix => ∑ e ∈ Finset.range k, p 0 * x.get (e :: ix)⟩
    else none
  | [a, k, h, w] =>
    if k = ne then some ⟨[k, h, w], fun ix => ∑ s ∈ Finset.range a, p (ix.headD 0) * x.get (s :: ix)⟩
    else if ne = 1 then some ⟨[k, h, w], fun ix => ∑ s ∈ Finset.range a, p 0 * x.get (s :: ix)⟩
    else none
  | _ => none

/-- read_master_pattern.py:46 `np.concatenate([x, y], axis=-1)`: all other axes must agree. -/
noncomputable def concat (x y : Arr) : Option Arr :=
  if x.shape.dropLast = y.shape.dropLast ∧ x.shape ≠ [] ∧ y.shape ≠ [] then
    some ⟨x.shape.dropLast ++ [x.shape.getLastD 0 + y.shape.getLastD 0], fun ix =>
      if ix.getLastD 0 < x.shape.getLastD 0 then x.get ix else y.get (ix.dropLast ++ [ix.getLastD 0 - x.shape.getLastD 0])⟩
  else none

/-- the first argument of `MasterPattern` -/
inductive MpArg
  | one (x : Arr)
  | pair (north south : Arr)

/-- The object: pattern and Laue group. -/
structure Mp where
  pattern : Arr
  laue : ℤ

/-- master_pattern.py:67-74: a pair of hemispheres is concatenated. -/
noncomputable def arrOf : MpArg → Option Arr
  | .one x => some x
  | .pair n s => if n.shape.length ≠ 2 ∨ s.shape.length ≠ 2 then none else concat n s

/-- master_pattern.py:40-93 `MasterPattern.__init__`; `none`: an exception (no group, more than one, not two-dimensional, unknown group). -/
noncomputable def init (m : MpArg) (laue : Option ℤ) (pg : Option String) (sg : Option ℤ) : Option Mp :=
  if laue = none ∧ pg = none ∧ sg = none then none
  else if (laue ≠ none ∧ pg ≠ none) ∨ (laue ≠ none ∧ sg ≠ none) ∨ (pg ≠ none ∧ sg ≠ none) then none
  else
    (arrOf m).bind fun x =>
      if x.shape.length ≠ 2 then none
      else match laue, pg, sg with
        | some l, _, _ => some ⟨x, l⟩
        | none, some p, _ => (pointGroupToLaue p).map fun l : ℕ => ⟨x, (l : ℤ)⟩
        | none, none, some s => (spaceGroupToLaue s).map fun l : ℕ => ⟨x, (l : ℤ)⟩
        | none, none, none => none

/-- read_master_pattern.py:7-53 `read_master_pattern`, from the contents of the file: counts, northern and southern patterns
(`n_sites × n_energies × h × w`) and space group. -/
noncomputable def readMaster (eh ew ne : ℕ) (accum : ℕ → ℕ → ℕ → ℝ) (north south : Arr) (sg : ℤ) : Option Mp :=
  (weighted ne (pdf eh ew ne accum) (squeeze north)).bind fun n =>
    (weighted ne (pdf eh ew ne accum) (squeeze south)).bind fun s =>
      (concat n s).bind fun m => init (.one m) none none (some sg)

end Verif.ReadMp
