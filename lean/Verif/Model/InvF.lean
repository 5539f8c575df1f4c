import Verif.Model.Experiment
import Mathlib.LinearAlgebra.Matrix.Notation
/-!
Model of the deformation gradients of /repo/ebsdtorch/ebsd/experiment_pats.py (`set_inv_f_matrix`, `get_inv_f_matrix`).
-/
namespace Verif.InvF

/-- a contiguous tensor: its shape and its entries in row-major order -/
structure Tensor where
  shape : List ℕ
  data : List ℝ

/-- a well-formed tensor has as many entries as its shape says -/
def Tensor.ok (t : Tensor) : Prop := t.data.length = t.shape.prod

/-- `shape[-1]` and `shape[-2]`; `none`: IndexError -/
def fromEnd (s : List ℕ) (k : ℕ) : Option ℕ := s.reverse[k - 1]?

/-- experiment_pats.py:180-189: zeros with ones in columns 0, 4 and 8 of each of the `n` rows. -/
def identityRows (n : ℕ) : List ℝ :=
  (List.range n).flatMap fun _ : ℕ => (List.range 9).map fun j : ℕ => if j = 0 ∨ j = 4 ∨ j = 8 then (1 : ℝ) else 0

/-- experiment_pats.py:191-202: the checks of a given tensor and `.view(n, 3, 3)` (raises unless it has 9 n entries);
the result is the flat data.  `shape[-2]` of a one-axis tensor raises. -/
def check (n : ℕ) (t : Tensor) : Option (List ℝ) := do
  let s0 ← t.shape[0]?
  if s0 ≠ n then none
  else
    let s2 ← fromEnd t.shape 2
    let s1 ← fromEnd t.shape 1
    if (s2 ≠ 3 ∨ s1 ≠ 3) ∧ s1 ≠ 9 then none
    else if t.data.length = n * 9 then some t.data else none

/-- experiment_pats.py:167-202 `set_inv_f_matrix`: the new attribute, `none`: raises. -/
def setInvF (n : ℕ) : Option Tensor → Option (List ℝ)
  | none => some (identityRows n)
  | some t => check n t

/-- entry `(r, c)` of matrix `i` of a (n, 3, 3) view -/
def mat (d : List ℝ) (i : ℕ) : Matrix (Fin 3) (Fin 3) ℝ := fun r c => d.getD (9 * i + 3 * r + c) 0

/-- experiment_pats.py:204-221 `get_inv_f_matrix`: `none`: raises (attribute never set, index out of range). -/
def getInvF (n : ℕ) (attr : Option (List ℝ)) (idx : Option (List ℤ)) : Option (List (Matrix (Fin 3) (Fin 3) ℝ)) := do
  let d ← attr
  match idx with
  | none => some ((List.range n).map (mat d))
  | some l => l.mapM fun i : ℤ => (pos n i).map (mat d)

/-- experiment_pats.py:167-221: one object over a history of `set_inv_f_matrix` calls (a call that raises leaves the
attribute as it was); the attribute starts as None (line 57). -/
def history (n : ℕ) (calls : List (Option Tensor)) : Option (List ℝ) :=
  calls.foldl (fun attr c => (setInvF n c).or attr) none

end Verif.InvF
