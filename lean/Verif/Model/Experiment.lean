import Mathlib.Data.List.Basic
import Mathlib.Data.EReal.Basic
import Mathlib.Data.Real.Basic
import Mathlib.Data.List.Perm.Basic
/-!
Model of the attribute store of /repo/ebsdtorch/ebsd/experiment_pats.py: the per-pattern attributes
`orientations`, `spatial_coords` and `inv_f_matrix` (rows of type `α`), which are kept *by reference*
to the tensor passed in, and `set_raw_indexing_results` / `combine_indexing_results`.
-/
namespace Verif

/-- A Python world: tensors live in a heap (address = position), and for every `ExperimentPatterns`
object `o` the attribute holds `None` or a reference. -/
structure World (α : Type) where
  heap : List (List α)
  obj : ℕ → Option ℕ

/-- The order in which `x[indices] = values` performs its writes is unspecified in torch. -/
structure Sched where
  run : {β : Type} → List β → List β
  perm : ∀ {β : Type} (l : List β), (run l).Perm l

/-- Position addressed by an index of a tensor of length `n` (negative indices count from the end);
`none`: IndexError. -/
def pos (n : ℕ) (i : ℤ) : Option ℕ :=
  if 0 ≤ i ∧ i < n then some i.toNat else if -(n : ℤ) ≤ i ∧ i < 0 then some (i + n).toNat else none

/-- Index assignment `x[indices] = values` (experiment_pats.py:84, :148). -/
def indexPut {α : Type} (sched : Sched) (x : List α) (idx : List ℤ) (vals : List α) : Option (List α) := do
  let ps ← idx.mapM (pos x.length)
  if idx.length = vals.length then
    return (sched.run (ps.zip vals)).foldl (fun t w => t.set w.1 w.2) x
  else none

/-- Client operations: create a tensor; `set_*(tensor)`; `set_*(values, indices)`. -/
inductive Op (α : Type)
  | alloc (t : List α)
  | setAll (o addr : ℕ)
  | setAt (o : ℕ) (idx : List ℤ) (vals : List α) (sched : Sched)

/-- experiment_pats.py:59-84 `set_spatial_coords`, :107-148 `set_orientations`, :167-202
`set_inv_f_matrix` (only the form without indices).  `n o` is `n_patterns` of object `o`.  `none`: the
call raises (wrong number of rows, attribute still `None`, index out of range). -/
def World.step {α : Type} (n : ℕ → ℕ) (w : World α) : Op α → Option (World α)
  | .alloc t => some { w with heap := w.heap ++ [t] }
  | .setAll o addr =>
    match w.heap[addr]? with
    | none => none
    | some t => if t.length = n o then some { w with obj := fun o' => if o' = o then some addr else w.obj o' }
        else none
  | .setAt o idx vals sched =>
    match w.obj o with
    | none => none
    | some addr =>
      match w.heap[addr]? with
      | none => none
      | some t =>
        match indexPut sched t idx vals with
        | none => none
        | some t' => some { w with heap := w.heap.set addr t' }

/-- A history of client operations from an empty world (every attribute `None` or unset, experiment_pats.py:55-57). -/
def World.runOps {α : Type} (n : ℕ → ℕ) (hist : List (Op α)) : Option (World α) :=
  hist.foldlM (World.step n) ⟨[], fun _ => none⟩

/-- experiment_pats.py:86-105 `get_spatial_coords`, :150-165 `get_orientations`, :204-221
`get_inv_f_matrix` with indices; `none`: raises. -/
def World.get {α : Type} (w : World α) (o : ℕ) (idx : List ℤ) : Option (List α) := do
  let addr ← w.obj o
  let t ← w.heap[addr]?
  idx.mapM fun i => do
    let p ← pos t.length i
    t[p]?

/-! ### Indexing results -/

/-- The dict `raw_indexing_results`: phase id, per-pattern list of matches (best first) as
`(orientation, metric)`; insertion order. -/
abbrev RawResults (O : Type) := List (ℕ × List (List (O × EReal)))

/-- experiment_pats.py:367-385 `set_raw_indexing_results`: dict assignment keeps the position of an
existing key. -/
def setRaw {O : Type} (d : RawResults O) (phase : ℕ) (r : List (List (O × EReal))) : RawResults O :=
  if d.any (fun e => e.1 == phase) then d.map fun e => if e.1 == phase then (phase, r) else e
  else d ++ [(phase, r)]

/-- experiment_pats.py:432-439, the loop body for one pattern with one metric per phase:
`(best metric, phase, orientation)`. -/
noncomputable def combineStep {O : Type} (higher : Bool) (best : EReal × ℤ × O) (cand : ℕ × O × EReal) :
    EReal × ℤ × O :=
  if (if higher = true then best.1 < cand.2.2 else cand.2.2 < best.1) then (cand.2.2, (cand.1 : ℤ), cand.2.1)
  else best

/-- experiment_pats.py:399-442: the multi-phase loop for one pattern (what would run if line 418 did not
raise). -/
noncomputable def combineLoop {O : Type} (higher : Bool) (zero : O) (cands : List (ℕ × O × EReal)) :
    EReal × ℤ × O :=
  cands.foldl (combineStep higher) ((if higher = true then ⊥ else ⊤), -1, zero)

/-- experiment_pats.py:387-451 `combine_indexing_results`; result: per pattern `(phase, orientation,
metric)`.  Several phases: `torch.full(self.n_patterns, ...)` on lines 418-419 passes an `int` where a tuple of
sizes is required, so the call raises.  One phase: `raw_indexing_results[0]` raises a KeyError unless the
phase id is 0; `[:, 0]` raises unless every pattern has a match. -/
def combineResults {O : Type} (d : RawResults O) : Option (List (ℕ × O × EReal)) :=
  match d with
  | [] => none
  | [(p, r)] => if p = 0 then r.mapM fun ms => ms.head?.map fun m => (p, m.1, m.2) else none
  | _ :: _ :: _ => none

end Verif
