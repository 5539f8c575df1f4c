import Verif.Model.Experiment
/-! "The last value written": specification of a per-pattern attribute store. -/
namespace Verif.Spec

/-- The tensors created during a history, in order, as they were created. -/
def allocs {α : Type} (hist : List (Op α)) : List (List α) :=
  hist.filterMap fun | .alloc t => some t | _ => none

/-- The tensor created by the `a`-th `alloc` of a history, as it was created. -/
def allocated {α : Type} (hist : List (Op α)) (a : ℕ) : Option (List α) :=
  (allocs hist)[a]?

/-- Value most recently written to pattern `i` of object `o` by a history given *latest call first*;
`n` is the number of patterns of `o`.  `all` resolves the tensors handed to `set_*`. -/
def lastWrite {α : Type} (all : ℕ → Option (List α)) (n o i : ℕ) : List (Op α) → Option α
  | [] => none
  | .alloc _ :: earlier => lastWrite all n o i earlier
  | .setAll o' a :: earlier =>
    if o' = o then (all a).bind (·[i]?) else lastWrite all n o i earlier
  | .setAt o' idx vals _ :: earlier =>
    if o' = o then
      match (idx.zip vals).find? (fun iv => iv.1 = (i : ℤ) ∨ iv.1 + n = (i : ℤ)) with
      | some iv => some iv.2
      | none => lastWrite all n o i earlier
    else lastWrite all n o i earlier

/-- The addresses of the tensors handed to a `set_*` call without indices. -/
def handed {α : Type} (hist : List (Op α)) : List ℕ :=
  hist.filterMap fun | .setAll _ a => some a | _ => none

/-- No index assignment addresses the same pattern twice. -/
def NoDuplicateIndex {α : Type} (n : ℕ → ℕ) (hist : List (Op α)) : Prop :=
  ∀ o idx vals s, Op.setAt o idx vals s ∈ hist → (idx.map fun i => i % (n o : ℤ)).Nodup

end Verif.Spec
