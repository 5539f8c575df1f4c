import Verif.Model.Binning
import Verif.Model.Utils
import Verif.Model.Clahe
import Verif.Model.Nlpar
/-!
Model of the cleaning methods of /repo/ebsdtorch/ebsd/experiment_pats.py `ExperimentPatterns` and of the tensors they share: the
object keeps a *view* of the tensor given to its constructor, some methods write into it (`-=`, `/=`), others assign a new tensor.
Simplifications: all tensors are contiguous float tensors with `n` patterns of `h` by `w` pixels and hold real numbers; a step that
would store NaN is outside the model (`none`).
-/
namespace Verif.Clean
open Blur Clahe Nlpar

/-- the storage of a tensor of `n` patterns, pixels in row-major order -/
abbrev Stack (n h w : ℕ) := Fin n → Fin (h * w) → ℝ

/-- An `ExperimentPatterns` object: the tensor its attribute `patterns` is a view of, `spatial_shape`, and whether `patterns` is
currently viewed as `(n, h * w)` instead of `(n, h, w)` (experiment_pats.py:268, :283). -/
structure Obj where
  addr : ℕ
  spatial : List ℕ
  flat : Bool

/-- the Python heap: tensors (address = position) and objects (number = position) -/
structure World (n h w : ℕ) where
  heap : List (Stack n h w)
  objs : List Obj

/-- How a call ends: the new world and whether it raised an exception; `none`: outside the model (NaN, or no such object). -/
abbrev Res (n h w : ℕ) := Option (World n h w × Bool)

/-- the next statement runs unless an exception was raised -/
def Res.andThen {n h w : ℕ} (r : Res n h w) (f : World n h w → Res n h w) : Res n h w :=
  r.bind fun q => if q.2 then some q else f q.1

variable {n h w : ℕ}

/-- call a method on object number `o` -/
def withObj (W : World n h w) (o : ℕ) (f : Obj → Stack n h w → Res n h w) : Res n h w :=
  (W.objs[o]?).bind fun ob => (W.heap[ob.addr]?).bind fun x => f ob x

/-- `self.patterns -= ...` and the like: the storage is overwritten. -/
def write (W : World n h w) (a : ℕ) (x : Stack n h w) : World n h w := { W with heap := W.heap.set a x }

/-- `self.patterns = <new tensor>` -/
def assign (W : World n h w) (o : ℕ) (ob : Obj) (x : Stack n h w) : World n h w :=
  ⟨W.heap ++ [x], W.objs.set o { ob with addr := W.heap.length, flat := false }⟩

/-- experiment_pats.py:30-57 `__init__` on a tensor of shape `spatial + (h, w)`; a single pattern `(h, w)` gets the spatial shape
`(1,)`; more than two scan axes: ValueError. -/
def create (W : World n h w) (a : ℕ) (spatial : List ℕ) : Res n h w :=
  if a < W.heap.length ∧ spatial.prod = n then
    if spatial.length = 0 then some (⟨W.heap, W.objs ++ [⟨a, [1], false⟩]⟩, false)
    else if 2 < spatial.length then some (W, true)
    else some (⟨W.heap, W.objs ++ [⟨a, spatial, false⟩]⟩, false)
  else none

/-- experiment_pats.py:223-232 `subtract_overall_background`, in place. -/
noncomputable def subtract (W : World n h w) (o : ℕ) : Res n h w :=
  withObj W o fun ob x => some (write W ob.addr (subtractBackground x), false)

/-- experiment_pats.py:256-283 `normalize_per_pattern`, in place; the attribute is viewed as `(n, h * w)` before the name is
tested and viewed back at the end only.  A constant pattern has standard deviation zero (NaN). -/
noncomputable def normalize (W : World n h w) (o : ℕ) (kind : String) : Res n h w :=
  open Classical in
  withObj W o fun ob x =>
    if kind = "standard" ∧ ∃ k, ∀ i j, x k i = x k j then none
    else match normalizePerPattern kind x with
      | some y => some ({ write W ob.addr y with objs := W.objs.set o { ob with flat := false } }, false)
      | none => some ({ W with objs := W.objs.set o { ob with flat := true } }, true)

/-- one pattern as an image -/
noncomputable def imgOf (x : Fin (h * w) → ℝ) : Img :=
  ⟨h, w, fun i j => if q : i < h ∧ j < w then
    x ⟨i * w + j, by
      have h1 : (i + 1) * w ≤ h * w := Nat.mul_le_mul_right w q.1
      have h2 : (i + 1) * w = i * w + w := by ring
      have := q.2
      omega⟩ else 0⟩

/-- an image as a row of the stack -/
noncomputable def ofImg (y : Img) : Fin (h * w) → ℝ := fun p => y.px (p.val / w) (p.val % w)

/-- experiment_pats.py:234-254 `contrast_enhance_clahe` (on the batch `patterns[:, None]`): one image that is refused (reflection
padding not smaller than the image, grey level outside the bins) makes the call raise; nothing is assigned then.  In the flat view the
image has one row, whose reflection padding is refused unless the grid is 1 (that case is outside the model). -/
noncomputable def enhance (W : World n h w) (o : ℕ) (clip : ℝ) (grid bins : ℕ) : Res n h w :=
  open Classical in
  withObj W o fun ob x =>
    if ob.flat then (if grid = 1 then none else some (W, true))
    else if q : ∀ k, (clahe (imgOf (x k)) clip bins grid grid).isSome then
      some (assign W o ob fun k => ofImg ((clahe (imgOf (x k)) clip bins grid grid).get (q k)), false)
    else some (W, true)

/-- experiment_pats.py:285-295 `standard_clean` (with the default arguments of :236-238). -/
noncomputable def standardClean (W : World n h w) (o : ℕ) : Res n h w :=
  (((subtract W o).andThen fun W => normalize W o "minmax").andThen fun W => enhance W o 40 4 64).andThen fun W =>
    normalize W o "minmax"

/-- `self.patterns.view(self.spatial_shape + self.pattern_shape)` (experiment_pats.py:313): the pattern at scan position `(i, j)`. -/
noncomputable def scanOf (x : Stack n h w) (sh sw : ℕ) : Scan :=
  ⟨sh, sw, h * w, fun i j k => if q : i * sw + j < n ∧ k < h * w then x ⟨i * sw + j, q.1⟩ ⟨k, q.2⟩ else 0⟩

/-- experiment_pats.py:297-316 `do_nlpar` (tolerance 1e-6 and bias 0 are the defaults of nlpar.py:25-26); ValueError unless the scan
has two axes.  `none`: `nlpar` raises or yields NaN. -/
noncomputable def doNlpar (A : OffsetSort) (W : World n h w) (o kRad : ℕ) (coeff : ℝ) : Res n h w :=
  withObj W o fun ob x =>
    match ob.spatial with
    | [sh, sw] => (nlpar A (scanOf x sh sw) kRad coeff 1e-6 0).map fun out =>
        (assign W o ob fun k p => out (k.val / sw) (k.val % sw) p.val, false)
    | _ => some (W, true)

/-- Client operations. -/
inductive Op (n h w : ℕ)
  | alloc (x : Stack n h w)
  | create (a : ℕ) (spatial : List ℕ)
  | subtract (o : ℕ)
  | normalize (o : ℕ) (kind : String)
  | enhance (o : ℕ) (clip : ℝ) (grid bins : ℕ)
  | standardClean (o : ℕ)
  | doNlpar (A : OffsetSort) (o kRad : ℕ) (coeff : ℝ)

/-- one client operation; exceptions are caught by the client -/
noncomputable def step (W : World n h w) : Op n h w → Res n h w
  | .alloc x => some ({ W with heap := W.heap ++ [x] }, false)
  | .create a s => create W a s
  | .subtract o => subtract W o
  | .normalize o k => normalize W o k
  | .enhance o c g b => enhance W o c g b
  | .standardClean o => standardClean W o
  | .doNlpar A o k c => doNlpar A W o k c

/-- a history of client operations from an empty heap -/
noncomputable def run (hist : List (Op n h w)) : Option (World n h w) :=
  hist.foldlM (fun W op => (step W op).map Prod.fst) ⟨[], []⟩

/-- `obj.patterns`: its shape and contents -/
def patterns (W : World n h w) (o : ℕ) : Option (List ℕ × Stack n h w) :=
  (W.objs[o]?).bind fun ob => (W.heap[ob.addr]?).map fun x => (if ob.flat then [n, h * w] else [n, h, w], x)

end Verif.Clean
