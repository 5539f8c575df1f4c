import Mathlib.Data.Real.Basic
/-!
Model of /repo/ebsdtorch/crystallography/unit_cell.py `Cell`: where its tensors live (device) and in which dtype they
are stored, through the constructor, `to` and `set_fp_dtype`.  The numbers themselves are one real per tensor (the
casts act entrywise); `rnd t x` is the value of `x` after a cast to the floating dtype `t`.
-/
namespace Verif.Place

/-- the tensor attributes of a `Cell` (unit_cell.py:207-380) -/
inductive Attr
  | a | b | c | alpha | beta | gamma | dmt | rmt | dsm | rsm | dsm2 | atomTypes | atomTypesUnique | atomData | apos
  | mults | sgOps | avgNumber | avgWeight | density | vol
  deriving DecidableEq

/-- dtype of a tensor: int64 or a floating dtype -/
inductive DType (F : Type)
  | int64
  | float (f : F)

/-- one tensor -/
structure T (D F : Type) where
  dev : D
  dtype : DType F
  val : ℝ

/-- a `Cell`; `dsm2` is `None` unless the crystal system is trigonal -/
structure Cell (D F : Type) where
  device : D
  tens : Attr → Option (T D F)

/-- unit_cell.py:207-380: the attributes created with `device=device`; `sg_operators` (groups.py:404) takes no device, so
`sg_ops` is on the CPU. -/
def initDev {D : Type} (cpu device : D) : Attr → D
  | .sgOps => cpu
  | _ => device

/-- unit_cell.py:207-380: dtypes after construction (`float64` but for the integer tensors). -/
def initDtype {F : Type} (f64 : F) : Attr → DType F
  | .atomTypes => .int64
  | .atomTypesUnique => .int64
  | .mults => .int64
  | _ => .float f64

/-- unit_cell.py:329-341: `torch.matmul(self.sg_ops, pos)` raises unless both are on one device; then the cell holds the
computed values `v` (`none` only for `dsm2`). -/
def construct {D F : Type} [DecidableEq D] (cpu device : D) (f64 : F) (v : Attr → ℝ) (trigonal : Bool) : Option (Cell D F) :=
  if initDev cpu device .sgOps = initDev cpu device .atomData then
    some ⟨device, fun x =>
      if x = .dsm2 ∧ trigonal = false then none else some ⟨initDev cpu device x, initDtype f64 x, v x⟩⟩
  else none

/-- unit_cell.py:427-454 `to`: nothing when the device is the current one, else every tensor is moved. -/
def Cell.to {D F : Type} [DecidableEq D] (device : D) (c : Cell D F) : Cell D F :=
  if device = c.device then c
  else ⟨device, fun x => (c.tens x).map fun t : T D F => { t with dev := device }⟩

/-- the attributes listed in `set_fp_dtype` (unit_cell.py:458-477): all but the two lists of atomic numbers; `mults` is
listed although it is an integer tensor. -/
def casted : Attr → Bool
  | .atomTypes => false
  | .atomTypesUnique => false
  | _ => true

/-- unit_cell.py:456-478 `set_fp_dtype`. -/
def Cell.setFpDtype {D F : Type} (rnd : F → ℝ → ℝ) (f : F) (c : Cell D F) : Cell D F :=
  ⟨c.device, fun x => (c.tens x).map fun t : T D F =>
    if casted x then { t with dtype := .float f, val := rnd f t.val } else t⟩

/-- a client call -/
inductive Op (D F : Type)
  | move (d : D)
  | setFp (f : F)

/-- unit_cell.py:427-478: one call -/
def Cell.step {D F : Type} [DecidableEq D] (rnd : F → ℝ → ℝ) (c : Cell D F) : Op D F → Cell D F
  | .move d => c.to d
  | .setFp f => c.setFpDtype rnd f

/-- unit_cell.py:427-478: a history of calls -/
def Cell.run {D F : Type} [DecidableEq D] (rnd : F → ℝ → ℝ) (c : Cell D F) (h : List (Op D F)) : Cell D F :=
  h.foldl (Cell.step rnd) c

end Verif.Place
