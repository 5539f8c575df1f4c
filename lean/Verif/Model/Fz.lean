import Verif.Model.Laue
import Mathlib.Data.List.OfFn
import Mathlib.Algebra.Order.Floor.Defs
import Mathlib.Algebra.Order.Archimedean.Real.Basic
import Mathlib.Analysis.SpecialFunctions.Pow.Real
/-!
Model of /repo/ebsdtorch/s2_and_so3/laue_fz_ori.py and laue_fz_misori.py, one orientation (or one
pair) at a time.  `none` means that the Python code raises.
-/
namespace Verif

/-- `torch.argmax` along one axis: index of the first maximal value (documented tie rule). -/
noncomputable def argmaxFirst (l : List ℝ) : ℕ :=
  open Classical in l.findIdx (fun x => decide (∀ y ∈ l, y ≤ x))

/-- `torch.max(..., dim=-1).values` of a non-empty row; `none` (torch raises) on an empty row. -/
noncomputable def rowMax (l : List ℝ) : Option ℝ := l[argmaxFirst l]?

/-- laue_fz_ori.py:35-81 `ori_to_fz_laue`.  The `reshape(card, 4)` of line 72 raises unless the
table has exactly `get_laue_mult(id) // 2` rows. -/
noncomputable def oriToFz (q : Q) (id : ℤ) : Option Q := do
  let mult ← getLaueMult id
  let G ← laueElements id
  if G.length = mult / 2 then
    let reals := G.map (quProdPosReal q)
    let g ← G[argmaxFirst reals]?
    return quProd q g
  else none

/-- laue_fz_ori.py:84-105 `ori_equiv_laue`. -/
noncomputable def oriEquiv (q : Q) (id : ℤ) : Option (List Q) := do
  let G ← laueElements id
  return G.map (quProd q)

/-- laue_fz_ori.py:108-141 `ori_in_fz_laue_brute`. -/
noncomputable def oriInFzBrute (q : Q) (id : ℤ) : Option Bool := do
  let mult ← getLaueMult id
  let G ← laueElements id
  if G.length = mult / 2 then
    return decide (argmaxFirst (G.map fun g => |quProdPosReal q g|) = 0)
  else none

/-- `torch.max(torch.abs(q[..., 1:]), dim=-1).values` (laue_fz_ori.py:168, :230). -/
noncomputable def maxAbsXyz (q : Q) : ℝ := max (max |q.x| |q.y|) |q.z|

/-- `torch.sum(torch.abs(q[..., 1:]), dim=-1)` (laue_fz_ori.py:169, :173). -/
noncomputable def sumAbsXyz (q : Q) : ℝ := |q.x| + |q.y| + |q.z|

/-- laue_fz_ori.py:144-239 `ori_in_fz_laue`: the closed-form inequalities of each Laue group. -/
noncomputable def oriInFz (q : Q) (id : ℤ) : Option Bool :=
  open Classical in
  if id = 11 then
    some (decide (maxAbsXyz q ≤ q.w * (Real.sqrt 2 - 1) ∧ sumAbsXyz q ≤ q.w))
  else if id = 10 then
    some (decide (sumAbsXyz q ≤ q.w))
  else if id = 9 then
    let xa := |q.x|
    let ya := |q.y|
    let m := if xa > ya then xa else ya
    let n := if xa > ya then ya else xa
    let rot := if m > (2 + Real.sqrt 3) * n then m else (Real.sqrt 3 / 2) * m + 0.5 * n
    some (decide (|q.z| ≤ (2 - Real.sqrt 3) * q.w ∧ rot ≤ q.w))
  else if id = 8 then
    some (decide (|q.z| ≤ (2 - Real.sqrt 3) * q.w))
  else if id = 7 then
    let rot := if |q.x| ≥ |q.y| * Real.sqrt 3 then |q.x|
      else (Real.sqrt 3 / 2) * |q.y| + 0.5 * |q.x|
    some (decide (|q.z| ≤ (1 / Real.sqrt 3) * q.w ∧ rot ≤ q.w))
  else if id = 6 then
    some (decide (|q.z| ≤ (1 / Real.sqrt 3) * q.w))
  else if id = 5 then
    let xa := |q.x|
    let ya := |q.y|
    let m := if xa > ya then xa else ya
    let n := if xa > ya then ya else xa
    let rot := if m > (Real.sqrt 2 + 1) * n then m
      else (1 / Real.sqrt 2) * m + (1 / Real.sqrt 2) * n
    some (decide (|q.z| ≤ (Real.sqrt 2 - 1) * q.w ∧ rot ≤ q.w))
  else if id = 4 then
    some (decide (|q.z| ≤ (Real.sqrt 2 - 1) * q.w))
  else if id = 3 then
    some (decide (maxAbsXyz q ≤ q.w))
  else if id = 2 then
    some (decide (|q.z| ≤ q.w))
  else if id = 1 then
    some true
  else none

/-- laue_fz_ori.py:320-344 `ori_angle_laue`. -/
noncomputable def oriAngle (q1 q2 : Q) (id : ℤ) : Option ℝ := do
  let r ← oriToFz (quProd q1 (quConj q2)) id
  return quAngle (quNormStd r)

/-- laue_fz_misori.py:30-76 `misori_to_fz_laue` (also lines 376-411 of laue_fz_ori.py): the flattened
list of `g2 * (q * g1)` with the group of the *second* id outermost. -/
noncomputable def misoriToFz (q : Q) (id1 id2 : ℤ) : Option Q := do
  let G1 ← laueElements id1
  let G2 ← laueElements id2
  let eqv := G2.flatMap fun g2 => G1.map fun g1 => quProd g2 (quProd q g1)
  eqv[argmaxFirst (eqv.map fun e => |e.w|)]?

/-- laue_fz_ori.py:347-411 `disorientation` (identical to laue_fz_misori.py:82-150). -/
noncomputable def disorientation (q1 q2 : Q) (id1 id2 : ℤ) : Option Q :=
  misoriToFz (quProd q1 (quConj q2)) id1 id2

/-- laue_fz_ori.py:414-469 `disori_angle_laue` (identical to laue_fz_misori.py:153-207). -/
noncomputable def disoriAngle (q1 q2 : Q) (id1 id2 : ℤ) : Option ℝ := do
  let m := quProd q1 (quConj q2)
  let G1 ← laueElements id1
  let G2 ← laueElements id2
  let c ← rowMax (G2.flatMap fun g2 => G1.map fun g1 => quTripleProdPosReal g2 m g1)
  return 2 * Real.arccos c

/-- `l[torch.randperm(n)]`: the list read through a permutation of its positions. -/
def permuted {α : Type} (l : List α) (σ : Equiv.Perm (Fin l.length)) : List α :=
  List.ofFn fun i => l[σ i]

/-- `so3_samples[ori_in_fz_laue(so3_samples, laue_id)]` (laue_fz_ori.py:507). -/
noncomputable def fzFilter (grid : List Q) (id : ℤ) : List Q :=
  grid.filter fun q => oriInFz q id == some true

/-- laue_fz_ori.py:499-503: edge length of the cubochoric grid. -/
noncomputable def sampleEdge (mult : ℕ) (target : ℤ) : ℤ :=
  ⌊((target : ℝ) * 0.5 * mult) ^ ((1 : ℝ) / 3)⌋

/-- laue_fz_ori.py:472-513 `sample_ori_fz_laue`.  `grid` stands for `so3_cubochoric_grid` and `perm`
for the drawn random permutation (`none` when `permute=False`).  Python's `int()` truncation is a
floor here because the argument is non-negative for non-negative targets. -/
noncomputable def sampleOriFz (grid : ℤ → List Q) (id : ℤ) (target : ℤ)
    (perm : (l : List Q) → Option (Equiv.Perm (Fin l.length))) : Option (List Q) := do
  let mult ← getLaueMult id
  if 1 ≤ id ∧ id ≤ 11 then
    let l := fzFilter (grid (sampleEdge mult target)) id
    match perm l with
    | some σ => return permuted l σ
    | none => return l
  else none

end Verif
