import Verif.Model.Sampling
import Verif.Model.Fz
import Verif.Model.Binning
import Verif.Model.Indexing
/-!
Model of `orientation_grid_refinement` and `orientation_grad_refinement` of
/repo/ebsdtorch/ebsd/refining.py.

Simplifications.  Real arithmetic instead of `match_dtype` (float16 by default).  `mp v` is the value that
`MasterPattern.interpolate` returns for the direction `v` (pointwise by C44); `dirs p` are the normalised detector
directions of pattern `p` (refining.py:113-128 and 286-291: the same for every `p` with `average_pattern_center`);
`exps p` is the flattened experimental pattern (C73).  `none`: the call raises or does not return.
-/
namespace Verif.Refine
open Verif Verif.Cubo Verif.Samp

/-- The simulated pattern of orientation `q` (refining.py:191-209). -/
def simPattern {d : ℕ} (mp : V → ℝ) (dirs : Fin d → V) (q : Q) : Fin d → ℝ := fun i => mp (quApply q (dirs i))

/-- refining.py:172 and 211-220: dot product of the two zero-mean patterns. -/
noncomputable def gridScore {d : ℕ} (mp : V → ℝ) (dirs : Fin d → V) (expPat : Fin d → ℝ) (q : Q) : ℝ :=
  ∑ j, zeroMean expPat j * zeroMean (simPattern mp dirs q) j

/-- The loop variables of refining.py:178-237 that belong to one pattern: its row of `cu_grid_current`, of
`qu_current`, and of `dots` (columns filled so far). -/
structure Cur where
  grid : List V
  qu : Q
  dots : List ℝ

/-- refining.py:180-187: the candidate orientations of one pattern. -/
noncomputable def candidates (A : Argsort) (single : Bool) (id : ℤ) (s : Cur) : Option (List Q) :=
  s.grid.mapM fun c => oriToFz (quProd (cu2qu A single c) s.qu) id

/-- refining.py:178-237: one iteration for one pattern.  `torch.max(dim)` returns the first maximal index;
`best_indices == (n - 1) / 2` compares with the exact half. -/
noncomputable def iter (A : Argsort) (single : Bool) (id : ℤ) (shrink : ℝ) (score : Q → ℝ) (s : Cur) : Option Cur :=
  (candidates A single id s).bind fun aug =>
    let k := argmaxFirst (aug.map score)
    (aug[k]?).map fun q =>
      ⟨if 2 * k + 1 = s.grid.length then s.grid.map (V.smul shrink) else s.grid, q, s.dots ++ [score q]⟩

/-- refining.py:178-237: all iterations for one pattern. -/
noncomputable def iters (A : Argsort) (single : Bool) (id : ℤ) (shrink : ℝ) (score : Q → ℝ) : ℕ → Cur → Option Cur
  | 0, s => some s
  | n + 1, s => (iter A single id shrink score s).bind (iters A single id shrink score n)

/-- `x[batch] = rows` with a batch of distinct positions (refining.py:227, :240). -/
def putRows {α : Type} (x : List α) (batch : List ℕ) (rows : List α) : List α :=
  (batch.zip rows).foldl (fun t w => t.set w.1 w.2) x

/-- The attribute `orientations` and the tensor `dots` of the current phase. -/
structure St where
  oris : List Q
  dots : List (List ℝ)

/-- refining.py:157-240: one batch.  `one p q` refines pattern `p` from orientation `q`.  The `.squeeze()` of line 209
drops axes of length one, after which the einsum of lines 216-220 raises; an empty batch reaches
`nearly_square_factors(0)`, which never returns (C44). -/
def refineBatch (nIter gridLen d : ℕ) (one : ℕ → Q → Option Cur) (st : St) (batch : List ℕ) : Option St :=
  if 0 < nIter ∧ (batch.length ≤ 1 ∨ gridLen = 1 ∨ d = 1) then none
  else (batch.mapM fun p => (st.oris[p]?).bind (one p)).map fun rs =>
    ⟨putRows st.oris batch (rs.map Cur.qu), putRows st.dots batch (rs.map Cur.dots)⟩

/-- refining.py:135-242: one phase with pattern positions `idx`; returns the new orientations and the `dots` of the
phase.  A single position is a 0-dimensional tensor (C75), which `torch.split` rejects; so does it a batch size 0. -/
noncomputable def refinePhase {d : ℕ} (A : Argsort) (single : Bool) (deg : ℝ) (r : ℕ) (dim : ℤ) (shrink : ℝ)
    (nIter batch : ℕ) (id : ℤ) (mp : V → ℝ) (dirs : ℕ → Fin d → V) (exps : ℕ → Fin d → ℝ) (oris : List Q)
    (idx : List ℕ) : Option St :=
  if idx.length = 1 ∨ batch = 0 then none
  else (localGrid deg r dim).bind fun grid =>
    (torchSplit batch idx).foldlM
      (refineBatch nIter grid.length d fun p q =>
        iters A single id shrink (gridScore mp (dirs p) (exps p)) nIter ⟨grid, q, []⟩)
      ⟨oris, oris.map fun _ => List.replicate nIter 0⟩

/-- refining.py:71-244 `orientation_grid_refinement`: the orientations afterwards and one `dots` per phase.  `mps`:
Laue id and lookup of each master pattern; a phase without a master pattern raises an IndexError (:136). -/
noncomputable def gridRefine {d : ℕ} (A : Argsort) (single : Bool) (deg : ℝ) (r : ℕ) (dim : ℤ) (shrink : ℝ)
    (nIter batch : ℕ) (mps : List (ℤ × (V → ℝ))) (dirs : ℕ → Fin d → V) (exps : ℕ → Fin d → ℝ)
    (phases : Option (List ℤ)) (oris : List Q) : Option (List Q × List (List (List ℝ))) :=
  (indicesPerPhase phases).bind fun ips =>
    ips.zipIdx.foldlM (fun acc ii =>
      (mps[ii.2]?).bind fun mp =>
        (refinePhase A single deg r dim shrink nIter batch mp.1 mp.2 dirs exps acc.1 ii.1).map fun st =>
          (st.oris, acc.2 ++ [st.dots])) (oris, [])

/-! ### Gradient refinement -/

/-- `p / p.norm()` (refining.py:316, :350). -/
noncomputable def unitPat {d : ℕ} (p : Fin d → ℝ) : Fin d → ℝ := fun i => p i / Real.sqrt (∑ j, p j ^ 2)

/-- refining.py:313-316 and 347-356: normalised cross-correlation of the two patterns. -/
noncomputable def gradScore {d : ℕ} (mp : V → ℝ) (dirs : Fin d → V) (expPat : Fin d → ℝ) (q : Q) : ℝ :=
  ∑ j, unitPat (zeroMean expPat) j * unitPat (zeroMean (simPattern mp dirs q)) j

/-- refining.py:318-388 for one pattern: the new orientation, or `none` inside if the row is not written.
`traj k` is `qu_current` before optimiser step `k` (`traj 0` is the starting orientation, the later ones are normalised
on line 370); the optimiser (Adam on the mean of the batch, lines 361-366) is left open.  Lines 372-379: the final
orientation is `traj nIter`, made to have non-negative scalar part and reduced to the fundamental zone.  Line 359 stores `-dot_products` of the
first iteration, line 384 compares the `dot_products` of the last iteration with it.  Simplification: a constant pattern
has score 0 here (NaN in torch, for which the row is never written). -/
noncomputable def gradPattern (id : ℤ) (score : Q → ℝ) (nIter : ℕ) (traj : ℕ → Q) : Option (Option Q) :=
  if nIter = 0 then none
  else (oriToFz (quStd (traj nIter)) id).map fun q =>
    open Classical in
    if score (traj (nIter - 1)) < -score (traj 0) then some q else none

/-- One row of the masked write of refining.py:384-388 (`updates` selects the rows). -/
def putSome (t : List Q) (w : ℕ × Option Q) : List Q := w.2.elim t fun q => t.set w.1 q

/-- refining.py:302-388: one batch.  The `.squeeze()` of line 344 makes the einsum of line 354 raise for one pattern
or one pixel; `nIter = 0` leaves `dot_products` undefined. -/
noncomputable def gradBatch (id : ℤ) (d nIter : ℕ) (score : ℕ → Q → ℝ) (traj : ℕ → Q → ℕ → Q) (oris : List Q)
    (batch : List ℕ) : Option (List Q) :=
  if batch.length ≤ 1 ∨ d = 1 then none
  else (batch.mapM fun p => (oris[p]?).bind fun q => (gradPattern id (score p) nIter (traj p q)).map fun o => (p, o)).map
    fun rs => rs.foldl putSome oris

/-- refining.py:293-388, one phase with positions `idx`. -/
noncomputable def gradPhase {d : ℕ} (nIter batch : ℕ) (id : ℤ) (mp : V → ℝ) (dirs : ℕ → Fin d → V)
    (exps : ℕ → Fin d → ℝ) (traj : ℕ → Q → ℕ → Q) (oris : List Q) (idx : List ℕ) : Option (List Q) :=
  if idx.length = 1 ∨ batch = 0 then none
  else (torchSplit batch idx).foldlM (gradBatch id d nIter (fun p => gradScore mp (dirs p) (exps p)) traj) oris

/-- refining.py:247-388 `orientation_grad_refinement`: all phases; the orientations afterwards. -/
noncomputable def gradRefine {d : ℕ} (nIter batch : ℕ) (mps : List (ℤ × (V → ℝ))) (dirs : ℕ → Fin d → V)
    (exps : ℕ → Fin d → ℝ) (traj : ℕ → Q → ℕ → Q) (phases : Option (List ℤ)) (oris : List Q) : Option (List Q) :=
  (indicesPerPhase phases).bind fun ips =>
    ips.zipIdx.foldlM (fun acc ii =>
      (mps[ii.2]?).bind fun mp => gradPhase nIter batch mp.1 mp.2 dirs exps traj acc ii.1) oris

end Verif.Refine
