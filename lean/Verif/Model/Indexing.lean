import Verif.Model.Knn
import Verif.Model.Quat
import Verif.Model.Experiment
/-!
Model of the data flow of /repo/ebsdtorch/ebsd/indexing.py.
`sim o` is the simulated pattern of orientation `o` after flattening and masking (indexing.py:112-134;
interpolation itself is Model/Master.lean), `exps` are the experimental patterns after binning, flattening
and masking (:145-155, :171-178).  The orientation dictionary `oris` is the tensor sampled on :61-66 (C12).
-/
namespace Verif

/-- `torch.split(t, c)` along the first axis: pieces of `c` rows, the last one shorter; an empty tensor
gives one empty piece. -/
def torchSplit {α : Type} (c : ℕ) (l : List α) : List (List α) :=
  if 0 < c ∧ c < l.length then l.take c :: torchSplit c (l.drop c) else [l]
termination_by l.length
decreasing_by simp; omega

/-- `p - torch.mean(p, dim=-1, keepdim=True)` (indexing.py:136-140, :159, :181-183). -/
noncomputable def zeroMean {d : ℕ} (p : Fin d → ℝ) : Fin d → ℝ := fun i => p i - (∑ j, p j) / d

/-- Choices left open by torch in the session: the behaviour of the two `topk` calls, per dictionary chunk
and query start. -/
abbrev TopkTape := ℕ → ℕ → TopK × TopK

/-- indexing.py:145-192: the query calls issued after dictionary chunk number `i`. -/
def queryCalls (tape : TopkTape) (i chunkE n : ℕ) : List KnnCall :=
  if chunkE > n then [.all (tape i 0).1 (tape i 0).2]
  else (torchSplit chunkE (List.range n)).map fun b =>
    .chunk (b.headD 0) b.length (tape i (b.headD 0)).1 (tape i (b.headD 0)).2

/-- indexing.py:145-160 (`query_all` branch honours `subtract_exp_pat_mean`) and :162-189 (chunked branch
always subtracts the mean). -/
noncomputable def queryPatterns {d : ℕ} (subMean : Bool) (chunkE : ℕ) (exps : List (Fin d → ℝ)) : List (Fin d → ℝ) :=
  if chunkE > exps.length ∧ subMean = false then exps else exps.map zeroMean

/-- indexing.py:106-143: chunks fed to the search object with the calls made after each. -/
noncomputable def dictHistory {d : ℕ} (tape : TopkTape) (chunkE chunkD n : ℕ) (oris : List Q)
    (sim : Q → Fin d → ℝ) : List (List (Fin d → ℝ) × List KnnCall) :=
  (torchSplit chunkD oris).zipIdx.map fun ci =>
    (ci.1.map fun o => zeroMean (sim o), queryCalls tape ci.2 chunkE n)

/-- indexing.py:60-205, the body for one master pattern: what is stored by `set_raw_indexing_results`
(`ori_tensor[matches], metric_values`).  `none`: raises (chunk size 0, or the search raises). -/
noncomputable def dictionaryIndexPhase {d : ℕ} (k : ℕ) (metric : Metric) (quant : Bool) (garbage : ℕ → ℕ → ℤ)
    (tape : TopkTape) (tk : TopKSorted) (subMean : Bool) (chunkE chunkD : ℕ) (oris : List Q)
    (sim : Q → Fin d → ℝ) (exps : List (Fin d → ℝ)) : Option (List (List (Q × EReal))) :=
  if chunkD = 0 ∨ chunkE = 0 then none
  else (knnRun k metric quant garbage (queryPatterns subMean chunkE exps)
      (dictHistory tape chunkE chunkD exps.length oris sim) tk).bind fun out =>
    out.mapM fun row => row.mapM fun e => do
      let p ← pos oris.length e.2
      let o ← oris[p]?
      pure (o, e.1)

/-- indexing.py:14-210 `dictionary_index_orientations` with a list of master patterns, one entry
`(oris, sim)` per phase; the phases are stored under 0, 1, ...  Result: per pattern
`(phase, orientation, metric)`. -/
noncomputable def dictionaryIndex {d : ℕ} (k : ℕ) (metric : Metric) (quant : Bool) (garbage : ℕ → ℕ → ℤ)
    (tape : TopkTape) (tk : TopKSorted) (subMean : Bool) (chunkE chunkD : ℕ)
    (phases : List (List Q × (Q → Fin d → ℝ))) (exps : List (Fin d → ℝ)) : Option (List (ℕ × Q × EReal)) :=
  (phases.zipIdx.foldlM (fun (raw : RawResults Q) pi =>
    (dictionaryIndexPhase k metric quant garbage tape tk subMean chunkE chunkD pi.1.1 pi.1.2 exps).map
      fun r => setRaw raw pi.2 r) []).bind combineResults

/-- Python/torch slice bound `i` of an axis of length `m`. -/
def sliceBound (m : ℕ) (i : ℤ) : ℕ :=
  if i < 0 then (i + m).toNat else min i.toNat m

/-- indexing.py:355: column numbers kept by `eigenvectors[:, -n : (-n + 300)]` out of `m` columns. -/
def pcaColumns (m n : ℕ) : List ℕ :=
  let a := sliceBound m (-(n : ℤ))
  let b := sliceBound m (-(n : ℤ) + 300)
  List.range' a (b - a)

end Verif
