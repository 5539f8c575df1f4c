import Mathlib.Data.EReal.Basic
import Mathlib.Data.List.Nodup
import Mathlib.Algebra.BigOperators.Fin
import Mathlib.Data.Real.Basic
/-!
Model of /repo/ebsdtorch/utils/knn.py (`knn_batch`, `ChunkedKNN`).
Vectors are `Fin d → ℝ`; stored distances are extended reals because the class starts from `±inf`.
dtype casts and int8 quantisation error are not modelled (the quantised path is the exact dot product).
-/
namespace Verif

/-- distance_metric strings of knn.py:86-99. -/
inductive Metric | angular | euclidean | manhattan
  deriving DecidableEq

/-- knn.py:84 and :148: `largest` / `big_better`. -/
def Metric.big : Metric → Bool
  | .angular => true
  | _ => false

/-- knn.py:85-99: entry of the distance matrix for one query and one data row. -/
noncomputable def Metric.dist {d : ℕ} (m : Metric) (query data : Fin d → ℝ) : ℝ :=
  match m with
  | .euclidean => (∑ i, query i ^ 2) + (∑ i, data i ^ 2) - 2 * ∑ i, query i * data i
  | .manhattan => ∑ i, |query i - data i|
  | .angular => ∑ i, query i * data i

/-- Contract of `torch.topk(vals, k, largest=...)` on one row, `sorted=False`: `k` distinct positions
such that no other position holds a strictly better value.  Order and ties are left open. -/
structure TopkOK (largest : Bool) (vals : List EReal) (k : ℕ) (idx : List ℕ) : Prop where
  len : idx.length = k
  nodup : idx.Nodup
  bound : ∀ i ∈ idx, i < vals.length
  best : ∀ i ∈ idx, ∀ j < vals.length, j ∉ idx →
    if largest then vals.getD j 0 ≤ vals.getD i 0 else vals.getD i 0 ≤ vals.getD j 0

/-- An implementation of `torch.topk`: any function of the row number and the row that meets the
contract whenever `k` does not exceed the row length (otherwise torch raises). -/
structure TopK where
  run : ℕ → Bool → ℕ → List EReal → List ℕ
  ok : ∀ row largest k vals, k ≤ vals.length → TopkOK largest vals k (run row largest k vals)

/-- `torch.topk(..., sorted=True)`: additionally best value first. -/
structure TopKSorted extends TopK where
  sorted : ∀ row largest k (vals : List EReal), k ≤ vals.length →
    ((run row largest k vals).map fun i => vals.getD i 0).Pairwise
      fun a b => if largest then b ≤ a else a ≤ b

/-- The object state of `ChunkedKNN` (knn.py:129-161).  `rows r` pairs `knn_distances[r]` with
`knn_indices[r]`. -/
structure Knn (d : ℕ) where
  k : ℕ
  metric : Metric
  quant : Bool
  rows : List (List (EReal × ℤ))
  data : Option (List (Fin d → ℝ))
  currStart : ℕ
  currEnd : ℕ

/-- knn.py:106-161 `__init__`.  `knn_indices` is uninitialised memory: `garbage`.  `quant` is the
conjunction `quantized_via_ao and match_device.type == "cpu"` tested on every query. -/
noncomputable def Knn.init {d : ℕ} (nq k : ℕ) (metric : Metric) (quant : Bool) (garbage : ℕ → ℕ → ℤ) : Knn d where
  k := k
  metric := metric
  quant := quant
  rows := (List.range nq).map fun r => (List.range k).map fun c =>
    ((if metric.big then ⊥ else ⊤ : EReal), garbage r c)
  data := none
  currStart := 0
  currEnd := 0

/-- knn.py:163-180 `set_data_chunk`. -/
def Knn.setData {d : ℕ} (s : Knn d) (chunk : List (Fin d → ℝ)) : Knn d :=
  { s with
    currEnd := s.currEnd + chunk.length
    currStart := s.currEnd + chunk.length - chunk.length
    data := some chunk }

/-- knn.py:70-72 / :100-102: the row of scores for one query (dot products on the quantised path,
whatever the metric). -/
noncomputable def Knn.scores {d : ℕ} (s : Knn d) (chunk : List (Fin d → ℝ)) (q : Fin d → ℝ) : List EReal :=
  chunk.map fun x => (((if s.quant then Metric.angular else s.metric).dist q x : ℝ) : EReal)

/-- knn.py:196-217 (= :236-266): top-k of the chunk, shift to global indices, concatenate with the
stored row, top-k of the merged row, gather. -/
noncomputable def Knn.rowUpdate {d : ℕ} (s : Knn d) (tk1 tk2 : TopK) (r : ℕ) (chunk : List (Fin d → ℝ))
    (q : Fin d → ℝ) (row : List (EReal × ℤ)) : List (EReal × ℤ) :=
  let sc := s.scores chunk q
  let i1 := tk1.run r (if s.quant then true else s.metric.big) s.k sc
  let new := i1.map fun i => (sc.getD i 0, (i : ℤ) + s.currStart)
  let merged := row ++ new
  let i2 := tk2.run r s.metric.big s.k (merged.map Prod.fst)
  i2.map fun i => merged.getD i (0, 0)

/-- knn.py:219-266 `query_chunk`.  `none`: data chunk not set (:230), `topk` larger than the chunk, or
the slice `[query_start:query_end]` shorter than the query chunk (the `cat` of :250 raises). -/
noncomputable def Knn.queryChunk {d : ℕ} (s : Knn d) (tk1 tk2 : TopK) (query : List (Fin d → ℝ)) (start : ℕ) :
    Option (Knn d) :=
  match s.data with
  | none => none
  | some chunk =>
    if s.k ≤ chunk.length ∧ start + query.length ≤ s.rows.length then
      some { s with rows := s.rows.mapIdx fun r row =>
        if start ≤ r ∧ r < start + query.length then
          s.rowUpdate tk1 tk2 r chunk (query.getD (r - start) 0) row
        else row }
    else none

/-- knn.py:182-217 `query_all`: the `cat` of :209 needs one query per stored row. -/
noncomputable def Knn.queryAll {d : ℕ} (s : Knn d) (tk1 tk2 : TopK) (query : List (Fin d → ℝ)) :
    Option (Knn d) :=
  match s.data with
  | none => none
  | some chunk =>
    if s.k ≤ chunk.length ∧ query.length = s.rows.length then
      some { s with rows := (s.rows.mapIdx fun r row =>
               s.rowUpdate tk1 tk2 r chunk (query.getD r 0) row) }
    else none

/-- knn.py:268-287 `retrieve_topk`: one result row per query, best first. -/
noncomputable def Knn.retrieve {d : ℕ} (s : Knn d) (tk : TopKSorted) : List (List (EReal × ℤ)) :=
  s.rows.mapIdx fun r row =>
    (tk.run r s.metric.big s.k (row.map Prod.fst)).map fun i => row.getD i (0, 0)

/-- One call of a client of the class: `query_all(query)` or `query_chunk(query[start:start+len], start)`,
together with the (arbitrary) behaviour of the two `topk` calls inside it. -/
inductive KnnCall
  | all (tk1 tk2 : TopK)
  | chunk (start len : ℕ) (tk1 tk2 : TopK)

/-- Effect of a client call, for the full list of queries `Qs`. -/
noncomputable def Knn.call {d : ℕ} (Qs : List (Fin d → ℝ)) (s : Knn d) : KnnCall → Option (Knn d)
  | .all tk1 tk2 => s.queryAll tk1 tk2 Qs
  | .chunk start len tk1 tk2 => s.queryChunk tk1 tk2 ((Qs.drop start).take len) start

/-- A client session: for every data chunk `set_data_chunk`, then some query calls. -/
noncomputable def Knn.session {d : ℕ} (Qs : List (Fin d → ℝ)) (s : Knn d)
    (hist : List (List (Fin d → ℝ) × List KnnCall)) : Option (Knn d) :=
  hist.foldlM (fun s step => step.2.foldlM (fun s c => s.call Qs c) (s.setData step.1)) s

/-- The complete session of a client: construct, feed every data chunk, issue the query calls after
each chunk, retrieve. -/
noncomputable def knnRun {d : ℕ} (k : ℕ) (metric : Metric) (quant : Bool) (garbage : ℕ → ℕ → ℤ)
    (Qs : List (Fin d → ℝ)) (hist : List (List (Fin d → ℝ) × List KnnCall)) (tk : TopKSorted) :
    Option (List (List (EReal × ℤ))) :=
  ((Knn.init Qs.length k metric quant garbage).session Qs hist).map fun s => s.retrieve tk

end Verif
