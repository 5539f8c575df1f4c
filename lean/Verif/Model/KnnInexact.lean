import Verif.Model.Knn
/-!
Model of /repo/ebsdtorch/utils/knn.py with inexact arithmetic: the scores a call computes (half precision, int8
quantisation) are arbitrary extended reals chosen per call, and storing a row into a half precision buffer rounds it.
-/
namespace Verif.Inexact
open Verif

/-- State of `ChunkedKNN` (knn.py:129-161): as `Knn`, but of the data chunk only its length matters, since its values enter
through the computed scores.  `low`: `knn_distances` still has `match_dtype` (knn.py:153-158). -/
structure KnnF where
  k : ℕ
  metric : Metric
  quant : Bool
  rows : List (List (EReal × ℤ))
  chunk : Option ℕ
  currStart : ℕ
  currEnd : ℕ
  low : Bool

/-- knn.py:106-161 `__init__`; `garbage` is the uninitialised `knn_indices`. -/
noncomputable def KnnF.init (nq k : ℕ) (metric : Metric) (quant : Bool) (garbage : ℕ → ℕ → ℤ) : KnnF where
  k := k
  metric := metric
  quant := quant
  rows := (List.range nq).map fun r => (List.range k).map fun c => ((if metric.big then ⊥ else ⊤ : EReal), garbage r c)
  chunk := none
  currStart := 0
  currEnd := 0
  low := true

/-- knn.py:163-180 `set_data_chunk`. -/
def KnnF.setData (s : KnnF) (n : ℕ) : KnnF :=
  { s with currEnd := s.currEnd + n, currStart := s.currEnd + n - n, chunk := some n }

/-- knn.py:196-217 (= :236-266): top-k of the computed scores `sc`, shift to global indices, merge with the stored row. -/
noncomputable def KnnF.rowUpdate (s : KnnF) (tk1 tk2 : TopK) (r n : ℕ) (sc : ℕ → EReal) (row : List (EReal × ℤ)) :
    List (EReal × ℤ) :=
  let vals := (List.range n).map sc
  let i1 := tk1.run r (if s.quant then true else s.metric.big) s.k vals
  let new := i1.map fun i => (vals.getD i 0, (i : ℤ) + s.currStart)
  let merged := row ++ new
  let i2 := tk2.run r s.metric.big s.k (merged.map Prod.fst)
  i2.map fun i => merged.getD i (0, 0)

/-- Rounding of a whole row to the dtype of the buffer (`rho`), knn.py:264-266: assignment to a slice of `knn_distances`. -/
def store (rho : EReal → EReal) (low : Bool) (row : List (EReal × ℤ)) : List (EReal × ℤ) :=
  if low then row.map fun e => (rho e.1, e.2) else row

/-- knn.py:219-266 `query_chunk`; `sc r i`: score computed for query row `r` and row `i` of the chunk. -/
noncomputable def KnnF.queryChunk (rho : EReal → EReal) (s : KnnF) (tk1 tk2 : TopK) (sc : ℕ → ℕ → EReal) (start len : ℕ) :
    Option KnnF :=
  match s.chunk with
  | none => none
  | some n =>
    if s.k ≤ n ∧ start + len ≤ s.rows.length then
      some { s with rows := s.rows.mapIdx fun r row =>
        if start ≤ r ∧ r < start + len then store rho s.low (s.rowUpdate tk1 tk2 r n (sc r) row) else row }
    else none

/-- knn.py:182-217 `query_all`.  The buffer is replaced; the Euclidean scores are float32 (knn.py:86-94), so `torch.cat`
(knn.py:209) makes the new buffer float32 and later assignments do not round any more. -/
noncomputable def KnnF.queryAll (s : KnnF) (tk1 tk2 : TopK) (sc : ℕ → ℕ → EReal) (len : ℕ) : Option KnnF :=
  match s.chunk with
  | none => none
  | some n =>
    if s.k ≤ n ∧ len = s.rows.length then
      some { s with
        rows := s.rows.mapIdx fun r row => s.rowUpdate tk1 tk2 r n (sc r) row
        low := s.low && decide (s.metric ≠ .euclidean) }
    else none

/-- knn.py:268-287 `retrieve_topk`. -/
noncomputable def KnnF.retrieve (s : KnnF) (tk : TopKSorted) : List (List (EReal × ℤ)) :=
  s.rows.mapIdx fun r row => (tk.run r s.metric.big s.k (row.map Prod.fst)).map fun i => row.getD i (0, 0)

/-- A query call with the scores it computes and the behaviour of its two `topk`. -/
inductive FCall
  | all (sc : ℕ → ℕ → EReal) (tk1 tk2 : TopK)
  | chunk (start len : ℕ) (sc : ℕ → ℕ → EReal) (tk1 tk2 : TopK)

/-- The scores computed by a call. -/
def FCall.scores : FCall → ℕ → ℕ → EReal
  | .all sc _ _ => sc
  | .chunk _ _ sc _ _ => sc

/-- Effect of a call (`query_all` or `query_chunk`) when there are `nq` queries, knn.py:182-266. -/
noncomputable def KnnF.call (rho : EReal → EReal) (nq : ℕ) (s : KnnF) : FCall → Option KnnF
  | .all sc tk1 tk2 => s.queryAll tk1 tk2 sc nq
  | .chunk start len sc tk1 tk2 => s.queryChunk rho tk1 tk2 sc start (min len (nq - start))

/-- A client session over data chunks of the given lengths, knn.py:163-266. -/
noncomputable def KnnF.session (rho : EReal → EReal) (nq : ℕ) (s : KnnF) (hist : List (ℕ × List FCall)) : Option KnnF :=
  hist.foldlM (fun s step => step.2.foldlM (fun s c => s.call rho nq c) (s.setData step.1)) s

/-- Construct, feed, search, retrieve (knn.py:106-287). -/
noncomputable def knnRun (rho : EReal → EReal) (k : ℕ) (metric : Metric) (quant : Bool) (garbage : ℕ → ℕ → ℤ) (nq : ℕ)
    (hist : List (ℕ × List FCall)) (tk : TopKSorted) : Option (List (List (EReal × ℤ))) :=
  ((KnnF.init nq k metric quant garbage).session rho nq hist).map fun s => s.retrieve tk

/-- knn.py:149: the width of `knn_indices`, `torch.int64 if self.data_size < 2**31 else torch.int32`. -/
def indexBits (dataSize : ℕ) : ℕ := if dataSize < 2 ^ 31 then 64 else 32

/-- knn.py:261-263: assigning a global index to a slice of `knn_indices` converts it to the dtype of the buffer (two's
complement wrap-around).  (`query_all` instead replaces the buffer by an int64 one, knn.py:210, 216.) -/
def storedIndex (dataSize : ℕ) (i : ℤ) : ℤ := Int.bmod i (2 ^ indexBits dataSize)

end Verif.Inexact
