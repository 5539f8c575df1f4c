import Verif.Lemmas.Knn
import Mathlib.Tactic.NormNum
import Mathlib.Tactic.IntervalCases
/-! Properties C30 and C31 (utils/knn.py). -/
namespace Verif
open Spec

theorem metric_big_eq (m : Metric) : m.big = specBig m := by cases m <;> rfl

theorem metric_dist_eq {d : ℕ} (m : Metric) (q x : Fin d → ℝ) : m.dist q x = specScore m q x := by
  cases m
  · rfl
  · simp only [Metric.dist, specScore]
    rw [Finset.mul_sum, ← Finset.sum_add_distrib, ← Finset.sum_sub_distrib]
    exact Finset.sum_congr rfl fun i _ => by ring
  · rfl

theorem metric_dist_eq' {d : ℕ} (m : Metric) (q : Fin d → ℝ) : m.dist q = specScore m q :=
  funext (metric_dist_eq m q)

/-- The session computes a top-k answer in the terms of the model (`C30_chunked_partial` is the same in terms of the
specification). (partial: not for the quantised path with a metric other than `angular`, see
`C30_quantised_metric_fails`): whatever the uninitialised memory, the split of the data into chunks
(each with at least `k` rows), the schedule of `query_all` / `query_chunk` calls (every query searched
once per chunk) and the tie-breaking and ordering of every `topk` call, the session succeeds and
returns for every query a correct top-k answer over the concatenation of all chunks: `k` distinct
global indices, each with the distance to that very row, best first, none of the others better. -/
theorem knnRun_isTopK {d : ℕ} (k : ℕ) (metric : Metric) (quant : Bool)
    (hq : quant = false ∨ metric = .angular) (garbage : ℕ → ℕ → ℤ) (Qs : List (Fin d → ℝ))
    (hist : List (List (Fin d → ℝ) × List KnnCall)) (hne : hist ≠ [])
    (hsz : ∀ step ∈ hist, k ≤ step.1.length) (hcov : ∀ step ∈ hist, Covers Qs.length step.2)
    (tk : TopKSorted) :
    ∃ out, knnRun k metric quant garbage Qs hist tk = some out ∧ out.length = Qs.length ∧
      ∀ r < Qs.length, IsTopK metric.big (metric.dist (Qs.getD r 0))
        (hist.map Prod.fst).flatten k (out.getD r []) := by
  set s0 : Knn d := Knn.init Qs.length k metric quant garbage with hs0
  obtain ⟨s', hs', hm, hk, hl, hinv⟩ := session_inv Qs hist s0 [] hq rfl (by simp [hs0, Knn.init])
    (fun step hst => ⟨hsz step hst, hcov step hst⟩) (by
      intro r hr
      left
      have : s0.rows.getD r [] = (List.range k).map fun c =>
          ((if metric.big then ⊥ else ⊤ : EReal), garbage r c) := by
        simp [hs0, Knn.init, List.getD_eq_getElem?_getD, hr]
      rw [this]
      refine ⟨rfl, by simp [hs0, Knn.init], ?_⟩
      intro e he
      obtain ⟨c, _, rfl⟩ := List.mem_map.mp he
      rfl)
  refine ⟨s'.retrieve tk, by unfold knnRun; rw [hs']; rfl, by simp [Knn.retrieve, hl], ?_⟩
  intro r hr
  have hr' : r < s'.rows.length := by rw [hl]; exact hr
  have hout : (s'.retrieve tk).getD r [] =
      (tk.run r metric.big k ((s'.rows.getD r []).map Prod.fst)).map
        fun i => (s'.rows.getD r []).getD i (0, 0) := by
    unfold Knn.retrieve
    rw [hm, hk]
    simp only [List.getD_eq_getElem?_getD, List.getElem?_mapIdx, List.getElem?_eq_getElem hr',
      Option.map_some, Option.getD_some]
    rfl
  rw [hout]
  have hrow := hinv r hr
  rw [List.nil_append] at hrow
  set row := s'.rows.getD r []
  set D := (hist.map Prod.fst).flatten with hD
  have hlen : row.length = k := by
    rcases hrow with ⟨_, h, _⟩ | h
    · exact h
    · exact h.len
  have hok := tk.ok r metric.big k (row.map Prod.fst) (by rw [List.length_map, hlen])
  have hsort := tk.sorted r metric.big k (row.map Prod.fst) (by rw [List.length_map, hlen])
  have htop : TopEnt metric.big k (ents (metric.dist (Qs.getD r 0)) D 0) row := by
    rcases hrow with ⟨h0, h1, h2⟩ | h
    · -- no data at all: then k = 0
      have hk0 : k = 0 := by
        cases hist with
        | nil => exact absurd rfl hne
        | cons st t =>
          have h3 := hsz st (by simp)
          have : st.1 = [] := by
            rw [hD, List.map_cons, List.flatten_cons] at h0
            exact (List.append_eq_nil_iff.mp h0).1
          rw [this] at h3; simpa using h3
      have : row = [] := List.length_eq_zero_iff.mp (by rw [hlen, hk0])
      rw [this]
      exact ⟨by simp [hk0], by simp, by simp, by simp⟩
    · exact h
  apply isTopK_of_top
  · have hg := gather_top htop.nodup hok
    have hperm : (List.map (fun i => row.getD i (0, 0))
        (tk.run r metric.big k (List.map Prod.fst row))).Perm row :=
      (List.Nodup.subperm hg.nodup hg.sub).perm_of_length_le (by rw [hg.len, hlen])
    exact ⟨hg.len, hg.nodup, fun t ht => htop.sub t (hg.sub t ht),
      fun e he hn t ht => htop.best e he (fun hc => hn (hperm.mem_iff.mpr hc)) t (hg.sub t ht)⟩
  · rw [List.map_map]
    have : (Prod.fst ∘ fun i => row.getD i (0, 0)) = fun i => (row.map Prod.fst).getD i 0 := by
      funext i; rw [getD_map_fst]; rfl
    rw [this]
    exact hsort

/-- C30 + C31 (partial: not for the quantised path with a metric other than `angular`, see
`C30_quantised_metric_fails`): whatever the uninitialised memory, the split of the data into chunks
(each with at least `k` rows), the schedule of `query_all` / `query_chunk` calls (every query searched
once per chunk) and the tie-breaking and ordering of every `topk` call, the session succeeds and
returns for every query a correct top-k answer over the concatenation of all chunks: `k` distinct
global indices, each with the score of that very row, best first, none of the others better. -/
theorem C30_chunked_partial {d : ℕ} (k : ℕ) (metric : Metric) (quant : Bool)
    (hq : quant = false ∨ metric = .angular) (garbage : ℕ → ℕ → ℤ) (Qs : List (Fin d → ℝ))
    (hist : List (List (Fin d → ℝ) × List KnnCall)) (hne : hist ≠ [])
    (hsz : ∀ step ∈ hist, k ≤ step.1.length) (hcov : ∀ step ∈ hist, Covers Qs.length step.2)
    (tk : TopKSorted) :
    ∃ out, knnRun k metric quant garbage Qs hist tk = some out ∧ out.length = Qs.length ∧
      ∀ r < Qs.length, IsTopK (specBig metric) (specScore metric (Qs.getD r 0))
        (hist.map Prod.fst).flatten k (out.getD r []) := by
  simpa only [metric_big_eq, metric_dist_eq'] using
    knnRun_isTopK k metric quant hq garbage Qs hist hne hsz hcov tk

theorem sorted_take {α : Type} {big : Bool} {dist : α → ℝ} {data : List α} {k : ℕ}
    {res : List (EReal × ℤ)} (h : IsTopK big dist data k res) :
    res.map Prod.fst = ((sortedDists big dist data).take k).map fun x : ℝ => (x : EReal) := by
  obtain ⟨idx, hl, hn, rfl, hs, hb⟩ := h
  set rest := (List.finRange data.length).filter (fun j => decide (j ∉ idx)) with hrest
  have hperm : (idx ++ rest).Perm (List.finRange data.length) := by
    have hnd : (idx ++ rest).Nodup := by
      rw [List.nodup_append]
      refine ⟨hn, (List.nodup_finRange _).filter _, ?_⟩
      intro a ha b hb' hab
      subst hab
      rw [hrest, List.mem_filter] at hb'
      simp at hb'
      exact hb' ha
    rw [List.perm_ext_iff_of_nodup hnd (List.nodup_finRange _)]
    intro a
    simp only [List.mem_append, List.mem_finRange, iff_true]
    by_cases ha : a ∈ idx
    · left; exact ha
    · right; rw [hrest, List.mem_filter]; simp [ha]
  have hall : data.map dist = (List.finRange data.length).map fun i => dist (data.get i) := by
    apply List.ext_getElem
    · simp
    · intro i h1 h2; simp
  -- generic over the order
  have key : ∀ (R : ℝ → ℝ → Prop) [DecidableRel R] [Std.Total R] [IsTrans ℝ R] [Std.Antisymm R],
      (idx.Pairwise fun i j => R (dist (data.get i)) (dist (data.get j))) →
      (∀ j, j ∉ idx → ∀ i ∈ idx, R (dist (data.get i)) (dist (data.get j))) →
      idx.map (fun i => dist (data.get i)) = ((data.map dist).insertionSort R).take k := by
    intro R _ _ _ _ hs hb
    set A := idx.map fun i => dist (data.get i) with hA
    set B := (rest.map fun i => dist (data.get i)).insertionSort R with hB
    have hp : (A ++ B).Perm (data.map dist) := by
      rw [hall]
      refine List.Perm.trans ?_ (hperm.map fun i => dist (data.get i))
      rw [List.map_append]
      exact List.Perm.append_left _ (List.perm_insertionSort R _)
    have hsorted : (A ++ B).Pairwise R := by
      rw [List.pairwise_append]
      refine ⟨List.pairwise_map.mpr hs, List.pairwise_insertionSort R _, ?_⟩
      intro a ha b hb'
      obtain ⟨i, hi, rfl⟩ := List.mem_map.mp ha
      have := (List.perm_insertionSort R _).mem_iff.mp hb'
      obtain ⟨j, hj, rfl⟩ := List.mem_map.mp this
      rw [hrest, List.mem_filter] at hj
      exact hb j (by simpa using hj.2) i hi
    have he : A ++ B = (data.map dist).insertionSort R :=
      List.Perm.eq_of_pairwise (fun a b _ _ h1 h2 => Std.Antisymm.antisymm a b h1 h2) hsorted
        (List.pairwise_insertionSort R _) (hp.trans (List.perm_insertionSort R _).symm)
    rw [← he, List.take_left' (by rw [hA, List.length_map, hl])]
  rw [List.map_map]
  have : (Prod.fst ∘ fun i : Fin data.length => ((dist (data.get i) : EReal), ((i : ℕ) : ℤ))) =
      fun i => (fun x : ℝ => (x : EReal)) (dist (data.get i)) := rfl
  rw [this]
  have h2 : idx.map (fun i => dist (data.get i)) = (sortedDists big dist data).take k := by
    unfold sortedDists
    cases big
    · simp only [Bool.false_eq_true, if_false] at hs hb ⊢
      exact key (· ≤ ·) hs hb
    · simp only [if_true] at hs hb ⊢
      exact key (· ≥ ·) hs hb
  rw [← h2, List.map_map]; rfl

/-- C30: the reported distances are the first `k` entries of the sorted list of all distances; in
particular they do not depend on the chunking, the schedule or the tie-breaking. -/
theorem C30_distances_partial {d : ℕ} (k : ℕ) (metric : Metric) (quant : Bool)
    (hq : quant = false ∨ metric = .angular) (garbage : ℕ → ℕ → ℤ) (Qs : List (Fin d → ℝ))
    (hist : List (List (Fin d → ℝ) × List KnnCall)) (hne : hist ≠ [])
    (hsz : ∀ step ∈ hist, k ≤ step.1.length) (hcov : ∀ step ∈ hist, Covers Qs.length step.2)
    (tk : TopKSorted) :
    ∃ out, knnRun k metric quant garbage Qs hist tk = some out ∧
      ∀ r < Qs.length, (out.getD r []).map Prod.fst =
        ((sortedDists (specBig metric) (specScore metric (Qs.getD r 0)) (hist.map Prod.fst).flatten).take k).map
          fun x : ℝ => (x : EReal) := by
  obtain ⟨out, ho, _, h⟩ := C30_chunked_partial k metric quant hq garbage Qs hist hne hsz hcov tk
  exact ⟨out, ho, fun r hr => sorted_take (h r hr)⟩

/-- C31 (same exception as C30): every reported index is a valid index of the concatenated data and
the reported distance is the distance to that row. -/
theorem C31_valid_partial {d : ℕ} (k : ℕ) (metric : Metric) (quant : Bool)
    (hq : quant = false ∨ metric = .angular) (garbage : ℕ → ℕ → ℤ) (Qs : List (Fin d → ℝ))
    (hist : List (List (Fin d → ℝ) × List KnnCall)) (hne : hist ≠ [])
    (hsz : ∀ step ∈ hist, k ≤ step.1.length) (hcov : ∀ step ∈ hist, Covers Qs.length step.2)
    (tk : TopKSorted) :
    ∃ out, knnRun k metric quant garbage Qs hist tk = some out ∧
      ∀ r < Qs.length, ∀ e ∈ out.getD r [], ∃ x, 0 ≤ e.2 ∧
        (hist.map Prod.fst).flatten[e.2.toNat]? = some x ∧
        e.1 = ((specScore metric (Qs.getD r 0) x : ℝ) : EReal) := by
  obtain ⟨out, ho, _, h⟩ := C30_chunked_partial k metric quant hq garbage Qs hist hne hsz hcov tk
  refine ⟨out, ho, fun r hr e he => ?_⟩
  obtain ⟨idx, _, _, hres, _, _⟩ := h r hr
  rw [hres] at he
  obtain ⟨i, _, rfl⟩ := List.mem_map.mp he
  refine ⟨(hist.map Prod.fst).flatten.get i, by simp, ?_, rfl⟩
  simp

/-- C30: a data chunk with fewer than `k` rows makes every query on it raise. -/
theorem C30_small_chunk_raises {d : ℕ} (s : Knn d) (chunk : List (Fin d → ℝ)) (tk1 tk2 : TopK)
    (query : List (Fin d → ℝ)) (start : ℕ) (h : chunk.length < s.k) :
    (s.setData chunk).queryAll tk1 tk2 query = none ∧
    (s.setData chunk).queryChunk tk1 tk2 query start = none := by
  constructor
  · exact if_neg fun hc => absurd hc.1 (not_le.mpr h)
  · exact if_neg fun hc => absurd hc.1 (not_le.mpr h)

theorem topk_one {big : Bool} {vals : List EReal} {idx : List ℕ} (h : TopkOK big vals 1 idx) :
    ∃ i, idx = [i] ∧ i < vals.length ∧
      ∀ j < vals.length, j ≠ i → nb big (vals.getD j 0) (vals.getD i 0) := by
  obtain ⟨i, rfl⟩ := List.length_eq_one_iff.mp h.len
  refine ⟨i, rfl, h.bound i (by simp), fun j hj hne => ?_⟩
  exact topk_best h (by simp) hj (by simpa using hne)

/-- C30 fails on the quantised CPU path for the Euclidean metric (its default is `quantized_via_ao =
True`): for the query `1` and the data `1, 5` the row at distance 16 is returned instead of the exact
match, whatever `topk` does. -/
theorem C30_quantised_metric_fails (garbage : ℕ → ℕ → ℤ) (tk1 tk2 : TopK) (tk : TopKSorted) :
    let Qs : List (Fin 1 → ℝ) := [fun _ => 1]
    let data : List (Fin 1 → ℝ) := [fun _ => 1, fun _ => 5]
    Covers Qs.length [KnnCall.all tk1 tk2] ∧
    ∃ out, knnRun 1 .euclidean true garbage Qs [(data, [KnnCall.all tk1 tk2])] tk = some out ∧
      (out.getD 0 []).map Prod.snd = [1] ∧
      ¬ IsTopK false (specScore .euclidean (Qs.getD 0 0)) data 1 (out.getD 0 []) := by
  intro Qs data
  have hcov : Covers Qs.length [KnnCall.all tk1 tk2] := by
    refine ⟨?_, ?_⟩
    · intro c hc; simp at hc; subst hc; trivial
    · intro r hr; simp [KnnCall.touches]
  refine ⟨hcov, ?_⟩
  set s0 : Knn 1 := Knn.init Qs.length 1 .euclidean true garbage with hs0
  set s1 := s0.setData data with hs1
  have hrows : s1.rows = [[(⊤, garbage 0 0)]] := by
    simp [hs1, hs0, Knn.setData, Knn.init, Qs, Metric.big]
  have hcall : s1.queryAll tk1 tk2 Qs = some { s1 with rows := (s1.rows.mapIdx fun r row =>
      s1.rowUpdate tk1 tk2 r data (Qs.getD r 0) row) } := by
    unfold Knn.queryAll
    have : s1.data = some data := rfl
    rw [this]
    simp only
    rw [if_pos ⟨by simp [hs1, hs0, Knn.setData, Knn.init, data], by rw [hrows]; simp [Qs]⟩]
  have hsc : s1.scores data (Qs.getD 0 0) = [((1 : ℝ) : EReal), ((5 : ℝ) : EReal)] := by
    simp [Knn.scores, data, Qs, hs1, hs0, Knn.setData, Knn.init, Metric.dist]
  have hk1 : s1.k = 1 := rfl
  have hb1 : s1.metric.big = false := rfl
  obtain ⟨i, hi, hil, hib⟩ := topk_one (tk1.ok 0 true 1 [((1 : ℝ) : EReal), ((5 : ℝ) : EReal)]
    (by simp))
  have hi1 : i = 1 := by
    have : i < 2 := by simpa using hil
    by_contra hne
    have h0 : i = 0 := by omega
    subst h0
    have := hib 1 (by simp) (by simp)
    simp [nb] at this
    norm_cast at this
  subst hi1
  have hupd : s1.rowUpdate tk1 tk2 0 data (Qs.getD 0 0) [(⊤, garbage 0 0)] =
      [(((5 : ℝ) : EReal), 1)] := by
    have hcs : s1.currStart = 0 := by simp [hs1, hs0, Knn.setData, Knn.init]
    unfold Knn.rowUpdate
    have hqt : s1.quant = true := rfl
    simp only [hsc, hk1, hqt, if_true, hb1, hcs]
    rw [hi]
    simp only [List.map_cons, List.map_nil, List.cons_append, List.nil_append]
    obtain ⟨j, hj, hjl, hjb⟩ := topk_one (tk2.ok 0 false 1
      [(⊤ : EReal), ((5 : ℝ) : EReal)] (by simp))
    have hj1 : j = 1 := by
      have : j < 2 := by simpa using hjl
      by_contra hne
      have h0 : j = 0 := by omega
      subst h0
      have := hjb 1 (by simp) (by simp)
      simp [nb] at this
    subst hj1
    have hj' : tk2.run 0 false 1 [(⊤ : EReal), [((1 : ℝ) : EReal), ((5 : ℝ) : EReal)].getD 1 0] = [1] := hj
    rw [hj']
    simp
  refine ⟨[[(((5 : ℝ) : EReal), 1)]], ?_, ?_, ?_⟩
  · unfold knnRun Knn.session
    rw [List.foldlM_cons, List.foldlM_cons]
    simp only [List.foldlM_nil]
    have : (s0.setData data).call Qs (KnnCall.all tk1 tk2) = s1.queryAll tk1 tk2 Qs := rfl
    rw [this, hcall]
    simp only [Option.bind_eq_bind, Option.bind_some, Option.pure_def, Option.map_some]
    congr 1
    unfold Knn.retrieve
    simp only [hrows, List.mapIdx_cons, List.mapIdx_nil, hupd, hk1, hb1]
    obtain ⟨j, hj, hjl, _⟩ := topk_one (tk.ok 0 false 1 [((5 : ℝ) : EReal)] (by simp))
    have hj0 : j = 0 := by simpa using hjl
    subst hj0
    simp only [List.map_cons, List.map_nil]
    rw [hj]
    simp
  · simp
  · rintro ⟨idx, hl, _, hres, _, hbest⟩
    obtain ⟨a, rfl⟩ := List.length_eq_one_iff.mp hl
    have ha : (a : ℕ) = 1 := by
      have := congrArg (List.map Prod.snd) hres
      simp at this
      omega
    have h0 := hbest ⟨0, by simp [data]⟩ (by
      simp only [List.mem_singleton]
      intro hc
      rw [← hc] at ha
      simp at ha) a (by simp)
    have hav : data.get a = fun _ => 5 := by
      have : a = ⟨1, by simp [data]⟩ := Fin.ext ha
      rw [this]; rfl
    rw [hav] at h0
    simp [data, Qs, specScore] at h0
    norm_num at h0

/-! Non-vacuity: a `topk` meeting the contract exists, and a session with two chunks and two kinds of
query calls meets the hypotheses of `C30_chunked_partial`. -/

theorem exists_topk : Nonempty TopKSorted := by
  classical
  let R : Bool → List EReal → ℕ → ℕ → Prop := fun big vals i j => nb big (vals.getD j 0) (vals.getD i 0)
  have tot : ∀ big vals i j, R big vals i j ∨ R big vals j i := by
    intro big vals i j
    simp only [R, nb]
    cases big <;> simp <;> exact le_total _ _
  have tr : ∀ big vals i j l, R big vals i j → R big vals j l → R big vals i l := by
    intro big vals i j l h1 h2
    exact nb_trans h2 h1
  let run : ℕ → Bool → ℕ → List EReal → List ℕ := fun _ big k vals =>
    ((List.range vals.length).insertionSort (R big vals)).take k
  have hsort : ∀ big vals, ((List.range vals.length).insertionSort (R big vals)).Pairwise (R big vals) := by
    intro big vals
    have : Std.Total (R big vals) := ⟨tot big vals⟩
    have : IsTrans ℕ (R big vals) := ⟨tr big vals⟩
    exact List.pairwise_insertionSort _ _
  have hperm : ∀ big vals, ((List.range vals.length).insertionSort (R big vals)).Perm
      (List.range vals.length) := fun big vals => List.perm_insertionSort _ _
  refine ⟨⟨⟨run, ?_⟩, ?_⟩⟩
  · intro row big k vals hk
    refine ⟨?_, ?_, ?_, ?_⟩
    · simp only [run]
      rw [List.length_take, (hperm big vals).length_eq, List.length_range]; omega
    · exact ((hperm big vals).nodup_iff.mpr List.nodup_range).sublist (List.take_sublist _ _)
    · intro i hi
      have := (hperm big vals).mem_iff.mp (List.mem_of_mem_take hi)
      simpa using this
    · intro i hi j hj hn
      have hall := hsort big vals
      rw [← List.take_append_drop k ((List.range vals.length).insertionSort (R big vals)),
        List.pairwise_append] at hall
      have hjm : j ∈ ((List.range vals.length).insertionSort (R big vals)).drop k := by
        have hj' : j ∈ (List.range vals.length).insertionSort (R big vals) :=
          (hperm big vals).mem_iff.mpr (by simpa using hj)
        rw [← List.take_append_drop k ((List.range vals.length).insertionSort (R big vals)),
          List.mem_append] at hj'
        exact hj'.resolve_left hn
      exact hall.2.2 i hi j hjm
  · intro row big k vals hk
    simp only [run]
    rw [List.pairwise_map]
    refine ((hsort big vals).sublist (List.take_sublist _ _)).imp ?_
    intro a b hab
    exact hab

example (tk1 tk2 : TopK) : Covers 3 [KnnCall.chunk 0 2 tk1 tk2, KnnCall.chunk 2 1 tk2 tk1] ∧
    Covers 3 [KnnCall.all tk1 tk2] := by
  constructor
  · refine ⟨?_, ?_⟩
    · intro c hc; simp at hc; rcases hc with rfl | rfl <;> simp [KnnCall.valid]
    · intro r hr
      interval_cases r <;> simp [KnnCall.touches]
  · refine ⟨?_, ?_⟩
    · intro c hc; simp at hc; subst hc; trivial
    · intro r hr; simp [KnnCall.touches]

end Verif
