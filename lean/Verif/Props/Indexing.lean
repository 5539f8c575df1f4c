import Verif.Model.Indexing
import Verif.Props.Knn
import Verif.Props.Experiment
/-! Properties C45 and C46 (ebsd/indexing.py). -/
namespace Verif
open Spec

theorem torchSplit_flatten {α : Type} (c : ℕ) (l : List α) : (torchSplit c l).flatten = l := by
  induction l using torchSplit.induct c with
  | case1 l h ih => rw [torchSplit, if_pos h, List.flatten_cons, ih, List.take_append_drop]
  | case2 l h => rw [torchSplit, if_neg h]; simp

theorem torchSplit_sizes {α : Type} (c k : ℕ) (hc : 0 < c) (hk : k ≤ c) (l : List α) (h0 : k ≤ l.length)
    (h : l.length % c = 0 ∨ k ≤ l.length % c) : ∀ b ∈ torchSplit c l, k ≤ b.length := by
  induction l using torchSplit.induct c with
  | case1 l hl ih =>
    rw [torchSplit, if_pos hl]
    intro b hb
    rcases List.mem_cons.mp hb with rfl | hb
    · rw [List.length_take]; omega
    · have hm : (l.drop c).length % c = l.length % c := by
        rw [List.length_drop, ← Nat.mod_eq_sub_mod (by omega)]
      refine ih ?_ (by rw [hm]; exact h) b hb
      rcases h with h | h
      · rw [List.length_drop]
        have hd := Nat.dvd_of_mod_eq_zero h
        obtain ⟨q, hq⟩ := hd
        have : 2 ≤ q := by
          by_contra hc'
          have : q = 0 ∨ q = 1 := by omega
          rcases this with rfl | rfl <;> omega
        have : c * 2 ≤ c * q := Nat.mul_le_mul_left c this
        omega
      · exact le_trans h (le_trans (by rw [← hm]) (Nat.mod_le _ _))
  | case2 l hl =>
    rw [torchSplit, if_neg hl]
    intro b hb
    simp at hb
    subst hb
    exact h0

theorem torchSplit_range (tape : TopkTape) (i c n : ℕ) (hc : 0 < c) : ∀ (m s : ℕ), 0 < m → s + m = n →
    (∀ call ∈ (torchSplit c (List.range' s m)).map (fun b => KnnCall.chunk (b.headD 0) b.length
      (tape i (b.headD 0)).1 (tape i (b.headD 0)).2), call.valid n) ∧
    ∀ r, s ≤ r → r < n → ((torchSplit c (List.range' s m)).map (fun b => KnnCall.chunk (b.headD 0) b.length
      (tape i (b.headD 0)).1 (tape i (b.headD 0)).2)).countP (fun call => call.touches r) = 1 ∧
    ∀ r, r < s → ((torchSplit c (List.range' s m)).map (fun b => KnnCall.chunk (b.headD 0) b.length
      (tape i (b.headD 0)).1 (tape i (b.headD 0)).2)).countP (fun call => call.touches r) = 0 := by
  intro m
  induction m using Nat.strong_induction_on with
  | _ m ih =>
    intro s hm hs
    have hhead : ∀ s m, 0 < m → (List.range' s m).headD 0 = s := by
      intro s m hm
      obtain ⟨m', rfl⟩ : ∃ m', m = m' + 1 := ⟨m - 1, by omega⟩
      rw [List.range'_succ]; rfl
    rw [torchSplit]
    simp only [List.length_range']
    by_cases hcm : 0 < c ∧ c < m
    · rw [if_pos hcm]
      have htake : (List.range' s m).take c = List.range' s c := by
        have : m = c + (m - c) := by omega
        rw [this, ← List.range'_append_1, List.take_left' (by simp)]
      have hdrop : (List.range' s m).drop c = List.range' (s + c) (m - c) := by
        have : m = c + (m - c) := by omega
        conv_lhs => rw [this, ← List.range'_append_1]
        rw [List.drop_left' (by simp)]
      rw [htake, hdrop]
      obtain ⟨h1, h2⟩ := ih (m - c) (by omega) (s + c) (by omega) (by omega)
      rw [List.map_cons, hhead s c hc, List.length_range']
      refine ⟨?_, ?_⟩
      · intro call hcall
        rcases List.mem_cons.mp hcall with rfl | hcall
        · simp only [KnnCall.valid]; omega
        · exact h1 call hcall
      · intro r hr1 hr2
        refine ⟨?_, ?_⟩
        · rw [List.countP_cons]
          by_cases hrc : r < s + c
          · have h3 := (h2 (s + c) (le_refl _) (by omega)).2 r hrc
            rw [h3]; simp [KnnCall.touches, hr1, hrc]
          · have h3 := (h2 r (by omega) hr2).1
            rw [h3]; simp [KnnCall.touches, hrc]
        · intro r' hr'
          rw [List.countP_cons]
          have h3 := (h2 (s + c) (le_refl _) (by omega)).2 r' (by omega)
          rw [h3]; simp [KnnCall.touches, hr']
    · rw [if_neg hcm]
      simp only [List.map_cons, List.map_nil, List.length_range', hhead s m hm]
      refine ⟨?_, ?_⟩
      · intro call hcall
        simp at hcall
        subst hcall
        simp only [KnnCall.valid]; omega
      · intro r hr1 hr2
        refine ⟨?_, ?_⟩
        · simp [KnnCall.touches, hr1]; omega
        · intro r' hr'
          simp [KnnCall.touches]; omega

theorem queryCalls_covers (tape : TopkTape) (i chunkE n : ℕ) (hc : 0 < chunkE) :
    Covers n (queryCalls tape i chunkE n) := by
  unfold queryCalls
  by_cases h : chunkE > n
  · rw [if_pos h]
    refine ⟨?_, ?_⟩
    · intro c hc; simp at hc; subst hc; trivial
    · intro r hr; simp [KnnCall.touches]
  · rw [if_neg h]
    have h1 := torchSplit_range tape i chunkE n hc n 0 (by omega) (by omega)
    rw [← List.range_eq_range'] at h1
    exact ⟨h1.1, fun r hr => (h1.2 r (by omega) hr).1⟩

theorem isTopK_map {α β : Type} {big : Bool} {dist : β → ℝ} {f : α → β} {L : List α} {k : ℕ}
    {res : List (EReal × ℤ)} (h : IsTopK big dist (L.map f) k res) :
    IsTopK big (fun a => dist (f a)) L k res := by
  obtain ⟨idx, h1, h2, h3, h4, h5⟩ := h
  have hlen : (L.map f).length = L.length := by simp
  have hget : ∀ i : Fin (L.map f).length, (L.map f).get i = f (L.get (Fin.cast hlen i)) := by
    intro i; simp
  refine ⟨idx.map (Fin.cast hlen), by simpa using h1, ?_, ?_, ?_, ?_⟩
  · exact h2.map fun a b hab => by simpa [Fin.ext_iff] using hab
  · rw [h3, List.map_map]
    apply List.map_congr_left
    intro i _
    simp only [Function.comp, hget]
    rfl
  · rw [List.pairwise_map]
    refine h4.imp ?_
    intro a b hab
    simp only [hget] at hab
    exact hab
  · intro j hj i hi
    obtain ⟨i', hi', rfl⟩ := List.mem_map.mp hi
    have := h5 (Fin.cast hlen.symm j) (fun hc => hj (List.mem_map.mpr ⟨_, hc, by simp⟩)) i' hi'
    simp only [hget] at this
    simpa using this

theorem IsTopK.index_valid {α : Type} {big : Bool} {dist : α → ℝ} {L : List α} {k : ℕ}
    {res : List (EReal × ℤ)} (h : IsTopK big dist L k res) (e : EReal × ℤ) (he : e ∈ res) :
    ∃ i : Fin L.length, e.2 = (i : ℕ) ∧ e.1 = ((dist (L.get i) : ℝ) : EReal) := by
  obtain ⟨idx, _, _, rfl, _, _⟩ := h
  obtain ⟨i, _, rfl⟩ := List.mem_map.mp he
  exact ⟨i, rfl, rfl⟩

theorem queryPatterns_length {d : ℕ} (subMean : Bool) (chunkE : ℕ) (exps : List (Fin d → ℝ)) :
    (queryPatterns subMean chunkE exps).length = exps.length := by
  unfold queryPatterns; split_ifs <;> simp

/-- `C45_topk_partial` in the terms of the model (partial: dictionary chunks with at least `k` rows, see `C45_short_last_chunk_fails`; not
the quantised non-angular path, see `C30_quantised_metric_fails`): whatever the chunk sizes, the
uninitialised memory and the tie-breaking, the stored result of pattern `r` is a correct top-k answer over
the *whole* dictionary: orientations at `k` distinct positions, each with the metric between the prepared
pattern and the zero-mean simulated pattern of that orientation, best first, nothing better left out. -/
theorem phase_isTopK {d : ℕ} (k : ℕ) (metric : Metric) (quant : Bool)
    (hq : quant = false ∨ metric = .angular) (garbage : ℕ → ℕ → ℤ) (tape : TopkTape) (tk : TopKSorted)
    (subMean : Bool) (chunkE chunkD : ℕ) (hE : 0 < chunkE) (hD : 0 < chunkD) (hk : k ≤ chunkD)
    (oris : List Q) (hN : k ≤ oris.length)
    (hlast : oris.length % chunkD = 0 ∨ k ≤ oris.length % chunkD)
    (sim : Q → Fin d → ℝ) (exps : List (Fin d → ℝ)) :
    ∃ out, dictionaryIndexPhase k metric quant garbage tape tk subMean chunkE chunkD oris sim exps = some out ∧
      out.length = exps.length ∧
      ∀ r < exps.length, ∃ res, IsTopK metric.big
        (fun o => metric.dist ((queryPatterns subMean chunkE exps).getD r 0) (zeroMean (sim o))) oris k res ∧
        out.getD r [] = res.map fun e => (oris.getD e.2.toNat ⟨0, 0, 0, 0⟩, e.1) := by
  set Qs := queryPatterns subMean chunkE exps with hQs
  set hist := dictHistory tape chunkE chunkD exps.length oris sim with hhist
  have hQl : Qs.length = exps.length := queryPatterns_length _ _ _
  have hflat : (hist.map Prod.fst).flatten = oris.map fun o => zeroMean (sim o) := by
    rw [hhist]
    unfold dictHistory
    rw [List.map_map]
    have : (Prod.fst ∘ fun ci : List Q × ℕ => ((ci.1.map fun o => zeroMean (sim o)),
        queryCalls tape ci.2 chunkE exps.length)) =
        (fun c : List Q => c.map fun o => zeroMean (sim o)) ∘ Prod.fst := rfl
    rw [this, ← List.map_map, List.zipIdx_map_fst, ← List.map_flatten, torchSplit_flatten]
  have hmem : ∀ step ∈ hist, ∃ c ∈ torchSplit chunkD oris, ∃ i, step.1.length = c.length ∧
      step.2 = queryCalls tape i chunkE exps.length := by
    intro step hst
    rw [hhist] at hst
    unfold dictHistory at hst
    obtain ⟨⟨c, i⟩, hci, rfl⟩ := List.mem_map.mp hst
    exact ⟨c, List.fst_mem_of_mem_zipIdx hci, i, by simp, rfl⟩
  obtain ⟨out, ho, hol, hall⟩ := knnRun_isTopK k metric quant hq garbage Qs hist (by
      rw [hhist]; unfold dictHistory
      intro hc
      have : torchSplit chunkD oris = [] := by simpa using hc
      rw [torchSplit] at this
      split_ifs at this) (by
      intro step hst
      obtain ⟨c, hc, i, hl, _⟩ := hmem step hst
      rw [hl]
      exact torchSplit_sizes chunkD k hD hk oris hN hlast c hc) (by
      intro step hst
      obtain ⟨c, hc, i, _, hs⟩ := hmem step hst
      rw [hs, hQl]
      exact queryCalls_covers tape i chunkE exps.length hE) tk
  rw [hflat] at hall
  unfold dictionaryIndexPhase
  rw [if_neg (by omega), ho, Option.bind_some]
  -- every row maps
  have hrow : ∀ r < exps.length, ((out.getD r []).mapM fun e => do
      let p ← pos oris.length e.2
      let o ← oris[p]?
      pure (o, e.1)) = some ((out.getD r []).map fun e => (oris.getD e.2.toNat ⟨0, 0, 0, 0⟩, e.1)) := by
    intro r hr
    have htop := isTopK_map (hall r (by omega))
    apply mapM_of_forall₂
    rw [List.forall₂_map_right_iff, List.forall₂_same]
    intro e he
    obtain ⟨i, hi, _⟩ := Verif.IsTopK.index_valid htop e he
    rw [hi]
    have : pos oris.length (((i : ℕ) : ℤ)) = some i := pos_of_match i.2 (Or.inl rfl)
    simp [this]
  refine ⟨out.map fun row => row.map fun e => (oris.getD e.2.toNat ⟨0, 0, 0, 0⟩, e.1), ?_, by simp [hol, hQl], ?_⟩
  · apply mapM_of_forall₂
    rw [List.forall₂_map_right_iff, List.forall₂_same]
    intro row hrow'
    obtain ⟨r, hr, rfl⟩ := List.getElem_of_mem hrow'
    have := hrow r (by omega)
    simpa [List.getD_eq_getElem?_getD, hr] using this
  · intro r hr
    refine ⟨out.getD r [], isTopK_map (hall r (by omega)), ?_⟩
    have hr' : r < out.length := by omega
    simp [List.getD_eq_getElem?_getD, hr']

/-- The experimental pattern that is compared: minus its mean if `subtract_exp_pat_mean` is set or if the patterns are
searched in chunks. -/
noncomputable def prepared {d : ℕ} (subMean : Bool) (chunkE n : ℕ) (p : Fin d → ℝ) : Fin d → ℝ :=
  if subMean = true ∨ chunkE ≤ n then centred p else p

theorem queryPatterns_getD {d : ℕ} (subMean : Bool) (chunkE : ℕ) (exps : List (Fin d → ℝ)) (r : ℕ)
    (hr : r < exps.length) :
    (queryPatterns subMean chunkE exps).getD r 0 = prepared subMean chunkE exps.length exps[r] := by
  unfold queryPatterns prepared
  by_cases h : chunkE > exps.length ∧ subMean = false
  · rw [if_pos h, if_neg (by rintro (h1 | h1); · rw [h.2] at h1; cases h1
                             · omega)]
    simp [List.getD_eq_getElem?_getD, hr]
  · rw [if_neg h, if_pos (by
      by_contra hc
      push Not at hc
      exact h ⟨hc.2, by simpa using hc.1⟩)]
    simp only [List.getD_eq_getElem?_getD, List.getElem?_map, List.getElem?_eq_getElem hr, Option.map_some,
      Option.getD_some]
    rfl

/-- C45, one phase (partial: dictionary chunks with at least `k` rows, see `C45_short_last_chunk_fails`; not
the quantised non-angular path, see `C30_quantised_metric_fails`; the experimental pattern is centred whatever
`subtract_exp_pat_mean` says when searched in chunks, see `C45_mean_flag_ignored_fails`): whatever the chunk sizes,
the uninitialised memory and the tie-breaking, the stored result of pattern `r` is a correct top-k answer over
the *whole* dictionary: orientations at `k` distinct positions, each with the metric between the prepared
pattern and the centred simulated pattern of that orientation, best first, nothing better left out. -/
theorem C45_topk_partial {d : ℕ} (k : ℕ) (metric : Metric) (quant : Bool)
    (hq : quant = false ∨ metric = .angular) (garbage : ℕ → ℕ → ℤ) (tape : TopkTape) (tk : TopKSorted)
    (subMean : Bool) (chunkE chunkD : ℕ) (hE : 0 < chunkE) (hD : 0 < chunkD) (hk : k ≤ chunkD)
    (oris : List Q) (hN : k ≤ oris.length)
    (hlast : oris.length % chunkD = 0 ∨ k ≤ oris.length % chunkD)
    (sim : Q → Fin d → ℝ) (exps : List (Fin d → ℝ)) :
    ∃ out, dictionaryIndexPhase k metric quant garbage tape tk subMean chunkE chunkD oris sim exps = some out ∧
      out.length = exps.length ∧
      ∀ r (hr : r < exps.length), ∃ res, IsTopK (specBig metric)
        (fun o => specScore metric (prepared subMean chunkE exps.length exps[r]) (centred (sim o))) oris k res ∧
        out.getD r [] = res.map fun e => (oris.getD e.2.toNat ⟨0, 0, 0, 0⟩, e.1) := by
  obtain ⟨out, ho, hl, h⟩ := phase_isTopK k metric quant hq garbage tape tk subMean chunkE chunkD hE hD
    hk oris hN hlast sim exps
  refine ⟨out, ho, hl, fun r hr => ?_⟩
  obtain ⟨res, h1, h2⟩ := h r hr
  refine ⟨res, ?_, h2⟩
  rw [queryPatterns_getD subMean chunkE exps r hr, metric_big_eq, metric_dist_eq'] at h1
  exact h1

/-- C45, whole call with one master pattern and `top_k_matches ≥ 1`: every pattern ends up with phase 0 and
an orientation of the dictionary whose metric is at least as good as that of every other dictionary
orientation. -/
theorem C45_best_match_partial {d : ℕ} (k : ℕ) (hk1 : 1 ≤ k) (metric : Metric) (quant : Bool)
    (hq : quant = false ∨ metric = .angular) (garbage : ℕ → ℕ → ℤ) (tape : TopkTape) (tk : TopKSorted)
    (subMean : Bool) (chunkE chunkD : ℕ) (hE : 0 < chunkE) (hD : 0 < chunkD) (hk : k ≤ chunkD)
    (oris : List Q) (hN : k ≤ oris.length)
    (hlast : oris.length % chunkD = 0 ∨ k ≤ oris.length % chunkD)
    (sim : Q → Fin d → ℝ) (exps : List (Fin d → ℝ)) :
    ∃ out, dictionaryIndex k metric quant garbage tape tk subMean chunkE chunkD [(oris, sim)] exps = some out ∧
      out.length = exps.length ∧
      ∀ r (hr : r < exps.length), ∃ o ∈ oris, ∃ v : ℝ,
        out[r]? = some (0, o, (v : EReal)) ∧
        v = specScore metric (prepared subMean chunkE exps.length exps[r]) (centred (sim o)) ∧
        ∀ o' ∈ oris, let v' := specScore metric (prepared subMean chunkE exps.length exps[r]) (centred (sim o'))
          if specBig metric = true then v' ≤ v else v ≤ v' := by
  obtain ⟨raw, hraw, hlen, hall⟩ := C45_topk_partial k metric quant hq garbage tape tk subMean chunkE chunkD hE hD
    hk oris hN hlast sim exps
  have hne : ∀ ms ∈ raw, ms ≠ [] := by
    intro ms hms
    obtain ⟨r, hr, rfl⟩ := List.getElem_of_mem hms
    obtain ⟨res, ⟨idx, hil, _, hres, _, _⟩, hrr⟩ := hall r (by omega)
    have hrr' : raw[r] = res.map fun e => (oris.getD e.2.toNat ⟨0, 0, 0, 0⟩, e.1) := by
      rw [← hrr]; simp [List.getD_eq_getElem?_getD, hr]
    intro hc
    rw [hrr', hres] at hc
    have : idx = [] := by simpa using hc
    rw [this] at hil
    simp at hil
    omega
  obtain ⟨out, hout, hF⟩ := C43_single_phase_partial raw hne
  refine ⟨out, ?_, ?_, ?_⟩
  · unfold dictionaryIndex
    simp only [List.zipIdx_cons, List.zipIdx_nil, List.foldlM_cons, List.foldlM_nil, hraw, Option.map_some]
    exact hout
  · rw [← hF.length_eq, hlen]
  · intro r hr
    have hr' : r < raw.length := by omega
    have hro : r < out.length := by rw [← hF.length_eq]; exact hr'
    obtain ⟨m, hm1, hm2⟩ := (List.forall₂_iff_get.mp hF).2 r hr' hro
    obtain ⟨res, ⟨idx, hil, hnd, hres, hsort, hbest⟩, hrr⟩ := hall r hr
    have hrr' : raw[r] = res.map fun e => (oris.getD e.2.toNat ⟨0, 0, 0, 0⟩, e.1) := by
      rw [← hrr]; simp [List.getD_eq_getElem?_getD, hr']
    cases idx with
    | nil => simp at hil; omega
    | cons i t =>
      have hm : m = (oris.get i, ((specScore metric (prepared subMean chunkE exps.length exps[r])
          (centred (sim (oris.get i))) : ℝ) : EReal)) := by
        have h1 : raw.get ⟨r, hr'⟩ = raw[r] := rfl
        rw [h1, hrr', hres] at hm1
        simp at hm1
        rw [← hm1]
        simp
      refine ⟨oris.get i, List.get_mem _ _, _, ?_, rfl, ?_⟩
      · rw [List.getElem?_eq_getElem hro]
        have h2 : out.get ⟨r, hro⟩ = out[r] := rfl
        rw [← h2, hm2, hm]
      · intro o' ho'
        obtain ⟨j, hj, rfl⟩ := List.getElem_of_mem ho'
        simp only
        have hjm : (⟨j, hj⟩ : Fin oris.length) ∈ i :: t ∨ (⟨j, hj⟩ : Fin oris.length) ∉ i :: t := em _
        rcases hjm with hjm | hjm
        · rcases List.mem_cons.mp hjm with he | hjt
          · have : oris[j] = oris.get i := by rw [← he]; rfl
            rw [this]
            split_ifs <;> exact le_refl _
          · exact (List.pairwise_cons.mp hsort).1 _ hjt
        · exact hbest _ hjm i (by simp)

/-- `subtract_exp_pat_mean=False` is ignored when the patterns are searched in chunks: the pattern `3` against the
simulated pattern `0` is reported at squared distance 0 instead of 9. -/
theorem C45_mean_flag_ignored_fails (garbage : ℕ → ℕ → ℤ) (tape : TopkTape) (tk : TopKSorted) (o : Q) :
    ∃ out, dictionaryIndex 1 .euclidean false garbage tape tk false 1 1 [([o], fun _ (_ : Fin 1) => (0 : ℝ))]
        [fun _ => 3] = some out ∧ out = [(0, o, ((0 : ℝ) : EReal))] ∧
      specScore .euclidean (fun _ : Fin 1 => (3 : ℝ)) (fun _ => 0) = 9 := by
  obtain ⟨out, ho, hl, h⟩ := C45_best_match_partial 1 le_rfl .euclidean false (Or.inl rfl) garbage tape tk false 1 1
    one_pos one_pos le_rfl [o] (by simp) (by simp) (fun _ (_ : Fin 1) => (0 : ℝ)) [fun _ => 3]
  refine ⟨out, ho, ?_, by norm_num [specScore]⟩
  obtain ⟨o', ho', v, h1, h2, _⟩ := h 0 (by simp)
  have hv : v = 0 := by rw [h2]; simp [specScore, prepared, centred]
  have : o' = o := by simpa using ho'
  subst this
  rw [hv] at h1
  obtain ⟨a, rfl⟩ := List.length_eq_one_iff.mp hl
  simpa using h1

/-- With the default angular metric the mean of the experimental pattern is irrelevant. -/
theorem angular_zeroMean {d : ℕ} (q x : Fin d → ℝ) :
    Metric.angular.dist (zeroMean q) (zeroMean x) = Metric.angular.dist q (zeroMean x) := by
  unfold Metric.dist
  simp only
  have hz : ∑ i, zeroMean x i = 0 := by
    unfold zeroMean
    rw [Finset.sum_sub_distrib, Finset.sum_const, Finset.card_univ, Fintype.card_fin, nsmul_eq_mul]
    rcases Nat.eq_zero_or_pos d with h | h
    · subst h; simp
    · have : (d : ℝ) ≠ 0 := by positivity
      field_simp
      ring
  have : ∀ i, zeroMean q i * zeroMean x i = q i * zeroMean x i - (∑ j, q j) / d * zeroMean x i := by
    intro i
    show (q i - _) * _ = _
    ring
  simp only [this]
  rw [Finset.sum_sub_distrib, ← Finset.mul_sum, hz, mul_zero, sub_zero]

/-- C45, default metric: the stored metric values do not depend on either chunk size nor on
`subtract_exp_pat_mean`; they are the `k` largest dot products over the dictionary. -/
theorem C45_chunk_independent_partial {d : ℕ} (k : ℕ) (quant : Bool) (garbage : ℕ → ℕ → ℤ) (tape : TopkTape)
    (tk : TopKSorted) (subMean : Bool) (chunkE chunkD : ℕ) (hE : 0 < chunkE) (hD : 0 < chunkD) (hk : k ≤ chunkD)
    (oris : List Q) (hN : k ≤ oris.length)
    (hlast : oris.length % chunkD = 0 ∨ k ≤ oris.length % chunkD)
    (sim : Q → Fin d → ℝ) (exps : List (Fin d → ℝ)) :
    ∃ out, dictionaryIndexPhase k .angular quant garbage tape tk subMean chunkE chunkD oris sim exps = some out ∧
      ∀ r (hr : r < exps.length), (out.getD r []).map Prod.snd =
        ((sortedDists true (fun o => ∑ i, exps[r] i * (sim o i - (∑ j, sim o j) / d)) oris).take k).map
          fun x : ℝ => (x : EReal) := by
  obtain ⟨out, ho, hl, hall⟩ := phase_isTopK k .angular quant (Or.inr rfl) garbage tape tk subMean chunkE chunkD
    hE hD hk oris hN hlast sim exps
  refine ⟨out, ho, fun r hr => ?_⟩
  obtain ⟨res, htop, hrr⟩ := hall r hr
  have hd : (fun o => Metric.angular.dist ((queryPatterns subMean chunkE exps).getD r 0) (zeroMean (sim o))) =
      fun o => ∑ i, exps[r] i * (sim o i - (∑ j, sim o j) / d) := by
    funext o
    unfold queryPatterns
    split_ifs
    · simp [List.getD_eq_getElem?_getD, hr, Metric.dist, zeroMean]
    · have : (exps.map zeroMean).getD r 0 = zeroMean exps[r] := by
        simp [List.getD_eq_getElem?_getD, hr]
      rw [this, angular_zeroMean]
      simp [Metric.dist, zeroMean]
  rw [hd] at htop
  rw [hrr, List.map_map]
  have : (Prod.snd ∘ fun e : EReal × ℤ => (oris.getD e.2.toNat (⟨0, 0, 0, 0⟩ : Q), e.1)) = Prod.fst := rfl
  rw [this, sorted_take htop]
  rfl

theorem call_k {d : ℕ} {Qs : List (Fin d → ℝ)} {s s' : Knn d} {c : KnnCall} (h : s.call Qs c = some s') :
    s'.k = s.k := by
  cases c with
  | all a b =>
    simp only [Knn.call, Knn.queryAll] at h
    split at h
    · simp at h
    · split_ifs at h
      simp only [Option.some.injEq] at h
      subst h; rfl
  | chunk a b c e =>
    simp only [Knn.call, Knn.queryChunk] at h
    split at h
    · simp at h
    · split_ifs at h
      simp only [Option.some.injEq] at h
      subst h; rfl

theorem session_small {d : ℕ} (Qs : List (Fin d → ℝ)) (hist : List (List (Fin d → ℝ) × List KnnCall)) :
    ∀ s : Knn d, (∃ step ∈ hist, step.1.length < s.k ∧ step.2 ≠ []) → s.session Qs hist = none := by
  induction hist with
  | nil => intro s h; simp at h
  | cons st t ih =>
    intro s h
    unfold Knn.session
    rw [List.foldlM_cons]
    by_cases hst : st.1.length < s.k ∧ st.2 ≠ []
    · obtain ⟨c, cs, hc⟩ := List.exists_cons_of_ne_nil hst.2
      rw [hc, List.foldlM_cons]
      have : (s.setData st.1).call Qs c = none := by
        cases c with
        | all a b => exact (C30_small_chunk_raises s st.1 a b Qs 0 hst.1).1
        | chunk a b e f => exact (C30_small_chunk_raises s st.1 e f _ a hst.1).2
      rw [this]; rfl
    · obtain ⟨step, hs1, hs2⟩ := h
      have hs : step ∈ t := by
        rcases List.mem_cons.mp hs1 with rfl | h
        · exact absurd hs2 hst
        · exact h
      have hkeep : ∀ (cs : List KnnCall) (s0 s1 : Knn d), cs.foldlM (fun s c => s.call Qs c) s0 = some s1 →
          s1.k = s0.k := by
        intro cs
        induction cs with
        | nil => intro s0 s1 h; simp at h; rw [h]
        | cons c cs ihc =>
          intro s0 s1 h
          rw [List.foldlM_cons] at h
          simp only [Option.bind_eq_bind, Option.bind_eq_some_iff] at h
          obtain ⟨s2, h1, h2⟩ := h
          rw [ihc _ _ h2, call_k h1]
      cases hf : st.2.foldlM (fun s c => s.call Qs c) (s.setData st.1) with
      | none => rfl
      | some s1 =>
        have hk : s1.k = s.k := (hkeep st.2 (s.setData st.1) s1 hf).trans rfl
        exact ih s1 ⟨step, hs, by rw [hk]; exact hs2⟩

theorem torchSplit_last {α : Type} (c : ℕ) (hc : 0 < c) (l : List α) (h : 0 < l.length % c) :
    ∃ b ∈ torchSplit c l, b.length = l.length % c := by
  induction l using torchSplit.induct c with
  | case1 l hl ih =>
    rw [torchSplit, if_pos hl]
    have hm : (l.drop c).length % c = l.length % c := by
      rw [List.length_drop, ← Nat.mod_eq_sub_mod (by omega)]
    obtain ⟨b, hb, hbl⟩ := ih (by rw [hm]; exact h)
    exact ⟨b, by simp [hb], by rw [hbl, hm]⟩
  | case2 l hl =>
    rw [torchSplit, if_neg hl]
    refine ⟨l, by simp, ?_⟩
    have : l.length ≤ c := by omega
    rcases Nat.lt_or_ge l.length c with h1 | h1
    · rw [Nat.mod_eq_of_lt h1]
    · have : l.length = c := by omega
      rw [this] at h; simp at h

/-- C45 fails when the last dictionary chunk is shorter than `top_k_matches`: the call raises, for any
data. -/
theorem C45_short_last_chunk_fails {d : ℕ} (k : ℕ) (metric : Metric) (quant : Bool) (garbage : ℕ → ℕ → ℤ)
    (tape : TopkTape) (tk : TopKSorted) (subMean : Bool) (chunkE chunkD : ℕ) (hE : 0 < chunkE) (hD : 0 < chunkD)
    (oris : List Q) (h0 : 0 < oris.length % chunkD) (hshort : oris.length % chunkD < k)
    (sim : Q → Fin d → ℝ) (exps : List (Fin d → ℝ)) :
    dictionaryIndexPhase k metric quant garbage tape tk subMean chunkE chunkD oris sim exps = none := by
  unfold dictionaryIndexPhase
  rw [if_neg (by omega)]
  have hn : knnRun k metric quant garbage (queryPatterns subMean chunkE exps)
      (dictHistory tape chunkE chunkD exps.length oris sim) tk = none := by
    unfold knnRun
    rw [session_small]
    · rfl
    · obtain ⟨b, hb, hbl⟩ := torchSplit_last chunkD hD oris h0
      obtain ⟨i, hi, hib⟩ := List.getElem_of_mem hb
      refine ⟨(b.map fun o => zeroMean (sim o), queryCalls tape i chunkE exps.length), ?_, ?_, ?_⟩
      · unfold dictHistory
        apply List.mem_map.mpr
        refine ⟨(b, i), ?_, rfl⟩
        rw [List.mem_zipIdx_iff_getElem?]
        simp [hi, hib]
      · simp [hbl, Knn.init, hshort]
      · unfold queryCalls
        split_ifs
        · simp
        · rw [torchSplit]; split_ifs <;> simp
  rw [hn]; rfl

/-- C45 fails for several master patterns: the call always raises (in `combine_indexing_results`). -/
theorem C45_multi_phase_fails {d : ℕ} (k : ℕ) (metric : Metric) (quant : Bool) (garbage : ℕ → ℕ → ℤ)
    (tape : TopkTape) (tk : TopKSorted) (subMean : Bool) (chunkE chunkD : ℕ)
    (p1 p2 : List Q × (Q → Fin d → ℝ)) (ps : List (List Q × (Q → Fin d → ℝ))) (exps : List (Fin d → ℝ)) :
    dictionaryIndex k metric quant garbage tape tk subMean chunkE chunkD (p1 :: p2 :: ps) exps = none := by
  unfold dictionaryIndex
  set step := fun (raw : RawResults Q) (pi : (List Q × (Q → Fin d → ℝ)) × ℕ) =>
    (dictionaryIndexPhase k metric quant garbage tape tk subMean chunkE chunkD pi.1.1 pi.1.2 exps).map
      fun r => setRaw raw pi.2 r with hstep
  have hgrow : ∀ (l : List ((List Q × (Q → Fin d → ℝ)) × ℕ)) (raw raw' : RawResults Q),
      l.foldlM step raw = some raw' → raw.length ≤ raw'.length := by
    intro l
    induction l with
    | nil => intro raw raw' h; simp at h; rw [h]
    | cons x t ih =>
      intro raw raw' h
      rw [List.foldlM_cons] at h
      simp only [Option.bind_eq_bind, Option.bind_eq_some_iff] at h
      obtain ⟨r1, h1, h2⟩ := h
      refine le_trans ?_ (ih _ _ h2)
      rw [hstep] at h1
      simp only [Option.map_eq_some_iff] at h1
      obtain ⟨r, _, rfl⟩ := h1
      unfold setRaw
      split_ifs <;> simp
  cases hf : (p1 :: p2 :: ps).zipIdx.foldlM step [] with
  | none => rfl
  | some raw =>
    rw [Option.bind_some]
    simp only [List.zipIdx_cons, List.foldlM_cons, Option.bind_eq_bind, Option.bind_eq_some_iff] at hf
    obtain ⟨r1, h1, r2, h2, h3⟩ := hf
    have hl := hgrow _ _ _ h3
    rw [hstep] at h1 h2
    simp only [Option.map_eq_some_iff] at h1 h2
    obtain ⟨x1, _, rfl⟩ := h1
    obtain ⟨x2, _, rfl⟩ := h2
    have : 2 ≤ raw.length := by
      refine le_trans ?_ hl
      simp [setRaw]
    match raw, this with
    | _ :: _ :: _, _ => rfl

/-! Non-vacuity of the C45 hypotheses: five dictionary entries, chunks of 3, k = 2. -/
example : (2 : ℕ) ≤ 3 ∧ (5 % 3 = 0 ∨ 2 ≤ 5 % 3) := by decide
example : torchSplit 3 [10, 11, 12, 13, 14] = [[10, 11, 12], [13, 14]] := by
  rw [torchSplit, if_pos (by simp)]
  simp only [List.take, List.drop]
  rw [torchSplit, if_neg (by simp)]

/-! ### C46 -/

/-- C46 holds exactly for tiny problems: the slice keeps the `n` columns with the largest eigenvalues
(`eigh` sorts ascending: the last `n`) if and only if the number of pixels plus `n` is at most 300. -/
theorem C46_leading_iff_partial (m n : ℕ) (h1 : 1 ≤ n) (h2 : n ≤ m) :
    pcaColumns m n = List.range' (m - n) n ↔ m + n ≤ 300 := by
  have ha : sliceBound m (-(n : ℤ)) = m - n := by
    unfold sliceBound
    rw [if_pos (by omega)]; omega
  unfold pcaColumns
  simp only [ha]
  constructor
  · intro h
    have hl := congrArg List.length h
    simp only [List.length_range'] at hl
    unfold sliceBound at hl
    split_ifs at hl with hneg
    · omega
    · have : (-(n : ℤ) + 300).toNat = 300 - n := by omega
      rw [this] at hl
      omega
  · intro h
    unfold sliceBound
    rw [if_neg (by omega)]
    have : (-(n : ℤ) + 300).toNat = 300 - n := by omega
    rw [this]
    congr 1
    omega

/-- C46 fails for every realistic problem: with at least 300 pixels and at most 300 components *no*
component at all is kept, and with more than 300 components exactly 300 trailing ones are. -/
theorem C46_fails (m n : ℕ) (h1 : 1 ≤ n) (h2 : n ≤ m) (h3 : 300 ≤ m) :
    (n ≤ 300 → pcaColumns m n = []) ∧ (300 < n → pcaColumns m n = List.range' (m - n) 300) := by
  have ha : sliceBound m (-(n : ℤ)) = m - n := by
    unfold sliceBound
    rw [if_pos (by omega)]; omega
  unfold pcaColumns
  simp only [ha]
  constructor
  · intro h
    have : sliceBound m (-(n : ℤ) + 300) - (m - n) = 0 := by
      unfold sliceBound
      rw [if_neg (by omega)]
      omega
    rw [this]; rfl
  · intro h
    have : sliceBound m (-(n : ℤ) + 300) - (m - n) = 300 := by
      unfold sliceBound
      rw [if_pos (by omega)]
      omega
    rw [this]

example : pcaColumns 100 10 = List.range' 90 10 := by decide
example : pcaColumns 3600 50 = [] := by decide

end Verif
