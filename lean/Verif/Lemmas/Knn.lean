import Verif.Model.Knn
import Verif.Spec.Knn
import Mathlib.Tactic.Linarith
/-! Helper lemmas for the k-NN properties. -/
namespace Verif
open Spec

/-- `a` is no better than `b` -/
def nb (big : Bool) (a b : EReal) : Prop := if big then a ≤ b else b ≤ a

theorem nb_trans {big : Bool} {a b c : EReal} (h : nb big a b) (h' : nb big b c) : nb big a c := by
  unfold nb at *
  cases big
  · simp at *; exact h'.trans h
  · simp at *; exact h.trans h'

structure TopEnt (big : Bool) (k : ℕ) (E T : List (EReal × ℤ)) : Prop where
  len : T.length = k
  nodup : T.Nodup
  sub : ∀ t ∈ T, t ∈ E
  best : ∀ e ∈ E, e ∉ T → ∀ t ∈ T, nb big e.1 t.1

theorem topk_best {big : Bool} {vals : List EReal} {k : ℕ} {idx : List ℕ}
    (h : TopkOK big vals k idx) {i j : ℕ} (hi : i ∈ idx) (hj : j < vals.length) (hn : j ∉ idx) :
    nb big (vals.getD j 0) (vals.getD i 0) := h.best i hi j hj hn

theorem getD_map_fst (M : List (EReal × ℤ)) (i : ℕ) :
    (M.map Prod.fst).getD i 0 = (M.getD i (0, 0)).1 := by
  rw [List.getD_eq_getElem?_getD, List.getElem?_map, List.getD_eq_getElem?_getD]
  cases M[i]? <;> rfl

theorem gather_top {big : Bool} {k : ℕ} {M : List (EReal × ℤ)} {idx : List ℕ} (hM : M.Nodup)
    (h : TopkOK big (M.map Prod.fst) k idx) :
    TopEnt big k M (idx.map fun i => M.getD i (0, 0)) := by
  have hb : ∀ i ∈ idx, i < M.length := fun i hi => by simpa using h.bound i hi
  have hget : ∀ i (hi : i < M.length), M.getD i (0, 0) = M[i] := fun i hi => by
    rw [List.getD_eq_getElem?_getD, List.getElem?_eq_getElem hi]; rfl
  refine ⟨by rw [List.length_map, h.len], ?_, ?_, ?_⟩
  · apply List.Nodup.map_on _ h.nodup
    intro x hx y hy hxy
    rw [hget x (hb x hx), hget y (hb y hy)] at hxy
    exact (List.Nodup.getElem_inj_iff hM).mp hxy
  · intro t ht
    obtain ⟨i, hi, rfl⟩ := List.mem_map.mp ht
    rw [hget i (hb i hi)]; exact List.getElem_mem _
  · intro e he hne t ht
    obtain ⟨i, hi, rfl⟩ := List.mem_map.mp ht
    obtain ⟨j, hj, rfl⟩ := List.mem_iff_getElem.mp he
    have hjn : j ∉ idx := by
      intro hji
      apply hne
      exact List.mem_map.mpr ⟨j, hji, hget j hj⟩
    have := topk_best h hi (by simpa using hj) hjn
    rw [getD_map_fst, getD_map_fst, hget j hj] at this
    exact this

theorem merge_top {big : Bool} {k : ℕ} {E1 E2 T1 T2 T : List (EReal × ℤ)}
    (h1 : TopEnt big k E1 T1) (h2 : TopEnt big k E2 T2)
    (h : TopEnt big k (T1 ++ T2) T) : TopEnt big k (E1 ++ E2) T := by
  -- an element of T that is not in Ti forces some element of Ti out of T
  have out : ∀ (Ti : List (EReal × ℤ)), Ti.length = k → Ti.Nodup → ∀ t ∈ T, t ∉ Ti →
      ∃ u ∈ Ti, u ∉ T := by
    intro Ti hl hn t ht htn
    by_contra hc
    push Not at hc
    have hsub : Ti ⊆ T := hc
    have hsp := List.Nodup.subperm hn hsub
    have hp := hsp.perm_of_length_le (by rw [hl, h.len])
    exact htn (hp.mem_iff.mpr ht)
  refine ⟨h.len, h.nodup, ?_, ?_⟩
  · intro t ht
    rcases List.mem_append.mp (h.sub t ht) with hh | hh
    · exact List.mem_append_left _ (h1.sub t hh)
    · exact List.mem_append_right _ (h2.sub t hh)
  · intro e he hne t ht
    have htt := List.mem_append.mp (h.sub t ht)
    rcases List.mem_append.mp he with he | he
    · by_cases heT : e ∈ T1
      · exact h.best e (List.mem_append_left _ heT) hne t ht
      · by_cases ht1 : t ∈ T1
        · exact h1.best e he heT t ht1
        · obtain ⟨u, hu, hun⟩ := out T1 h1.len h1.nodup t ht ht1
          exact nb_trans (h1.best e he heT u hu) (h.best u (List.mem_append_left _ hu) hun t ht)
    · by_cases heT : e ∈ T2
      · exact h.best e (List.mem_append_right _ heT) hne t ht
      · by_cases ht2 : t ∈ T2
        · exact h2.best e he heT t ht2
        · obtain ⟨u, hu, hun⟩ := out T2 h2.len h2.nodup t ht ht2
          exact nb_trans (h2.best e he heT u hu) (h.best u (List.mem_append_right _ hu) hun t ht)

/-- `±inf` place holders never survive a merge with `k` real values -/
theorem phantom_top {big : Bool} {k : ℕ} {E W T2 : List (EReal × ℤ)} {idx : List ℕ}
    (hW : W.length = k) (hw : ∀ e ∈ W, e.1 = if big then ⊥ else ⊤)
    (hreal : ∀ e ∈ E, ∃ x : ℝ, e.1 = (x : EReal)) (h2 : TopEnt big k E T2)
    (h : TopkOK big ((W ++ T2).map Prod.fst) k idx) :
    TopEnt big k E (idx.map fun i => (W ++ T2).getD i (0, 0)) := by
  have hlen : (W ++ T2).length = k + k := by rw [List.length_append, hW, h2.len]
  have hb : ∀ i ∈ idx, i < k + k := fun i hi => by
    have := h.bound i hi; rw [List.length_map, hlen] at this; exact this
  -- no chosen position is a place holder
  have hge : ∀ i ∈ idx, k ≤ i := by
    intro i hi
    by_contra hik
    push Not at hik
    have hex : ∃ j, k ≤ j ∧ j < k + k ∧ j ∉ idx := by
      by_contra hc
      push Not at hc
      have hsub : (i :: List.range' k k) ⊆ idx := by
        intro j hj
        rcases List.mem_cons.mp hj with rfl | hj
        · exact hi
        · have := List.mem_range'_1.mp hj
          exact hc j this.1 this.2
      have hnd : (i :: List.range' k k).Nodup := by
        refine List.nodup_cons.mpr ⟨?_, List.nodup_range'⟩
        intro hj
        have := List.mem_range'_1.mp hj
        omega
      have := (List.Nodup.subperm hnd hsub).length_le
      rw [h.len] at this
      simp at this
    obtain ⟨j, hkj, hjk, hj⟩ := hex
    have hjl : j < ((W ++ T2).map Prod.fst).length := by rw [List.length_map, hlen]; exact hjk
    have hbest := topk_best h hi hjl hj
    rw [getD_map_fst, getD_map_fst] at hbest
    have hi' : (W ++ T2).getD i (0, 0) ∈ W := by
      rw [List.getD_eq_getElem?_getD, List.getElem?_append_left (by omega),
        List.getElem?_eq_getElem (by omega)]
      exact List.getElem_mem _
    have hj' : (W ++ T2).getD j (0, 0) ∈ T2 := by
      rw [List.getD_eq_getElem?_getD, List.getElem?_append_right (by omega),
        List.getElem?_eq_getElem (by rw [h2.len]; omega)]
      exact List.getElem_mem _
    rw [hw _ hi'] at hbest
    obtain ⟨x, hx⟩ := hreal _ (h2.sub _ hj')
    rw [hx] at hbest
    unfold nb at hbest
    cases big
    · simp at hbest
    · simp at hbest
  have hget : ∀ i ∈ idx, (W ++ T2).getD i (0, 0) = T2.getD (i - k) (0, 0) := by
    intro i hi
    have := hge i hi
    rw [List.getD_eq_getElem?_getD, List.getElem?_append_right (by omega), hW,
      List.getD_eq_getElem?_getD]
  have hT2get : ∀ i ∈ idx, ∃ hh : i - k < T2.length, T2.getD (i - k) (0, 0) = T2[i - k] := by
    intro i hi
    have hh : i - k < T2.length := by have := hb i hi; have := hge i hi; rw [h2.len]; omega
    exact ⟨hh, by rw [List.getD_eq_getElem?_getD, List.getElem?_eq_getElem hh]; rfl⟩
  set T := idx.map fun i => (W ++ T2).getD i (0, 0) with hT
  have hTsub : T ⊆ T2 := by
    intro t ht
    obtain ⟨i, hi, rfl⟩ := List.mem_map.mp ht
    obtain ⟨hh, he⟩ := hT2get i hi
    rw [hget i hi, he]; exact List.getElem_mem _
  have hTnd : T.Nodup := by
    apply List.Nodup.map_on _ h.nodup
    intro x hx y hy hxy
    obtain ⟨h1, e1⟩ := hT2get x hx
    obtain ⟨h2', e2⟩ := hT2get y hy
    rw [hget x hx, hget y hy, e1, e2] at hxy
    have := (List.Nodup.getElem_inj_iff h2.nodup).mp hxy
    have := hge x hx
    have := hge y hy
    omega
  have hTl : T.length = k := by rw [hT, List.length_map, h.len]
  have hperm : T.Perm T2 :=
    (List.Nodup.subperm hTnd hTsub).perm_of_length_le (by rw [hTl, h2.len])
  refine ⟨hTl, hTnd, fun t ht => h2.sub t (hTsub ht), ?_⟩
  intro e he hne t ht
  exact h2.best e he (fun hc => hne (hperm.mem_iff.mpr hc)) t (hTsub ht)

/-! ### entries of a data set -/

/-- all (distance, global index) pairs of a chunk starting at `off` -/
noncomputable def ents {α : Type} (dist : α → ℝ) (D : List α) (off : ℕ) : List (EReal × ℤ) :=
  D.mapIdx fun i x => ((dist x : EReal), (i : ℤ) + off)

theorem ents_append {α : Type} (dist : α → ℝ) (D C : List α) :
    ents dist (D ++ C) 0 = ents dist D 0 ++ ents dist C D.length := by
  unfold ents
  rw [List.mapIdx_append]
  congr 1

theorem mem_ents {α : Type} {dist : α → ℝ} {D : List α} {off : ℕ} {e : EReal × ℤ} :
    e ∈ ents dist D off ↔ ∃ (i : ℕ) (h : i < D.length), e = ((dist D[i] : EReal), (i : ℤ) + off) := by
  unfold ents
  rw [List.mem_mapIdx]
  constructor
  · rintro ⟨i, h, rfl⟩; exact ⟨i, h, rfl⟩
  · rintro ⟨i, h, rfl⟩; exact ⟨i, h, rfl⟩

theorem ents_nodup {α : Type} (dist : α → ℝ) (D : List α) (off : ℕ) : (ents dist D off).Nodup := by
  rw [List.nodup_iff_injective_get]
  intro i j h
  have h2 : ((i : ℕ) : ℤ) + off = ((j : ℕ) : ℤ) + off := by
    have h3 := congrArg Prod.snd h
    rw [List.get_eq_getElem, List.get_eq_getElem] at h3
    simpa [ents] using h3
  ext
  omega

theorem ents_disj {α : Type} (dist : α → ℝ) (D C : List α) :
    ∀ e ∈ ents dist D 0, e ∉ ents dist C D.length := by
  intro e he hc
  obtain ⟨i, hi, rfl⟩ := mem_ents.mp he
  obtain ⟨j, hj, h⟩ := mem_ents.mp hc
  have := congrArg Prod.snd h
  omega

/-- what one stored row means after the data prefix `D` has been searched -/
def RowInv {α : Type} (big : Bool) (k : ℕ) (dist : α → ℝ) (D : List α)
    (row : List (EReal × ℤ)) : Prop :=
  (D = [] ∧ row.length = k ∧ ∀ e ∈ row, e.1 = if big then ⊥ else ⊤) ∨
  TopEnt big k (ents dist D 0) row

theorem rowUpdate_inv {d : ℕ} (s : Knn d) (tk1 tk2 : TopK) (r : ℕ) (C D : List (Fin d → ℝ))
    (q : Fin d → ℝ) (row : List (EReal × ℤ)) (hq : s.quant = false ∨ s.metric = .angular)
    (hk : s.k ≤ C.length) (hoff : s.currStart = D.length)
    (hinv : RowInv s.metric.big s.k (s.metric.dist q) D row) :
    RowInv s.metric.big s.k (s.metric.dist q) (D ++ C) (s.rowUpdate tk1 tk2 r C q row) := by
  right
  have hm : (if s.quant then Metric.angular else s.metric) = s.metric := by
    rcases hq with h | h
    · simp [h]
    · rw [h]; simp
  have hbig : (if s.quant then true else s.metric.big) = s.metric.big := by
    rcases hq with h | h
    · simp [h]
    · rw [h]; simp [Metric.big]
  set dist := s.metric.dist q with hdist
  have hsc : s.scores C q = (ents dist C D.length).map Prod.fst := by
    unfold Knn.scores ents
    rw [hm]
    apply List.ext_getElem
    · simp
    · intro i h1 h2; simp [hdist]
  have hok1 := tk1.ok r s.metric.big s.k (s.scores C q) (by rw [hsc]; simpa [ents] using hk)
  have hscl : (s.scores C q).length = C.length := by simp [Knn.scores]
  set i1 := tk1.run r s.metric.big s.k (s.scores C q) with hi1
  have hnew : (i1.map fun i => ((s.scores C q).getD i 0, (i : ℤ) + s.currStart)) =
      i1.map fun i => (ents dist C D.length).getD i (0, 0) := by
    apply List.map_congr_left
    intro i hi
    have hb := hok1.bound i hi
    rw [hscl] at hb
    rw [hsc, getD_map_fst]
    have hl : i < (ents dist C D.length).length := by simpa [ents] using hb
    rw [List.getD_eq_getElem?_getD, List.getElem?_eq_getElem hl]
    simp [ents, hoff]
  have hT2 : TopEnt s.metric.big s.k (ents dist C D.length)
      (i1.map fun i => ((s.scores C q).getD i 0, (i : ℤ) + s.currStart)) := by
    rw [hnew]
    exact gather_top (ents_nodup _ _ _) (by rw [← hsc]; exact hok1)
  have hrow : s.rowUpdate tk1 tk2 r C q row =
      (tk2.run r s.metric.big s.k ((row ++ i1.map fun i => ((s.scores C q).getD i 0,
        (i : ℤ) + s.currStart)).map Prod.fst)).map
        fun i => (row ++ i1.map fun i => ((s.scores C q).getD i 0, (i : ℤ) + s.currStart)).getD i (0, 0) := by
    unfold Knn.rowUpdate
    simp only [hbig, ← hi1]
  rw [hrow]
  set T2 := i1.map fun i => ((s.scores C q).getD i 0, (i : ℤ) + s.currStart) with hT2d
  have hok2 := tk2.ok r s.metric.big s.k ((row ++ T2).map Prod.fst) (by
    rw [List.length_map, List.length_append, hT2.len]; omega)
  rcases hinv with ⟨hD, hl, hw⟩ | hinv
  · subst hD
    have hreal : ∀ e ∈ ents dist C 0, ∃ x : ℝ, e.1 = (x : EReal) := by
      intro e he
      obtain ⟨i, hi, rfl⟩ := mem_ents.mp he
      exact ⟨_, rfl⟩
    exact phantom_top hl hw hreal hT2 hok2
  · rw [ents_append]
    have hnd : (row ++ T2).Nodup := by
      rw [List.nodup_append]
      refine ⟨hinv.nodup, hT2.nodup, ?_⟩
      intro a ha b hb hab
      subst hab
      exact ents_disj dist D C a (hinv.sub a ha) (hT2.sub a hb)
    exact merge_top hinv hT2 (gather_top hnd hok2)

/-! ### calls and sessions -/

/-- which query rows a call touches -/
def KnnCall.touches : KnnCall → ℕ → Bool
  | .all _ _, _ => true
  | .chunk start len _ _, r => decide (start ≤ r ∧ r < start + len)

/-- slices inside the query list -/
def KnnCall.valid (nq : ℕ) : KnnCall → Prop
  | .all _ _ => True
  | .chunk start len _ _ => start + len ≤ nq

theorem call_ok {d : ℕ} (Qs : List (Fin d → ℝ)) (s : Knn d) (c : KnnCall) (chunk : List (Fin d → ℝ))
    (hdata : s.data = some chunk) (hk : s.k ≤ chunk.length) (hl : s.rows.length = Qs.length)
    (hv : c.valid Qs.length) :
    ∃ tk1 tk2, s.call Qs c = some { s with rows := (s.rows.mapIdx fun r row =>
      if c.touches r = true then s.rowUpdate tk1 tk2 r chunk (Qs.getD r 0) row else row) } := by
  cases c with
  | all tk1 tk2 =>
    refine ⟨tk1, tk2, ?_⟩
    unfold Knn.call Knn.queryAll
    simp only [hdata]
    rw [if_pos ⟨hk, hl.symm⟩]
    simp [KnnCall.touches]
  | chunk start len tk1 tk2 =>
    refine ⟨tk1, tk2, ?_⟩
    unfold Knn.call Knn.queryChunk
    simp only [hdata]
    have hlen : ((Qs.drop start).take len).length = len := by
      simp only [KnnCall.valid] at hv
      simp; omega
    simp only [KnnCall.valid] at hv
    rw [hlen, if_pos ⟨hk, by rw [hl]; exact hv⟩]
    congr 2
    apply List.mapIdx_eq_mapIdx_iff.mpr
    intro r hr
    by_cases h : start ≤ r ∧ r < start + len
    · have ht : (KnnCall.chunk start len tk1 tk2).touches r = true := by
        simp [KnnCall.touches, h]
      rw [if_pos h, if_pos ht]
      congr 1
      rw [List.getD_eq_getElem?_getD, List.getD_eq_getElem?_getD, List.getElem?_take,
        if_pos (by omega), List.getElem?_drop]
      congr 2
      omega
    · simp only [KnnCall.touches, h, decide_false, if_false, Bool.false_eq_true]

theorem calls_ok {d : ℕ} (Qs : List (Fin d → ℝ)) (chunk : List (Fin d → ℝ)) (calls : List KnnCall) :
    ∀ (s : Knn d), s.data = some chunk → s.k ≤ chunk.length → s.rows.length = Qs.length →
    (∀ c ∈ calls, c.valid Qs.length) →
    ∃ rows', calls.foldlM (fun s c => s.call Qs c) s = some { s with rows := rows' } ∧
      rows'.length = Qs.length ∧
      ∀ r, r < Qs.length →
        (calls.countP (fun c => c.touches r) = 0 → rows'.getD r [] = s.rows.getD r []) ∧
        (calls.countP (fun c => c.touches r) = 1 → ∃ tk1 tk2, rows'.getD r [] =
          s.rowUpdate tk1 tk2 r chunk (Qs.getD r 0) (s.rows.getD r [])) := by
  induction calls with
  | nil =>
    intro s hd hk hl hv
    exact ⟨s.rows, rfl, hl, fun r hr => ⟨fun _ => rfl, fun h => by simp at h⟩⟩
  | cons c cs ih =>
    intro s hd hk hl hv
    obtain ⟨tk1, tk2, hc⟩ := call_ok Qs s c chunk hd hk hl (hv c (by simp))
    set s1 : Knn d := { s with rows := (s.rows.mapIdx fun r row =>
      if c.touches r = true then s.rowUpdate tk1 tk2 r chunk (Qs.getD r 0) row else row) } with hs1
    obtain ⟨rows', hf, hlen, hrows⟩ := ih s1 hd hk (by rw [hs1]; simpa using hl)
      (fun c hc => hv c (by simp [hc]))
    refine ⟨rows', ?_, hlen, ?_⟩
    · rw [List.foldlM_cons, hc]
      exact hf
    · intro r hr
      obtain ⟨h0, h1⟩ := hrows r hr
      have hget : s1.rows.getD r [] = if c.touches r then
          s.rowUpdate tk1 tk2 r chunk (Qs.getD r 0) (s.rows.getD r []) else s.rows.getD r [] := by
        have hr' : r < s.rows.length := by rw [hl]; exact hr
        rw [hs1]
        simp only [List.getD_eq_getElem?_getD, List.getElem?_mapIdx, List.getElem?_eq_getElem hr',
          Option.map_some, Option.getD_some]
      have hru : ∀ tk1 tk2 row, s1.rowUpdate tk1 tk2 r chunk (Qs.getD r 0) row =
          s.rowUpdate tk1 tk2 r chunk (Qs.getD r 0) row := fun _ _ _ => rfl
      rw [hget] at h0 h1
      rw [List.countP_cons]
      by_cases ht : c.touches r = true
      · simp only [ht, if_true] at h0 h1 ⊢
        refine ⟨fun h => by omega, fun h => ?_⟩
        exact ⟨tk1, tk2, h0 (by omega)⟩
      · rw [Bool.not_eq_true] at ht
        simp only [ht, Bool.false_eq_true, if_false, add_zero] at h0 h1 ⊢
        refine ⟨h0, fun h => ?_⟩
        obtain ⟨a, b, hab⟩ := h1 h
        exact ⟨a, b, by rw [hab, hru]⟩

/-- every query row is searched exactly once against each data chunk -/
def Covers (nq : ℕ) (calls : List KnnCall) : Prop :=
  (∀ c ∈ calls, c.valid nq) ∧ ∀ r < nq, calls.countP (fun c => c.touches r) = 1

theorem session_inv {d : ℕ} (Qs : List (Fin d → ℝ)) (hist : List (List (Fin d → ℝ) × List KnnCall)) :
    ∀ (s : Knn d) (D : List (Fin d → ℝ)), (s.quant = false ∨ s.metric = .angular) →
    s.currEnd = D.length → s.rows.length = Qs.length →
    (∀ step ∈ hist, s.k ≤ step.1.length ∧ Covers Qs.length step.2) →
    (∀ r < Qs.length, RowInv s.metric.big s.k (s.metric.dist (Qs.getD r 0)) D (s.rows.getD r [])) →
    ∃ s', s.session Qs hist = some s' ∧ s'.metric = s.metric ∧ s'.k = s.k ∧
      s'.rows.length = Qs.length ∧
      ∀ r < Qs.length, RowInv s.metric.big s.k (s.metric.dist (Qs.getD r 0))
        (D ++ (hist.map Prod.fst).flatten) (s'.rows.getD r []) := by
  induction hist with
  | nil =>
    intro s D hq he hl hh hinv
    exact ⟨s, rfl, rfl, rfl, hl, by simpa using hinv⟩
  | cons step hist ih =>
    intro s D hq he hl hh hinv
    obtain ⟨hk, hv, hcov⟩ := hh step (by simp)
    set s1 := s.setData step.1 with hs1
    obtain ⟨rows', hf, hlen, hrows⟩ := calls_ok Qs step.1 step.2 s1 rfl hk hl hv
    set s2 : Knn d := { s1 with rows := rows' } with hs2
    have hinv2 : ∀ r < Qs.length, RowInv s2.metric.big s2.k (s2.metric.dist (Qs.getD r 0))
        (D ++ step.1) (s2.rows.getD r []) := by
      intro r hr
      obtain ⟨tk1, tk2, e⟩ := (hrows r hr).2 (hcov r hr)
      have : s2.rows.getD r [] = rows'.getD r [] := rfl
      rw [this, e]
      exact rowUpdate_inv s1 tk1 tk2 r step.1 D (Qs.getD r 0) (s1.rows.getD r []) hq hk
        (by rw [hs1]; simp [Knn.setData, he]) (hinv r hr)
    obtain ⟨s', hs', hm, hk', hl', hi'⟩ := ih s2 (D ++ step.1) hq
      (by rw [hs2, hs1]; simp [Knn.setData, he]) hlen
      (fun st hst => hh st (by simp [hst])) hinv2
    refine ⟨s', ?_, hm, hk', hl', ?_⟩
    · unfold Knn.session at hs' ⊢
      rw [List.foldlM_cons]
      have : List.foldlM (fun s c => s.call Qs c) (s.setData step.1) step.2 = some s2 := hf
      rw [this]
      exact hs'
    · intro r hr
      have := hi' r hr
      rw [List.map_cons, List.flatten_cons, ← List.append_assoc]
      exact this

/-! ### from the row invariant to the specification -/

theorem exists_map_of_forall {α β : Type} (f : α → β) (l : List β) (h : ∀ b ∈ l, ∃ a, b = f a) :
    ∃ l', l = List.map f l' := by
  induction l with
  | nil => exact ⟨[], rfl⟩
  | cons b t ih =>
    obtain ⟨a, rfl⟩ := h b (by simp)
    obtain ⟨t', rfl⟩ := ih fun b hb => h b (by simp [hb])
    exact ⟨a :: t', rfl⟩

theorem isTopK_of_top {α : Type} {big : Bool} {k : ℕ} {dist : α → ℝ} {D : List α}
    {T : List (EReal × ℤ)} (h : TopEnt big k (ents dist D 0) T)
    (hs : (T.map Prod.fst).Pairwise fun a b => nb big b a) : IsTopK big dist D k T := by
  set f : Fin D.length → EReal × ℤ := fun i => ((dist (D.get i) : EReal), ((i : ℕ) : ℤ)) with hf
  have hinj : Function.Injective f := by
    intro i j hij
    have := congrArg Prod.snd hij
    simp only [hf] at this
    ext; omega
  obtain ⟨idx, rfl⟩ := exists_map_of_forall f T (by
    intro t ht
    obtain ⟨i, hi, e⟩ := mem_ents.mp (h.sub t ht)
    exact ⟨⟨i, hi⟩, by rw [e]; simp [hf]⟩)
  refine ⟨idx, by simpa using h.len, List.Nodup.of_map f h.nodup, rfl, ?_, ?_⟩
  · rw [List.pairwise_map, List.pairwise_map] at hs
    refine hs.imp ?_
    intro a b hab
    unfold nb at hab
    cases big
    · simpa [hf] using hab
    · simpa [hf] using hab
  · intro j hj i hi
    have hjT : f j ∉ idx.map f := by
      intro hc
      obtain ⟨x, hx, hxj⟩ := List.mem_map.mp hc
      exact hj (hinj hxj ▸ hx)
    have := h.best (f j) (mem_ents.mpr ⟨j, j.2, by simp [hf]⟩) hjT (f i) (List.mem_map_of_mem hi)
    unfold nb at this
    cases big
    · simpa [hf] using this
    · simpa [hf] using this

end Verif
