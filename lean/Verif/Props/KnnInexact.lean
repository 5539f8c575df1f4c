import Verif.Lemmas.Knn
import Verif.Props.Knn
import Verif.Model.KnnInexact
import Mathlib.Algebra.Order.BigOperators.Group.Finset
import Mathlib.Tactic.NormNum
/-! Property C134 (utils/knn.py in half precision or with int8 quantisation). -/
namespace Verif.Inexact
open Verif Verif.Spec

/-- An entry with its value rounded. -/
def rnd (rho : EReal → EReal) (e : EReal × ℤ) : EReal × ℤ := (rho e.1, e.2)

theorem nb_mono {rho : EReal → EReal} (hm : Monotone rho) {big : Bool} {a b : EReal} (h : nb big a b) :
    nb big (rho a) (rho b) := by
  unfold nb at *
  cases big
  · simp at *; exact hm h
  · simp at *; exact hm h

/-- different entries have different indices -/
def IdxInj (E : List (EReal × ℤ)) : Prop := ∀ a ∈ E, ∀ b ∈ E, a.2 = b.2 → a = b

theorem map_top {rho : EReal → EReal} (hm : Monotone rho) {big : Bool} {k : ℕ} {E T : List (EReal × ℤ)} (hE : IdxInj E)
    (h : TopEnt big k E T) : TopEnt big k (E.map (rnd rho)) (T.map (rnd rho)) := by
  refine ⟨by rw [List.length_map, h.len], ?_, ?_, ?_⟩
  · apply List.Nodup.map_on _ h.nodup
    intro a ha b hb hab
    exact hE a (h.sub a ha) b (h.sub b hb) (show (rnd rho a).2 = (rnd rho b).2 by rw [hab])
  · intro t ht
    obtain ⟨a, ha, rfl⟩ := List.mem_map.mp ht
    exact List.mem_map_of_mem (h.sub a ha)
  · intro e he hne t ht
    obtain ⟨a, ha, rfl⟩ := List.mem_map.mp he
    obtain ⟨b, hb, rfl⟩ := List.mem_map.mp ht
    have : a ∉ T := fun hc => hne (List.mem_map_of_mem hc)
    exact nb_mono hm (h.best a ha this b hb)

/-- `E` lists the values computed so far for one query, all close to the exact ones, also after rounding. -/
structure Seen {α : Type} (rho : EReal → EReal) (ε : ℝ) (dist : α → ℝ) (D : List α) (off : ℕ) (E : List (EReal × ℤ)) : Prop where
  len : E.length = D.length
  val : ∀ (i : ℕ) (h : i < D.length) (h' : i < E.length), ∃ x y : ℝ, E[i] = ((x : EReal), (i : ℤ) + off) ∧ rho x = (y : EReal) ∧
    |x - dist D[i]| ≤ ε ∧ |y - dist D[i]| ≤ ε

theorem Seen.mem {α : Type} {rho : EReal → EReal} {ε : ℝ} {dist : α → ℝ} {D : List α} {off : ℕ} {E : List (EReal × ℤ)}
    (h : Seen rho ε dist D off E) {e : EReal × ℤ} (he : e ∈ E) :
    ∃ (i : ℕ) (hi : i < D.length) (x y : ℝ), e = ((x : EReal), (i : ℤ) + off) ∧ rho x = (y : EReal) ∧
      |x - dist D[i]| ≤ ε ∧ |y - dist D[i]| ≤ ε ∧ ∃ h', E[i]'h' = e := by
  obtain ⟨i, hi, rfl⟩ := List.mem_iff_getElem.mp he
  have hi' : i < D.length := by rw [← h.len]; exact hi
  obtain ⟨x, y, e1, e2, e3, e4⟩ := h.val i hi' hi
  exact ⟨i, hi', x, y, e1, e2, e3, e4, hi, rfl⟩

theorem Seen.inj {α : Type} {rho : EReal → EReal} {ε : ℝ} {dist : α → ℝ} {D : List α} {off : ℕ} {E : List (EReal × ℤ)}
    (h : Seen rho ε dist D off E) : IdxInj E := by
  intro a ha b hb hab
  obtain ⟨i, hi, x, y, rfl, -, -, -, h1, e1⟩ := h.mem ha
  obtain ⟨j, hj, x', y', rfl, -, -, -, h2, e2⟩ := h.mem hb
  dsimp only at hab
  have : i = j := by omega
  subst this
  rw [← e1, ← e2]

theorem Seen.inj' {α : Type} {rho : EReal → EReal} {ε : ℝ} {dist : α → ℝ} {D : List α} {off : ℕ} {E : List (EReal × ℤ)}
    (h : Seen rho ε dist D off E) : IdxInj (E.map (rnd rho)) := by
  intro a ha b hb hab
  obtain ⟨a', ha', rfl⟩ := List.mem_map.mp ha
  obtain ⟨b', hb', rfl⟩ := List.mem_map.mp hb
  rw [h.inj a' ha' b' hb' hab]

theorem Seen.nodup {α : Type} {rho : EReal → EReal} {ε : ℝ} {dist : α → ℝ} {D : List α} {off : ℕ} {E : List (EReal × ℤ)}
    (h : Seen rho ε dist D off E) : E.Nodup := by
  rw [List.nodup_iff_injective_get]
  intro i j hij
  obtain ⟨x, y, e, -⟩ := h.val i (by rw [← h.len]; exact i.2) i.2
  obtain ⟨x', y', e', -⟩ := h.val j (by rw [← h.len]; exact j.2) j.2
  rw [List.get_eq_getElem, List.get_eq_getElem, e, e'] at hij
  have := congrArg Prod.snd hij
  dsimp only at this
  ext; omega

theorem Seen.append {α : Type} {rho : EReal → EReal} {ε : ℝ} {dist : α → ℝ} {D C : List α} {E F : List (EReal × ℤ)}
    (h : Seen rho ε dist D 0 E) (h2 : Seen rho ε dist C D.length F) : Seen rho ε dist (D ++ C) 0 (E ++ F) := by
  refine ⟨by rw [List.length_append, List.length_append, h.len, h2.len], ?_⟩
  intro i hi hi'
  by_cases hd : i < D.length
  · obtain ⟨x, y, e⟩ := h.val i hd (by rw [h.len]; exact hd)
    refine ⟨x, y, ?_⟩
    rw [List.getElem_append_left (by rw [h.len]; exact hd), List.getElem_append_left hd]
    exact e
  · have hc : i - D.length < C.length := by rw [List.length_append] at hi; omega
    obtain ⟨x, y, e1, e2⟩ := h2.val (i - D.length) hc (by rw [h2.len]; exact hc)
    refine ⟨x, y, ?_⟩
    rw [List.getElem_append_right (by rw [h.len]; omega), List.getElem_append_right (by omega)]
    simp only [h.len]
    refine ⟨?_, e2⟩
    rw [e1]
    congr 1
    omega

/-- what one stored row means after the data prefix `D` has been searched -/
def RowInvF {α : Type} (rho : EReal → EReal) (ε : ℝ) (big : Bool) (k : ℕ) (dist : α → ℝ) (D : List α)
    (row : List (EReal × ℤ)) : Prop :=
  (D = [] ∧ row.length = k ∧ ∀ e ∈ row, e.1 = if big then ⊥ else ⊤) ∨
  ∃ E, Seen rho ε dist D 0 E ∧ TopEnt big k (E.map (rnd rho)) (row.map (rnd rho)) ∧
    ∀ e ∈ row, ∃ e0 ∈ E, e = e0 ∨ e = rnd rho e0

theorem rowUpdate_invF {α : Type} {rho : EReal → EReal} (hm : Monotone rho) (hid : ∀ x, rho (rho x) = rho x) {ε : ℝ}
    {dist : α → ℝ} (s : KnnF) (tk1 tk2 : TopK) (r : ℕ) (C D : List α) (sc : ℕ → EReal) (row : List (EReal × ℤ)) (low : Bool)
    (hq : s.quant = false ∨ s.metric = .angular) (hk : s.k ≤ C.length) (hoff : s.currStart = D.length)
    (hsc : ∀ (i : ℕ) (h : i < C.length), ∃ x y : ℝ, sc i = (x : EReal) ∧ rho x = (y : EReal) ∧ |x - dist C[i]| ≤ ε ∧
      |y - dist C[i]| ≤ ε)
    (hinv : RowInvF rho ε s.metric.big s.k dist D row) :
    RowInvF rho ε s.metric.big s.k dist (D ++ C) (store rho low (s.rowUpdate tk1 tk2 r C.length sc row)) := by
  right
  have hbig : (if s.quant then true else s.metric.big) = s.metric.big := by
    rcases hq with h | h
    · simp [h]
    · rw [h]; simp [Metric.big]
  set vals := (List.range C.length).map sc with hvals
  have hvl : vals.length = C.length := by simp [hvals]
  set F : List (EReal × ℤ) := vals.mapIdx fun i x => (x, (i : ℤ) + D.length) with hF
  have hFl : F.length = C.length := by rw [hF, List.length_mapIdx, hvl]
  have hFv : vals = F.map Prod.fst := by
    apply List.ext_getElem
    · simp [hF]
    · intro i h1 h2; simp [hF]
  have hseen : Seen rho ε dist C D.length F := by
    refine ⟨hFl, ?_⟩
    intro i hi hi'
    obtain ⟨x, y, e1, e2⟩ := hsc i hi
    refine ⟨x, y, ?_, e2⟩
    simp [hF, hvals, e1]
  have hok1 := tk1.ok r s.metric.big s.k vals (by rw [hvl]; exact hk)
  set i1 := tk1.run r s.metric.big s.k vals with hi1
  have hnew : (i1.map fun i => (vals.getD i 0, (i : ℤ) + s.currStart)) = i1.map fun i => F.getD i (0, 0) := by
    apply List.map_congr_left
    intro i hi
    have hb := hok1.bound i hi
    rw [hvl] at hb
    rw [hFv, getD_map_fst]
    have hl : i < F.length := by rw [hFl]; exact hb
    rw [List.getD_eq_getElem?_getD, List.getElem?_eq_getElem hl]
    simp [hF, hoff]
  have hT2 : TopEnt s.metric.big s.k F (i1.map fun i => (vals.getD i 0, (i : ℤ) + s.currStart)) := by
    rw [hnew]
    exact gather_top hseen.nodup (by rw [← hFv]; exact hok1)
  have hrow : s.rowUpdate tk1 tk2 r C.length sc row =
      (tk2.run r s.metric.big s.k ((row ++ i1.map fun i => (vals.getD i 0, (i : ℤ) + s.currStart)).map Prod.fst)).map
        fun i => (row ++ i1.map fun i => (vals.getD i 0, (i : ℤ) + s.currStart)).getD i (0, 0) := by
    unfold KnnF.rowUpdate
    simp only [hbig, ← hvals, ← hi1]
  rw [hrow]
  set T2 := i1.map fun i => (vals.getD i 0, (i : ℤ) + s.currStart) with hT2d
  have hok2 := tk2.ok r s.metric.big s.k ((row ++ T2).map Prod.fst) (by
    rw [List.length_map, List.length_append, hT2.len]; omega)
  set T3 := (tk2.run r s.metric.big s.k ((row ++ T2).map Prod.fst)).map fun i => (row ++ T2).getD i (0, 0) with hT3
  -- rounding again changes nothing
  have hst : (store rho low T3).map (rnd rho) = T3.map (rnd rho) := by
    unfold store
    cases low
    · rfl
    · rw [if_pos rfl, List.map_map]
      apply List.map_congr_left
      intro e _
      simp [rnd, hid]
  -- values
  have hvalS : ∀ E : List (EReal × ℤ), (∀ e ∈ T3, ∃ e0 ∈ E, e = e0 ∨ e = rnd rho e0) →
      ∀ e ∈ store rho low T3, ∃ e0 ∈ E, e = e0 ∨ e = rnd rho e0 := by
    intro E hE e he
    unfold store at he
    cases low
    · rw [if_neg (by simp)] at he; exact hE e he
    · rw [if_pos rfl] at he
      obtain ⟨e', he', rfl⟩ := List.mem_map.mp he
      obtain ⟨e0, h0, rfl | rfl⟩ := hE e' he'
      · exact ⟨_, h0, Or.inr rfl⟩
      · exact ⟨e0, h0, Or.inr (by simp [rnd, hid])⟩
  rcases hinv with ⟨hD, hl, hw⟩ | ⟨E, hE, htop, hv⟩
  · subst hD
    have hreal : ∀ e ∈ F, ∃ x : ℝ, e.1 = (x : EReal) := by
      intro e he
      obtain ⟨i, hi, x, y, rfl, -⟩ := hseen.mem he
      exact ⟨x, rfl⟩
    have h3 := phantom_top hl hw hreal hT2 hok2
    refine ⟨F, by simpa using hseen, ?_, ?_⟩
    · rw [hst]
      exact map_top hm hseen.inj h3
    · exact hvalS F fun e he => ⟨e, h3.sub e he, Or.inl rfl⟩
  · have hdisj : ∀ a ∈ row, ∀ b ∈ T2, a.2 ≠ b.2 := by
      intro a ha b hb hab
      obtain ⟨i, hi, x, y, e, -⟩ := hseen.mem (hT2.sub b hb)
      obtain ⟨e0, h0, e1⟩ := hv a ha
      obtain ⟨j, hj, x', y', e', -⟩ := hE.mem h0
      have ha2 : a.2 = (j : ℤ) + (0 : ℕ) := by
        rcases e1 with rfl | rfl
        · rw [e']
        · rw [e']; rfl
      rw [e, ha2] at hab
      dsimp only at hab
      omega
    have hinj : IdxInj (row ++ T2) := by
      intro a ha b hb hab
      rcases List.mem_append.mp ha with ha | ha <;> rcases List.mem_append.mp hb with hb | hb
      · apply List.inj_on_of_nodup_map htop.nodup ha hb
        exact hE.inj' _ (htop.sub _ (List.mem_map_of_mem ha)) _ (htop.sub _ (List.mem_map_of_mem hb)) hab
      · exact absurd hab (hdisj a ha b hb)
      · exact absurd hab.symm (hdisj b hb a ha)
      · exact hseen.inj a (hT2.sub a ha) b (hT2.sub b hb) hab
    have hnd : (row ++ T2).Nodup := by
      rw [List.nodup_append]
      refine ⟨List.Nodup.of_map _ htop.nodup, hT2.nodup, ?_⟩
      intro a ha b hb hab
      exact hdisj a ha b hb (by rw [hab])
    have h3 := gather_top hnd hok2
    refine ⟨E ++ F, hE.append hseen, ?_, ?_⟩
    · rw [hst, List.map_append]
      apply merge_top htop (map_top hm hseen.inj hT2)
      rw [← List.map_append]
      exact map_top hm hinj h3
    · apply hvalS
      intro e he
      rcases List.mem_append.mp (h3.sub e he) with h | h
      · obtain ⟨e0, h0, e1⟩ := hv e h
        exact ⟨e0, List.mem_append_left _ h0, e1⟩
      · exact ⟨e, List.mem_append_right _ (hT2.sub e h), Or.inl rfl⟩

/-! ### calls and sessions -/

/-- which query rows a call touches -/
def FCall.touches : FCall → ℕ → Bool
  | .all _ _ _, _ => true
  | .chunk start len _ _ _, r => decide (start ≤ r ∧ r < start + len)

/-- slices inside the query list -/
def FCall.valid (nq : ℕ) : FCall → Prop
  | .all _ _ _ => True
  | .chunk start len _ _ _ => start + len ≤ nq

theorem call_ok (rho : EReal → EReal) (nq : ℕ) (s : KnnF) (c : FCall) (n : ℕ) (hdata : s.chunk = some n) (hk : s.k ≤ n)
    (hl : s.rows.length = nq) (hv : c.valid nq) :
    ∃ tk1 tk2 low low', s.call rho nq c = some { s with
      rows := (s.rows.mapIdx fun r row => if c.touches r = true then store rho low (s.rowUpdate tk1 tk2 r n (c.scores r) row) else row)
      low := low' } := by
  cases c with
  | all sc tk1 tk2 =>
    refine ⟨tk1, tk2, false, s.low && decide (s.metric ≠ .euclidean), ?_⟩
    unfold KnnF.call KnnF.queryAll
    simp only [hdata]
    rw [if_pos ⟨hk, hl.symm⟩]
    simp only [FCall.touches, if_true, FCall.scores, store, Bool.false_eq_true, if_false]
  | chunk start len sc tk1 tk2 =>
    refine ⟨tk1, tk2, s.low, s.low, ?_⟩
    simp only [FCall.valid] at hv
    unfold KnnF.call KnnF.queryChunk
    simp only [hdata]
    rw [show min len (nq - start) = len by omega, if_pos ⟨hk, by rw [hl]; exact hv⟩]
    simp only [FCall.touches, FCall.scores, decide_eq_true_eq]

theorem calls_ok (rho : EReal → EReal) (nq n : ℕ) (calls : List FCall) :
    ∀ (s : KnnF), s.chunk = some n → s.k ≤ n → s.rows.length = nq → (∀ c ∈ calls, c.valid nq) →
    ∃ rows' low', calls.foldlM (fun s c => s.call rho nq c) s = some { s with rows := rows', low := low' } ∧
      rows'.length = nq ∧
      ∀ r, r < nq →
        (calls.countP (fun c => c.touches r) = 0 → rows'.getD r [] = s.rows.getD r []) ∧
        (calls.countP (fun c => c.touches r) = 1 → ∃ c ∈ calls, c.touches r = true ∧ ∃ tk1 tk2 low, rows'.getD r [] =
          store rho low (s.rowUpdate tk1 tk2 r n (c.scores r) (s.rows.getD r []))) := by
  induction calls with
  | nil =>
    intro s hd hk hl hv
    exact ⟨s.rows, s.low, rfl, hl, fun r hr => ⟨fun _ => rfl, fun h => by simp at h⟩⟩
  | cons c cs ih =>
    intro s hd hk hl hv
    obtain ⟨tk1, tk2, low, low1, hc⟩ := call_ok rho nq s c n hd hk hl (hv c (by simp))
    set s1 : KnnF := { s with
      rows := (s.rows.mapIdx fun r row => if c.touches r = true then store rho low (s.rowUpdate tk1 tk2 r n (c.scores r) row) else row)
      low := low1 } with hs1
    obtain ⟨rows', low', hf, hlen, hrows⟩ := ih s1 hd hk (by rw [hs1]; simpa using hl) (fun c hc => hv c (by simp [hc]))
    refine ⟨rows', low', ?_, hlen, ?_⟩
    · rw [List.foldlM_cons, hc]
      exact hf
    · intro r hr
      obtain ⟨h0, h1⟩ := hrows r hr
      have hget : s1.rows.getD r [] = if c.touches r then
          store rho low (s.rowUpdate tk1 tk2 r n (c.scores r) (s.rows.getD r [])) else s.rows.getD r [] := by
        have hr' : r < s.rows.length := by rw [hl]; exact hr
        rw [hs1]
        simp only [List.getD_eq_getElem?_getD, List.getElem?_mapIdx, List.getElem?_eq_getElem hr',
          Option.map_some, Option.getD_some]
      have hru : ∀ tk1 tk2 sc row, s1.rowUpdate tk1 tk2 r n sc row = s.rowUpdate tk1 tk2 r n sc row := fun _ _ _ _ => rfl
      rw [hget] at h0 h1
      rw [List.countP_cons]
      by_cases ht : c.touches r = true
      · simp only [ht, if_true] at h0 h1 ⊢
        refine ⟨fun h => by omega, fun h => ?_⟩
        exact ⟨c, by simp, ht, tk1, tk2, low, h0 (by omega)⟩
      · rw [Bool.not_eq_true] at ht
        simp only [ht, Bool.false_eq_true, if_false, add_zero] at h0 h1 ⊢
        refine ⟨h0, fun h => ?_⟩
        obtain ⟨c', hc', ht', a, b, l, hab⟩ := h1 h
        exact ⟨c', by simp [hc'], ht', a, b, l, by rw [hab, hru]⟩

/-- every query row is searched exactly once against each data chunk -/
def Covers (nq : ℕ) (calls : List FCall) : Prop :=
  (∀ c ∈ calls, c.valid nq) ∧ ∀ r < nq, calls.countP (fun c => c.touches r) = 1

/-- The scores a call computes for the queries it touches are finite and within `ε r` of the exact ones, both as computed and
after rounding to the dtype of the buffer. -/
def Close {d : ℕ} (rho : EReal → EReal) (ε : ℕ → ℝ) (metric : Metric) (Qs chunk : List (Fin d → ℝ)) (c : FCall) : Prop :=
  ∀ r < Qs.length, c.touches r = true → ∀ (i : ℕ) (h : i < chunk.length), ∃ x y : ℝ,
    c.scores r i = (x : EReal) ∧ rho x = (y : EReal) ∧ |x - specScore metric (Qs.getD r 0) chunk[i]| ≤ ε r ∧
    |y - specScore metric (Qs.getD r 0) chunk[i]| ≤ ε r

theorem session_invF {d : ℕ} {rho : EReal → EReal} (hm : Monotone rho) (hid : ∀ x, rho (rho x) = rho x) (ε : ℕ → ℝ)
    (metric : Metric) (Qs : List (Fin d → ℝ)) (hist : List (List (Fin d → ℝ) × List FCall)) :
    ∀ (s : KnnF) (D : List (Fin d → ℝ)), s.metric = metric → (s.quant = false ∨ s.metric = .angular) →
    s.currEnd = D.length → s.rows.length = Qs.length →
    (∀ step ∈ hist, s.k ≤ step.1.length ∧ Covers Qs.length step.2 ∧ ∀ c ∈ step.2, Close rho ε metric Qs step.1 c) →
    (∀ r < Qs.length, RowInvF rho (ε r) metric.big s.k (specScore metric (Qs.getD r 0)) D (s.rows.getD r [])) →
    ∃ s', s.session rho Qs.length (hist.map fun st => (st.1.length, st.2)) = some s' ∧ s'.metric = metric ∧ s'.k = s.k ∧
      s'.rows.length = Qs.length ∧
      ∀ r < Qs.length, RowInvF rho (ε r) metric.big s.k (specScore metric (Qs.getD r 0))
        (D ++ (hist.map Prod.fst).flatten) (s'.rows.getD r []) := by
  induction hist with
  | nil =>
    intro s D hme hq he hl hh hinv
    exact ⟨s, rfl, hme, rfl, hl, by simpa using hinv⟩
  | cons step hist ih =>
    intro s D hme hq he hl hh hinv
    obtain ⟨hk, ⟨hv, hcov⟩, hcl⟩ := hh step (by simp)
    set s1 := s.setData step.1.length with hs1
    obtain ⟨rows', low', hf, hlen, hrows⟩ := calls_ok rho Qs.length step.1.length step.2 s1 rfl hk hl hv
    set s2 : KnnF := { s1 with rows := rows', low := low' } with hs2
    have hinv2 : ∀ r < Qs.length, RowInvF rho (ε r) metric.big s2.k (specScore metric (Qs.getD r 0))
        (D ++ step.1) (s2.rows.getD r []) := by
      intro r hr
      obtain ⟨c, hc, ht, tk1, tk2, low, e⟩ := (hrows r hr).2 (hcov r hr)
      have : s2.rows.getD r [] = rows'.getD r [] := rfl
      rw [this, e]
      have hm' : s1.metric = metric := hme
      have := rowUpdate_invF hm hid s1 tk1 tk2 r step.1 D (c.scores r) (s1.rows.getD r []) low (ε := ε r)
        (dist := specScore metric (Qs.getD r 0)) hq hk
        (by rw [hs1]; simp [KnnF.setData, he]) (fun i h => hcl c hc r hr ht i h) (by rw [hm']; exact hinv r hr)
      rw [hm'] at this
      exact this
    obtain ⟨s', hs', hm', hk', hl', hi'⟩ := ih s2 (D ++ step.1) hme hq
      (by rw [hs2, hs1]; simp [KnnF.setData, he]) hlen (fun st hst => hh st (by simp [hst])) hinv2
    refine ⟨s', ?_, hm', hk', hl', ?_⟩
    · unfold KnnF.session at hs' ⊢
      rw [List.map_cons, List.foldlM_cons]
      have : List.foldlM (fun s c => s.call rho Qs.length c) (s.setData step.1.length) step.2 = some s2 := hf
      rw [this]
      exact hs'
    · intro r hr
      have := hi' r hr
      rw [List.map_cons, List.flatten_cons, ← List.append_assoc]
      exact this

/-- C134 (partial: not when a score leaves the range of the number format, see `C134_overflow_fails`): whatever the
uninitialised memory, the chunks, the schedule of calls and the tie-breaking, if every score is computed to within `ε r` (in
whatever precision, differently in every call) and rounding to the buffer is monotone, then the session returns `k` distinct
valid global indices per query, each with a value within `ε r` of its exact score, and no other row is better by more than
`2 ε r`, however many chunks there were. -/
theorem C134_inexact_partial {d : ℕ} {rho : EReal → EReal} (hm : Monotone rho) (hid : ∀ x, rho (rho x) = rho x) (ε : ℕ → ℝ)
    (k : ℕ) (metric : Metric) (quant : Bool) (hq : quant = false ∨ metric = .angular) (garbage : ℕ → ℕ → ℤ)
    (Qs : List (Fin d → ℝ)) (hist : List (List (Fin d → ℝ) × List FCall)) (hne : hist ≠ [])
    (hsz : ∀ step ∈ hist, k ≤ step.1.length) (hcov : ∀ step ∈ hist, Covers Qs.length step.2)
    (hcl : ∀ step ∈ hist, ∀ c ∈ step.2, Close rho ε metric Qs step.1 c) (tk : TopKSorted) :
    ∃ out, knnRun rho k metric quant garbage Qs.length (hist.map fun st => (st.1.length, st.2)) tk = some out ∧
      out.length = Qs.length ∧
      ∀ r < Qs.length, IsTopKWithin (specBig metric) (specScore metric (Qs.getD r 0)) (hist.map Prod.fst).flatten k (ε r)
        (out.getD r []) := by
  set s0 : KnnF := KnnF.init Qs.length k metric quant garbage with hs0
  obtain ⟨s', hs', hme, hk, hl, hinv⟩ := session_invF hm hid ε metric Qs hist s0 [] rfl hq rfl (by simp [hs0, KnnF.init])
    (fun step hst => ⟨hsz step hst, hcov step hst, hcl step hst⟩) (by
      intro r hr
      left
      have : s0.rows.getD r [] = (List.range k).map fun c => ((if metric.big then ⊥ else ⊤ : EReal), garbage r c) := by
        simp [hs0, KnnF.init, List.getD_eq_getElem?_getD, hr]
      rw [this]
      refine ⟨rfl, by simp [hs0, KnnF.init], ?_⟩
      intro e he
      obtain ⟨c, _, rfl⟩ := List.mem_map.mp he
      rfl)
  refine ⟨s'.retrieve tk, by unfold knnRun; rw [hs']; rfl, by simp [KnnF.retrieve, hl], ?_⟩
  intro r hr
  have hr' : r < s'.rows.length := by rw [hl]; exact hr
  have hk : s'.k = k := hk
  have hout : (s'.retrieve tk).getD r [] =
      (tk.run r metric.big k ((s'.rows.getD r []).map Prod.fst)).map fun i => (s'.rows.getD r []).getD i (0, 0) := by
    unfold KnnF.retrieve
    rw [hme, hk]
    simp only [List.getD_eq_getElem?_getD, List.getElem?_mapIdx, List.getElem?_eq_getElem hr',
      Option.map_some, Option.getD_some]
  rw [hout]
  have hrow := hinv r hr
  rw [List.nil_append] at hrow
  change RowInvF rho (ε r) metric.big k _ _ _ at hrow
  set row := s'.rows.getD r []
  set D := (hist.map Prod.fst).flatten with hD
  have hlen : row.length = k := by
    rcases hrow with ⟨_, h, _⟩ | ⟨E, _, h, _⟩
    · exact h
    · simpa using h.len
  have hok := tk.ok r metric.big k (row.map Prod.fst) (by rw [List.length_map, hlen])
  have hsort := tk.sorted r metric.big k (row.map Prod.fst) (by rw [List.length_map, hlen])
  have hex : ∃ E, Seen rho (ε r) (specScore metric (Qs.getD r 0)) D 0 E ∧
      TopEnt metric.big k (E.map (rnd rho)) (row.map (rnd rho)) ∧ ∀ e ∈ row, ∃ e0 ∈ E, e = e0 ∨ e = rnd rho e0 := by
    rcases hrow with ⟨h0, h1, h2⟩ | h
    · have hk0 : k = 0 := by
        cases hist with
        | nil => exact absurd rfl hne
        | cons st t =>
          have h3 := hsz st (by simp)
          have : st.1 = [] := by
            rw [hD, List.map_cons, List.flatten_cons] at h0
            exact (List.append_eq_nil_iff.mp h0).1
          rw [this] at h3; simpa using h3
      have hre : row = [] := List.length_eq_zero_iff.mp (by rw [hlen, hk0])
      rw [hre, h0]
      exact ⟨[], ⟨rfl, by simp⟩, ⟨by simp [hk0], by simp, by simp, by simp⟩, by simp⟩
    · exact h
  obtain ⟨E, hE, htop, hv⟩ := hex
  have hrnd : row.Nodup := List.Nodup.of_map _ htop.nodup
  have hg := gather_top hrnd hok
  set res := (tk.run r metric.big k (row.map Prod.fst)).map fun i => row.getD i (0, 0) with hres
  have hperm : res.Perm row := (List.Nodup.subperm hg.nodup hg.sub).perm_of_length_le (by rw [hg.len, hlen])
  -- every reported entry belongs to a position
  have hpos : ∀ e ∈ res, ∃ i : Fin D.length, e.2 = ((i : ℕ) : ℤ) ∧ ∃ x y : ℝ, e.1 = (x : EReal) ∧ rho e.1 = (y : EReal) ∧
      |x - specScore metric (Qs.getD r 0) (D.get i)| ≤ ε r ∧ |y - specScore metric (Qs.getD r 0) (D.get i)| ≤ ε r := by
    intro e he
    obtain ⟨e0, h0, e1⟩ := hv e (hperm.mem_iff.mp he)
    obtain ⟨i, hi, x, y, rfl, hy, c1, c2, -⟩ := hE.mem h0
    refine ⟨⟨i, hi⟩, ?_⟩
    rcases e1 with rfl | rfl
    · exact ⟨by simp, x, y, rfl, hy, c1, c2⟩
    · refine ⟨by simp [rnd], y, y, hy, ?_, c2, c2⟩
      change rho (rho x) = _
      rw [hid]; exact hy
  obtain ⟨idx, hidx⟩ := exists_map_of_forall (fun i : Fin D.length => ((i : ℕ) : ℤ)) (res.map Prod.snd) (by
    intro b hb
    obtain ⟨e, he, rfl⟩ := List.mem_map.mp hb
    obtain ⟨i, hi, -⟩ := hpos e he
    exact ⟨i, hi⟩)
  have hrn : (row.map Prod.snd).Nodup := by
    apply List.Nodup.map_on _ hrnd
    intro a ha b hb hab
    apply List.inj_on_of_nodup_map htop.nodup ha hb
    exact hE.inj' _ (htop.sub _ (List.mem_map_of_mem ha)) _ (htop.sub _ (List.mem_map_of_mem hb)) hab
  have hnd : (res.map Prod.snd).Nodup := (hperm.map Prod.snd).nodup_iff.mpr hrn
  refine ⟨idx, ?_, ?_, hidx, ?_, ?_, ?_⟩
  · have h5 : (res.map Prod.snd).length = k := by rw [List.length_map]; exact hg.len
    rw [hidx, List.length_map] at h5
    exact h5
  · rw [hidx] at hnd
    exact List.Nodup.of_map _ hnd
  · intro e he i hi
    obtain ⟨i', hi', x, y, ex, -, c1, -⟩ := hpos e he
    have : i = i' := by ext; omega
    subst this
    exact ⟨x, ex, c1⟩
  · rw [← metric_big_eq, hres, List.map_map]
    have : (Prod.fst ∘ fun i => row.getD i (0, 0)) = fun i => (row.map Prod.fst).getD i 0 := by
      funext i; rw [getD_map_fst]; rfl
    rw [this]
    exact hsort
  · intro j hj i hi
    -- entry of the reported position
    have hmem : ((i : ℕ) : ℤ) ∈ res.map Prod.snd := by rw [hidx]; exact List.mem_map.mpr ⟨i, hi, rfl⟩
    obtain ⟨e, he, he2⟩ := List.mem_map.mp hmem
    obtain ⟨i', hi', x, y, ex, ey, -, c2⟩ := hpos e he
    have : i' = i := by ext; omega
    subst this
    -- entry of the other position
    have hjl : (j : ℕ) < E.length := by rw [hE.len]; exact j.2
    obtain ⟨xj, yj, g1, g2, g3, g4⟩ := hE.val j j.2 hjl
    have hjE : E[(j : ℕ)] ∈ E := List.getElem_mem _
    have hjn : rnd rho E[(j : ℕ)] ∉ row.map (rnd rho) := by
      intro hc
      obtain ⟨e', he', hee⟩ := List.mem_map.mp hc
      have h2 : e'.2 = ((j : ℕ) : ℤ) := by
        have := congrArg Prod.snd hee
        rw [g1] at this
        simpa [rnd] using this
      have h3 : ((j : ℕ) : ℤ) ∈ res.map Prod.snd := List.mem_map.mpr ⟨e', hperm.mem_iff.mpr he', h2⟩
      rw [hidx] at h3
      obtain ⟨j', hj', hjj⟩ := List.mem_map.mp h3
      have : j' = j := by ext; omega
      exact hj (this ▸ hj')
    have hb := htop.best _ (List.mem_map_of_mem hjE) hjn _ (List.mem_map_of_mem (hperm.mem_iff.mp he))
    rw [← metric_big_eq]
    unfold nb at hb
    simp only [rnd] at hb
    rw [ey] at hb
    have hyj : rho E[(j : ℕ)].1 = (yj : EReal) := by rw [g1]; exact g2
    rw [hyj] at hb
    have a1 := abs_le.mp c2
    have a2 := abs_le.mp g4
    cases hbg : metric.big
    · rw [hbg] at hb
      simp only [Bool.false_eq_true, if_false, EReal.coe_le_coe_iff] at hb ⊢
      rw [List.get_eq_getElem, List.get_eq_getElem] at *
      linarith
    · rw [hbg] at hb
      simp only [if_true, EReal.coe_le_coe_iff] at hb ⊢
      rw [List.get_eq_getElem, List.get_eq_getElem] at *
      linarith

/-- C134: rows separated by more than twice the error from all others are found exactly. -/
theorem C134_separated {α : Type} {big : Bool} {dist : α → ℝ} {data : List α} {k : ℕ} {ε : ℝ} {res : List (EReal × ℤ)}
    (h : IsTopKWithin big dist data k ε res) (S : Finset (Fin data.length)) (hS : S.card = k)
    (hgap : ∀ i ∈ S, ∀ j ∉ S, if big then dist (data.get j) + 2 * ε < dist (data.get i)
      else dist (data.get i) + 2 * ε < dist (data.get j)) (j : Fin data.length) :
    ((j : ℕ) : ℤ) ∈ res.map Prod.snd ↔ j ∈ S := by
  obtain ⟨idx, hl, hn, hidx, -, -, hb⟩ := h
  have hmem : ((j : ℕ) : ℤ) ∈ res.map Prod.snd ↔ j ∈ idx := by
    rw [hidx, List.mem_map]
    constructor
    · rintro ⟨a, ha, e⟩
      have : a = j := by ext; omega
      exact this ▸ ha
    · exact fun hj => ⟨j, hj, rfl⟩
  rw [hmem]
  have hcard : idx.toFinset.card = S.card := by rw [List.toFinset_card_of_nodup hn, hl, hS]
  have hsub : S ⊆ idx.toFinset := by
    intro i hi
    by_contra hc
    -- then some reported position is outside S
    have hex : ∃ m ∈ idx.toFinset, m ∉ S := by
      by_contra hall
      push Not at hall
      have := Finset.eq_of_subset_of_card_le (fun m hm => hall m hm) hcard.ge
      exact hc (this ▸ hi)
    obtain ⟨m, hm, hmS⟩ := hex
    have h1 := hb i (fun hh => hc (List.mem_toFinset.mpr hh)) m (List.mem_toFinset.mp hm)
    have h2 := hgap i hi m hmS
    cases big
    · simp only [Bool.false_eq_true, if_false] at h1 h2; linarith
    · simp only [if_true] at h1 h2; linarith
  have := Finset.eq_of_subset_of_card_le hsub hcard.le
  rw [this, List.mem_toFinset]

/-- Products of perturbed vectors. -/
theorem dot_error {d : ℕ} {q q' x x' : Fin d → ℝ} {a b : ℝ} (hq : ∀ i, |q' i - q i| ≤ a) (hx : ∀ i, |x' i - x i| ≤ b) :
    |∑ i, q' i * x' i - ∑ i, q i * x i| ≤ b * ∑ i, |q i| + a * ∑ i, |x i| + d * (a * b) := by
  rw [← Finset.sum_sub_distrib]
  refine (Finset.abs_sum_le_sum_abs _ _).trans ?_
  have hd : (d : ℝ) * (a * b) = ∑ _i : Fin d, a * b := by simp
  rw [hd, Finset.mul_sum, Finset.mul_sum, ← Finset.sum_add_distrib, ← Finset.sum_add_distrib]
  apply Finset.sum_le_sum
  intro i _
  have e : q' i * x' i - q i * x i = q i * (x' i - x i) + (q' i - q i) * x i + (q' i - q i) * (x' i - x i) := by ring
  rw [e]
  have h1 : |q i * (x' i - x i)| ≤ b * |q i| := by
    rw [abs_mul, mul_comm]; exact mul_le_mul_of_nonneg_right (hx i) (abs_nonneg _)
  have h2 : |(q' i - q i) * x i| ≤ a * |x i| := by
    rw [abs_mul]; exact mul_le_mul_of_nonneg_right (hq i) (abs_nonneg _)
  have h3 : |(q' i - q i) * (x' i - x i)| ≤ a * b := by
    rw [abs_mul]
    exact mul_le_mul (hq i) (hx i) (abs_nonneg _) ((abs_nonneg _).trans (hq i))
  exact (abs_add_le _ _).trans (add_le_add ((abs_add_le _ _).trans (add_le_add h1 h2)) h3)

-- the hypotheses are met by a search with noisy scores in two chunks, one call of each kind
example (garbage : ℕ → ℕ → ℤ) (t1 t2 t3 t4 : TopK) (tk : TopKSorted) :
    ∃ out, knnRun id 1 .angular false garbage 1
      [(1, [.chunk 0 1 (fun _ _ => ((1.1 : ℝ) : EReal)) t1 t2]), (2, [.all (fun _ i => if i = 0 then ((4.8 : ℝ) : EReal) else ((3 : ℝ) : EReal)) t3 t4])] tk
      = some out ∧ (1 : ℤ) ∈ (out.getD 0 []).map Prod.snd := by
  obtain ⟨out, h1, h2, h3⟩ := C134_inexact_partial (d := 1) (rho := id) monotone_id (fun _ => rfl) (fun _ => 0.3) 1 .angular false
    (Or.inl rfl) garbage [fun _ => 1]
    [([fun _ => 1], [.chunk 0 1 (fun _ _ => ((1.1 : ℝ) : EReal)) t1 t2]),
     ([fun _ => 5, fun _ => 3], [.all (fun _ i => if i = 0 then ((4.8 : ℝ) : EReal) else ((3 : ℝ) : EReal)) t3 t4])]
    (by simp) (by simp)
    (by simp [Covers, FCall.valid, FCall.touches])
    (by
      intro step hst c hc r hr ht i hi
      simp only [List.length_singleton, Nat.lt_one_iff] at hr
      subst hr
      simp only [List.mem_cons, List.not_mem_nil, or_false] at hst
      rcases hst with rfl | rfl
      · simp only [List.mem_singleton] at hc
        subst hc
        simp only [List.length_singleton, Nat.lt_one_iff] at hi
        subst hi
        exact ⟨1.1, 1.1, rfl, rfl, by simp [specScore]; norm_num, by simp [specScore]; norm_num⟩
      · simp only [List.mem_singleton] at hc
        subst hc
        simp only [List.length_cons, List.length_nil] at hi
        rcases (by omega : i = 0 ∨ i = 1) with rfl | rfl
        · exact ⟨4.8, 4.8, rfl, rfl, by simp [specScore]; norm_num, by simp [specScore]; norm_num⟩
        · exact ⟨3, 3, rfl, rfl, by simp [specScore]; norm_num, by simp [specScore]; norm_num⟩) tk
  refine ⟨out, h1, ?_⟩
  have h5 : IsTopKWithin true (specScore .angular (fun _ : Fin 1 => (1 : ℝ))) [fun _ => (1 : ℝ), fun _ => 5, fun _ => 3] 1 0.3
    (out.getD 0 []) := h3 0 (by simp)
  have h4 := C134_separated h5 {(1 : Fin 3)} rfl (by
    intro i hi j hj
    simp only [Finset.mem_singleton] at hi hj
    subst hi
    have hj' : j = (0 : Fin 3) ∨ j = (2 : Fin 3) := by
      have : ∀ j : Fin 3, j ≠ 1 → j = 0 ∨ j = 2 := by decide
      exact this j hj
    simp only [if_true]
    rcases hj' with rfl | rfl
    · simp [specScore]; norm_num
    · simp [specScore]; norm_num) (1 : Fin 3)
  exact h4.mpr (by simp)

/-- C134 for the int8 path on the CPU (`quantized_via_ao`, the default, with the default metric): if quantisation moves every
entry of a query by at most `a` and every entry of the data by at most `b`, by whatever scales and zero points each call
picks, the search returns the best rows up to twice the error of the products. -/
theorem C134_quantised {d : ℕ} (a b B : ℝ) (k : ℕ) (garbage : ℕ → ℕ → ℤ) (Qs : List (Fin d → ℝ))
    (hist : List (List (Fin d → ℝ) × List FCall)) (hne : hist ≠ []) (hsz : ∀ step ∈ hist, k ≤ step.1.length)
    (hcov : ∀ step ∈ hist, Covers Qs.length step.2) (ha : 0 ≤ a)
    (hB : ∀ step ∈ hist, ∀ x ∈ step.1, ∑ i, |x i| ≤ B)
    (hcall : ∀ step ∈ hist, ∀ c ∈ step.2, ∃ Q' : ℕ → Fin d → ℝ, ∃ X' : ℕ → Fin d → ℝ,
      (∀ r < Qs.length, ∀ i, |Q' r i - Qs.getD r 0 i| ≤ a) ∧
      (∀ (j : ℕ) (h : j < step.1.length), ∀ i, |X' j i - step.1[j] i| ≤ b) ∧
      ∀ r j, c.scores r j = ((∑ i, Q' r i * X' j i : ℝ) : EReal)) (tk : TopKSorted) :
    ∃ out, knnRun id k .angular true garbage Qs.length (hist.map fun st => (st.1.length, st.2)) tk = some out ∧
      out.length = Qs.length ∧
      ∀ r < Qs.length, IsTopKWithin true (fun x => ∑ i, Qs.getD r 0 i * x i) (hist.map Prod.fst).flatten k
        (b * ∑ i, |Qs.getD r 0 i| + a * B + d * (a * b)) (out.getD r []) := by
  refine C134_inexact_partial (rho := id) monotone_id (fun _ => rfl)
    (fun r => b * ∑ i, |Qs.getD r 0 i| + a * B + d * (a * b)) k .angular true (Or.inr rfl) garbage Qs hist hne hsz hcov ?_ tk
  intro step hst c hc r hr _ i hi
  obtain ⟨Q', X', h1, h2, h3⟩ := hcall step hst c hc
  have := dot_error (h1 r hr) (h2 i hi)
  have h4 := mul_le_mul_of_nonneg_left (hB step hst _ (List.getElem_mem hi)) ha
  have h5 : |∑ m, Q' r m * X' i m - specScore .angular (Qs.getD r 0) step.1[i]| ≤
      b * ∑ i, |Qs.getD r 0 i| + a * B + d * (a * b) := by
    unfold specScore
    linarith
  exact ⟨_, _, h3 r i, rfl, h5, h5⟩

/-- Half precision as far as it matters here: values of magnitude 65520 or more become infinite. -/
noncomputable def half (x : EReal) : EReal :=
  if ((65520 : ℝ) : EReal) ≤ x then ⊤ else if x ≤ ((-65520 : ℝ) : EReal) then ⊥ else x

theorem half_mono : Monotone half := by
  intro x y hxy
  unfold half
  by_cases h1 : ((65520 : ℝ) : EReal) ≤ y
  · rw [if_pos h1]; exact le_top
  · rw [if_neg h1, if_neg (fun h => h1 (h.trans hxy))]
    by_cases h2 : x ≤ ((-65520 : ℝ) : EReal)
    · rw [if_pos h2]; exact bot_le
    · rw [if_neg h2, if_neg (fun h => h2 (hxy.trans h))]; exact hxy

theorem half_idem (x : EReal) : half (half x) = half x := by
  unfold half
  by_cases h1 : ((65520 : ℝ) : EReal) ≤ x
  · rw [if_pos h1, if_pos le_top]
  · rw [if_neg h1]
    by_cases h2 : x ≤ ((-65520 : ℝ) : EReal)
    · rw [if_pos h2, if_neg (by simp), if_pos bot_le]
    · rw [if_neg h2, if_neg h1, if_neg h2]

/-- top-1 of one value -/
theorem topk_one (tk : TopK) (r : ℕ) (big : Bool) (v : EReal) : tk.run r big 1 [v] = [0] := by
  have h := tk.ok r big 1 [v] (by simp)
  obtain ⟨i, hi⟩ := List.length_eq_one_iff.mp h.len
  have := h.bound i (by rw [hi]; simp)
  simp at this
  rw [hi, this]

/-- smallest of two values when the second is strictly smaller -/
theorem topk_two (tk : TopK) (r : ℕ) {v w : EReal} (h : w < v) : tk.run r false 1 [v, w] = [1] := by
  have ho := tk.ok r false 1 [v, w] (by simp)
  obtain ⟨i, hi⟩ := List.length_eq_one_iff.mp ho.len
  have hb := ho.bound i (by rw [hi]; simp)
  simp at hb
  rw [hi]
  rcases (by omega : i = 0 ∨ i = 1) with rfl | rfl
  · have := ho.best 0 (by rw [hi]; simp) 1 (by simp) (by rw [hi]; simp)
    simp at this
    exact absurd this (not_le.mpr h)
  · rfl

/-- C134 fails in half precision (the default `match_dtype`): squared distances above 65504 are stored as infinite, so
whatever comes in a later chunk replaces a nearer row.  One query at 0, data at 300 and 400 in two chunks searched with
`query_chunk`, scores computed without any error: the row at 400 is returned, with distance infinity. -/
theorem C134_overflow_fails (garbage : ℕ → ℕ → ℤ) (t1 t2 t3 t4 : TopK) (tk : TopKSorted) :
    knnRun half 1 .euclidean false garbage 1
      [(1, [.chunk 0 1 (fun _ _ => ((90000 : ℝ) : EReal)) t1 t2]), (1, [.chunk 0 1 (fun _ _ => ((160000 : ℝ) : EReal)) t3 t4])] tk
      = some [[((⊤ : EReal), 1)]] ∧
    specScore .euclidean (fun _ : Fin 1 => 0) (fun _ => 300) = 90000 ∧
    specScore .euclidean (fun _ : Fin 1 => 0) (fun _ => 400) = 160000 := by
  have h90 : half ((90000 : ℝ) : EReal) = ⊤ := by
    unfold half; rw [if_pos (by rw [EReal.coe_le_coe_iff]; norm_num)]
  have h160 : half ((160000 : ℝ) : EReal) = ⊤ := by
    unfold half; rw [if_pos (by rw [EReal.coe_le_coe_iff]; norm_num)]
  refine ⟨?_, ?_, ?_⟩
  · unfold knnRun KnnF.session KnnF.init
    simp [KnnF.setData, KnnF.call, KnnF.queryChunk, KnnF.rowUpdate, Metric.big, store, KnnF.retrieve, topk_one, topk_two,
      h90, h160, EReal.coe_lt_top]
  · unfold specScore; norm_num
  · unfold specScore; norm_num

/-- C31, width of the stored indices (partial, see `C31_index_width_fails`): below 2^31 rows every index is stored as it is. -/
theorem C31_index_width_partial {dataSize : ℕ} (h : dataSize < 2 ^ 31) {i : ℤ} (h0 : 0 ≤ i) (h1 : i < dataSize) :
    storedIndex dataSize i = i := by
  unfold storedIndex indexBits
  rw [if_pos h]
  have h2 : i < 2 ^ 31 := by
    have : (dataSize : ℤ) < 2 ^ 31 := by exact_mod_cast h
    linarith
  apply Int.bmod_eq_of_le <;> norm_num <;> linarith

example : storedIndex 100000 99999 = 99999 := C31_index_width_partial (by norm_num) (by norm_num) (by norm_num)

/-- C31 fails for larger data sets: exactly where 32 bits no longer suffice the class switches to them, and the row number
2^31 comes back as -2^31. -/
theorem C31_index_width_fails : storedIndex (2 ^ 31 + 1) (2 ^ 31) = -2 ^ 31 := by decide +kernel

end Verif.Inexact
