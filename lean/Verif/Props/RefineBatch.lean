import Verif.Props.Refine
import Verif.Props.Binning
/-! Property C85: the whole call of `orientation_grid_refinement` (ebsd/refining.py), batches and phases. -/
namespace Verif.Refine
open Verif Verif.Cubo Verif.Samp Verif.Spec

/-- What `x[batch] = rows` does, for rows computed one by one. -/
theorem putRows_spec {α β γ : Type} (f : ℕ → Option β) (g : β → γ) : ∀ (batch : List ℕ) (rs : List β) (x : List γ),
    batch.mapM f = some rs → batch.Nodup →
    (putRows x batch (rs.map g)).length = x.length ∧
    (∀ p ∈ batch, ∃ r, f p = some r ∧ (p < x.length → (putRows x batch (rs.map g))[p]? = some (g r))) ∧
    ∀ p, p ∉ batch → (putRows x batch (rs.map g))[p]? = x[p]? := by
  intro batch
  induction batch with
  | nil =>
    intro rs x h _
    simp at h
    subst h
    simp [putRows]
  | cons b t ih =>
    intro rs x h hn
    rw [List.mapM_cons] at h
    simp only [Option.bind_eq_bind, Option.bind_eq_some_iff, Option.pure_def, Option.some.injEq] at h
    obtain ⟨a, ha, rs', hb, rfl⟩ := h
    rw [List.nodup_cons] at hn
    have hu : putRows x (b :: t) ((a :: rs').map g) = putRows (x.set b (g a)) t (rs'.map g) := rfl
    obtain ⟨i1, i2, i3⟩ := ih rs' (x.set b (g a)) hb hn.2
    rw [hu]
    refine ⟨by rw [i1, List.length_set], ?_, ?_⟩
    · intro p hp
      rcases List.mem_cons.mp hp with rfl | hp
      · refine ⟨a, ha, fun hx => ?_⟩
        rw [i3 _ hn.1, List.getElem?_set_self hx]
      · obtain ⟨r, hr, hx⟩ := i2 p hp
        exact ⟨r, hr, fun h => hx (by rwa [List.length_set])⟩
    · intro p hp
      rw [i3 p fun h => hp (List.mem_cons_of_mem _ h), List.getElem?_set_ne]
      rintro rfl
      exact hp List.mem_cons_self

/-- All batches of a phase, one after the other. -/
theorem batches_spec (nIter gridLen d : ℕ) (one : ℕ → Q → Option Cur) : ∀ (bs : List (List ℕ)) (st st' : St),
    bs.foldlM (refineBatch nIter gridLen d one) st = some st' → bs.flatten.Nodup → st.dots.length = st.oris.length →
    st'.oris.length = st.oris.length ∧ st'.dots.length = st.dots.length ∧
    (∀ p ∈ bs.flatten, ∃ q r, st.oris[p]? = some q ∧ one p q = some r ∧ st'.oris[p]? = some r.qu ∧
      st'.dots[p]? = some r.dots) ∧
    ∀ p, p ∉ bs.flatten → st'.oris[p]? = st.oris[p]? ∧ st'.dots[p]? = st.dots[p]? := by
  intro bs
  induction bs with
  | nil =>
    intro st st' h _ _
    simp at h
    subst h
    simp
  | cons b t ih =>
    intro st st' h hn hl
    rw [List.foldlM_cons] at h
    simp only [Option.bind_eq_bind, Option.bind_eq_some_iff] at h
    obtain ⟨s1, h1, h2⟩ := h
    unfold refineBatch at h1
    split at h1
    · exact absurd h1 (by simp)
    · rw [Option.map_eq_some_iff] at h1
      obtain ⟨rs, hrs, rfl⟩ := h1
      rw [List.flatten_cons, List.nodup_append] at hn
      obtain ⟨n1, n2, n3⟩ := hn
      obtain ⟨o1, o2, o3⟩ := putRows_spec (α := Unit) _ Cur.qu b rs st.oris hrs n1
      obtain ⟨d1, d2, d3⟩ := putRows_spec (α := Unit) _ Cur.dots b rs st.dots hrs n1
      obtain ⟨i1, i2, i3, i4⟩ := ih _ st' h2 n2 (by simp only; rw [o1, d1, hl])
      simp only at i1 i2 i3 i4
      refine ⟨by rw [i1, o1], by rw [i2, d1], ?_, ?_⟩
      · intro p hp
        rw [List.flatten_cons, List.mem_append] at hp
        by_cases hpb : p ∈ b
        · have hpt : p ∉ t.flatten := fun h => n3 p hpb p h rfl
          obtain ⟨r, hr, hx⟩ := o2 p hpb
          obtain ⟨r', hr', hx'⟩ := d2 p hpb
          rw [hr] at hr'
          obtain rfl := Option.some.inj hr'
          rw [Option.bind_eq_some_iff] at hr
          obtain ⟨q, hq, hone⟩ := hr
          have hlt := (List.getElem?_eq_some_iff.mp hq).1
          obtain ⟨e1, e2⟩ := i4 p hpt
          exact ⟨q, r, hq, hone, by rw [e1, hx hlt], by rw [e2, hx' (by omega)]⟩
        · have hpt : p ∈ t.flatten := by tauto
          obtain ⟨q, r, hq, hone, e1, e2⟩ := i3 p hpt
          rw [o3 p hpb] at hq
          exact ⟨q, r, hq, hone, e1, e2⟩
      · intro p hp
        rw [List.flatten_cons, List.mem_append] at hp
        push Not at hp
        obtain ⟨e1, e2⟩ := i4 p hp.2
        rw [e1, e2, o3 p hp.1, d3 p hp.1]
        exact ⟨rfl, rfl⟩

/-- C85 (one phase): every pattern of the phase is refined as if it were alone, from its own orientation; the other
orientations do not change and their scores are zero. -/
theorem phase_spec {d : ℕ} (A : Argsort) (single : Bool) (deg : ℝ) (r : ℕ) (dim : ℤ) (shrink : ℝ)
    (nIter batch : ℕ) (id : ℤ) (mp : V → ℝ) (dirs : ℕ → Fin d → V) (exps : ℕ → Fin d → ℝ) (oris : List Q)
    (idx : List ℕ) (st : St)
    (h : refinePhase A single deg r dim shrink nIter batch id mp dirs exps oris idx = some st) (hn : idx.Nodup) :
    ∃ grid, localGrid deg r dim = some grid ∧ st.oris.length = oris.length ∧ st.dots.length = oris.length ∧
    (∀ p ∈ idx, ∃ q s, oris[p]? = some q ∧
      iters A single id shrink (gridScore mp (dirs p) (exps p)) nIter ⟨grid, q, []⟩ = some s ∧
      st.oris[p]? = some s.qu ∧ st.dots[p]? = some s.dots) ∧
    ∀ p, p ∉ idx → st.oris[p]? = oris[p]? ∧ (p < oris.length → st.dots[p]? = some (List.replicate nIter 0)) := by
  unfold refinePhase at h
  split at h
  · exact absurd h (by simp)
  · rw [Option.bind_eq_some_iff] at h
    obtain ⟨grid, hg, h⟩ := h
    obtain ⟨e1, e2, e3, e4⟩ := batches_spec _ _ _ _ _ _ _ h (by rwa [torchSplit_flatten]) (by simp)
    rw [torchSplit_flatten] at e3 e4
    refine ⟨grid, hg, e1, by rw [e2]; simp, e3, fun p hp => ⟨(e4 p hp).1, fun hlt => ?_⟩⟩
    rw [(e4 p hp).2, List.getElem?_map, List.getElem?_eq_getElem hlt]
    rfl

/-- The phases one after the other. -/
theorem phases_spec {d : ℕ} (A : Argsort) (single : Bool) (deg : ℝ) (r : ℕ) (dim : ℤ) (shrink : ℝ)
    (nIter batch : ℕ) (mps : List (ℤ × (V → ℝ))) (dirs : ℕ → Fin d → V) (exps : ℕ → Fin d → ℝ) (grid : List V)
    (hg : localGrid deg r dim = some grid) :
    ∀ (ips : List (List ℕ)) (s : ℕ) (oris : List Q) (ds : List (List (List ℝ))) (out : List Q × List (List (List ℝ))),
    (ips.zipIdx s).foldlM (fun acc ii =>
      (mps[ii.2]?).bind fun mp =>
        (refinePhase A single deg r dim shrink nIter batch mp.1 mp.2 dirs exps acc.1 ii.1).map fun st =>
          (st.oris, acc.2 ++ [st.dots])) (oris, ds) = some out → ips.flatten.Nodup →
    out.1.length = oris.length ∧ (∃ ds', out.2 = ds ++ ds' ∧ ds'.length = ips.length ∧
      ∀ (i : ℕ) (hi : i < ips.length), ∃ mp D, mps[s + i]? = some mp ∧ ds'[i]? = some D ∧ D.length = oris.length ∧
        (∀ p ∈ ips[i], ∃ q t, oris[p]? = some q ∧
          iters A single mp.1 shrink (gridScore mp.2 (dirs p) (exps p)) nIter ⟨grid, q, []⟩ = some t ∧
          out.1[p]? = some t.qu ∧ D[p]? = some t.dots) ∧
        (∀ p < oris.length, p ∉ ips[i] → D[p]? = some (List.replicate nIter 0))) ∧
    ∀ p, p ∉ ips.flatten → out.1[p]? = oris[p]? := by
  intro ips
  induction ips with
  | nil =>
    intro s oris ds out h _
    simp at h
    subst h
    simp
  | cons idx t ih =>
    intro s oris ds out h hn
    rw [List.zipIdx_cons, List.foldlM_cons] at h
    simp only [Option.bind_eq_bind, Option.bind_eq_some_iff, Option.map_eq_some_iff] at h
    obtain ⟨acc, ⟨mp, hmp, st, hst, rfl⟩, h⟩ := h
    rw [List.flatten_cons, List.nodup_append] at hn
    obtain ⟨n1, n2, n3⟩ := hn
    obtain ⟨g', hg', l1, l2, p1, p2⟩ := phase_spec _ _ _ _ _ _ _ _ _ _ _ _ _ _ _ hst n1
    rw [hg] at hg'
    obtain rfl := Option.some.inj hg'
    obtain ⟨i1, ⟨ds', i2, i3, i4⟩, i5⟩ := ih (s + 1) st.oris _ out h n2
    refine ⟨by rw [i1, l1], ⟨st.dots :: ds', by rw [i2, List.append_assoc]; rfl, by simp [i3], ?_⟩, ?_⟩
    · intro i hi
      cases i with
      | zero =>
        refine ⟨mp, st.dots, hmp, rfl, l2, ?_, fun p hp hni => (p2 p hni).2 hp⟩
        intro p hp
        obtain ⟨q, t', hq, hit, e1, e2⟩ := p1 p hp
        refine ⟨q, t', hq, hit, ?_, e2⟩
        rw [i5 p fun h => n3 p hp p h rfl, e1]
      | succ i =>
        obtain ⟨mp', D, hmp', hD, hDl, hin, hout⟩ := i4 i (by simpa using hi)
        refine ⟨mp', D, by rw [← hmp']; congr 1; omega, by simpa using hD, by omega, ?_, fun p hp hni => hout p (by omega) hni⟩
        intro p hp
        have hp' : p ∈ t[i]'(by simpa using hi) := by simpa using hp
        obtain ⟨q, t', hq, hit, e1, e2⟩ := hin p hp'
        have hpi : p ∉ idx := fun h => n3 p h p (List.mem_flatten.mpr ⟨_, List.getElem_mem _, hp'⟩) rfl
        rw [(p2 p hpi).1] at hq
        exact ⟨q, t', hq, hit, e1, e2⟩
    · intro p hp
      rw [List.flatten_cons, List.mem_append] at hp
      push Not at hp
      rw [i5 p hp.2, (p2 p hp.1).1]

theorem indices_get {ph : List ℤ} {ips : List (List ℕ)} (h : indicesPerPhase (some ph) = some ips) :
    (∀ i (hi : i < ips.length) p, p ∈ ips[i] ↔ ph[p]? = some (i : ℤ)) ∧ ips.flatten.Nodup ∧
    (∀ i (hi : i < ips.length), ips[i].length = ph.count (i : ℤ)) ∧
    (∀ x ∈ ph, 0 ≤ x → x.toNat < ips.length) ∧ ∀ i, i < ips.length → ∃ x ∈ ph, (i : ℤ) ≤ x := by
  unfold indicesPerPhase at h
  rw [Option.bind_some, Option.map_eq_some_iff] at h
  obtain ⟨m, hm, rfl⟩ := h
  have hmax := List.max?_eq_some_iff.mp hm
  have key : ∀ (i : ℕ) p, p ∈ (List.range ph.length).filter (fun k => ph[k]? == some (i : ℤ)) ↔ ph[p]? = some (i : ℤ) := by
    intro i p
    simp only [List.mem_filter, List.mem_range, beq_iff_eq]
    exact ⟨fun h => h.2, fun h => ⟨(List.getElem?_eq_some_iff.mp h).1, h⟩⟩
  refine ⟨?_, ?_, ?_, ?_, ?_⟩
  · intro i hi p
    simp only [List.getElem_map, List.getElem_range]
    exact key i p
  · rw [List.nodup_flatten]
    constructor
    · intro l hl
      obtain ⟨i, _, rfl⟩ := List.mem_map.mp hl
      exact List.nodup_range.filter _
    · rw [List.pairwise_map]
      refine List.nodup_range.imp fun {a b} hab => ?_
      intro p h1 h2
      have h1 := (key a p).mp h1
      have h2 := (key b p).mp h2
      rw [h1] at h2
      have := Option.some.inj h2
      omega
  · intro i hi
    simp only [List.getElem_map, List.getElem_range]
    clear hi key hmax hm
    induction ph using List.reverseRecOn with
    | nil => simp
    | append_singleton l a ih =>
      rw [List.length_append, List.length_singleton, List.range_succ, List.filter_append, List.length_append,
        List.count_append, ← ih]
      congr 1
      · apply congrArg List.length
        apply List.filter_congr
        intro k hk
        rw [List.getElem?_append_left (List.mem_range.mp hk)]
      · rw [List.filter_singleton]
        simp only [List.getElem?_append_right (le_refl _), Nat.sub_self, List.getElem?_cons_zero]
        by_cases hai : a = i
        · simp [hai]
        · have hb : (a == (i : ℤ)) = false := by simpa using hai
          simp [hb, List.count_singleton]
  · intro x hx h0
    have := hmax.2 x hx
    simp; omega
  · intro i hi
    simp at hi
    exact ⟨m, hmax.1, by omega⟩

/-- C85: whole call.  If the call returns, then every pattern `p` of a phase `i ≥ 0` has been refined as if it were the
only one, from its own stored orientation and with the master pattern of its phase (its recorded scores are row `p` of
the `i`-th returned tensor); patterns without a phase keep their orientation; and in each returned tensor the rows of the
patterns of other phases are zero.  Nothing depends on the batch size. -/
theorem C85_each_alone {d : ℕ} (A : Argsort) (single : Bool) (deg : ℝ) (r : ℕ) (dim : ℤ) (shrink : ℝ)
    (nIter batch : ℕ) (mps : List (ℤ × (V → ℝ))) (dirs : ℕ → Fin d → V) (exps : ℕ → Fin d → ℝ) (ph : List ℤ)
    (oris oris' : List Q) (hlen : ph.length = oris.length) (dots : List (List (List ℝ)))
    (h : gridRefine A single deg r dim shrink nIter batch mps dirs exps (some ph) oris = some (oris', dots)) :
    oris'.length = oris.length ∧
    (∀ p (hp : p < ph.length), ph[p] < 0 → oris'[p]? = oris[p]?) ∧
    (∀ p (i : ℕ), ph[p]? = some (i : ℤ) → ∃ grid mp q s D, localGrid deg r dim = some grid ∧ mps[i]? = some mp ∧
      oris[p]? = some q ∧ dots[i]? = some D ∧
      iters A single mp.1 shrink (gridScore mp.2 (dirs p) (exps p)) nIter ⟨grid, q, []⟩ = some s ∧
      oris'[p]? = some s.qu ∧ D[p]? = some s.dots) ∧
    ∀ (i : ℕ) D, dots[i]? = some D → D.length = oris.length ∧
      ∀ p < oris.length, ph[p]? ≠ some (i : ℤ) → D[p]? = some (List.replicate nIter 0) := by
  unfold gridRefine at h
  rw [Option.bind_eq_some_iff] at h
  obtain ⟨ips, hips, h⟩ := h
  obtain ⟨g1, g2, _, g4, g5⟩ := indices_get hips
  cases hg : localGrid deg r dim with
  | none =>
    cases ips with
    | nil =>
      simp at h
      obtain ⟨rfl, rfl⟩ := h
      refine ⟨rfl, fun _ _ _ => rfl, fun p i hi => ?_, by simp⟩
      have hx := List.mem_of_getElem? hi
      have := g4 _ hx (by omega)
      simp at this
    | cons idx t =>
      rw [List.zipIdx_cons, List.foldlM_cons] at h
      simp only [Option.bind_eq_bind, Option.bind_eq_some_iff, Option.map_eq_some_iff] at h
      obtain ⟨acc, ⟨mp, hmp, st, hst, rfl⟩, h⟩ := h
      unfold refinePhase at hst
      split at hst
      · exact absurd hst (by simp)
      · rw [hg] at hst; exact absurd hst (by simp)
  | some grid =>
    obtain ⟨o1, ⟨ds', o2, o3, o4⟩, o5⟩ := phases_spec A single deg r dim shrink nIter batch mps dirs exps grid hg ips 0 oris []
      (oris', dots) h g2
    simp only [List.nil_append, Nat.zero_add] at o1 o2 o3 o4 o5
    subst o2
    refine ⟨o1, ?_, ?_, ?_⟩
    · intro p hp hneg
      apply o5
      intro hmem
      obtain ⟨l, hl, hpl⟩ := List.mem_flatten.mp hmem
      exact C75_unindexed_dropped ph ips hips p hp hneg l hl hpl
    · intro p i hpi
      have hi : i < ips.length := by
        have := g4 _ (List.mem_of_getElem? hpi) (by omega)
        simpa using this
      obtain ⟨mp, D, hmp, hD, _, hin, _⟩ := o4 i hi
      obtain ⟨q, t, hq, hit, e1, e2⟩ := hin p ((g1 i hi p).mpr hpi)
      exact ⟨grid, mp, q, t, D, rfl, hmp, hq, hD, hit, e1, e2⟩
    · intro i D hD
      have hi : i < ips.length := by
        have := (List.getElem?_eq_some_iff.mp hD).1
        omega
      obtain ⟨mp, D', _, hD', hDl, _, hz⟩ := o4 i hi
      rw [hD] at hD'
      obtain rfl := Option.some.inj hD'
      exact ⟨hDl, fun p hp hne => hz p hp fun hm => hne ((g1 i hi p).mp hm)⟩

/-- C85: the batch size has no influence on the result. -/
theorem C85_batch_independent {d : ℕ} (A : Argsort) (single : Bool) (deg : ℝ) (r : ℕ) (dim : ℤ) (shrink : ℝ)
    (nIter b1 b2 : ℕ) (mps : List (ℤ × (V → ℝ))) (dirs : ℕ → Fin d → V) (exps : ℕ → Fin d → ℝ) (ph : List ℤ)
    (oris : List Q) (hlen : ph.length = oris.length) (out1 out2 : List Q × List (List (List ℝ)))
    (h1 : gridRefine A single deg r dim shrink nIter b1 mps dirs exps (some ph) oris = some out1)
    (h2 : gridRefine A single deg r dim shrink nIter b2 mps dirs exps (some ph) oris = some out2) : out1 = out2 := by
  obtain ⟨o1, d1⟩ := out1
  obtain ⟨o2, d2⟩ := out2
  obtain ⟨l1, n1, a1, z1⟩ := C85_each_alone _ _ _ _ _ _ _ _ _ _ _ _ _ _ hlen _ h1
  obtain ⟨l2, n2, a2, z2⟩ := C85_each_alone _ _ _ _ _ _ _ _ _ _ _ _ _ _ hlen _ h2
  have hdl : d1.length = d2.length := by
    have key : ∀ b out, gridRefine A single deg r dim shrink nIter b mps dirs exps (some ph) oris = some out →
        ∃ ips, indicesPerPhase (some ph) = some ips ∧ out.2.length = ips.length := by
      intro b out h
      unfold gridRefine at h
      rw [Option.bind_eq_some_iff] at h
      obtain ⟨ips, hips, h⟩ := h
      refine ⟨ips, hips, ?_⟩
      have gen : ∀ (l : List (List ℕ)) (s : ℕ) (acc out : List Q × List (List (List ℝ))),
          (l.zipIdx s).foldlM (fun acc ii =>
            (mps[ii.2]?).bind fun mp =>
              (refinePhase A single deg r dim shrink nIter b mp.1 mp.2 dirs exps acc.1 ii.1).map fun st =>
                (st.oris, acc.2 ++ [st.dots])) acc = some out → out.2.length = acc.2.length + l.length := by
        intro l
        induction l with
        | nil => intro s acc out h; simp at h; subst h; simp
        | cons x t ih =>
          intro s acc out h
          rw [List.zipIdx_cons, List.foldlM_cons] at h
          simp only [Option.bind_eq_bind, Option.bind_eq_some_iff, Option.map_eq_some_iff] at h
          obtain ⟨acc', ⟨mp, hmp, st, hst, rfl⟩, h⟩ := h
          rw [ih _ _ _ h]
          simp
          omega
      simpa using gen _ _ _ _ h
    obtain ⟨i1, e1, f1⟩ := key _ _ h1
    obtain ⟨i2, e2, f2⟩ := key _ _ h2
    rw [e1] at e2
    obtain rfl := Option.some.inj e2
    simp only at f1 f2
    omega
  have ho : o1 = o2 := by
    apply List.ext_getElem?
    intro p
    by_cases hp : p < ph.length
    · by_cases hneg : ph[p] < 0
      · rw [n1 p hp hneg, n2 p hp hneg]
      · have hpi : ph[p]? = some ((ph[p].toNat : ℕ) : ℤ) := by
          rw [List.getElem?_eq_getElem hp, Int.toNat_of_nonneg (by omega)]
        obtain ⟨g, mp, q, s, D, hg, hmp, hq, _, hit, e1, _⟩ := a1 p _ hpi
        obtain ⟨g', mp', q', s', D', hg', hmp', hq', _, hit', e1', _⟩ := a2 p _ hpi
        rw [hg] at hg'; rw [hmp] at hmp'; rw [hq] at hq'
        obtain rfl := Option.some.inj hg'
        obtain rfl := Option.some.inj hmp'
        obtain rfl := Option.some.inj hq'
        rw [hit] at hit'
        obtain rfl := Option.some.inj hit'
        rw [e1, e1']
    · rw [List.getElem?_eq_none (by omega), List.getElem?_eq_none (by omega)]
  have hd : d1 = d2 := by
    apply List.ext_getElem?
    intro i
    by_cases hi : i < d1.length
    · have hD1 := List.getElem?_eq_getElem hi
      have hD2 := List.getElem?_eq_getElem (show i < d2.length by omega)
      rw [hD1, hD2]
      obtain ⟨k1, w1⟩ := z1 i _ hD1
      obtain ⟨k2, w2⟩ := z2 i _ hD2
      congr 1
      apply List.ext_getElem?
      intro p
      by_cases hp : p < oris.length
      · by_cases hpi : ph[p]? = some (i : ℤ)
        · obtain ⟨g, mp, q, s, D, hg, hmp, hq, hD, hit, _, e1⟩ := a1 p _ hpi
          obtain ⟨g', mp', q', s', D', hg', hmp', hq', hD', hit', _, e1'⟩ := a2 p _ hpi
          rw [hg] at hg'; rw [hmp] at hmp'; rw [hq] at hq'
          obtain rfl := Option.some.inj hg'
          obtain rfl := Option.some.inj hmp'
          obtain rfl := Option.some.inj hq'
          rw [hit] at hit'
          obtain rfl := Option.some.inj hit'
          rw [hD1] at hD; rw [hD2] at hD'
          obtain rfl := Option.some.inj hD
          obtain rfl := Option.some.inj hD'
          rw [e1, e1']
        · rw [w1 p hp hpi, w2 p hp hpi]
      · rw [List.getElem?_eq_none (by omega), List.getElem?_eq_none (by omega)]
    · rw [List.getElem?_eq_none (by omega), List.getElem?_eq_none (by omega)]
  rw [ho, hd]

/-- A batch in which every pattern exists and that has at least two patterns is processed. -/
theorem refineBatch_some {nIter gridLen d : ℕ} {one : ℕ → Q → Option Cur} {st : St} {batch : List ℕ}
    (hb : 2 ≤ batch.length) (hg : gridLen ≠ 1) (hd : d ≠ 1) (hone : ∀ p q, ∃ s, one p q = some s)
    (hin : ∀ p ∈ batch, p < st.oris.length) :
    ∃ st', refineBatch nIter gridLen d one st batch = some st' ∧ st'.oris.length = st.oris.length := by
  choose F hF using hone
  have hm : batch.mapM (fun p => (st.oris[p]?).bind (one p)) =
      some (batch.map fun p => F p (st.oris.getD p ⟨1, 0, 0, 0⟩)) := by
    apply mapM_total
    intro p hp
    have hlt := hin p hp
    rw [List.getElem?_eq_getElem hlt, Option.bind_some, hF, List.getD, List.getElem?_eq_getElem hlt, Option.getD_some]
  refine ⟨_, by unfold refineBatch; rw [if_neg (by omega), hm, Option.map_some], ?_⟩
  simp only
  unfold putRows
  have : ∀ (l : List (ℕ × Q)) (x : List Q), (l.foldl (fun t w => t.set w.1 w.2) x).length = x.length := by
    intro l
    induction l with
    | nil => intro x; rfl
    | cons a t ih => intro x; rw [List.foldl_cons, ih, List.length_set]
  exact this _ _

theorem batches_some {nIter gridLen d : ℕ} {one : ℕ → Q → Option Cur} (hg : gridLen ≠ 1) (hd : d ≠ 1)
    (hone : ∀ p q, ∃ s, one p q = some s) : ∀ (bs : List (List ℕ)) (st : St), (∀ b ∈ bs, 2 ≤ b.length) →
    (∀ p ∈ bs.flatten, p < st.oris.length) →
    ∃ st', bs.foldlM (refineBatch nIter gridLen d one) st = some st' ∧ st'.oris.length = st.oris.length := by
  intro bs
  induction bs with
  | nil => intro st _ _; exact ⟨st, rfl, rfl⟩
  | cons b t ih =>
    intro st hb hin
    obtain ⟨s1, h1, l1⟩ := refineBatch_some (nIter := nIter) (one := one) (st := st) (hb b List.mem_cons_self) hg hd hone
      fun p hp => hin p (by rw [List.flatten_cons]; exact List.mem_append_left _ hp)
    obtain ⟨s2, h2, l2⟩ := ih s1 (fun b hb' => hb b (List.mem_cons_of_mem _ hb'))
      fun p hp => by rw [l1]; exact hin p (by rw [List.flatten_cons]; exact List.mem_append_right _ hp)
    exact ⟨s2, by rw [List.foldlM_cons, h1]; exact h2, by rw [l2, l1]⟩

theorem grid_length {deg : ℝ} (hdeg : deg ≠ 0) {r : ℕ} (hr : 1 ≤ r) {dim : ℤ} (hdim : dim = 1 ∨ dim = 2 ∨ dim = 3) :
    ∃ grid, localGrid deg r dim = some grid ∧ grid.length ≠ 1 ∧ grid ≠ [] := by
  obtain ⟨l, l2, l1, e3, e2, e1, _, _, _, _, n2, n1, _⟩ := C65_axial_grids deg hdeg r hr
  have hp : 1 + (2 * r) ^ 3 < (2 * r + 1) ^ 3 := by nlinarith
  rcases hdim with rfl | rfl | rfl
  · exact ⟨l1, e1, by omega, List.ne_nil_of_length_pos (by omega)⟩
  · exact ⟨l2, e2, by omega, List.ne_nil_of_length_pos (by omega)⟩
  · obtain ⟨l', e3', n3, _⟩ := C65_full_grid deg r hr
    have : 1 < (2 * r + 1) ^ 3 := by nlinarith
    exact ⟨l', e3', by omega, List.ne_nil_of_length_pos (by omega)⟩

theorem iters_total (A : Argsort) (single : Bool) (n : ℕ) (h1 : 1 ≤ n) (h2 : n ≤ 11) (shrink : ℝ) (score : Q → ℝ) :
    ∀ (k : ℕ) (s : Cur), s.grid ≠ [] → ∃ s', iters A single n shrink score k s = some s' := by
  intro k
  induction k with
  | zero => intro s _; exact ⟨s, rfl⟩
  | succ k ih =>
    intro s hs
    obtain ⟨s1, e1, _⟩ := C85_step A single n h1 h2 shrink score s hs
    have : s1.grid ≠ [] := by
      rcases iter_grid e1 with h | h
      · rwa [h]
      · rw [h]; simpa using hs
    obtain ⟨s2, e2⟩ := ih s1 this
    exact ⟨s2, by rw [iters, e1, Option.bind_some, e2]⟩

/-- C85: the call returns when the patterns have been indexed, every phase number from 0 to the largest has a master
pattern with a Laue group 1..11, and every batch holds at least two patterns (batch size at least 2, every phase with at
least two patterns and not one more than a multiple of the batch size), with a radius of at least one step and
more than one detector pixel.  Without the condition on the batches it raises: `C85_single_fails`. -/
theorem C85_returns_partial {d : ℕ} (hd : d ≠ 1) (A : Argsort) (single : Bool) (deg : ℝ) (hdeg : deg ≠ 0) (r : ℕ) (hr : 1 ≤ r)
    (dim : ℤ) (hdim : dim = 1 ∨ dim = 2 ∨ dim = 3) (shrink : ℝ)
    (nIter batch : ℕ) (hb : 2 ≤ batch) (mps : List (ℤ × (V → ℝ))) (hmps : ∀ mp ∈ mps, 1 ≤ mp.1 ∧ mp.1 ≤ 11)
    (dirs : ℕ → Fin d → V) (exps : ℕ → Fin d → ℝ) (ph : List ℤ) (hne : ph ≠ []) (oris : List Q)
    (hlen : ph.length = oris.length) (hphm : ∀ x ∈ ph, x < mps.length)
    (hcount : ∀ i : ℕ, (∃ x ∈ ph, (i : ℤ) ≤ x) → 2 ≤ ph.count (i : ℤ) ∧ ph.count (i : ℤ) % batch ≠ 1) :
    ∃ out, gridRefine A single deg r dim shrink nIter batch mps dirs exps (some ph) oris = some out := by
  obtain ⟨grid, hg, hgl, hgn⟩ := grid_length hdeg hr hdim
  obtain ⟨ips, hips⟩ : ∃ ips, indicesPerPhase (some ph) = some ips := by
    unfold indicesPerPhase
    rw [Option.bind_some]
    cases h : ph.max? with
    | none => rw [List.max?_eq_none_iff] at h; exact absurd h hne
    | some m => exact ⟨_, rfl⟩
  obtain ⟨g1, g2, g3, g4, g5⟩ := indices_get hips
  unfold gridRefine
  rw [hips, Option.bind_some]
  have gen : ∀ (l : List (List ℕ)) (s : ℕ) (acc : List Q × List (List (List ℝ))), acc.1.length = oris.length →
      s + l.length = ips.length → l = ips.drop s →
      ∃ out, (l.zipIdx s).foldlM (fun acc ii =>
        (mps[ii.2]?).bind fun mp =>
          (refinePhase A single deg r dim shrink nIter batch mp.1 mp.2 dirs exps acc.1 ii.1).map fun st =>
            (st.oris, acc.2 ++ [st.dots])) acc = some out := by
    intro l
    induction l with
    | nil => intro s acc _ _ _; exact ⟨acc, rfl⟩
    | cons idx t ih =>
      intro s acc hacc hsl hdrop
      have hs : s < ips.length := by simp at hsl; omega
      have hd1 : ips.drop s = ips[s] :: ips.drop (s + 1) := List.drop_eq_getElem_cons hs
      rw [hd1] at hdrop
      obtain ⟨hidx, ht⟩ := List.cons.inj hdrop
      obtain ⟨hc2, hcm⟩ := hcount s (g5 s hs)
      have hil : idx.length = ph.count (s : ℤ) := by rw [hidx, g3 s hs]
      have hsm : s < mps.length := by
        obtain ⟨x, hx, hsx⟩ := g5 s hs
        have := hphm x hx
        omega
      obtain ⟨hl1, hl2⟩ := hmps _ (List.getElem_mem hsm)
      obtain ⟨n, hn⟩ : ∃ n : ℕ, mps[s].1 = n := ⟨mps[s].1.toNat, by omega⟩
      have hn1 : 1 ≤ n := by omega
      have hn2 : n ≤ 11 := by omega
      have hph : ∃ st, refinePhase A single deg r dim shrink nIter batch mps[s].1 mps[s].2 dirs exps acc.1 idx = some st ∧
          st.oris.length = acc.1.length := by
        unfold refinePhase
        rw [if_neg (by omega), hg, Option.bind_some]
        obtain ⟨st, e, el⟩ := batches_some (nIter := nIter) (one := fun p q =>
            iters A single mps[s].1 shrink (gridScore mps[s].2 (dirs p) (exps p)) nIter ⟨grid, q, []⟩) hgl hd
          (fun p q => by rw [hn]; exact iters_total A single n hn1 hn2 shrink _ nIter _ hgn)
          (torchSplit batch idx) ⟨acc.1, acc.1.map fun _ => List.replicate nIter 0⟩
          (torchSplit_sizes batch 2 (by omega) hb idx (by omega) (by
            rw [hil]; generalize ph.count (s : ℤ) % batch = z at hcm ⊢; omega))
          (by
            rw [torchSplit_flatten]
            intro p hp
            rw [hidx, g1 s hs] at hp
            have := (List.getElem?_eq_some_iff.mp hp).1
            simp only
            omega)
        exact ⟨st, e, el⟩
      obtain ⟨st, hst, hstl⟩ := hph
      obtain ⟨out, hout⟩ := ih (s + 1) (st.oris, acc.2 ++ [st.dots]) (by simp only; omega) (by simp at hsl; omega) ht
      refine ⟨out, ?_⟩
      rw [List.zipIdx_cons, List.foldlM_cons]
      simp only [List.getElem?_eq_getElem hsm, Option.bind_some, hst, Option.map_some]
      exact hout
  exact gen ips 0 (oris, []) rfl (by omega) (by simp)

theorem foldlM_split_none {α : Type} {β : Type} (f : β → α → Option β) (l1 l2 : List α) (a : α)
    (h : ∀ b, f b a = none) : ∀ b, (l1 ++ a :: l2).foldlM f b = none := by
  induction l1 with
  | nil => intro b; rw [List.nil_append, List.foldlM_cons, h]; rfl
  | cons x t ih =>
    intro b
    rw [List.cons_append, List.foldlM_cons]
    cases f b x with
    | none => rfl
    | some b' => exact ih b'

/-- C85 fails (one pattern in a batch): with at least one iteration the call raises whenever the number of patterns of
some phase is one more than a multiple of the batch size (in particular for a phase with a single pattern). -/
theorem C85_single_fails {d : ℕ} (A : Argsort) (single : Bool) (deg : ℝ) (r : ℕ) (dim : ℤ) (shrink : ℝ) (nIter : ℕ)
    (hit : 0 < nIter) (batch : ℕ) (mps : List (ℤ × (V → ℝ))) (dirs : ℕ → Fin d → V) (exps : ℕ → Fin d → ℝ)
    (ph : List ℤ) (oris : List Q) (i : ℕ) (hi : ∃ x ∈ ph, (i : ℤ) ≤ x) (hc : ph.count (i : ℤ) % batch = 1 ∨ ph.count (i : ℤ) = 1 ∨ ph.count (i : ℤ) = 0) :
    gridRefine A single deg r dim shrink nIter batch mps dirs exps (some ph) oris = none := by
  unfold gridRefine
  cases hips : indicesPerPhase (some ph) with
  | none => rfl
  | some ips =>
    obtain ⟨g1, g2, g3, g4, g5⟩ := indices_get hips
    have his : i < ips.length := by
      obtain ⟨x, hx, hix⟩ := hi
      have := g4 x hx (by omega)
      omega
    have hil := g3 i his
    rw [Option.bind_some]
    have hsplit : ips.zipIdx = (ips.zipIdx).take i ++ (ips[i], i) :: (ips.zipIdx).drop (i + 1) := by
      have hz : i < (ips.zipIdx).length := by simpa using his
      conv_lhs => rw [← List.take_append_drop i ips.zipIdx, List.drop_eq_getElem_cons hz]
      simp
    rw [hsplit]
    apply foldlM_split_none
    intro acc
    simp only
    cases mps[i]? with
    | none => rfl
    | some mp =>
      rw [Option.bind_some]
      have : refinePhase A single deg r dim shrink nIter batch mp.1 mp.2 dirs exps acc.1 ips[i] = none := by
        unfold refinePhase
        by_cases hd : ips[i].length = 1 ∨ batch = 0
        · rw [if_pos hd]
        rw [if_neg hd]
        cases localGrid deg r dim with
        | none => rfl
        | some grid =>
          rw [Option.bind_some]
          push Not at hd
          have hb1 : ∀ st b, b.length ≤ 1 → refineBatch nIter grid.length d (fun p q =>
              iters A single mp.1 shrink (gridScore mp.2 (dirs p) (exps p)) nIter ⟨grid, q, []⟩) st b = none := by
            intro st b hb
            unfold refineBatch
            rw [if_pos ⟨hit, Or.inl hb⟩]
          rcases hc with hc | hc | hc
          · rw [← hil] at hc
            obtain ⟨last, hmem, hll⟩ := torchSplit_last batch (by omega) ips[i] (by rw [hc]; exact Nat.one_pos)
            obtain ⟨pre, post, hpl⟩ := List.append_of_mem hmem
            rw [hpl]
            exact foldlM_split_none _ pre post last (fun st => hb1 st last (by rw [hll, hc])) _
          · omega
          · have : ips[i] = [] := List.length_eq_zero_iff.mp (by omega)
            rw [this]
            unfold torchSplit
            rw [if_neg (by simp)]
            exact foldlM_split_none _ [] [] [] (fun st => hb1 st [] (by simp)) _
      rw [this]
      rfl

/-- C85 fails (one pixel or one candidate): with at least one iteration the call raises as soon as some pattern has a phase, if the detector has
a single pixel, or if the local grid has a single point (`grid_half_width` 0 in three dimensions). -/
theorem C85_squeeze_fails {d : ℕ} (A : Argsort) (single : Bool) (deg : ℝ) (r : ℕ) (dim : ℤ) (hs : d = 1 ∨ r = 0 ∧ dim = 3) (shrink : ℝ) (nIter : ℕ)
    (hit : 0 < nIter) (batch : ℕ) (mps : List (ℤ × (V → ℝ))) (dirs : ℕ → Fin d → V) (exps : ℕ → Fin d → ℝ)
    (ph : List ℤ) (oris : List Q) (hi : ∃ x ∈ ph, 0 ≤ x) :
    gridRefine A single deg r dim shrink nIter batch mps dirs exps (some ph) oris = none := by
  unfold gridRefine
  cases hips : indicesPerPhase (some ph) with
  | none => rfl
  | some ips =>
    obtain ⟨g1, g2, g3, g4, g5⟩ := indices_get hips
    have his : 0 < ips.length := by
      obtain ⟨x, hx, hix⟩ := hi
      have := g4 x hx hix
      omega
    rw [Option.bind_some]
    obtain ⟨i0, it, rfl⟩ := List.exists_cons_of_length_pos his
    rw [List.zipIdx_cons]
    refine foldlM_split_none _ [] _ _ (fun acc => ?_) _
    simp only
    cases mps[0]? with
    | none => rfl
    | some mp =>
      rw [Option.bind_some]
      have : refinePhase A single deg r dim shrink nIter batch mp.1 mp.2 dirs exps acc.1 i0 = none := by
        unfold refinePhase
        by_cases hd : i0.length = 1 ∨ batch = 0
        · rw [if_pos hd]
        rw [if_neg hd]
        cases hg : localGrid deg r dim with
        | none => rfl
        | some grid =>
          rw [Option.bind_some]
          have hone : grid.length = 1 ∨ d = 1 := by
            rcases hs with h | ⟨rfl, rfl⟩
            · exact Or.inr h
            · left
              simp [localGrid, mesh3, linspace] at hg
              rw [← hg]; rfl
          obtain ⟨b, bs, e⟩ : ∃ b bs, torchSplit batch i0 = b :: bs := by
            unfold torchSplit
            split_ifs
            · exact ⟨_, _, rfl⟩
            · exact ⟨_, _, rfl⟩
          rw [e]
          refine foldlM_split_none _ [] bs b (fun st => ?_) _
          unfold refineBatch
          rw [if_pos ⟨hit, Or.inr hone⟩]
      rw [this]
      rfl

/-- non-vacuity: one pixel, two patterns of phase 0 -/
example (A : Argsort) : gridRefine (d := 1) A true 1 1 1 (1/2) 3 2 [(11, fun v => v.x)] (fun _ => ![⟨1, 0, 0⟩])
    (fun _ => ![0]) (some [0, 0]) [⟨1, 0, 0, 0⟩, ⟨1, 0, 0, 0⟩] = none :=
  C85_squeeze_fails A true 1 1 1 (Or.inl rfl) _ 3 (by norm_num) 2 _ _ _ _ _ ⟨0, by simp, le_refl 0⟩

/-- C85 (refinement never loses score; partial: the call must return, i.e. no batch of one pattern, and the bound by the
starting score needs a start inside the zone): in a call that returns, for every pattern with a phase, the recorded
scores never decrease, the last one is the score of the stored orientation, which lies in the fundamental zone of the
phase, and no recorded score is below the score of a starting orientation inside the zone. -/
theorem C85_never_loses_partial {d : ℕ} (A : Argsort) (single : Bool) (deg : ℝ) (r : ℕ) (hr : 1 ≤ r) (dim : ℤ) (shrink : ℝ)
    (nIter batch : ℕ) (hit : 0 < nIter) (mps : List (ℤ × (V → ℝ))) (dirs : ℕ → Fin d → V) (exps : ℕ → Fin d → ℝ) (ph : List ℤ)
    (oris oris' : List Q) (hlen : ph.length = oris.length) (dots : List (List (List ℝ)))
    (h : gridRefine A single deg r dim shrink nIter batch mps dirs exps (some ph) oris = some (oris', dots))
    (p i : ℕ) (hp : ph[p]? = some (i : ℤ)) (mp : ℤ × (V → ℝ)) (hmp : mps[i]? = some mp) (h1 : 1 ≤ mp.1) (h2 : mp.1 ≤ 11)
    (q : Q) (hq : oris[p]? = some q) :
    ∃ q' D row, oris'[p]? = some q' ∧ dots[i]? = some D ∧ D[p]? = some row ∧ row.length = nIter ∧
      row.Pairwise (· ≤ ·) ∧ row.getLast? = some (gridScore mp.2 (dirs p) (exps p) q') ∧ oriInFz q' mp.1 = some true ∧
      (IsUnit4 q → IsUnit4 q') ∧
      (oriInFz q mp.1 = some true → 0 ≤ q.w →
        gridScore mp.2 (dirs p) (exps p) q ≤ gridScore mp.2 (dirs p) (exps p) q' ∧
        ∀ x ∈ row, gridScore mp.2 (dirs p) (exps p) q ≤ x) := by
  obtain ⟨_, _, ha, _⟩ := C85_each_alone _ _ _ _ _ _ _ _ _ _ _ _ _ _ hlen _ h
  obtain ⟨grid, mp', q0, s, D, hg, hmp', hq0, hD, hs, e1, e2⟩ := ha p i hp
  rw [hmp] at hmp'; rw [hq] at hq0
  obtain rfl := Option.some.inj hmp'
  obtain rfl := Option.some.inj hq0
  obtain ⟨n, hn⟩ : ∃ n : ℕ, mp.1 = n := ⟨mp.1.toNat, by omega⟩
  rw [hn] at hs ⊢
  obtain ⟨s', hs', c1, c2, c3, c4, c5⟩ := C85_monotone_partial mp.2 (dirs p) (exps p) A single n (by omega) (by omega) shrink deg
    r hr dim grid hg q nIter
  rw [hs] at hs'
  obtain rfl := Option.some.inj hs'
  refine ⟨s.qu, D, s.dots, e1, hD, e2, c1, c2, (c4 hit).1, (c4 hit).2, c3, fun hf hw => ⟨?_, c5 hf hw⟩⟩
  exact c5 hf hw _ (List.mem_of_getLast? (c4 hit).1)

/-- non-vacuity: two cubic patterns starting inside the zone, seven candidates each, batch size two -/
example (A : Argsort) : ∃ out, gridRefine (d := 2) A true 1 1 1 (1/2) 3 2 [(11, fun v => v.x)] (fun _ => ![⟨1, 0, 0⟩, ⟨0, 1, 0⟩])
    (fun _ => ![0, 1]) (some [0, 0]) [⟨1, 0, 0, 0⟩, ⟨1, 0, 0, 0⟩] = some out :=
  C85_returns_partial (by norm_num) A true 1 (by norm_num) 1 (le_refl 1) 1 (by simp) _ 3 2 (le_refl 2) _ (by simp) _ _ _
    (by simp) _ (by simp) (by simp) (by
      rintro i ⟨x, hx, hi⟩
      have : x = 0 := by simpa using hx
      have : i = 0 := by omega
      subst this
      simp)

end Verif.Refine
