import Verif.Props.RefineBatch
/-! Property C87: gradient refinement of orientations (ebsd/refining.py, `orientation_grad_refinement`). -/
namespace Verif.Refine
open Verif Verif.Cubo Verif.Samp Verif.Spec

theorem unitPat_norm {d : ℕ} (p : Fin d → ℝ) : ∑ j, unitPat p j ^ 2 ≤ 1 := by
  unfold unitPat
  simp only [div_pow]
  rw [← Finset.sum_div, Real.sq_sqrt (Finset.sum_nonneg fun _ _ => sq_nonneg _)]
  exact div_self_le_one _

/-- C87: the score is a correlation coefficient: between -1 and 1. -/
theorem C87_score_range {d : ℕ} (mp : V → ℝ) (dirs : Fin d → V) (e : Fin d → ℝ) (q : Q) :
    -1 ≤ gradScore mp dirs e q ∧ gradScore mp dirs e q ≤ 1 := by
  have h := Finset.sum_mul_sq_le_sq_mul_sq Finset.univ (unitPat (zeroMean e)) (unitPat (zeroMean (simPattern mp dirs q)))
  have h1 := unitPat_norm (zeroMean e)
  have h2 := unitPat_norm (zeroMean (simPattern mp dirs q))
  have h3 : 0 ≤ ∑ j, unitPat (zeroMean e) j ^ 2 := Finset.sum_nonneg fun _ _ => sq_nonneg _
  have h4 : 0 ≤ ∑ j, unitPat (zeroMean (simPattern mp dirs q)) j ^ 2 := Finset.sum_nonneg fun _ _ => sq_nonneg _
  have : (gradScore mp dirs e q) ^ 2 ≤ 1 := h.trans (mul_le_one₀ h1 h4 h2)
  exact abs_le.mp ((sq_le_one_iff_abs_le_one _).mp this)

/-- C87: the score of an orientation whose simulated pattern is the experimental pattern (not constant) is 1. -/
theorem C87_score_self {d : ℕ} (mp : V → ℝ) (dirs : Fin d → V) (q : Q)
    (h : ∃ i, zeroMean (simPattern mp dirs q) i ≠ 0) : gradScore mp dirs (simPattern mp dirs q) q = 1 := by
  unfold gradScore unitPat
  obtain ⟨i, hi⟩ := h
  have hpos : 0 < ∑ j, zeroMean (simPattern mp dirs q) j ^ 2 :=
    Finset.sum_pos' (fun _ _ => sq_nonneg _) ⟨i, Finset.mem_univ i, by positivity⟩
  have : ∀ j, zeroMean (simPattern mp dirs q) j / Real.sqrt (∑ j, zeroMean (simPattern mp dirs q) j ^ 2) *
      (zeroMean (simPattern mp dirs q) j / Real.sqrt (∑ j, zeroMean (simPattern mp dirs q) j ^ 2)) =
      zeroMean (simPattern mp dirs q) j ^ 2 / ∑ j, zeroMean (simPattern mp dirs q) j ^ 2 := by
    intro j
    rw [div_mul_div_comm, Real.mul_self_sqrt hpos.le, sq]
  simp only [this]
  rw [← Finset.sum_div, div_self hpos.ne']

theorem setRows_spec (f : ℕ → Option (Option Q)) : ∀ (batch : List ℕ) (rs : List (ℕ × Option Q)) (x : List Q),
    batch.mapM (fun p => (f p).map fun o => (p, o)) = some rs → batch.Nodup →
    (rs.foldl putSome x).length = x.length ∧
    (∀ p ∈ batch, ∃ o, f p = some o ∧ (p < x.length →
      (rs.foldl putSome x)[p]? = o.or x[p]?)) ∧
    ∀ p, p ∉ batch → (rs.foldl putSome x)[p]? = x[p]? := by
  intro batch
  induction batch with
  | nil => intro rs x h _; simp at h; subst h; simp
  | cons b t ih =>
    intro rs x h hn
    rw [List.mapM_cons] at h
    simp only [Option.bind_eq_bind, Option.bind_eq_some_iff, Option.pure_def, Option.some.injEq, Option.map_eq_some_iff] at h
    obtain ⟨a, ⟨o, ho, rfl⟩, rs', hb, rfl⟩ := h
    rw [List.nodup_cons] at hn
    obtain ⟨x', hx'⟩ : ∃ x', x' = putSome x (b, o) := ⟨_, rfl⟩
    have hl : x'.length = x.length := by rw [hx']; cases o <;> simp [putSome]
    have hne : ∀ p, p ≠ b → x'[p]? = x[p]? := by
      intro p hp
      rw [hx']
      cases o with
      | none => rfl
      | some q => simp only [putSome, Option.elim_some]; rw [List.getElem?_set_ne (Ne.symm hp)]
    have heq : b < x.length → x'[b]? = o.or x[b]? := by
      intro hbx
      rw [hx']
      cases o with
      | none => rfl
      | some q => simp only [putSome, Option.elim_some]; rw [List.getElem?_set_self hbx]; rfl
    obtain ⟨i1, i2, i3⟩ := ih rs' x' hb hn.2
    rw [List.foldl_cons, ← hx']
    refine ⟨by rw [i1, hl], ?_, ?_⟩
    · intro p hp
      by_cases hpb : p = b
      · subst hpb
        exact ⟨o, ho, fun hx => by rw [i3 _ hn.1, heq hx]⟩
      · obtain ⟨o', ho', hx⟩ := i2 p ((List.mem_cons.mp hp).resolve_left hpb)
        refine ⟨o', ho', fun hlt => ?_⟩
        rw [hx (by omega), hne p hpb]
    · intro p hp
      rw [i3 p fun h => hp (List.mem_cons_of_mem _ h), hne p]
      rintro rfl
      exact hp List.mem_cons_self

/-- What the call does with the orientation `q` of pattern `p`. -/
def GradOutcome (id : ℤ) (score : Q → ℝ) (nIter : ℕ) (traj : ℕ → Q) (q q' : Q) : Prop :=
  (score (traj (nIter - 1)) < -score (traj 0) ∧ oriToFz (quStd (traj nIter)) id = some q') ∨
    (-score (traj 0) ≤ score (traj (nIter - 1)) ∧ q' = q)

theorem gradPattern_some {id : ℤ} {score : Q → ℝ} {nIter : ℕ} {traj : ℕ → Q} {o : Option Q}
    (h : gradPattern id score nIter traj = some o) : 0 < nIter ∧
    ((score (traj (nIter - 1)) < -score (traj 0) ∧ oriToFz (quStd (traj nIter)) id = o ∧ o ≠ none) ∨
      (-score (traj 0) ≤ score (traj (nIter - 1)) ∧ o = none)) := by
  unfold gradPattern at h
  split at h
  · exact absurd h (by simp)
  · rename_i hn
    rw [Option.map_eq_some_iff] at h
    obtain ⟨q, hq, ho⟩ := h
    refine ⟨by omega, ?_⟩
    split at ho
    · rename_i hlt
      exact Or.inl ⟨hlt, by rw [hq, ho], by rw [← ho]; simp⟩
    · rename_i hlt
      exact Or.inr ⟨not_lt.mp hlt, ho.symm⟩

theorem gradBatches_spec (id : ℤ) (d nIter : ℕ) (score : ℕ → Q → ℝ) (traj : ℕ → Q → ℕ → Q) :
    ∀ (bs : List (List ℕ)) (oris oris' : List Q), bs.foldlM (gradBatch id d nIter score traj) oris = some oris' →
    bs.flatten.Nodup → oris'.length = oris.length ∧
    (∀ p ∈ bs.flatten, ∃ q q', oris[p]? = some q ∧ oris'[p]? = some q' ∧ GradOutcome id (score p) nIter (traj p q) q q') ∧
    ∀ p, p ∉ bs.flatten → oris'[p]? = oris[p]? := by
  intro bs
  induction bs with
  | nil => intro o o' h _; simp at h; subst h; simp
  | cons b t ih =>
    intro oris oris' h hn
    rw [List.foldlM_cons] at h
    simp only [Option.bind_eq_bind, Option.bind_eq_some_iff] at h
    obtain ⟨o1, h1, h2⟩ := h
    unfold gradBatch at h1
    split at h1
    · exact absurd h1 (by simp)
    · rw [Option.map_eq_some_iff] at h1
      obtain ⟨rs, hrs, hfold⟩ := h1
      rw [List.flatten_cons, List.nodup_append] at hn
      obtain ⟨n1, n2, n3⟩ := hn
      have hrs' : b.mapM (fun p => ((oris[p]?).bind fun q => gradPattern id (score p) nIter (traj p q)).map fun o => (p, o))
          = some rs := by
        rw [← hrs]
        congr 1
        funext p
        cases oris[p]? <;> rfl
      obtain ⟨e1, e2, e3⟩ := setRows_spec _ b rs oris hrs' n1
      rw [hfold] at e1 e2 e3
      obtain ⟨i1, i2, i3⟩ := ih o1 oris' h2 n2
      refine ⟨by rw [i1, e1], ?_, ?_⟩
      · intro p hp
        rw [List.flatten_cons, List.mem_append] at hp
        by_cases hpb : p ∈ b
        · have hpt : p ∉ t.flatten := fun h => n3 p hpb p h rfl
          obtain ⟨o, ho, hx⟩ := e2 p hpb
          rw [Option.bind_eq_some_iff] at ho
          obtain ⟨q, hq, hg⟩ := ho
          have hx := hx (List.getElem?_eq_some_iff.mp hq).1
          obtain ⟨_, hcase⟩ := gradPattern_some hg
          rw [← i3 p hpt] at hx
          rcases hcase with ⟨hlt, hf, hne⟩ | ⟨hge, rfl⟩
          · obtain ⟨q', rfl⟩ := Option.ne_none_iff_exists'.mp hne
            exact ⟨q, q', hq, hx, Or.inl ⟨hlt, hf⟩⟩
          · exact ⟨q, q, hq, by rw [hx, Option.none_or]; exact hq, Or.inr ⟨hge, rfl⟩⟩
        · have hpt : p ∈ t.flatten := by tauto
          obtain ⟨q, q', hq, hq', ho⟩ := i2 p hpt
          rw [e3 p hpb] at hq
          exact ⟨q, q', hq, hq', ho⟩
      · intro p hp
        rw [List.flatten_cons, List.mem_append] at hp
        push Not at hp
        rw [i3 p hp.2, e3 p hp.1]

theorem gradPhase_spec {d : ℕ} (nIter batch : ℕ) (id : ℤ) (mp : V → ℝ) (dirs : ℕ → Fin d → V)
    (exps : ℕ → Fin d → ℝ) (traj : ℕ → Q → ℕ → Q) (oris oris' : List Q) (idx : List ℕ)
    (h : gradPhase nIter batch id mp dirs exps traj oris idx = some oris') (hn : idx.Nodup) :
    oris'.length = oris.length ∧
    (∀ p ∈ idx, ∃ q q', oris[p]? = some q ∧ oris'[p]? = some q' ∧
      GradOutcome id (gradScore mp (dirs p) (exps p)) nIter (traj p q) q q') ∧
    ∀ p, p ∉ idx → oris'[p]? = oris[p]? := by
  unfold gradPhase at h
  split at h
  · exact absurd h (by simp)
  · have := gradBatches_spec _ _ _ _ _ _ _ _ h (by rwa [torchSplit_flatten])
    rwa [torchSplit_flatten] at this

/-- C87 (what the call does): if it returns, the orientation of a pattern without a phase is unchanged, and that of a
pattern `p` of phase `i` is replaced by the final orientation of its optimiser trajectory, reduced to the zone, exactly
when the score of the last but one orientation of the trajectory is below *minus* the score of the start. -/
theorem C87_outcome {d : ℕ} (nIter batch : ℕ) (mps : List (ℤ × (V → ℝ))) (dirs : ℕ → Fin d → V)
    (exps : ℕ → Fin d → ℝ) (traj : ℕ → Q → ℕ → Q) (ph : List ℤ) (oris oris' : List Q)
    (h : gradRefine nIter batch mps dirs exps traj (some ph) oris = some oris') :
    oris'.length = oris.length ∧ (∀ p : ℕ, (∀ i : ℕ, ph[p]? ≠ some (i : ℤ)) → oris'[p]? = oris[p]?) ∧
    ∀ (p i : ℕ), ph[p]? = some (i : ℤ) → ∃ mp q q', mps[i]? = some mp ∧ oris[p]? = some q ∧ oris'[p]? = some q' ∧
      GradOutcome mp.1 (gradScore mp.2 (dirs p) (exps p)) nIter (traj p q) q q' := by
  unfold gradRefine at h
  rw [Option.bind_eq_some_iff] at h
  obtain ⟨ips, hips, h⟩ := h
  obtain ⟨g1, g2, _, g4, g5⟩ := indices_get hips
  have gen : ∀ (l : List (List ℕ)) (s : ℕ) (oris oris' : List Q),
      (l.zipIdx s).foldlM (fun acc ii =>
        (mps[ii.2]?).bind fun mp => gradPhase nIter batch mp.1 mp.2 dirs exps traj acc ii.1) oris = some oris' →
      l.flatten.Nodup → oris'.length = oris.length ∧ (∀ p, p ∉ l.flatten → oris'[p]? = oris[p]?) ∧
      ∀ i (hi : i < l.length), ∀ p ∈ l[i], ∃ mp q q', mps[s + i]? = some mp ∧ oris[p]? = some q ∧ oris'[p]? = some q' ∧
        GradOutcome mp.1 (gradScore mp.2 (dirs p) (exps p)) nIter (traj p q) q q' := by
    intro l
    induction l with
    | nil => intro s o o' h _; simp at h; subst h; simp
    | cons idx t ih =>
      intro s o o' h hn
      rw [List.zipIdx_cons, List.foldlM_cons] at h
      simp only [Option.bind_eq_bind, Option.bind_eq_some_iff] at h
      obtain ⟨o1, ⟨mp, hmp, hph⟩, h⟩ := h
      rw [List.flatten_cons, List.nodup_append] at hn
      obtain ⟨n1, n2, n3⟩ := hn
      obtain ⟨p1, p2, p3⟩ := gradPhase_spec _ _ _ _ _ _ _ _ _ _ hph n1
      obtain ⟨i1, i2, i3⟩ := ih (s + 1) o1 o' h n2
      refine ⟨by rw [i1, p1], ?_, ?_⟩
      · intro p hp
        rw [List.flatten_cons, List.mem_append] at hp
        push Not at hp
        rw [i2 p hp.2, p3 p hp.1]
      · intro i hi p hp
        cases i with
        | zero =>
          obtain ⟨q, q', hq, hq', ho⟩ := p2 p hp
          exact ⟨mp, q, q', hmp, hq, by rw [i2 p fun h => n3 p hp p h rfl]; exact hq', ho⟩
        | succ i =>
          have hp' : p ∈ t[i]'(by simpa using hi) := by simpa using hp
          obtain ⟨mp', q, q', hm, hq, hq', ho⟩ := i3 i (by simpa using hi) p hp'
          have hpi : p ∉ idx := fun h => n3 p h p (List.mem_flatten.mpr ⟨_, List.getElem_mem _, hp'⟩) rfl
          rw [p3 p hpi] at hq
          exact ⟨mp', q, q', by rw [← hm]; congr 1; omega, hq, hq', ho⟩
  obtain ⟨e1, e2, e3⟩ := gen ips 0 oris oris' h g2
  refine ⟨e1, ?_, ?_⟩
  · intro p hp
    apply e2
    intro hm
    obtain ⟨l, hl, hpl⟩ := List.mem_flatten.mp hm
    obtain ⟨i, hi, rfl⟩ := List.getElem_of_mem hl
    exact hp i ((g1 i hi p).mp hpl)
  · intro p i hpi
    have hi : i < ips.length := by
      have := g4 _ (List.mem_of_getElem? hpi) (by omega)
      simpa using this
    simpa using e3 i hi p ((g1 i hi p).mpr hpi)

/-- C87 (partial): every orientation the call writes is a unit quaternion inside the fundamental zone, provided the
optimiser trajectory consists of unit quaternions. -/
theorem C87_stored_valid_partial {d : ℕ} (nIter batch : ℕ) (mps : List (ℤ × (V → ℝ))) (dirs : ℕ → Fin d → V)
    (exps : ℕ → Fin d → ℝ) (traj : ℕ → Q → ℕ → Q) (ph : List ℤ) (oris oris' : List Q)
    (h : gradRefine nIter batch mps dirs exps traj (some ph) oris = some oris')
    (hu : ∀ p q k, 0 < k → IsUnit4 (traj p q k)) (hit : 0 < nIter) (hm : ∀ mp ∈ mps, 1 ≤ mp.1 ∧ mp.1 ≤ 11)
    (p : ℕ) (q q' : Q) (hq : oris[p]? = some q) (hq' : oris'[p]? = some q') (hne : q' ≠ q) :
    ∃ (i : ℕ) (mp : ℤ × (V → ℝ)), ph[p]? = some (i : ℤ) ∧ mps[i]? = some mp ∧ IsUnit4 q' ∧ oriInFz q' mp.1 = some true := by
  obtain ⟨_, h2, h3⟩ := C87_outcome nIter batch mps dirs exps traj ph oris oris' h
  by_cases hi : ∀ i : ℕ, ph[p]? ≠ some (i : ℤ)
  · have := h2 p hi
    rw [hq, hq'] at this
    exact absurd (Option.some.inj this) hne
  · push Not at hi
    obtain ⟨i, hi⟩ := hi
    obtain ⟨mp, q0, q1, hmp, hq0, hq1, ho⟩ := h3 p i hi
    rw [hq] at hq0; rw [hq'] at hq1
    obtain rfl := Option.some.inj hq0
    obtain rfl := Option.some.inj hq1
    refine ⟨i, mp, hi, hmp, ?_⟩
    rcases ho with ⟨_, hf⟩ | ⟨_, he⟩
    · obtain ⟨a1, a2⟩ := hm mp (List.mem_of_getElem? hmp)
      obtain ⟨n, hn⟩ : ∃ n : ℕ, mp.1 = n := ⟨mp.1.toNat, by omega⟩
      rw [hn] at hf ⊢
      obtain ⟨_, _, hin, hun⟩ := fz_inZone (by omega) (by omega) hf
      exact ⟨hun (unit_std.mpr (hu p q nIter hit)), hin⟩
    · exact absurd he hne

/-- C87 fails (never improves): whatever the optimiser does, a pattern whose start has a non-negative score (as every
indexed pattern should) is only ever overwritten when the score reached is *lower* than that of the start; in particular
a trajectory whose scores stay non-negative never changes anything, however much it improves the score. -/
theorem C87_improves_fails {d : ℕ} (nIter batch : ℕ) (mps : List (ℤ × (V → ℝ))) (dirs : ℕ → Fin d → V)
    (exps : ℕ → Fin d → ℝ) (traj : ℕ → Q → ℕ → Q) (h0 : ∀ p q, traj p q 0 = q) (ph : List ℤ) (oris oris' : List Q)
    (h : gradRefine nIter batch mps dirs exps traj (some ph) oris = some oris') (p i : ℕ) (hp : ph[p]? = some (i : ℤ))
    (mp : ℤ × (V → ℝ)) (hmp : mps[i]? = some mp) (q q' : Q) (hq : oris[p]? = some q) (hq' : oris'[p]? = some q')
    (hs : 0 ≤ gradScore mp.2 (dirs p) (exps p) q) :
    (q' ≠ q → gradScore mp.2 (dirs p) (exps p) (traj p q (nIter - 1)) < gradScore mp.2 (dirs p) (exps p) q) ∧
    (0 ≤ gradScore mp.2 (dirs p) (exps p) (traj p q (nIter - 1)) → q' = q) := by
  obtain ⟨_, _, h3⟩ := C87_outcome nIter batch mps dirs exps traj ph oris oris' h
  obtain ⟨mp', q0, q1, hmp', hq0, hq1, ho⟩ := h3 p i hp
  rw [hmp] at hmp'; rw [hq] at hq0; rw [hq'] at hq1
  obtain rfl := Option.some.inj hmp'
  obtain rfl := Option.some.inj hq0
  obtain rfl := Option.some.inj hq1
  unfold GradOutcome at ho
  rw [h0] at ho
  rcases ho with ⟨hlt, _⟩ | ⟨_, he⟩
  · exact ⟨fun _ => by linarith, fun hn => absurd hlt (by linarith)⟩
  · exact ⟨fun hne => absurd he hne, fun _ => he⟩

theorem mapM_exists {α β : Type} (f : α → Option β) (l : List α) (h : ∀ a ∈ l, ∃ b, f a = some b) :
    ∃ r, l.mapM f = some r := by
  induction l with
  | nil => exact ⟨[], rfl⟩
  | cons a t ih =>
    obtain ⟨b, hb⟩ := h a List.mem_cons_self
    obtain ⟨r, hr⟩ := ih fun x hx => h x (List.mem_cons_of_mem _ hx)
    exact ⟨b :: r, by rw [List.mapM_cons, hb, hr]; rfl⟩

theorem foldl_putSome_length (rs : List (ℕ × Option Q)) : ∀ x : List Q, (rs.foldl putSome x).length = x.length := by
  induction rs with
  | nil => intro x; rfl
  | cons a t ih =>
    intro x
    rw [List.foldl_cons, ih]
    unfold putSome
    cases a.2 <;> simp

theorem gradBatches_some (n : ℕ) (h1 : 1 ≤ n) (h2 : n ≤ 11) (d nIter : ℕ) (hd : d ≠ 1) (hit : 0 < nIter)
    (score : ℕ → Q → ℝ) (traj : ℕ → Q → ℕ → Q) : ∀ (bs : List (List ℕ)) (oris : List Q), (∀ b ∈ bs, 2 ≤ b.length) →
    (∀ p ∈ bs.flatten, p < oris.length) →
    ∃ oris', bs.foldlM (gradBatch n d nIter score traj) oris = some oris' ∧ oris'.length = oris.length := by
  obtain ⟨F, hF⟩ := fz_total n h1 h2
  intro bs
  induction bs with
  | nil => intro o _ _; exact ⟨o, rfl, rfl⟩
  | cons b t ih =>
    intro oris hb hin
    obtain ⟨rs, hrs⟩ := mapM_exists (fun p => (oris[p]?).bind fun q =>
        (gradPattern n (score p) nIter (traj p q)).map fun o => (p, o)) b (by
      intro p hp
      have hlt := hin p (by rw [List.flatten_cons]; exact List.mem_append_left _ hp)
      rw [List.getElem?_eq_getElem hlt, Option.bind_some]
      unfold gradPattern
      rw [if_neg (by omega), hF]
      exact ⟨_, rfl⟩)
    obtain ⟨o2, e2, l2⟩ := ih (rs.foldl putSome oris) (fun b hb' => hb b (List.mem_cons_of_mem _ hb')) (by
      intro p hp
      rw [foldl_putSome_length]
      exact hin p (by rw [List.flatten_cons]; exact List.mem_append_right _ hp))
    refine ⟨o2, ?_, by rw [l2, foldl_putSome_length]⟩
    rw [List.foldlM_cons]
    have : gradBatch n d nIter score traj oris b = some (rs.foldl putSome oris) := by
      unfold gradBatch
      rw [if_neg (by have := hb b List.mem_cons_self; omega), hrs, Option.map_some]
    rw [this]
    exact e2

/-- C87: the call returns for one phase when every batch holds at least two patterns. -/
theorem C87_returns_partial {d : ℕ} (hd : d ≠ 1) (nIter : ℕ) (hit : 0 < nIter) (batch : ℕ) (hb : 2 ≤ batch) (id : ℤ)
    (hid1 : 1 ≤ id) (hid2 : id ≤ 11) (mp : V → ℝ) (dirs : ℕ → Fin d → V) (exps : ℕ → Fin d → ℝ)
    (traj : ℕ → Q → ℕ → Q) (oris : List Q) (hl : 2 ≤ oris.length) (hm : oris.length % batch ≠ 1) :
    ∃ oris', gradRefine nIter batch [(id, mp)] dirs exps traj (some (List.replicate oris.length 0)) oris = some oris' := by
  obtain ⟨n, hn⟩ : ∃ n : ℕ, id = n := ⟨id.toNat, by omega⟩
  subst hn
  obtain ⟨ips, hips⟩ : ∃ ips, indicesPerPhase (some (List.replicate oris.length 0)) = some ips := by
    unfold indicesPerPhase
    rw [Option.bind_some]
    cases h : (List.replicate oris.length (0 : ℤ)).max? with
    | none => rw [List.max?_eq_none_iff] at h; simp at h; simp [h] at hl
    | some m => exact ⟨_, rfl⟩
  obtain ⟨g1, g2, g3, g4, g5⟩ := indices_get hips
  have hlen : ips.length = 1 := by
    have h0 := g4 0 (by simp; intro h; simp [h] at hl) (le_refl _)
    by_contra hc
    obtain ⟨x, hx, hle⟩ := g5 1 (by simp at h0; omega)
    have := List.eq_of_mem_replicate hx
    subst this
    simp at hle
  obtain ⟨idx, rfl⟩ := List.length_eq_one_iff.mp hlen
  have hil : idx.length = oris.length := by
    have := g3 0 (by simp)
    simpa using this
  unfold gradRefine
  rw [hips, Option.bind_some]
  have hph : ∃ o', gradPhase nIter batch n mp dirs exps traj oris idx = some o' := by
    unfold gradPhase
    rw [if_neg (by omega)]
    obtain ⟨o', e, _⟩ := gradBatches_some n (by omega) (by omega) d nIter hd hit (fun p => gradScore mp (dirs p) (exps p)) traj
      (torchSplit batch idx) oris
      (torchSplit_sizes batch 2 (by omega) hb idx (by omega) (by
        rw [hil]; generalize oris.length % batch = z at hm ⊢; omega))
      (by
        rw [torchSplit_flatten]
        intro p hp
        have := (g1 0 (by simp) p).mp (by simpa using hp)
        have := (List.getElem?_eq_some_iff.mp this).1
        simpa using this)
    exact ⟨o', e⟩
  obtain ⟨o', e⟩ := hph
  refine ⟨o', ?_⟩
  rw [List.zipIdx_cons, List.zipIdx_nil, List.foldlM_cons, List.getElem?_cons_zero, Option.bind_some]
  simp only
  rw [e]
  rfl

/-- C87 fails: without iterations, and for a phase with a single pattern or one more than a multiple of the batch size,
a batch raises. -/
theorem C87_single_fails (id : ℤ) (d nIter : ℕ) (score : ℕ → Q → ℝ) (traj : ℕ → Q → ℕ → Q) (oris : List Q) (batch : List ℕ)
    (h : nIter = 0 ∧ batch ≠ [] ∨ batch.length = 1) : gradBatch id d nIter score traj oris batch = none := by
  unfold gradBatch
  by_cases hb : batch.length ≤ 1 ∨ d = 1
  · rw [if_pos hb]
  · rw [if_neg hb]
    rcases h with ⟨rfl, hne⟩ | h
    · cases batch with
      | nil => exact absurd rfl hne
      | cons b t =>
        have : ∀ o : Option Q, (o.bind fun q => (gradPattern id (score b) 0 (traj b q)).map fun o => (b, o)) = none := by
          intro o
          cases o <;> simp [gradPattern]
        rw [List.mapM_cons, this]
        rfl
    · omega

/-- directions, master pattern and end point of `C87_dropped_fails` -/
noncomputable def gdirs : Fin 3 → V := ![⟨1/2, Real.sqrt (1/2), 1/2⟩, ⟨-(1/2), Real.sqrt (3/4), 0⟩, ⟨0, Real.sqrt (3/4), -(1/2)⟩]
def gmp : V → ℝ := fun v => v.x
noncomputable def gq : Q := ⟨1/2, 1/2, 1/2, 1/2⟩

theorem gsim0 : zeroMean (simPattern gmp gdirs ⟨1, 0, 0, 0⟩) = ![1/2, -(1/2), 0] := by
  have : simPattern gmp gdirs ⟨1, 0, 0, 0⟩ = ![1/2, -(1/2), 0] := by
    funext i; fin_cases i <;> simp [simPattern, gmp, gdirs, quApply]
  rw [this]
  funext i; fin_cases i <;> simp [zeroMean, Fin.sum_univ_three]

theorem gsim1 : zeroMean (simPattern gmp gdirs gq) = ![1/2, 0, -(1/2)] := by
  have : simPattern gmp gdirs gq = ![1/2, 0, -(1/2)] := by
    funext i; fin_cases i <;> simp [simPattern, gmp, gdirs, gq, quApply] <;> ring
  rw [this]
  funext i; fin_cases i <;> simp [zeroMean, Fin.sum_univ_three]

theorem gscore : gradScore gmp gdirs (simPattern gmp gdirs gq) ⟨1, 0, 0, 0⟩ = 1/2 := by
  unfold gradScore
  rw [gsim0, gsim1]
  have hs : Real.sqrt (1/2) * Real.sqrt (1/2) = 1/2 := Real.mul_self_sqrt (by norm_num)
  have e : ((1 : ℝ)/2) ^ 2 + (1/2) ^ 2 = 1/2 := by norm_num
  simp only [unitPat, Fin.sum_univ_three, Matrix.cons_val_zero, Matrix.cons_val_one, Matrix.cons_val, even_two, Even.neg_pow,
    e, ne_eq, OfNat.ofNat_ne_zero, not_false_eq_true, zero_pow, add_zero, zero_div, mul_zero, zero_mul]
  rw [div_mul_div_comm, hs]
  norm_num

/-- C87 fails (a lost improvement): two patterns that are exact simulations of the orientation `gq`, started at the
identity where their score is 1/2; the optimiser reaches `gq`, score 1, and the call leaves the identity in place. -/
theorem C87_dropped_fails : ∃ (mp : V → ℝ) (dirs : Fin 3 → V) (e : Fin 3 → ℝ) (q q1 : Q), IsUnit4 q ∧ IsUnit4 q1 ∧
    (∀ i, (dirs i).x ^ 2 + (dirs i).y ^ 2 + (dirs i).z ^ 2 = 1) ∧
    gradScore mp dirs e q = 1/2 ∧ gradScore mp dirs e q1 = 1 ∧
    gradRefine 2 2 [(1, mp)] (fun _ => dirs) (fun _ => e) (fun _ q k => if k = 0 then q else q1) (some [0, 0]) [q, q]
      = some [q, q] := by
  have hself : gradScore gmp gdirs (simPattern gmp gdirs gq) gq = 1 :=
    C87_score_self _ _ _ ⟨0, by rw [gsim1]; simp⟩
  refine ⟨gmp, gdirs, simPattern gmp gdirs gq, ⟨1, 0, 0, 0⟩, gq, by norm_num [IsUnit4], by norm_num [IsUnit4, gq], ?_,
    gscore, hself, ?_⟩
  · intro i
    have s1 : Real.sqrt (1/2) ^ 2 = 1/2 := Real.sq_sqrt (by norm_num)
    have s2 : Real.sqrt (3/4) ^ 2 = 3/4 := Real.sq_sqrt (by norm_num)
    fin_cases i
    · show (1/2 : ℝ) ^ 2 + Real.sqrt (1/2) ^ 2 + (1/2) ^ 2 = 1
      rw [s1]; norm_num
    · show (-(1/2) : ℝ) ^ 2 + Real.sqrt (3/4) ^ 2 + 0 ^ 2 = 1
      rw [s2]; norm_num
    · show (0 : ℝ) ^ 2 + Real.sqrt (3/4) ^ 2 + (-(1/2)) ^ 2 = 1
      rw [s2]; norm_num
  · obtain ⟨o', ho'⟩ := C87_returns_partial (d := 3) (by norm_num) 2 (by norm_num) 2 (le_refl 2) 1 (by norm_num) (by norm_num)
      gmp (fun _ => gdirs) (fun _ => simPattern gmp gdirs gq) (fun _ q k => if k = 0 then q else gq)
      [⟨1, 0, 0, 0⟩, ⟨1, 0, 0, 0⟩] (by simp) (by simp)
    have hph : List.replicate ([⟨1, 0, 0, 0⟩, ⟨1, 0, 0, 0⟩] : List Q).length (0 : ℤ) = [0, 0] := rfl
    rw [hph] at ho'
    rw [ho']
    obtain ⟨hl, _, h3⟩ := C87_outcome 2 2 [(1, gmp)] _ _ _ [0, 0] _ o' ho'
    have key : ∀ p : ℕ, p < 2 → o'[p]? = some ⟨1, 0, 0, 0⟩ := by
      intro p hp
      have hpp : ([0, 0] : List ℤ)[p]? = some ((0 : ℕ) : ℤ) := by interval_cases p <;> rfl
      have hq : ([⟨1, 0, 0, 0⟩, ⟨1, 0, 0, 0⟩] : List Q)[p]? = some ⟨1, 0, 0, 0⟩ := by interval_cases p <;> rfl
      obtain ⟨mp, q0, q1, hmp, hq0, hq1, hout⟩ := h3 p 0 hpp
      have := C87_improves_fails 2 2 [(1, gmp)] (fun _ => gdirs) (fun _ => simPattern gmp gdirs gq)
        (fun _ q k => if k = 0 then q else gq) (fun _ _ => rfl) [0, 0] _ o' ho' p 0 hpp (1, gmp) rfl _ q1 hq hq1
        (by simp only; rw [gscore]; norm_num)
      rw [hq1, this.2 (by simp only; norm_num; rw [hself]; norm_num)]
    congr 1
    apply List.ext_getElem?
    intro p
    by_cases hp : p < 2
    · rw [key p hp]; interval_cases p <;> rfl
    · rw [List.getElem?_eq_none (by rw [hl]; simp; omega), List.getElem?_eq_none (by simp; omega)]

end Verif.Refine
