import Verif.Model.Master
import Verif.Props.Factorize
/-! Property C44 (ebsd/master_pattern.py). -/
namespace Verif

/-- Specification: the current pattern is the initial one with all transforms applied in order. -/
def currentPattern (img : Image) : List MpOp → Image
  | [] => img
  | .transform f :: t => currentPattern (f img) t
  | _ :: t => currentPattern img t

theorem viewGrid_flatten {β : Type} {H W : ℕ} {l : List β} {g : List (List β)} (h : viewGrid H W l = some g) :
    g.flatten = l := by
  unfold viewGrid at h
  split_ifs at h with hl
  simp only [Option.some.injEq] at h
  subst h
  have key : ∀ H (l : List β), H * W = l.length →
      ((List.range H).map fun i => (l.drop (i * W)).take W).flatten = l := by
    intro H
    induction H with
    | zero => intro l hl; rw [Nat.zero_mul] at hl; simp [List.length_eq_zero_iff.mp hl.symm]
    | succ H ih =>
      intro l hl
      rw [List.range_succ_eq_map, List.map_cons, List.flatten_cons, List.map_map]
      have h1 := ih (l.drop W) (by rw [List.length_drop, ← hl, Nat.succ_mul]; omega)
      have h2 : ((fun i => (l.drop (i * W)).take W) ∘ Nat.succ) =
          fun i => ((l.drop W).drop (i * W)).take W := by
        funext i
        simp only [Function.comp, List.drop_drop, Nat.succ_mul, Nat.add_comm]
      rw [h2, h1]
      simp
  exact key H l hl

/-- All cached factor pairs are factorisations. -/
def CacheOK (s : Master) : Prop := ∀ n hw, s.factorDict.lookup n = some hw → hw.1 * hw.2 = n

theorem lookup_cons_some {n m : ℕ} {x hw : ℕ × ℕ} {d : List (ℕ × ℕ × ℕ)}
    (h : List.lookup n ((m, x) :: d) = some hw) : (n = m ∧ hw = x) ∨ d.lookup n = some hw := by
  rw [List.lookup_cons] at h
  by_cases hnm : n = m
  · subst hnm; simp at h; exact Or.inl ⟨rfl, h.symm⟩
  · have : (n == m) = false := by simpa using hnm
    rw [this] at h; exact Or.inr h

/-- What `interpolate` does to the object and what it returns, when the cache is sound. -/
theorem interpolate_spec {proj : V → ℝ × ℝ} {samp : Image → ℝ × ℝ → ℝ} {s s' : Master} {rand : ℕ → ℕ} {fuel : ℕ}
    {coords : List V} {vb : ℕ} {out : List ℝ} (hc : CacheOK s)
    (h : s.interpolate proj samp rand fuel coords vb = some (s', out)) :
    CacheOK s' ∧ s'.pattern = s.pattern ∧
    s'.binned = (if vb > 1 ∧ s.binned = none then some (avgPool vb s.pattern) else s.binned) ∧
    ∃ img, (if vb > 1 then s'.binned else some s.pattern) = some img ∧
      out = coords.map fun c => samp img (proj c) := by
  unfold Master.interpolate at h
  simp only [Option.bind_eq_some_iff] at h
  obtain ⟨s1, hs1, img, himg, ⟨s2, hw⟩, hs2, grid, hgrid, hout⟩ := h
  unfold Master.prepare at hs1
  unfold Master.chosen at himg
  unfold Master.factors at hs2
  have h1 : s1.pattern = s.pattern ∧ s1.factorDict = s.factorDict ∧
      s1.binned = (if vb > 1 ∧ s.binned = none then some (avgPool vb s.pattern) else s.binned) := by
    split_ifs at hs1 with hb
    · unfold Master.bin at hs1
      rw [if_neg (by omega)] at hs1
      simp only [Option.some.injEq] at hs1
      subst hs1
      simp [hb]
    · simp only [Option.some.injEq] at hs1
      subst hs1
      simp [hb]
  have h2 : s2.pattern = s1.pattern ∧ s2.binned = s1.binned ∧ CacheOK s2 := by
    have hc1 : CacheOK s1 := by unfold CacheOK; rw [h1.2.1]; exact hc
    split at hs2
    · simp only [Option.some.injEq, Prod.mk.injEq] at hs2
      obtain ⟨rfl, rfl⟩ := hs2
      exact ⟨rfl, rfl, hc1⟩
    · simp only [Option.map_eq_some_iff, Prod.mk.injEq] at hs2
      obtain ⟨hw', hw1, rfl, rfl⟩ := hs2
      refine ⟨rfl, rfl, ?_⟩
      intro n hw'' hl
      simp only at hl
      rcases lookup_cons_some hl with ⟨rfl, rfl⟩ | hl
      · exact C34_product _ _ _ _ _ hw1
      · split_ifs at hl
        · simp at hl
        · exact hc1 n hw'' hl
  have hfl := viewGrid_flatten hgrid
  simp only at hout
  split_ifs at hout
  simp only [Option.some.injEq, Prod.mk.injEq] at hout
  obtain ⟨rfl, rfl⟩ := hout
  refine ⟨h2.2.2, h2.1.trans h1.1, h2.2.1.trans h1.2.2, img, ?_, ?_⟩
  · rw [h2.2.1, ← h1.1]; exact himg
  · rw [← List.map_flatten, hfl, List.map_map]; rfl

theorem run_inv {proj : V → ℝ × ℝ} {samp : Image → ℝ × ℝ → ℝ} (h : List MpOp) : ∀ s s' : Master, CacheOK s →
    s.run proj samp h = some s' → CacheOK s' ∧ s'.pattern = currentPattern s.pattern h := by
  induction h with
  | nil => intro s s' hc h; simp [Master.run] at h; subst h; exact ⟨hc, rfl⟩
  | cons op t ih =>
    intro s s' hc h
    unfold Master.run at h
    rw [List.foldlM_cons] at h
    simp only [Option.bind_eq_bind, Option.bind_eq_some_iff] at h
    obtain ⟨s1, h1, h2⟩ := h
    cases op with
    | bin b =>
      simp only [Master.call, Master.bin] at h1
      split_ifs at h1
      simp only [Option.some.injEq] at h1
      subst h1
      exact ih { s with binned := some (avgPool b s.pattern) } s' hc h2
    | transform f =>
      simp only [Master.call, Option.some.injEq] at h1
      subst h1
      exact ih (s.transform f) s' hc h2
    | interpolate rand fuel coords vb =>
      simp only [Master.call, Option.map_eq_some_iff] at h1
      obtain ⟨⟨s2, out⟩, h1, rfl⟩ := h1
      obtain ⟨c1, c2, _⟩ := interpolate_spec hc h1
      have := ih s2 s' c1 h2
      rw [c2] at this
      exact this

theorem cache_init (img : Image) : CacheOK (Master.init img) := by
  intro n hw h; simp [Master.init] at h

/-- C44, no virtual binning: after any call history, whatever it left in the caches and whatever the random
draws, `interpolate` returns at every direction the sample of the current pattern (the initial one with all
normalisations and CLAHE calls applied in order), in the order of the directions. -/
theorem C44_unbinned_partial (proj : V → ℝ × ℝ) (samp : Image → ℝ × ℝ → ℝ) (img : Image) (h : List MpOp)
    (s s' : Master) (hr : (Master.init img).run proj samp h = some s) (rand : ℕ → ℕ) (fuel : ℕ)
    (coords : List V) (vb : ℕ) (hvb : vb ≤ 1) (out : List ℝ)
    (hi : s.interpolate proj samp rand fuel coords vb = some (s', out)) :
    out = coords.map fun c => samp (currentPattern img h) (proj c) := by
  obtain ⟨hc, hp⟩ := run_inv h _ s (cache_init img) hr
  obtain ⟨_, _, _, im, him, rfl⟩ := interpolate_spec hc hi
  rw [if_neg (by omega)] at him
  simp only [Option.some.injEq] at him
  rw [← him, hp]; rfl

/-- C44, virtual binning (partial, see `C44_stale_binning_fails`): if the last `bin` call used the
requested factor and only interpolations followed it, the pattern sampled is the current pattern binned by
that factor. -/
theorem C44_binned_partial (proj : V → ℝ × ℝ) (samp : Image → ℝ × ℝ → ℝ) (img : Image) (h post : List MpOp)
    (vb : ℕ) (hvb : 1 < vb) (hpost : ∀ op ∈ post, ∃ r f c b, op = MpOp.interpolate r f c b)
    (s s' : Master) (hr : (Master.init img).run proj samp (h ++ [.bin vb] ++ post) = some s) (rand : ℕ → ℕ)
    (fuel : ℕ) (coords : List V) (out : List ℝ)
    (hi : s.interpolate proj samp rand fuel coords vb = some (s', out)) :
    out = coords.map fun c => samp (avgPool vb (currentPattern img h)) (proj c) := by
  have hr' := hr
  unfold Master.run at hr
  rw [List.foldlM_append, List.foldlM_append] at hr
  simp only [Option.bind_eq_bind, Option.bind_eq_some_iff] at hr
  obtain ⟨s2, ⟨s1, h1, h2⟩, h3⟩ := hr
  obtain ⟨hc1, hp1⟩ := run_inv h _ s1 (cache_init img) h1
  have h2' : s1.bin vb = some s2 := by
    rw [List.foldlM_cons] at h2
    simp only [Option.bind_eq_bind, Option.bind_eq_some_iff, List.foldlM_nil, Option.pure_def,
      Option.some.injEq] at h2
    obtain ⟨x, hx, rfl⟩ := h2
    exact hx
  unfold Master.bin at h2'
  rw [if_neg (by omega)] at h2'
  simp only [Option.some.injEq] at h2'
  have hb2 : s2.binned = some (avgPool vb (currentPattern img h)) := by
    rw [← h2']; simp only; rw [hp1]; rfl
  have hc2 : CacheOK s2 := by rw [← h2']; exact hc1
  have hpost' : ∀ (post : List MpOp) (s2 s : Master), (∀ op ∈ post, ∃ r f c b, op = MpOp.interpolate r f c b) →
      CacheOK s2 → s2.binned = some (avgPool vb (currentPattern img h)) →
      post.foldlM (Master.call proj samp) s2 = some s →
      CacheOK s ∧ s.binned = some (avgPool vb (currentPattern img h)) := by
    intro post
    induction post with
    | nil => intro s2 s _ hc hb hf; simp at hf; subst hf; exact ⟨hc, hb⟩
    | cons op t ih =>
      intro s2 s hp hc hb hf
      rw [List.foldlM_cons] at hf
      simp only [Option.bind_eq_bind, Option.bind_eq_some_iff] at hf
      obtain ⟨s3, h3, h4⟩ := hf
      obtain ⟨r, f, c, b, rfl⟩ := hp op (by simp)
      simp only [Master.call, Option.map_eq_some_iff] at h3
      obtain ⟨⟨s4, o⟩, h3, rfl⟩ := h3
      obtain ⟨c1, _, c3, _⟩ := interpolate_spec hc h3
      refine ih s4 s (fun op hop => hp op (by simp [hop])) c1 ?_ h4
      rw [c3, hb]; simp
  obtain ⟨hc, hb⟩ := hpost' post s2 s hpost hc2 hb2 h3
  obtain ⟨_, _, hb', im, him, rfl⟩ := interpolate_spec hc hi
  rw [hb] at hb'
  rw [if_pos hvb, hb'] at him
  simp at him
  rw [← him]

/-- C44, virtual binning on an object whose binned cache was never filled. -/
theorem C44_first_binning_partial (proj : V → ℝ × ℝ) (samp : Image → ℝ × ℝ → ℝ) (img : Image)
    (h : List MpOp) (hh : ∀ op ∈ h, (∃ f, op = .transform f) ∨ ∃ r f c, op = MpOp.interpolate r f c 1)
    (s s' : Master) (hr : (Master.init img).run proj samp h = some s) (rand : ℕ → ℕ) (fuel : ℕ)
    (coords : List V) (vb : ℕ) (hvb : 1 < vb) (out : List ℝ)
    (hi : s.interpolate proj samp rand fuel coords vb = some (s', out)) :
    out = coords.map fun c => samp (avgPool vb (currentPattern img h)) (proj c) := by
  obtain ⟨hc, hp⟩ := run_inv h _ s (cache_init img) hr
  have hb : s.binned = none := by
    have key : ∀ (h : List MpOp) (s0 s : Master),
        (∀ op ∈ h, (∃ f, op = .transform f) ∨ ∃ r f c, op = MpOp.interpolate r f c 1) →
        CacheOK s0 → s0.binned = none → s0.run proj samp h = some s → s.binned = none := by
      intro h
      induction h with
      | nil => intro s0 s _ _ hb hr; simp [Master.run] at hr; subst hr; exact hb
      | cons op t ih =>
        intro s0 s hh hc hb hr
        unfold Master.run at hr
        rw [List.foldlM_cons] at hr
        simp only [Option.bind_eq_bind, Option.bind_eq_some_iff] at hr
        obtain ⟨s1, h1, h2⟩ := hr
        rcases hh op (by simp) with ⟨f, rfl⟩ | ⟨r, f, c, rfl⟩
        · simp only [Master.call, Option.some.injEq] at h1
          subst h1
          exact ih (s0.transform f) s (fun op hop => hh op (by simp [hop])) hc hb h2
        · simp only [Master.call, Option.map_eq_some_iff] at h1
          obtain ⟨⟨s2, o⟩, h1, rfl⟩ := h1
          obtain ⟨c1, _, c3, _⟩ := interpolate_spec hc h1
          refine ih s2 s (fun op hop => hh op (by simp [hop])) c1 ?_ h2
          rw [c3]; simp [hb]
    exact key h _ s hh (cache_init img) rfl hr
  obtain ⟨_, _, hb', im, him, rfl⟩ := interpolate_spec hc hi
  rw [if_pos ⟨hvb, hb⟩] at hb'
  rw [if_pos hvb, hb'] at him
  simp only [Option.some.injEq] at him
  rw [← him, hp]; rfl

/-- C44: with at least one and fewer than 2^16 directions an un-binned interpolation does return. -/
theorem C44_returns (proj : V → ℝ × ℝ) (samp : Image → ℝ × ℝ → ℝ) (img : Image) (h : List MpOp) (s : Master)
    (hr : (Master.init img).run proj samp h = some s) (rand : ℕ → ℕ) (fuel : ℕ) (coords : List V) (vb : ℕ)
    (h0 : 0 < coords.length) (hn : coords.length < 2 ^ 16) (hf : coords.length < fuel) :
    ∃ s' out, s.interpolate proj samp rand fuel coords vb = some (s', out) := by
  obtain ⟨hc, _⟩ := run_inv h _ s (cache_init img) hr
  unfold Master.interpolate
  have e1 : ∃ s1 : Master, s.prepare vb = some s1 ∧
      s1.factorDict = s.factorDict ∧ ∃ im, s1.chosen vb = some im := by
    unfold Master.prepare Master.chosen
    by_cases h1 : vb > 1 ∧ s.binned = none
    · rw [if_pos h1]
      unfold Master.bin; rw [if_neg (by omega)]
      exact ⟨_, rfl, rfl, _, by rw [if_pos h1.1]⟩
    · rw [if_neg h1]
      refine ⟨s, rfl, rfl, ?_⟩
      by_cases h2 : vb > 1
      · rw [if_pos h2]
        cases hb : s.binned with
        | none => exact absurd ⟨h2, hb⟩ h1
        | some im => exact ⟨im, rfl⟩
      · rw [if_neg h2]; exact ⟨_, rfl⟩
  obtain ⟨s1, hs1, hd, im, him⟩ := e1
  rw [hs1, Option.bind_some, him, Option.bind_some]
  unfold Master.factors
  simp only [List.length_map, hd]
  have fin : ∀ hw : ℕ × ℕ, hw.1 * hw.2 = coords.length → ∃ g, viewGrid hw.1 hw.2 (coords.map proj) = some g ∧
      (g.map fun row => row.map (samp im)).flatten.length = coords.length := by
    intro hw he
    have hv : ∃ g, viewGrid hw.1 hw.2 (coords.map proj) = some g := by
      unfold viewGrid; rw [if_pos (by simp [he])]; exact ⟨_, rfl⟩
    obtain ⟨g, hg⟩ := hv
    refine ⟨g, hg, ?_⟩
    rw [← List.map_flatten, viewGrid_flatten hg]; simp
  cases hl : List.lookup coords.length s.factorDict with
  | some hw =>
    obtain ⟨g, hg, hgl⟩ := fin hw (hc _ _ hl)
    simp only [Option.bind_some, hg]
    rw [if_pos hgl]
    exact ⟨_, _, rfl⟩
  | none =>
    obtain ⟨a, b, hab, hmul⟩ := C34_returns rand fuel coords.length h0 hn hf
    obtain ⟨g, hg, hgl⟩ := fin (a, b) hmul
    simp only [hab, Option.bind_some, Option.map_some, hg]
    rw [if_pos hgl]
    exact ⟨_, _, rfl⟩

/-- C44: interpolating an empty set of directions never returns (`nearly_square_factors(0)` loops). -/
theorem C44_empty_never_returns (proj : V → ℝ × ℝ) (samp : Image → ℝ × ℝ → ℝ) (img : Image) (rand : ℕ → ℕ)
    (fuel vb : ℕ) : (Master.init img).interpolate proj samp rand fuel [] vb = none := by
  unfold Master.interpolate
  have hz : nearlySquareFactors rand fuel 0 = none := by
    unfold nearlySquareFactors; rw [C33_zero_diverges]; rfl
  by_cases hvb : vb > 1
  · have : vb ≠ 0 := by omega
    simp [Master.init, Master.prepare, Master.chosen, Master.factors, Master.bin, hvb, this, hz]
  · simp [Master.init, Master.prepare, Master.chosen, Master.factors, hvb, hz]

/-- C44 fails with virtual binning: interpolate with factor 2, normalise to zero mean, interpolate again:
the second call still samples the old pattern (value 1 instead of 0). -/
theorem C44_stale_binning_fails :
    let proj : V → ℝ × ℝ := fun v => (v.x, v.y)
    let samp : Image → ℝ × ℝ → ℝ := fun im _ => (im.headD []).headD 0
    let img : Image := [[1, 1], [1, 1]]
    let c : List V := [⟨0, 0, 1⟩]
    let h : List MpOp := [.interpolate (fun _ => 0) 9 c 2, .transform normZeromean]
    ∃ s s', (Master.init img).run proj samp h = some s ∧
      s.interpolate proj samp (fun _ => 0) 9 c 2 = some (s', [1]) ∧
      c.map (fun d => samp (avgPool 2 (currentPattern img h)) (proj d)) = [0] := by
  intro proj samp img c h
  obtain ⟨s1, o1, hs1⟩ := C44_returns proj samp img [] (Master.init img) rfl (fun _ => 0) 9 c 2
    (by simp [c]) (by simp [c]) (by simp [c])
  have hrun : (Master.init img).run proj samp h = some (s1.transform normZeromean) := by
    simp only [Master.run, h, List.foldlM_cons, List.foldlM_nil, Master.call, hs1]
    rfl
  obtain ⟨s2, o2, hs2⟩ := C44_returns proj samp img h _ hrun (fun _ => 0) 9 c 2 (by simp [c]) (by simp [c])
    (by simp [c])
  refine ⟨_, s2, hrun, ?_, ?_⟩
  · rw [hs2]
    obtain ⟨c1, c2, c3, _⟩ := interpolate_spec (cache_init img) hs1
    obtain ⟨_, _, d3, im, him, rfl⟩ := interpolate_spec (s := s1.transform normZeromean) (by exact c1) hs2
    have hb1 : s1.binned = some (avgPool 2 img) := by rw [c3]; simp [Master.init]
    have hb2 : s2.binned = some (avgPool 2 img) := by
      rw [d3]; simp [Master.transform, hb1]
    rw [if_pos (by norm_num), hb2] at him
    simp only [Option.some.injEq] at him
    subst him
    congr 2
    simp [samp, c, avgPool, img, List.range_succ]
    norm_num
  · simp [samp, c, avgPool, img, h, currentPattern, normZeromean, List.range_succ]
    norm_num

end Verif
