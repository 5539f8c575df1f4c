import Verif.Lemmas.Fitting
import Verif.Lemmas.Fft
/-! C95: the pattern-centre search (fitting.py `spatial_fft_pc_fitter`). -/
namespace Verif.Fit
open Verif.Blur Verif.Fft Verif.Spec

theorem flatMap_get {α β : Type} (L : List α) (f : α → List β) (n : ℕ) (hn : 0 < n) (h : ∀ a ∈ L, (f a).length = n)
    (k : ℕ) : (L.flatMap f)[k]? = (L[k / n]?).bind fun a => (f a)[k % n]? := by
  induction L generalizing k with
  | nil => simp
  | cons a as ih =>
    have ha := h a (by simp)
    rw [List.flatMap_cons]
    by_cases hk : k < n
    · rw [List.getElem?_append_left (by omega), Nat.div_eq_of_lt hk, Nat.mod_eq_of_lt hk]; rfl
    · push Not at hk
      rw [List.getElem?_append_right (by omega), ha, ih (fun b hb => h b (by simp [hb])),
        Nat.div_eq_sub_div hn hk, Nat.mod_eq_sub_mod hk]
      rfl

theorem flatMap_length_const {α β : Type} (L : List α) (f : α → List β) (n : ℕ) (h : ∀ a ∈ L, (f a).length = n) :
    (L.flatMap f).length = L.length * n := by
  induction L with
  | nil => simp
  | cons a as ih =>
    rw [List.flatMap_cons, List.length_append, ih (fun b hb => h b (by simp [hb])), h a (by simp), List.length_cons]
    ring

/-- Rows and columns of the padded detector. -/
noncomputable def pRows (g : Args) : ℕ := paddedSize g.rows g.binning g.pads.2.2.1 g.pads.2.2.2
noncomputable def pCols (g : Args) : ℕ := paddedSize g.cols g.binning g.pads.1 g.pads.2.1
/-- The values of `pc_z` that are tried. -/
noncomputable def zVals (g : Args) : List ℝ := linspace g.pczMin g.pczMax g.zSteps
/-- The preprocessed, zero-padded pattern as a function of the pixel. -/
noncomputable def patPx (g : Args) (x : Img) : ℕ → ℕ → ℝ :=
  match g.padded x with
  | some p => p.px
  | none => fun _ _ => 0

/-- Specification of one entry of the score table: best overlap over the dictionary, at least 0. -/
noncomputable def score (g : Args) (pcz : ℝ) (x : Img) (y c : ℕ) : ℝ :=
  bestOf (fun q => overlap (pRows g) (pCols g) (g.sim pcz q).px (patPx g x) (displacementAt (pRows g) y) (displacementAt (pCols g) c)) g.dict

/-- Mean of the scores over the patterns. -/
noncomputable def meanScore (g : Args) (patterns : List Img) (pcz : ℝ) (y c : ℕ) : ℝ :=
  (patterns.map fun x => score g pcz x y c).sum / patterns.length

/-- Inputs the search is meant for: patterns of the detector's shape that are not constant, positive sizes, and a padded
width that is even. -/
structure Ok (g : Args) (patterns : List Img) : Prop where
  pats : patterns ≠ []
  dict : g.dict ≠ []
  bin : 0 < g.binning
  steps : 0 < g.zSteps
  batch : 0 < g.batch
  rows : g.rows % g.binning = 0
  cols : g.cols % g.binning = 0
  shape : ∀ x ∈ patterns, x.h = g.rows ∧ x.w = g.cols
  contrast : ∀ x ∈ patterns, (prep g.binning x).isSome
  even : pCols g % 2 = 0

theorem linspace_length (a b : ℝ) (n : ℕ) : (linspace a b n).length = n := by simp [linspace]

theorem prep_shape {b : ℕ} {x y : Img} (h : prep b x = some y) (hb : 0 < b) : y.h = x.h / b ∧ y.w = x.w / b := by
  unfold prep rescale at h
  have hs : (if b > 1 then avgPool b x else x).h = x.h / b ∧ (if b > 1 then avgPool b x else x).w = x.w / b := by
    by_cases h1 : b > 1
    · rw [if_pos h1]; exact ⟨rfl, rfl⟩
    · have : b = 1 := by omega
      subst this
      simp
  generalize (if b > 1 then avgPool b x else x) = z at h hs
  simp only [Option.map_eq_some_iff, Option.bind_eq_some_iff] at h
  obtain ⟨v, ⟨mn, _, mx, _, h3⟩, rfl⟩ := h
  by_cases hm : mx = 0
  · rw [if_pos hm] at h3; simp at h3
  · rw [if_neg hm] at h3
    obtain rfl := Option.some.inj h3
    exact hs

theorem prep_nonempty {b : ℕ} {x y : Img} (h : prep b x = some y) : 0 < y.h ∧ 0 < y.w := by
  unfold prep rescale at h
  generalize (if b > 1 then avgPool b x else x) = z at h
  simp only [Option.map_eq_some_iff, Option.bind_eq_some_iff] at h
  obtain ⟨v, ⟨mn, h1, mx, _, h3⟩, rfl⟩ := h
  by_cases hm : mx = 0
  · rw [if_pos hm] at h3; simp at h3
  · rw [if_neg hm] at h3
    obtain rfl := Option.some.inj h3
    constructor
    · change 0 < z.h
      by_contra hc
      have : z.h = 0 := by omega
      simp [pixels, this, MI.minOf] at h1
    · change 0 < z.w
      by_contra hc
      have : z.w = 0 := by omega
      have e : pixels z = [] := by simp [pixels, this]
      rw [e] at h1; simp [MI.minOf] at h1

theorem padded_spec {g : Args} {ps : List Img} (ok : Ok g ps) {x : Img} (hx : x ∈ ps) :
    ∃ p, g.padded x = some p ∧ p.h = pRows g ∧ p.w = pCols g ∧ 0 < p.h ∧ 0 < p.w ∧ p.px = patPx g x := by
  obtain ⟨y, hy⟩ := Option.isSome_iff_exists.mp (ok.contrast x hx)
  obtain ⟨s1, s2⟩ := prep_shape hy ok.bin
  obtain ⟨n1, n2⟩ := prep_nonempty hy
  obtain ⟨t1, t2⟩ := ok.shape x hx
  have hp : g.padded x = some ⟨g.pads.2.2.1 + y.h + g.pads.2.2.2, g.pads.1 + y.w + g.pads.2.1, fun i j =>
      if g.pads.2.2.1 ≤ i ∧ i - g.pads.2.2.1 < y.h ∧ g.pads.1 ≤ j ∧ j - g.pads.1 < y.w then
        y.px (i - g.pads.2.2.1) (j - g.pads.1) else 0⟩ := by
    unfold Args.padded
    rw [hy, Option.bind_some]
    unfold pad
    simp only [Bool.false_eq_true, if_false]
  refine ⟨_, hp, ?_, ?_, ?_, ?_, ?_⟩
  · simp only [pRows, paddedSize, s1, t1]; omega
  · simp only [pCols, paddedSize, s2, t2]; omega
  · simp only; omega
  · simp only; omega
  · unfold patPx; rw [hp]

theorem tables_score {g : Args} {ps : List Img} (ok : Ok g ps) (pcz : ℝ) {x p : Img} (hx : x ∈ ps) (hp : g.padded x = some p) :
    ∃ t, tables (g.dict.map (g.sim pcz)) p g.batch = some t ∧ (∀ y c, t.1 y c = score g pcz x y c) ∧
      (∀ y c, t.2 y c < g.batch) ∧ (∀ y c, t.2 y c < g.dict.length) := by
  obtain ⟨p', hp', e1, e2, n1, n2, e3⟩ := padded_spec ok hx
  rw [hp] at hp'
  obtain rfl := Option.some.inj hp'
  have hs : ∀ s ∈ g.dict.map (g.sim pcz), s.h = pRows g ∧ s.w = pCols g := by
    intro s hs
    obtain ⟨q, _, rfl⟩ := List.mem_map.mp hs
    exact ⟨rfl, rfl⟩
  have hf : ∀ s ∈ g.dict.map (g.sim pcz), scoreMap s p = some (fun y c =>
      overlap (pRows g) (pCols g) s.px (patPx g x) (displacementAt (pRows g) y) (displacementAt (pCols g) c)) := by
    intro s hs'
    obtain ⟨a, b⟩ := hs s hs'
    obtain ⟨c, hc, hc2⟩ := scoreMap_eq s p (by omega) (by omega) (by omega) (by omega) (by rw [b]; exact ok.even)
    rw [hc]; congr 1; funext y z; rw [hc2, a, b, e3]
  refine ⟨_, tables_fold _ p g.batch ok.batch _ hf, ?_, ?_, ?_⟩
  · intro y c
    rw [batches_best _ _ (torchSplit_ne _ _ (by simpa using ok.dict)), torchSplit_cat, List.foldl_map]
    rfl
  · intro y c
    apply batches_index _ g.batch
    · intro ch hch
      exact ⟨torchSplit_ne _ _ (by simpa using ok.dict) ch hch, torchSplit_le _ ok.batch _ ch hch⟩
    · exact ok.batch
  · intro y c
    apply batches_index _ g.dict.length
    · intro ch hch
      refine ⟨torchSplit_ne _ _ (by simpa using ok.dict) ch hch, ?_⟩
      have h1 : ch.length ≤ (torchSplit g.batch (g.dict.map (g.sim pcz))).flatten.length := by
        rw [List.length_flatten]
        exact List.single_le_sum (by simp) _ (List.mem_map.mpr ⟨ch, hch, rfl⟩)
      rw [torchSplit_cat] at h1
      simpa using h1
    · exact List.length_pos_of_ne_nil ok.dict

/-- The table of one pattern, when it exists. -/
noncomputable def tab (g : Args) (pcz : ℝ) (x : Img) : (ℕ → ℕ → ℝ) × (ℕ → ℕ → ℕ) :=
  (((g.padded x).bind fun p => tables (g.dict.map (g.sim pcz)) p g.batch).getD (fun _ _ => 0, fun _ _ => 0))

theorem allTables_eq {g : Args} {ps : List Img} (ok : Ok g ps) :
    g.allTables ps = some ((zVals g).map fun pcz => ps.map fun x => tab g pcz x) := by
  unfold Args.allTables
  have h1 : ps.mapM g.padded = some (ps.map fun x => (g.padded x).getD ⟨0, 0, fun _ _ => 0⟩) := by
    apply mapM_some
    intro x hx
    obtain ⟨p, hp, -⟩ := padded_spec ok hx
    rw [hp]; rfl
  rw [h1, Option.bind_some]
  apply mapM_some
  intro pcz _
  rw [List.mapM_map]
  apply mapM_some
  intro x hx
  obtain ⟨p, hp, -⟩ := padded_spec ok hx
  obtain ⟨t, ht, -⟩ := tables_score ok pcz hx hp
  simp only [tab, Function.comp, hp, Option.getD_some, Option.bind_some, ht]

theorem tab_spec {g : Args} {ps : List Img} (ok : Ok g ps) (pcz : ℝ) {x : Img} (hx : x ∈ ps) :
    (∀ y c, (tab g pcz x).1 y c = score g pcz x y c) ∧ (∀ y c, (tab g pcz x).2 y c < g.batch) ∧
      (∀ y c, (tab g pcz x).2 y c < g.dict.length) := by
  obtain ⟨p, hp, -⟩ := padded_spec ok hx
  obtain ⟨t, ht, h⟩ := tables_score ok pcz hx hp
  have : tab g pcz x = t := by simp [tab, hp, ht]
  rw [this]; exact h

theorem avgScore_eq {g : Args} {ps : List Img} (ok : Ok g ps) (pcz : ℝ) (y c : ℕ) :
    avgScore (ps.map fun x => tab g pcz x) y c = meanScore g ps pcz y c := by
  unfold avgScore meanScore
  rw [List.map_map, List.length_map]
  congr 2
  apply List.map_congr_left
  intro x hx
  exact (tab_spec ok pcz hx).1 y c

theorem sizes_pos {g : Args} {ps : List Img} (ok : Ok g ps) : 0 < pRows g ∧ 0 < pCols g := by
  obtain ⟨x, hx⟩ := List.exists_mem_of_ne_nil _ ok.pats
  obtain ⟨p, -, h1, h2, h3, h4, -⟩ := padded_spec ok hx
  omega

theorem flatScores_get {g : Args} {ps : List Img} (ok : Ok g ps) (k : ℕ) (hk : k < g.zSteps * (pRows g * pCols g)) :
    (flatScores ((zVals g).map fun pcz => ps.map fun x => tab g pcz x) (pRows g) (pCols g))[k]? =
      some (meanScore g ps ((zVals g).getD (k / (pRows g * pCols g)) 0) (k / pCols g % pRows g) (k % pCols g)) := by
  obtain ⟨h1, h2⟩ := sizes_pos ok
  have hrow : ∀ ts : List ((ℕ → ℕ → ℝ) × (ℕ → ℕ → ℕ)), ((List.range (pRows g)).flatMap fun y =>
      (List.range (pCols g)).map fun x => avgScore ts y x).length = pRows g * pCols g := by
    intro ts
    rw [flatMap_length_const _ _ (pCols g) (by simp), List.length_range]
  unfold flatScores
  rw [flatMap_get _ _ (pRows g * pCols g) (by positivity) (fun a _ => hrow a), List.getElem?_map]
  have hz : k / (pRows g * pCols g) < (zVals g).length := by
    rw [zVals, linspace_length]
    exact (Nat.div_lt_iff_lt_mul (by positivity)).mpr hk
  rw [List.getElem?_eq_getElem hz, Option.map_some, Option.bind_some,
    flatMap_get _ _ (pCols g) h2 (by simp), Nat.mod_mul_left_div_self, List.getElem?_range (Nat.mod_lt _ h1), Option.bind_some, List.getElem?_map,
    Nat.mod_mod_of_dvd _ (Dvd.intro_left _ rfl), List.getElem?_range (Nat.mod_lt _ h2), Option.map_some, avgScore_eq ok,
    List.getD_eq_getElem?_getD, List.getElem?_eq_getElem hz, Option.getD_some]

theorem flatScores_length {g : Args} {ps : List Img} (_ : Ok g ps) :
    (flatScores ((zVals g).map fun pcz => ps.map fun x => tab g pcz x) (pRows g) (pCols g)).length
      = g.zSteps * (pRows g * pCols g) := by
  unfold flatScores
  rw [flatMap_length_const _ _ (pRows g * pCols g), List.length_map, zVals, linspace_length]
  intro ts _
  rw [flatMap_length_const _ _ (pCols g) (by simp), List.length_range]

/-- The fitter, with the tables evaluated. -/
theorem fitter_eq {g : Args} {ps : List Img} (ok : Ok g ps) :
    ∃ k, k < g.zSteps * (pRows g * pCols g) ∧
      (∀ k' < g.zSteps * (pRows g * pCols g),
        meanScore g ps ((zVals g).getD (k' / (pRows g * pCols g)) 0) (k' / pCols g % pRows g) (k' % pCols g) ≤
        meanScore g ps ((zVals g).getD (k / (pRows g * pCols g)) 0) (k / pCols g % pRows g) (k % pCols g)) ∧
      k = argmaxFirst (flatScores ((zVals g).map fun pcz => ps.map fun x => tab g pcz x) (pRows g) (pCols g)) ∧
      fitter g ps = some (⟨pcOf (g.cols / g.binning) g.pads.1 (k % pCols g),
          pcOf (g.rows / g.binning) g.pads.2.2.1 (k / pCols g % pRows g), (zVals g).getD (k / (pRows g * pCols g)) 0⟩,
        ps.map fun x => g.dict.getD ((tab g ((zVals g).getD (k / (pRows g * pCols g)) 0) x).2
          (k / pCols g % pRows g) (k % pCols g)) ⟨1, 0, 0, 0⟩) := by
  obtain ⟨h1, h2⟩ := sizes_pos ok
  set L := flatScores ((zVals g).map fun pcz => ps.map fun x => tab g pcz x) (pRows g) (pCols g) with hL
  have hlen : L.length = g.zSteps * (pRows g * pCols g) := flatScores_length ok
  have hne : L ≠ [] := by
    intro h
    have := congrArg List.length h
    rw [hlen] at this
    have hp : 0 < g.zSteps * (pRows g * pCols g) := Nat.mul_pos ok.steps (Nat.mul_pos h1 h2)
    simp at this
    rcases this with h | h | h
    · exact absurd h (by have := ok.steps; omega)
    · omega
    · omega
  have hlt := argmaxFirst_lt hne
  have hmax := argmaxFirst_max hlt
  have hk : argmaxFirst L < g.zSteps * (pRows g * pCols g) := hlen ▸ hlt
  refine ⟨argmaxFirst L, hk, ?_, rfl, ?_⟩
  · intro k' hk'
    have a := flatScores_get ok k' hk'
    have b := flatScores_get ok _ hk
    rw [← hL] at a b
    rw [List.getElem?_eq_getElem hlt] at b
    rw [List.getElem?_eq_getElem (by omega)] at a
    rw [← Option.some.inj a, ← Option.some.inj b]
    exact hmax _ (List.getElem_mem _)
  · unfold fitter
    have hz : argmaxFirst L / (pRows g * pCols g) < (zVals g).length := by
      rw [zVals, linspace_length]
      exact (Nat.div_lt_iff_lt_mul (by positivity)).mpr hk
    rw [if_neg, allTables_eq ok, Option.bind_some]
    swap
    · rintro (h | h | ⟨x, hx, h⟩)
      · simp [ok.pats, ok.dict] at h; have := ok.bin; have := ok.steps; omega
      · simp [ok.rows, ok.cols] at h
      · obtain ⟨a, b⟩ := ok.shape x hx
        rcases h with h | h
        · exact h a
        · exact h b
    unfold select
    have hP : paddedSize g.rows g.binning g.pads.2.2.1 g.pads.2.2.2 = pRows g := rfl
    have hW : paddedSize g.cols g.binning g.pads.1 g.pads.2.1 = pCols g := rfl
    simp only [hP, hW]
    rw [← hL]
    have hget : ((zVals g).map fun pcz => ps.map fun x => tab g pcz x).getD (argmaxFirst L / (pRows g * pCols g)) []
        = ps.map fun x => tab g ((zVals g).getD (argmaxFirst L / (pRows g * pCols g)) 0) x := by
      rw [List.getD_eq_getElem?_getD, List.getElem?_map, List.getD_eq_getElem?_getD, List.getElem?_eq_getElem hz]
      rfl
    rw [hget, List.mapM_map, mapM_some _ (fun x => g.dict.getD ((tab g ((zVals g).getD
        (argmaxFirst L / (pRows g * pCols g)) 0) x).2 (argmaxFirst L / pCols g % pRows g) (argmaxFirst L % pCols g)) ⟨1, 0, 0, 0⟩)]
    · rfl
    · intro x hx
      have := (tab_spec ok ((zVals g).getD (argmaxFirst L / (pRows g * pCols g)) 0) hx).2.2
        (argmaxFirst L / pCols g % pRows g) (argmaxFirst L % pCols g)
      simp only [Function.comp]
      generalize (tab g ((zVals g).getD (argmaxFirst L / (pRows g * pCols g)) 0) x).2
        (argmaxFirst L / pCols g % pRows g) (argmaxFirst L % pCols g) = idx at this ⊢
      rw [List.getD_eq_getElem?_getD, List.getElem?_eq_getElem this]
      rfl

/-- **C95**: on every valid input the search succeeds, and the pattern centre it returns belongs to an entry
`(z, y, x)` of the search grid at which the mean over the patterns of the best overlap (over the whole dictionary) of
the zero-padded normalised pattern with the cyclically displaced simulation is largest. -/
theorem C95_search (g : Args) (ps : List Img) (ok : Ok g ps) :
    ∃ pc qs, fitter g ps = some (pc, qs) ∧ qs.length = ps.length ∧ (∀ q ∈ qs, q ∈ g.dict) ∧
      ∃ z < g.zSteps, ∃ y < pRows g, ∃ x < pCols g,
        pc = ⟨pcOf (g.cols / g.binning) g.pads.1 x, pcOf (g.rows / g.binning) g.pads.2.2.1 y, (zVals g).getD z 0⟩ ∧
        ∀ z' < g.zSteps, ∀ y' < pRows g, ∀ x' < pCols g,
          meanScore g ps ((zVals g).getD z' 0) y' x' ≤ meanScore g ps ((zVals g).getD z 0) y x := by
  obtain ⟨h1, h2⟩ := sizes_pos ok
  obtain ⟨k, hk, hmax, -, hf⟩ := fitter_eq ok
  refine ⟨_, _, hf, by simp, ?_, k / (pRows g * pCols g), (Nat.div_lt_iff_lt_mul (by positivity)).mpr hk,
    k / pCols g % pRows g, Nat.mod_lt _ h1, k % pCols g, Nat.mod_lt _ h2, rfl, ?_⟩
  · intro q hq
    obtain ⟨x, hx, rfl⟩ := List.mem_map.mp hq
    have := (tab_spec ok ((zVals g).getD (k / (pRows g * pCols g)) 0) hx).2.2 (k / pCols g % pRows g) (k % pCols g)
    generalize (tab g ((zVals g).getD (k / (pRows g * pCols g)) 0) x).2 (k / pCols g % pRows g) (k % pCols g) = i at this
    rw [List.getD_eq_getElem?_getD, List.getElem?_eq_getElem this]
    exact List.getElem_mem _
  · intro z' hz' y' hy' x' hx'
    have e1 : (z' * (pRows g * pCols g) + (y' * pCols g + x')) / (pRows g * pCols g) = z' := by
      rw [add_comm, Nat.add_mul_div_right _ _ (by positivity), Nat.div_eq_of_lt, zero_add]
      calc y' * pCols g + x' < y' * pCols g + pCols g := by omega
        _ = (y' + 1) * pCols g := by ring
        _ ≤ pRows g * pCols g := Nat.mul_le_mul_right _ (by omega)
    have e2 : (z' * (pRows g * pCols g) + (y' * pCols g + x')) % pCols g = x' := by
      have : z' * (pRows g * pCols g) + (y' * pCols g + x') = x' + pCols g * (z' * pRows g + y') := by ring
      rw [this, Nat.add_mul_mod_self_left, Nat.mod_eq_of_lt hx']
    have e3 : (z' * (pRows g * pCols g) + (y' * pCols g + x')) / pCols g % pRows g = y' := by
      have : z' * (pRows g * pCols g) + (y' * pCols g + x') = x' + pCols g * (z' * pRows g + y') := by ring
      rw [this, Nat.add_mul_div_left _ _ h2, Nat.div_eq_of_lt hx', zero_add, add_comm, Nat.add_mul_mod_self_right,
        Nat.mod_eq_of_lt hy']
    have := hmax (z' * (pRows g * pCols g) + (y' * pCols g + x')) (by
      have a : y' * pCols g + x' < pRows g * pCols g :=
        calc y' * pCols g + x' < y' * pCols g + pCols g := by omega
          _ = (y' + 1) * pCols g := by ring
          _ ≤ pRows g * pCols g := Nat.mul_le_mul_right _ (by omega)
      calc z' * (pRows g * pCols g) + (y' * pCols g + x') < z' * (pRows g * pCols g) + pRows g * pCols g := by omega
        _ = (z' + 1) * (pRows g * pCols g) := by ring
        _ ≤ _ := Nat.mul_le_mul_right _ (by omega))
    rw [e1, e2, e3] at this
    exact this

/-- **C95**: the pattern centre does not depend on the batch size. -/
theorem C95_batch_pc (g : Args) (ps : List Img) (ok : Ok g ps) (b : ℕ) (hb : 0 < b) :
    (fitter { g with batch := b } ps).map Prod.fst = (fitter g ps).map Prod.fst := by
  have ok' : Ok { g with batch := b } ps :=
    ⟨ok.pats, ok.dict, ok.bin, ok.steps, hb, ok.rows, ok.cols, ok.shape, ok.contrast, ok.even⟩
  obtain ⟨k, hk, -, e, hf⟩ := fitter_eq ok
  obtain ⟨k', hk', -, e', hf'⟩ := fitter_eq ok'
  have hL : (flatScores ((zVals { g with batch := b }).map fun pcz => ps.map fun x => tab { g with batch := b } pcz x)
      (pRows { g with batch := b }) (pCols { g with batch := b })) =
      (flatScores ((zVals g).map fun pcz => ps.map fun x => tab g pcz x) (pRows g) (pCols g)) := by
    apply List.ext_getElem?
    intro i
    by_cases hi : i < g.zSteps * (pRows g * pCols g)
    · rw [flatScores_get ok i hi]; exact flatScores_get ok' i hi
    · exact (List.getElem?_eq_none ((flatScores_length ok').trans_le (not_lt.mp hi))).trans
        (List.getElem?_eq_none ((flatScores_length ok).trans_le (not_lt.mp hi))).symm
  have hkk : k' = k := by rw [e, e', hL]
  rw [hf, hf', hkk]
  rfl

end Verif.Fit
