import Verif.Props.Fitting
/-! C95, continued: orientations, brightness, and the cases where the search does not do what is meant. -/
namespace Verif.Fit
open Verif.Blur Verif.Fft Verif.Spec

/-! ### Orientations -/

theorem tab_index_one {g : Args} {ps : List Img} (ok : Ok g ps) (hone : g.dict.length ≤ g.batch) (pcz : ℝ) {x : Img}
    (hx : x ∈ ps) (y c : ℕ) (hs : 0 < score g pcz x y c) :
    overlap (pRows g) (pCols g) (g.sim pcz (g.dict.getD ((tab g pcz x).2 y c) ⟨1, 0, 0, 0⟩)).px (patPx g x)
      (displacementAt (pRows g) y) (displacementAt (pCols g) c) = score g pcz x y c := by
  obtain ⟨p, hp, e1, e2, n1, n2, e3⟩ := padded_spec ok hx
  set f : Img → ℕ → ℕ → ℝ := fun s y c =>
      overlap (pRows g) (pCols g) s.px (patPx g x) (displacementAt (pRows g) y) (displacementAt (pCols g) c) with hfdef
  have hf : ∀ s ∈ g.dict.map (g.sim pcz), scoreMap s p = some (f s) := by
    intro s hs'
    obtain ⟨q, _, rfl⟩ := List.mem_map.mp hs'
    have a : (g.sim pcz q).h = pRows g := rfl
    have b : (g.sim pcz q).w = pCols g := rfl
    obtain ⟨c, hc, hc2⟩ := scoreMap_eq (g.sim pcz q) p (by omega) (by omega) (by omega) (by omega) (by rw [b]; exact ok.even)
    rw [hc]; congr 1; funext y z; rw [hc2, a, b, e3]
  have hsplit : torchSplit g.batch (g.dict.map (g.sim pcz)) = [g.dict.map (g.sim pcz)] := by
    rw [torchSplit, if_neg]; simp; omega
  have ht : tab g pcz x = batchStep (fun _ _ => 0, fun _ _ => 0) ((g.dict.map (g.sim pcz)).map f) := by
    unfold tab
    rw [hp, Option.bind_some, tables_fold _ p g.batch ok.batch f hf, hsplit]
    rfl
  have hsc := (tab_spec ok pcz hx).1 y c
  rw [ht] at hsc ⊢
  unfold batchStep at hsc ⊢
  simp only [List.map_map] at hsc ⊢
  obtain ⟨m, hm, hmem, hmax, hidx⟩ := rowMax_some (l := g.dict.map ((fun s : ℕ → ℕ → ℝ => s y c) ∘ f ∘ g.sim pcz))
    (by simpa using ok.dict)
  rw [hm, Option.getD_some] at hsc ⊢
  have hms : max 0 m = m := by
    rcases le_total 0 m with h | h
    · exact max_eq_right h
    · rw [max_eq_left h] at hsc; linarith
  rw [if_pos hms]
  rw [hms] at hsc
  rw [← hsc]
  rw [List.getElem?_map, Option.map_eq_some_iff] at hidx
  obtain ⟨q, hq1, hq2⟩ := hidx
  rw [List.getD_eq_getElem?_getD, hq1, Option.getD_some, ← hq2]
  rfl

/-- **C95 (partial)**: when the whole dictionary fits in one batch, the orientation returned for each pattern attains the
best overlap at the returned pattern centre (whenever that overlap is positive).
Missing: dictionaries longer than a batch, where it is false (`C95_batch_fails`). -/
theorem C95_orientation_partial (g : Args) (ps : List Img) (ok : Ok g ps) (hone : g.dict.length ≤ g.batch) :
    ∃ pc qs, fitter g ps = some (pc, qs) ∧ ∃ y x : ℕ,
      pc.x = pcOf (g.cols / g.binning) g.pads.1 x ∧ pc.y = pcOf (g.rows / g.binning) g.pads.2.2.1 y ∧
      ∀ n (hn : n < ps.length) (hq : n < qs.length), 0 < score g pc.z ps[n] y x →
        overlap (pRows g) (pCols g) (g.sim pc.z qs[n]).px (patPx g ps[n]) (displacementAt (pRows g) y) (displacementAt (pCols g) x)
          = score g pc.z ps[n] y x := by
  obtain ⟨k, hk, -, -, hf⟩ := fitter_eq ok
  refine ⟨_, _, hf, k / pCols g % pRows g, k % pCols g, rfl, rfl, ?_⟩
  intro n hn hq hs
  rw [List.getElem_map]
  exact tab_index_one ok hone _ (List.getElem_mem hn) _ _ hs

/-- **C95 fails**: whatever the dictionary, the returned orientations are among its first `batch` entries. -/
theorem C95_first_batch_only (g : Args) (ps : List Img) (ok : Ok g ps) :
    ∃ pc qs, fitter g ps = some (pc, qs) ∧ ∀ q ∈ qs, q ∈ g.dict.take g.batch := by
  obtain ⟨k, hk, -, -, hf⟩ := fitter_eq ok
  refine ⟨_, _, hf, ?_⟩
  intro q hq
  obtain ⟨x, hx, rfl⟩ := List.mem_map.mp hq
  obtain ⟨-, h1, h2⟩ := tab_spec ok ((zVals g).getD (k / (pRows g * pCols g)) 0) hx
  have h1 := h1 (k / pCols g % pRows g) (k % pCols g)
  have h2 := h2 (k / pCols g % pRows g) (k % pCols g)
  generalize (tab g ((zVals g).getD (k / (pRows g * pCols g)) 0) x).2 (k / pCols g % pRows g) (k % pCols g) = i at h1 h2 ⊢
  rw [List.getD_eq_getElem?_getD, List.getElem?_eq_getElem h2, Option.getD_some]
  rw [List.mem_take_iff_getElem]
  exact ⟨i, by omega, rfl⟩

/-! ### Odd widths -/

/-- **C95 fails**: whenever the padded width is odd the search raises (the inverse transform is one column too narrow). -/
theorem C95_odd_width_fails (g : Args) (ps : List Img) (ho : pCols g % 2 = 1) (hr : 0 < g.rows / g.binning) :
    fitter g ps = none := by
  unfold fitter
  rcases hg : g.pads with ⟨wl, wr, ht, hb⟩
  split_ifs with h1
  · rfl
  unfold Args.rejects at h1
  push Not at h1
  obtain ⟨h1, h2, h3⟩ := h1
  obtain ⟨n1, n2, n3, n4⟩ := h1
  have : g.allTables ps = none := by
    unfold Args.allTables
    cases hp : ps.mapM g.padded with
    | none => rfl
    | some pats =>
      rw [Option.bind_some]
      obtain ⟨z0, zs, hz⟩ : ∃ z0 zs, linspace g.pczMin g.pczMax g.zSteps = z0 :: zs := by
        apply List.exists_cons_of_ne_nil
        intro h
        have := congrArg List.length h
        rw [linspace_length] at this
        simp at this; omega
      obtain ⟨x0, xs, rfl⟩ := List.exists_cons_of_ne_nil n1
      rw [List.mapM_cons] at hp
      cases hp0 : g.padded x0 with
      | none => rw [hp0] at hp; simp at hp
      | some p0 =>
        rw [hp0] at hp
        cases hpr : xs.mapM g.padded with
        | none => rw [hpr] at hp; simp at hp
        | some pr =>
          rw [hpr] at hp
          simp at hp
          subst hp
          rw [hz, List.mapM_cons, List.mapM_cons]
          have htab : tables (g.dict.map (g.sim z0)) p0 g.batch = none := by
            unfold tables
            by_cases hb0 : g.batch = 0
            · rw [if_pos hb0]
            · rw [if_neg hb0]
              obtain ⟨q0, qs, hq⟩ := List.exists_cons_of_ne_nil n2
              have hshape : p0.h = pRows g ∧ p0.w = pCols g := by
                unfold Args.padded at hp0
                obtain ⟨y, hy, hy2⟩ := Option.bind_eq_some_iff.mp hp0
                obtain ⟨s1, s2⟩ := prep_shape hy (by omega)
                obtain ⟨t1, t2⟩ := h3 x0 (by simp)
                unfold pad at hy2
                rw [hg] at hy2
                simp only [Bool.false_eq_true, if_false] at hy2
                obtain rfl := Option.some.inj hy2
                simp only [pRows, pCols, paddedSize, hg, s1, s2, t1, t2]
                constructor <;> omega
              have hsc : scoreMap (g.sim z0 q0) p0 = none := by
                apply scoreMap_odd
                · exact hshape.1
                · exact hshape.2
                · change 0 < pRows g; simp only [pRows, paddedSize]; omega
                · exact ho
              obtain ⟨rest, more, hs⟩ : ∃ rest more, torchSplit g.batch (g.dict.map (g.sim z0))
                  = (g.sim z0 q0 :: rest) :: more := by
                rw [hq, List.map_cons, torchSplit]
                by_cases hc : 0 < g.batch ∧ g.batch < (g.sim z0 q0 :: qs.map (g.sim z0)).length
                · rw [if_pos hc]
                  obtain ⟨b', hb'⟩ : ∃ b', g.batch = b' + 1 := ⟨g.batch - 1, by omega⟩
                  rw [hb', List.take_succ_cons]
                  exact ⟨_, _, rfl⟩
                · rw [if_neg hc]; exact ⟨_, _, rfl⟩
              rw [hs, List.foldlM_cons, List.mapM_cons, hsc]
              rfl
          rw [htab]; rfl
  rw [this]; rfl

/-! ### Brightness -/

theorem foldl_min_affine (a c : ℝ) (ha : 0 < a) (l : List ℝ) (m : ℝ) :
    (l.map fun v => a * v + c).foldl min (a * m + c) = a * l.foldl min m + c := by
  induction l generalizing m with
  | nil => rfl
  | cons x xs ih =>
    simp only [List.map_cons, List.foldl_cons]
    rw [← ih]
    congr 1
    rw [min_add_add_right, ← mul_min_of_nonneg _ _ ha.le]

theorem foldl_max_affine (a c : ℝ) (ha : 0 < a) (l : List ℝ) (m : ℝ) :
    (l.map fun v => a * v + c).foldl max (a * m + c) = a * l.foldl max m + c := by
  induction l generalizing m with
  | nil => rfl
  | cons x xs ih =>
    simp only [List.map_cons, List.foldl_cons]
    rw [← ih]
    congr 1
    rw [max_add_add_right, ← mul_max_of_nonneg _ _ ha.le]

theorem minOf_affine (a c : ℝ) (ha : 0 < a) (l : List ℝ) :
    MI.minOf (l.map fun v => a * v + c) = (MI.minOf l).map fun v => a * v + c := by
  cases l with
  | nil => rfl
  | cons x xs => simp only [MI.minOf, List.map_cons, foldl_min_affine a c ha, Option.map_some]

theorem maxOf_affine (a c : ℝ) (ha : 0 < a) (l : List ℝ) :
    MI.maxOf (l.map fun v => a * v + c) = (MI.maxOf l).map fun v => a * v + c := by
  cases l with
  | nil => rfl
  | cons x xs => simp only [MI.maxOf, List.map_cons, foldl_max_affine a c ha, Option.map_some]

theorem pixels_map (f : ℝ → ℝ) (x : Img) : pixels (mapImg f x) = (pixels x).map f := by
  simp [pixels, mapImg, List.map_flatMap, Function.comp_def]

theorem rescale_affine (a c : ℝ) (ha : 0 < a) (x : Img) :
    rescale (mapImg (fun v => a * v + c) x) = rescale x := by
  unfold rescale
  rw [pixels_map, minOf_affine a c ha]
  cases h : MI.minOf (pixels x) with
  | none => rfl
  | some mn =>
    simp only [Option.map_some, Option.bind_some]
    have e : mapImg (fun v => v - (a * mn + c)) (mapImg (fun v => a * v + c) x)
        = mapImg (fun v => a * v + 0) (mapImg (fun v => v - mn) x) := by
      simp only [mapImg]; congr 1; funext i j; ring
    rw [e, pixels_map, maxOf_affine a 0 ha]
    cases h2 : MI.maxOf (pixels (mapImg (fun v => v - mn) x)) with
    | none => rfl
    | some mx =>
      simp only [Option.map_some, Option.bind_some, add_zero]
      by_cases hm : mx = 0
      · rw [if_pos hm, if_pos (by rw [hm]; ring)]
      · rw [if_neg hm, if_neg (by positivity)]
        congr 1
        simp only [mapImg]; congr 1; funext i j
        field_simp

theorem prep_affine (b : ℕ) (a c : ℝ) (ha : 0 < a) (x : Img) :
    prep b (mapImg (fun v => a * v + c) x) = prep b x := by
  unfold prep
  by_cases hb : b > 1
  · rw [if_pos hb, if_pos hb]
    have : avgPool b (mapImg (fun v => a * v + c) x) = mapImg (fun v => a * v + c) (avgPool b x) := by
      simp only [avgPool, mapImg]; congr 1; funext i j
      have hb0 : (b : ℝ) ≠ 0 := by positivity
      simp only [Finset.sum_add_distrib, ← Finset.mul_sum, Finset.sum_const, Finset.card_range, nsmul_eq_mul]
      field_simp
    rw [this, rescale_affine a c ha]
  · rw [if_neg hb, if_neg hb, rescale_affine a c ha]

/-- **C95**: the result does not change when the brightness of each pattern is changed by its own gain and offset. -/
theorem C95_brightness (g : Args) (ps : List Img) (gain : Img → ℝ) (offset : Img → ℝ) (hg : ∀ x ∈ ps, 0 < gain x) :
    fitter g (ps.map fun x => mapImg (fun v => gain x * v + offset x) x) = fitter g ps := by
  have hall : g.allTables (ps.map fun x => mapImg (fun v => gain x * v + offset x) x) = g.allTables ps := by
    unfold Args.allTables
    congr 1
    rw [List.mapM_map]
    have : ∀ l : List Img, (∀ x ∈ l, x ∈ ps) → l.mapM (g.padded ∘ fun x => mapImg (fun v => gain x * v + offset x) x)
        = l.mapM g.padded := by
      intro l
      induction l with
      | nil => intro _; rfl
      | cons x xs ih =>
        intro h
        rw [List.mapM_cons, List.mapM_cons, ih (fun y hy => h y (by simp [hy]))]
        have : (g.padded ∘ fun x => mapImg (fun v => gain x * v + offset x) x) x = g.padded x := by
          simp only [Function.comp, Args.padded]
          rw [prep_affine _ _ _ (hg x (h x (by simp)))]
        rw [this]
    exact this ps (fun _ h => h)
  unfold fitter
  rw [hall]
  have h1 : (ps.map (fun x => mapImg (fun v => gain x * v + offset x) x) = []) ↔ ps = [] := by simp
  have h2 : (∃ x ∈ ps.map (fun x => mapImg (fun v => gain x * v + offset x) x), x.h ≠ g.rows ∨ x.w ≠ g.cols) ↔
      ∃ x ∈ ps, x.h ≠ g.rows ∨ x.w ≠ g.cols := by
    simp [mapImg]
  have hr : g.rejects (ps.map fun x => mapImg (fun v => gain x * v + offset x) x) ↔ g.rejects ps := by
    unfold Args.rejects; rw [h1, h2]
  by_cases h : g.rejects ps
  · rw [if_pos h, if_pos (hr.mpr h)]
  · rw [if_neg h, if_neg (hr.not.mpr h)]

theorem maxOf_sub_nonneg {x : Img} {mn mx : ℝ} (h1 : MI.minOf (pixels x) = some mn)
    (h2 : MI.maxOf (pixels (mapImg (fun v => v - mn) x)) = some mx) : 0 ≤ mx := by
  rw [pixels_map] at h2
  cases hp : pixels x with
  | nil => rw [hp] at h1; simp [MI.minOf] at h1
  | cons a as =>
    rw [hp] at h1 h2
    simp only [MI.minOf, MI.maxOf, List.map_cons, Option.some.injEq] at h1 h2
    have hmin : as.foldl min a ≤ a := by
      clear hp h1 h2
      induction as generalizing a with
      | nil => exact le_refl _
      | cons b bs ih => exact (ih (min a b)).trans (min_le_left _ _)
    have hmax : ∀ (l : List ℝ) (s : ℝ), s ≤ l.foldl max s := by
      intro l
      induction l with
      | nil => intro s; exact le_refl _
      | cons b bs ih => intro s; exact (le_max_left _ _).trans (ih _)
    have := hmax (as.map fun v => v - mn) (a - mn)
    rw [h2] at this
    linarith

/-- **C95**: with binning the caller's patterns are left alone. -/
theorem C95_unchanged (g : Args) (hb : 1 < g.binning) (ps : List Img) : ps.mapM (callerPattern g.binning) = some ps := by
  have : callerPattern g.binning = fun x => some x := by funext x; unfold callerPattern; rw [if_pos hb]
  rw [this]
  induction ps with
  | nil => rfl
  | cons x xs ih => rw [List.mapM_cons, ih]; rfl

theorem repeat_one (g : Args) (hb : g.binning ≤ 1) (ps qs : List Img) (h : ps.mapM (callerPattern g.binning) = some qs) :
    fitter g qs = fitter g ps := by
  have key : ∀ x y : Img, callerPattern g.binning x = some y → ∃ a c : ℝ, 0 < a ∧ y = mapImg (fun v => a * v + c) x := by
    intro x y hxy
    unfold callerPattern at hxy
    rw [if_neg (by omega)] at hxy
    unfold prep rescale at hxy
    rw [if_neg (by omega)] at hxy
    simp only [Option.map_eq_some_iff, Option.bind_eq_some_iff] at hxy
    obtain ⟨v, ⟨mn, h1, mx, h2, h3⟩, rfl⟩ := hxy
    have hm0 := maxOf_sub_nonneg h1 h2
    by_cases hm : mx = 0
    · rw [if_pos hm] at h3; simp at h3
    · rw [if_neg hm] at h3
      obtain rfl := Option.some.inj h3
      have hpos : 0 < mx := lt_of_le_of_ne hm0 (Ne.symm hm)
      unfold demean
      generalize (pixels (mapImg (fun v => v / mx) (mapImg (fun v => v - mn) x))).sum /
        ((pixels (mapImg (fun v => v / mx) (mapImg (fun v => v - mn) x))).length : ℝ) = mean
      refine ⟨1 / mx, -mn / mx - mean, by positivity, ?_⟩
      simp only [mapImg]; congr 1; funext i j
      field_simp
      ring
  have hall : ps.mapM g.padded = qs.mapM g.padded ∧ (ps = [] ↔ qs = []) ∧
      ((∃ x ∈ ps, x.h ≠ g.rows ∨ x.w ≠ g.cols) ↔ ∃ x ∈ qs, x.h ≠ g.rows ∨ x.w ≠ g.cols) := by
    induction ps generalizing qs with
    | nil =>
      simp at h
      subst h; simp
    | cons x xs ih =>
      rw [List.mapM_cons] at h
      cases h1 : callerPattern g.binning x with
      | none => rw [h1] at h; simp at h
      | some y =>
        cases h2 : xs.mapM (callerPattern g.binning) with
        | none => rw [h1, h2] at h; simp at h
        | some ys =>
          rw [h1, h2] at h
          simp at h
          subst h
          obtain ⟨a, c, ha, rfl⟩ := key x _ h1
          obtain ⟨i1, i2, i3⟩ := ih ys h2
          refine ⟨?_, by simp, ?_⟩
          · rw [List.mapM_cons, List.mapM_cons, i1]
            simp only [Args.padded]
            rw [prep_affine _ _ _ ha]
          · have : (mapImg (fun v => a * v + c) x).h = x.h ∧ (mapImg (fun v => a * v + c) x).w = x.w := ⟨rfl, rfl⟩
            simp only [List.mem_cons, exists_eq_or_imp, i3, this]
  obtain ⟨i1, i2, i3⟩ := hall
  have hr : g.rejects qs ↔ g.rejects ps := by
    unfold Args.rejects; rw [i2, i3]
  unfold fitter Args.allTables
  rw [← i1]
  by_cases h : g.rejects ps
  · rw [if_pos h, if_pos (hr.mpr h)]
  · rw [if_neg h, if_neg (hr.not.mpr h)]

/-- **C95**: without binning the search overwrites the caller's patterns; searching again with the patterns the call leaves
behind gives the same result. -/
theorem C95_repeat (g : Args) (ps qs : List Img) (h : ps.mapM (callerPattern g.binning) = some qs) :
    fitter g qs = fitter g ps := by
  by_cases hb : 1 < g.binning
  · rw [C95_unchanged g hb] at h
    rw [Option.some.inj h]
  · exact repeat_one g (by omega) ps qs h

end Verif.Fit
