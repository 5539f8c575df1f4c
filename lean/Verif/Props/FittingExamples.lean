import Verif.Props.FittingGeom
/-! C95, concrete searches: the hypotheses of the C95 theorems are met, and two searches with wrong results. -/
namespace Verif.Fit
open Verif.Blur Verif.Fft Verif.Spec

/-- A 2 by 2 pattern with one bright pixel. -/
noncomputable def spot : Img := ⟨2, 2, fun i j => if i = 0 ∧ j = 0 then 1 else 0⟩

theorem spot_pixels : pixels spot = [1, 0, 0, 0] := by simp [pixels, spot, List.range_succ]

theorem spot_prep : prep 1 spot = some ⟨2, 2, fun i j => (if i = 0 ∧ j = 0 then 1 else 0) - 1 / 4⟩ := by
  unfold prep rescale
  rw [if_neg (by norm_num), spot_pixels]
  have h1 : MI.minOf [1, 0, 0, 0] = some (0 : ℝ) := by simp [MI.minOf]
  rw [h1, Option.bind_some]
  simp only
  rw [pixels_map, spot_pixels]
  have h2 : MI.maxOf (([1, 0, 0, 0] : List ℝ).map fun v => v - 0) = some (1 : ℝ) := by simp [MI.maxOf]
  rw [h2, Option.bind_some, if_neg one_ne_zero, Option.map_some]
  congr 1
  unfold demean
  rw [pixels_map, pixels_map, spot_pixels]
  simp only [mapImg, spot]
  congr 1
  funext i j
  norm_num

/-- The direction of the detector point `(r, c)` of a 2 by 2 detector without tilt, pattern centre `(1/2, py, 1/2)`. -/
theorem dir_flat (py r c : ℝ) :
    direction (brukerRot (-1 * 0) 0) (brukerTrans ⟨0.5, py, 1 / 2⟩ (-1 * 0) 0 2 2) r c =
      unit ⟨1, c - 1 / 2, 2 * py - 1 / 2 - r⟩ := by
  unfold direction
  congr 1
  simp only [brukerRot, brukerTrans, mulV, V.add, deg2rad]
  simp
  constructor
  · norm_num; ring
  · ring

theorem unit_scale (b c : ℝ) : ∃ s : ℝ, 0 < s ∧ unit ⟨1, b, c⟩ = ⟨s, s * b, s * c⟩ := by
  refine ⟨1 / Real.sqrt (1 ^ 2 + b ^ 2 + c ^ 2), by positivity, ?_⟩
  simp [unit, V.smul]

theorem trunc_nat (n : ℕ) : MI.trunc (n : ℝ) = n := by
  unfold MI.trunc
  rw [if_pos (by positivity)]; simp

/-! #### A dictionary in two batches -/

open Classical in
/-- A master pattern bright in one octant. -/
noncomputable def masterA (v : V) : ℝ := if v.x < 0 ∧ 0 < v.y ∧ 0 < v.z then 1 else 0

theorem masterA_pos (s b c : ℝ) (hs : 0 < s) : masterA ⟨s, b, c⟩ = 0 := by
  unfold masterA
  rw [if_neg]; rintro ⟨h, -⟩; simp only at h; linarith

theorem masterA_neg (s b c : ℝ) (hs : 0 < s) : masterA ⟨-s, -(s * b), s * c⟩ = if b < 0 ∧ 0 < c then 1 else 0 := by
  unfold masterA
  have : (-s < 0 ∧ 0 < -(s * b) ∧ 0 < s * c) ↔ (b < 0 ∧ 0 < c) := by
    rw [← mul_neg, mul_pos_iff_of_pos_left hs, mul_pos_iff_of_pos_left hs]
    simp [hs]
  simp only [this]

/-- Two orientations; the master pattern is dark for the first one. -/
noncomputable def gA (batch : ℕ) : Args where
  master := masterA
  dict := [⟨1, 0, 0, 0⟩, ⟨0, 0, 0, 1⟩]
  rows := 2
  cols := 2
  pcxMin := 0.5
  pcxMax := 0.5
  pcyMin := 0.5
  pcyMax := 0.5
  pczMin := 1 / 2
  pczMax := 1 / 2
  zSteps := 1
  primary := 0
  secondary := 0
  batch := batch
  binning := 1

theorem gA_pads (b : ℕ) : (gA b).pads = (0, 0, 0, 0) := by
  have : MI.trunc 0 = 0 := by simpa using trunc_nat 0
  simp [Args.pads, padWidths, gA, this]

theorem gA_rows (b : ℕ) : pRows (gA b) = 2 := by simp [pRows, paddedSize, gA_pads]; simp [gA]
theorem gA_cols (b : ℕ) : pCols (gA b) = 2 := by simp [pCols, paddedSize, gA_pads]; simp [gA]

theorem gA_ok (b : ℕ) (hb : 0 < b) : Ok (gA b) [spot] where
  pats := by simp
  dict := by simp [gA]
  bin := by simp [gA]
  steps := by simp [gA]
  batch := hb
  rows := by simp [gA]
  cols := by simp [gA]
  shape := by simp [gA, spot]
  contrast := by
    intro x hx
    rw [List.mem_singleton] at hx; subst hx
    change (prep 1 spot).isSome
    rw [spot_prep]; rfl
  even := by rw [gA_cols]

theorem gA_z (b : ℕ) : zVals (gA b) = [1 / 2] := by
  simp [zVals, linspace, gA]

theorem axis2 (i : ℕ) (hi : i < 2) : axisPeriphery 2 1 0 0 i = 2 * i := by
  rw [axis_eq _ _ _ _ (by omega)]
  unfold spacing; norm_num; ring

theorem quApply_one (v : V) : quApply ⟨1, 0, 0, 0⟩ v = v := by
  ext <;> simp [quApply] 
theorem quApply_k (v : V) : quApply ⟨0, 0, 0, 1⟩ v = ⟨-v.x, -v.y, v.z⟩ := by
  ext <;> simp [quApply] 

theorem gA_sim (b : ℕ) (q : Q) (i j : ℕ) (hi : i < 2) (hj : j < 2) : ∃ s : ℝ, 0 < s ∧
    ((gA b).sim (1 / 2) q).px i j = (gA b).master (quApply q ⟨s, s * (2 * j - 1 / 2), s * (1 / 2 - 2 * i)⟩) := by
  obtain ⟨s, hs, e⟩ := unit_scale (2 * (j : ℝ) - 1 / 2) (2 * 0.5 - 1 / 2 - 2 * (i : ℝ))
  refine ⟨s, hs, ?_⟩
  unfold Args.sim
  rw [gA_pads]
  simp only [gA]
  have := dir_flat 0.5 (2 * i) (2 * j)
  rw [axis2 i hi, axis2 j hj]
  push_cast at this ⊢
  rw [this, e]
  norm_num

theorem gA_sim1 (b i j : ℕ) (hi : i < 2) (hj : j < 2) : ((gA b).sim (1 / 2) ⟨1, 0, 0, 0⟩).px i j = 0 := by
  obtain ⟨s, hs, e⟩ := gA_sim b ⟨1, 0, 0, 0⟩ i j hi hj
  rw [e, quApply_one]
  exact masterA_pos _ _ _ hs

theorem gA_sim2 (b i j : ℕ) (hi : i < 2) (hj : j < 2) :
    ((gA b).sim (1 / 2) ⟨0, 0, 0, 1⟩).px i j = if i = 0 ∧ j = 0 then 1 else 0 := by
  obtain ⟨s, hs, e⟩ := gA_sim b ⟨0, 0, 0, 1⟩ i j hi hj
  rw [e, quApply_k]
  have : (gA b).master = masterA := rfl
  rw [this, masterA_neg _ _ _ hs]
  interval_cases i <;> interval_cases j <;> norm_num

theorem gA_pat (b i j : ℕ) (hi : i < 2) (hj : j < 2) : patPx (gA b) spot i j = (if i = 0 ∧ j = 0 then 1 else 0) - 1 / 4 := by
  unfold patPx Args.padded
  have : prep (gA b).binning spot = prep 1 spot := rfl
  rw [this, spot_prep, Option.bind_some, gA_pads]
  unfold pad
  simp only [Bool.false_eq_true, if_false]
  rw [if_pos (by omega)]
  rfl

theorem gA_overlap1 (b dy dx : ℕ) : overlap 2 2 ((gA b).sim (1 / 2) ⟨1, 0, 0, 0⟩).px (patPx (gA b) spot) dy dx = 0 := by
  unfold overlap
  apply Finset.sum_eq_zero; intro k _
  apply Finset.sum_eq_zero; intro l _
  rw [gA_sim1 b _ _ (Nat.mod_lt _ (by norm_num)) (Nat.mod_lt _ (by norm_num)), mul_zero]

theorem gA_overlap2 (b dy dx : ℕ) (hy : dy < 2) (hx : dx < 2) :
    overlap 2 2 ((gA b).sim (1 / 2) ⟨0, 0, 0, 1⟩).px (patPx (gA b) spot) dy dx = if dy = 0 ∧ dx = 0 then 3 / 4 else -1 / 4 := by
  unfold overlap
  simp only [Finset.sum_range_succ, Finset.range_zero, Finset.sum_empty, zero_add]
  interval_cases dy <;> interval_cases dx <;> norm_num <;>
    simp only [gA_sim2, gA_pat, Nat.lt_irrefl, Nat.zero_lt_succ, Nat.one_lt_two, Nat.ofNat_pos] <;> norm_num

theorem gA_score (b y c : ℕ) (hy : y < 2) (hc : c < 2) : score (gA b) (1 / 2) spot y c = if y = 1 ∧ c = 1 then 3 / 4 else 0 := by
  unfold score
  rw [gA_rows, gA_cols]
  have hd : (gA b).dict = [⟨1, 0, 0, 0⟩, ⟨0, 0, 0, 1⟩] := rfl
  rw [hd]
  simp only [bestOf, List.foldl_cons, List.foldl_nil, gA_overlap1]
  rw [gA_overlap2 b (displacementAt 2 y) (displacementAt 2 c) (Nat.mod_lt _ (by norm_num)) (Nat.mod_lt _ (by norm_num))]
  interval_cases y <;> interval_cases c <;> norm_num [displacementAt]

theorem gA_mean (b y c : ℕ) (hy : y < 2) (hc : c < 2) :
    meanScore (gA b) [spot] (1 / 2) y c = if y = 1 ∧ c = 1 then 3 / 4 else 0 := by
  unfold meanScore
  simp only [List.map_cons, List.map_nil, gA_score b y c hy hc]; simp

/-- What the search returns on this input. -/
theorem gA_result (b : ℕ) (hb : 0 < b) : fitter (gA b) [spot] = some (⟨1 / 2, 1 / 2, 1 / 2⟩,
    [(gA b).dict.getD ((tab (gA b) (1 / 2) spot).2 1 1) ⟨1, 0, 0, 0⟩]) := by
  obtain ⟨k, hk, hmax, -, hf⟩ := fitter_eq (gA_ok b hb)
  rw [gA_rows, gA_cols] at hk hmax hf
  have hz : (gA b).zSteps = 1 := rfl
  rw [hz] at hk hmax
  have h3 := hmax 3 (by norm_num)
  have hk3 : k = 3 := by
    interval_cases k
    all_goals first
      | rfl
      | (exfalso
         rw [gA_z] at h3
         norm_num at h3
         rw [gA_mean b _ _ (by norm_num) (by norm_num), gA_mean b _ _ (by norm_num) (by norm_num)] at h3
         norm_num at h3)
  subst hk3
  rw [hf, gA_z, gA_pads]
  have e1 : (gA b).cols / (gA b).binning = 2 := by simp [gA]
  have e2 : (gA b).rows / (gA b).binning = 2 := by simp [gA]
  simp only [e1, e2]
  norm_num [pcOf]

/-- **C95 fails**: with two orientations in two batches of one, the search returns the first orientation although the
simulation of the second one, and not of the first, matches the pattern at the returned pattern centre. -/
theorem C95_batch_fails : Ok (gA 1) [spot] ∧
    fitter (gA 1) [spot] = some (⟨1 / 2, 1 / 2, 1 / 2⟩, [⟨1, 0, 0, 0⟩]) ∧
    fitter (gA 2) [spot] = some (⟨1 / 2, 1 / 2, 1 / 2⟩, [⟨0, 0, 0, 1⟩]) ∧
    overlap 2 2 ((gA 1).sim (1 / 2) ⟨1, 0, 0, 0⟩).px (patPx (gA 1) spot) (displacementAt 2 1) (displacementAt 2 1) = 0 ∧
    overlap 2 2 ((gA 1).sim (1 / 2) ⟨0, 0, 0, 1⟩).px (patPx (gA 1) spot) (displacementAt 2 1) (displacementAt 2 1) = 3 / 4 := by
  refine ⟨gA_ok 1 (by norm_num), ?_, ?_, gA_overlap1 _ _ _, ?_⟩
  · rw [gA_result 1 (by norm_num)]
    have := (tab_spec (gA_ok 1 (by norm_num)) (1 / 2) (List.mem_singleton.mpr rfl)).2.1 1 1
    have h0 : (tab (gA 1) (1 / 2) spot).2 1 1 = 0 := by
      have hb : (gA 1).batch = 1 := rfl
      omega
    rw [h0]; rfl
  · rw [gA_result 2 (by norm_num)]
    have ok := gA_ok 2 (by norm_num)
    have hsc := gA_score 2 1 1 (by norm_num) (by norm_num)
    have h1 := tab_index_one ok (by simp [gA]) (1 / 2) (List.mem_singleton.mpr rfl) 1 1 (by rw [hsc]; norm_num)
    have hlt := (tab_spec ok (1 / 2) (List.mem_singleton.mpr rfl)).2.2 1 1
    generalize (tab (gA 2) (1 / 2) spot).2 1 1 = i at h1 hlt ⊢
    have hl : (gA 2).dict.length = 2 := rfl
    rw [hl] at hlt
    rw [hsc, gA_rows, gA_cols] at h1
    interval_cases i
    · exfalso
      have e : (gA 2).dict.getD 0 ⟨1, 0, 0, 0⟩ = ⟨1, 0, 0, 0⟩ := rfl
      rw [e, gA_overlap1] at h1
      norm_num at h1
    · rfl
  · rw [gA_overlap2 1 _ _ (by decide) (by decide)]
    norm_num [displacementAt]

/-! #### A mirrored pattern centre -/

open Classical in
/-- A master pattern bright well above the horizon, on one side. -/
noncomputable def masterB (v : V) : ℝ := if v.x < v.z ∧ v.y < 0 then 1 else 0

theorem masterB_eq (s b c : ℝ) (hs : 0 < s) : masterB ⟨s, s * b, s * c⟩ = if 1 < c ∧ b < 0 then 1 else 0 := by
  unfold masterB
  have : (s < s * c ∧ s * b < 0) ↔ (1 < c ∧ b < 0) := by
    rw [lt_mul_iff_one_lt_right hs, ← neg_pos, ← mul_neg, mul_pos_iff_of_pos_left hs, neg_pos]
  simp only [this]

/-- One orientation; the master pattern is bright for directions well above the horizon, on one side. -/
noncomputable def gB : Args where
  master := masterB
  dict := [⟨1, 0, 0, 0⟩]
  rows := 2
  cols := 2
  pcxMin := 0.5
  pcxMax := 0.5
  pcyMin := 0
  pcyMax := 1
  pczMin := 1 / 2
  pczMax := 1 / 2
  zSteps := 1
  primary := 0
  secondary := 0
  batch := 1
  binning := 1

theorem gB_pads : gB.pads = (0, 0, 1, 1) := by
  have h0 : MI.trunc 0 = 0 := by simpa using trunc_nat 0
  have h1 : MI.trunc 1 = 1 := by simpa using trunc_nat 1
  have a : ((0.5 : ℝ) - 0) * 2 / 1 = 1 := by norm_num
  have b : ((1 : ℝ) - 0.5) * 2 / 1 = 1 := by norm_num
  simp only [Args.pads, padWidths, gB, Nat.cast_ofNat, Nat.cast_one, a, b, sub_self, zero_mul, zero_div, h0, h1]
  rfl

theorem gB_rows : pRows gB = 4 := by simp [pRows, paddedSize, gB_pads]; simp [gB]
theorem gB_cols : pCols gB = 2 := by simp [pCols, paddedSize, gB_pads]; simp [gB]

theorem gB_ok : Ok gB [spot] where
  pats := by simp
  dict := by simp [gB]
  bin := by simp [gB]
  steps := by simp [gB]
  batch := by simp [gB]
  rows := by simp [gB]
  cols := by simp [gB]
  shape := by simp [gB, spot]
  contrast := by
    intro x hx
    rw [List.mem_singleton] at hx; subst hx
    change (prep 1 spot).isSome
    rw [spot_prep]; rfl
  even := by rw [gB_cols]

theorem gB_z : zVals gB = [1 / 2] := by simp [zVals, linspace, gB]

theorem axis4 (i : ℕ) (hi : i < 4) : axisPeriphery 2 1 1 1 i = -1 + i * (4 / 3) := by
  rw [axis_eq _ _ _ _ (by omega)]
  unfold spacing; norm_num

theorem gB_sim (i j : ℕ) (hi : i < 4) (hj : j < 2) :
    (gB.sim (1 / 2) ⟨1, 0, 0, 0⟩).px i j = if i = 0 ∧ j = 0 then 1 else 0 := by
  obtain ⟨s, hs, e⟩ := unit_scale (2 * (j : ℝ) - 1 / 2) (2 * 0.5 - 1 / 2 - (-1 + (i : ℝ) * (4 / 3)))
  unfold Args.sim
  rw [gB_pads]
  simp only [gB]
  have := dir_flat 0.5 (-1 + i * (4 / 3)) (2 * j)
  rw [axis4 i hi, axis2 j hj]
  push_cast at this ⊢
  rw [this, e, quApply_one]
  rw [masterB_eq _ _ _ hs]
  interval_cases i <;> interval_cases j <;> norm_num

theorem gB_pat (i j : ℕ) (hi : i < 4) (hj : j < 2) : patPx gB spot i j =
    if i = 1 ∧ j = 0 then 3 / 4 else if i = 1 ∨ i = 2 then -1 / 4 else 0 := by
  unfold patPx Args.padded
  have : prep gB.binning spot = prep 1 spot := rfl
  rw [this, spot_prep, Option.bind_some, gB_pads]
  unfold pad
  simp only [Bool.false_eq_true, if_false]
  interval_cases i <;> interval_cases j <;> norm_num

theorem gB_score (y c : ℕ) (hy : y < 4) (hc : c < 2) : score gB (1 / 2) spot y c = if y = 1 ∧ c = 1 then 3 / 4 else 0 := by
  unfold score
  rw [gB_rows, gB_cols]
  have hd : gB.dict = [⟨1, 0, 0, 0⟩] := rfl
  rw [hd]
  simp only [bestOf, List.foldl_cons, List.foldl_nil]
  have hov : ∀ dy dx : ℕ, dy < 4 → dx < 2 → overlap 4 2 (gB.sim (1 / 2) ⟨1, 0, 0, 0⟩).px (patPx gB spot) dy dx
      = patPx gB spot ((4 - dy) % 4) ((2 - dx) % 2) := by
    intro dy dx h1 h2
    have : overlap 4 2 (gB.sim (1 / 2) ⟨1, 0, 0, 0⟩).px (patPx gB spot) dy dx =
        overlap 4 2 (fun i j => if i = 0 ∧ j = 0 then 1 else 0) (patPx gB spot) dy dx := by
      unfold overlap
      apply Finset.sum_congr rfl; intro k _
      apply Finset.sum_congr rfl; intro l _
      rw [gB_sim _ _ (Nat.mod_lt _ (by norm_num)) (Nat.mod_lt _ (by norm_num))]
    rw [this]
    unfold overlap
    simp only [Finset.sum_range_succ, Finset.range_zero, Finset.sum_empty, zero_add]
    interval_cases dy <;> interval_cases dx <;> norm_num
  rw [hov (displacementAt 4 y) (displacementAt 2 c) (Nat.mod_lt _ (by norm_num)) (Nat.mod_lt _ (by norm_num)),
    gB_pat _ _ (Nat.mod_lt _ (by norm_num)) (Nat.mod_lt _ (by norm_num))]
  interval_cases y <;> interval_cases c <;> norm_num [displacementAt]

theorem gB_mean (y c : ℕ) (hy : y < 4) (hc : c < 2) :
    meanScore gB [spot] (1 / 2) y c = if y = 1 ∧ c = 1 then 3 / 4 else 0 := by
  unfold meanScore
  simp only [List.map_cons, List.map_nil, gB_score y c hy hc]; simp

/-- The pattern recorded on the detector of `g` for the orientation `q` and the pattern centre `pc`
(pixel coordinates of fitting.py:160-219). -/
noncomputable def recorded (g : Args) (q : Q) (pc : V) : ℕ → ℕ → ℝ := fun i j =>
  g.master (quApply q (direction (brukerRot (-1 * g.primary) g.secondary)
    (brukerTrans pc (-1 * g.primary) g.secondary g.rows g.cols)
    ((axisCoords g.rows 1).getD i 0) ((axisCoords g.cols 1).getD j 0)))

theorem coords2 (i : ℕ) (hi : i < 2) : (axisCoords 2 1).getD i 0 = 2 * i := by
  unfold axisCoords linspace
  rw [List.getD_eq_getElem?_getD, List.getElem?_ofFn, dif_pos (by simpa using hi)]
  simp only [Option.getD_some]
  norm_num; ring

/-- **C95 fails**: the pattern is exactly the one recorded with the pattern centre `(1/2, 1, 1/2)`, inside the search
range, for the only orientation of the dictionary; the search returns `(1/2, 0, 1/2)`, its mirror image. -/
theorem C95_mirror_fails : Ok gB [spot] ∧
    (∀ i < 2, ∀ j < 2, spot.px i j = recorded gB ⟨1, 0, 0, 0⟩ ⟨0.5, 1, 1 / 2⟩ i j) ∧
    gB.pcyMin ≤ 1 ∧ 1 ≤ gB.pcyMax ∧
    fitter gB [spot] = some (⟨1 / 2, 0, 1 / 2⟩, [⟨1, 0, 0, 0⟩]) := by
  refine ⟨gB_ok, ?_, by norm_num [gB], by norm_num [gB], ?_⟩
  · intro i hi j hj
    obtain ⟨s, hs, e⟩ := unit_scale (2 * (j : ℝ) - 1 / 2) (2 * 1 - 1 / 2 - 2 * (i : ℝ))
    unfold recorded
    simp only [gB]
    have := dir_flat 1 (2 * i) (2 * j)
    rw [coords2 i hi, coords2 j hj]
    push_cast at this ⊢
    rw [this, e, quApply_one]
    simp only [spot]
    rw [masterB_eq _ _ _ hs]
    interval_cases i <;> interval_cases j <;> norm_num
  · obtain ⟨k, hk, hmax, -, hf⟩ := fitter_eq gB_ok
    rw [gB_rows, gB_cols] at hk hmax hf
    have hz : gB.zSteps = 1 := rfl
    rw [hz] at hk hmax
    have h3 := hmax 3 (by norm_num)
    have hk3 : k = 3 := by
      interval_cases k
      all_goals first
        | rfl
        | (exfalso
           rw [gB_z] at h3
           norm_num at h3
           rw [gB_mean _ _ (by norm_num) (by norm_num), gB_mean _ _ (by norm_num) (by norm_num)] at h3
           norm_num at h3)
    subst hk3
    rw [hf, gB_z, gB_pads]
    have e1 : gB.cols / gB.binning = 2 := by simp [gB]
    have e2 : gB.rows / gB.binning = 2 := by simp [gB]
    simp only [e1, e2, List.map_cons, List.map_nil]
    have := (tab_spec gB_ok (1 / 2) (List.mem_singleton.mpr rfl)).2.1 1 1
    have h0 : (tab gB (1 / 2) spot).2 1 1 = 0 := by
      have hb : gB.batch = 1 := rfl
      omega
    have h1 : ([1 / 2] : List ℝ).getD (3 / (4 * 2)) 0 = 1 / 2 := by norm_num
    rw [h1]
    rw [h0]
    have h5 : gB.dict.getD 0 ⟨1, 0, 0, 0⟩ = ⟨1, 0, 0, 0⟩ := rfl
    rw [h5]
    norm_num [pcOf]

/-! The hypotheses of the C95 theorems are met. -/
example : ∃ pc qs, fitter (gA 5) [spot] = some (pc, qs) ∧ qs.length = 1 := by
  obtain ⟨pc, qs, h, h2, -⟩ := C95_search (gA 5) [spot] (gA_ok 5 (by norm_num))
  exact ⟨pc, qs, h, h2⟩
example : (fitter (gA 1) [spot]).map Prod.fst = (fitter (gA 2) [spot]).map Prod.fst :=
  C95_batch_pc (gA 2) [spot] (gA_ok 2 (by norm_num)) 1 (by norm_num)
example := C95_orientation_partial (gA 2) [spot] (gA_ok 2 (by norm_num)) (by simp [gA])
example := C95_first_batch_only (gA 1) [spot] (gA_ok 1 (by norm_num))
example : fitter (gA 2) [mapImg (fun v => 3 * v + 7) spot] = fitter (gA 2) [spot] :=
  C95_brightness (gA 2) [spot] (fun _ => 3) (fun _ => 7) (by norm_num)
example : ∃ qs, [spot].mapM (callerPattern (gA 2).binning) = some qs ∧ fitter (gA 2) qs = fitter (gA 2) [spot] := by
  have h : [spot].mapM (callerPattern (gA 2).binning) = some [⟨2, 2, fun i j => (if i = 0 ∧ j = 0 then 1 else 0) - 1 / 4⟩] := by
    have : callerPattern (gA 2).binning spot = prep 1 spot := rfl
    rw [List.mapM_cons, this, spot_prep]; rfl
  exact ⟨_, h, C95_repeat (gA 2) [spot] _ h⟩
example := C95_attribution gB [spot] gB_ok rfl 1 0 gB_pads rfl spot _ (List.mem_singleton.mpr rfl) spot_prep (1 / 2)
  ⟨1, 0, 0, 0⟩ 1 1 (-1) 0 (by simp [gB]) (by simp [gB]) (by norm_num) (by norm_num)
/-- A detector of width 3 without periphery. -/
example : fitter { gA 2 with cols := 3 } [⟨2, 3, fun i j => i + j⟩] = none := by
  apply C95_odd_width_fails
  · have : MI.trunc 0 = 0 := by simpa using trunc_nat 0
    simp [pCols, paddedSize, Args.pads, padWidths, gA, this]
  · simp [gA]

end Verif.Fit
