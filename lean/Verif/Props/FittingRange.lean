import Verif.Props.FittingExamples
/-! Property C95: the range of pattern centres that `spatial_fft_pc_fitter` (ebsd/fitting.py) searches. -/
namespace Verif.Fit
open Verif Verif.Blur Verif.Fft Verif.Spec

lemma pad_bounds (lo hi : ℝ) (n b : ℕ) (hb : 0 < b) (hn : n % b = 0) (h1 : lo ≤ 0.5) (h2 : 0.5 ≤ hi) :
    (((padWidths lo hi n b).1 : ℝ) ≤ (0.5 - lo) * (n / b : ℕ) ∧ (0.5 - lo) * (n / b : ℕ) < (padWidths lo hi n b).1 + 1) ∧
    (((padWidths lo hi n b).2 : ℝ) ≤ (hi - 0.5) * (n / b : ℕ) ∧ (hi - 0.5) * (n / b : ℕ) < (padWidths lo hi n b).2 + 1) := by
  have key : ∀ u : ℝ, 0 ≤ u → (((MI.trunc (u * n / b)).toNat : ℝ) ≤ u * (n / b : ℕ) ∧ u * (n / b : ℕ) < (MI.trunc (u * n / b)).toNat + 1) := by
    intro u hu
    have e : u * n / b = u * (n / b : ℕ) := by
      rw [Nat.cast_div (Nat.dvd_of_mod_eq_zero hn) (by positivity), mul_div_assoc]
    have h0 : 0 ≤ u * (n / b : ℕ) := by positivity
    rw [e, MI.trunc, if_pos h0]
    have hf : (0 : ℤ) ≤ ⌊u * (n / b : ℕ)⌋ := Int.floor_nonneg.mpr h0
    have ec : ((⌊u * (n / b : ℕ)⌋.toNat : ℕ) : ℝ) = (⌊u * (n / b : ℕ)⌋ : ℝ) := by
      exact_mod_cast congrArg (fun z : ℤ => (z : ℝ)) (Int.toNat_of_nonneg hf)
    rw [ec]
    exact ⟨Int.floor_le _, Int.lt_floor_add_one _⟩
  exact ⟨key _ (by linarith), key _ (by linarith)⟩

/-- One axis of `n ≥ 2` binned pixels: every value of the requested range is hit by some index to within a binned pixel, and no index leads further than
half a detector (and half a pixel) beyond the range. -/
lemma axis_range (lo hi : ℝ) (N b : ℕ) (hb : 0 < b) (hn : N % b = 0) (h2n : 2 ≤ N / b) (h1 : lo ≤ 0.5) (h2 : 0.5 ≤ hi) :
    (∀ u, lo ≤ u → u ≤ hi → ∃ x < paddedSize N b (padWidths lo hi N b).1 (padWidths lo hi N b).2,
      |pcOf (N / b) (padWidths lo hi N b).1 x - u| ≤ 1 / ((N / b : ℕ) : ℝ)) ∧
    ∀ x < paddedSize N b (padWidths lo hi N b).1 (padWidths lo hi N b).2,
      lo - 0.5 - 1 / (2 * ((N / b : ℕ) : ℝ)) ≤ pcOf (N / b) (padWidths lo hi N b).1 x ∧ pcOf (N / b) (padWidths lo hi N b).1 x ≤ hi + 0.5 := by
  obtain ⟨⟨p1, p2⟩, a1, a2⟩ := pad_bounds lo hi N b hb hn h1 h2
  generalize (padWidths lo hi N b).1 = p at *
  generalize (padWidths lo hi N b).2 = a at *
  unfold paddedSize
  generalize N / b = n at *
  have hnr : (2 : ℝ) ≤ n := by exact_mod_cast h2n
  have hn0 : (0 : ℝ) < n := by linarith
  have hc : 2 * (((n + 1) / 2 : ℕ) : ℝ) ≤ n + 1 ∧ (n : ℝ) ≤ 2 * (((n + 1) / 2 : ℕ) : ℝ) := by
    constructor
    · have : 2 * ((n + 1) / 2) ≤ n + 1 := by omega
      exact_mod_cast this
    · have : n ≤ 2 * ((n + 1) / 2) := by omega
      exact_mod_cast this
  have hcn : (n + 1) / 2 + 1 ≤ n := by omega
  have hcn' : (((n + 1) / 2 : ℕ) : ℝ) + 1 ≤ n := by exact_mod_cast hcn
  have hcm : 1 ≤ (n + 1) / 2 := by omega
  have hpc : ∀ x : ℕ, pcOf n p x = 0.5 + ((x : ℝ) - p - ((n + 1) / 2 : ℕ)) / n := by
    intro x; unfold pcOf; push_cast; rfl
  generalize (n + 1) / 2 = c at *
  refine ⟨?_, ?_⟩
  · intro u hu1 hu2
    have hc1 : (1 : ℝ) ≤ c := by exact_mod_cast hcm
    have m1 : (lo - 0.5) * n ≤ (u - 0.5) * n := mul_le_mul_of_nonneg_right (by linarith) hn0.le
    have m2 : (u - 0.5) * n ≤ (hi - 0.5) * n := mul_le_mul_of_nonneg_right (by linarith) hn0.le
    have hw0 : 0 ≤ (u - 0.5) * n + p + c := by linarith
    refine ⟨⌊(u - 0.5) * n + p + c⌋₊, ?_, ?_⟩
    · rw [Nat.floor_lt hw0]
      push_cast
      linarith
    · have f1 := Nat.floor_le hw0
      have f2 := Nat.lt_floor_add_one ((u - 0.5) * n + p + c)
      rw [hpc]
      generalize (⌊(u - 0.5) * n + p + c⌋₊ : ℝ) = t at f1 f2 ⊢
      have e : (0.5 : ℝ) + (t - p - c) / n - u = (t - ((u - 0.5) * n + p + c)) / n := by field_simp; ring
      rw [e, abs_div, abs_of_pos hn0]
      apply div_le_div_of_nonneg_right _ hn0.le
      rw [abs_le]
      constructor <;> linarith
  · intro x hx
    rw [hpc]
    have hx' : (x : ℝ) + 1 ≤ n + p + a := by exact_mod_cast hx
    have hx0 : (0 : ℝ) ≤ x := by positivity
    constructor
    · have : (lo - 1 - 1 / (2 * (n : ℝ))) ≤ ((x : ℝ) - p - c) / n := by
        rw [le_div_iff₀ hn0]
        have e : (lo - 1 - 1 / (2 * (n : ℝ))) * n = (lo - 1) * n - 1 / 2 := by field_simp
        rw [e]
        linarith
      linarith
    · have : ((x : ℝ) - p - c) / n ≤ hi := by
        rw [div_le_iff₀ hn0]
        linarith
      linarith

/-- **C95** (search range).  If both requested ranges contain 0.5 and the binned detector has at least two rows and columns, then for every
pattern centre in the requested ranges the search grid has an entry that agrees with it to within one binned pixel in each direction. -/
theorem C95_covers (g : Args) (ps : List Img) (ok : Ok g ps) (hr : 2 ≤ g.rows / g.binning) (hc : 2 ≤ g.cols / g.binning)
    (hx1 : g.pcxMin ≤ 0.5) (hx2 : 0.5 ≤ g.pcxMax) (hy1 : g.pcyMin ≤ 0.5) (hy2 : 0.5 ≤ g.pcyMax)
    (u v : ℝ) (hu : g.pcxMin ≤ u ∧ u ≤ g.pcxMax) (hv : g.pcyMin ≤ v ∧ v ≤ g.pcyMax) :
    ∃ y < pRows g, ∃ x < pCols g, |pcOf (g.cols / g.binning) g.pads.1 x - u| ≤ 1 / ((g.cols / g.binning : ℕ) : ℝ) ∧
      |pcOf (g.rows / g.binning) g.pads.2.2.1 y - v| ≤ 1 / ((g.rows / g.binning : ℕ) : ℝ) := by
  obtain ⟨x, hx, ex⟩ := (axis_range g.pcxMin g.pcxMax g.cols g.binning ok.bin ok.cols hc hx1 hx2).1 u hu.1 hu.2
  obtain ⟨y, hy, ey⟩ := (axis_range g.pcyMin g.pcyMax g.rows g.binning ok.bin ok.rows hr hy1 hy2).1 v hv.1 hv.2
  exact ⟨y, hy, x, hx, ex, ey⟩

/-- **C95** (range of the result; partial).  The returned pattern centre lies within half a detector (and half a binned pixel) of the requested range.
Missing: it need not lie in the requested range, since the scores of all cyclic displacements compete. -/
theorem C95_range_partial (g : Args) (ps : List Img) (ok : Ok g ps) (hr : 2 ≤ g.rows / g.binning) (hc : 2 ≤ g.cols / g.binning)
    (hx1 : g.pcxMin ≤ 0.5) (hx2 : 0.5 ≤ g.pcxMax) (hy1 : g.pcyMin ≤ 0.5) (hy2 : 0.5 ≤ g.pcyMax) :
    ∃ pc qs, fitter g ps = some (pc, qs) ∧
      g.pcxMin - 0.5 - 1 / (2 * ((g.cols / g.binning : ℕ) : ℝ)) ≤ pc.x ∧ pc.x ≤ g.pcxMax + 0.5 ∧
      g.pcyMin - 0.5 - 1 / (2 * ((g.rows / g.binning : ℕ) : ℝ)) ≤ pc.y ∧ pc.y ≤ g.pcyMax + 0.5 := by
  obtain ⟨pc, qs, hf, -, -, z, hz, y, hy, x, hx, rfl, -⟩ := C95_search g ps ok
  obtain ⟨a1, a2⟩ := (axis_range g.pcxMin g.pcxMax g.cols g.binning ok.bin ok.cols hc hx1 hx2).2 x hx
  obtain ⟨b1, b2⟩ := (axis_range g.pcyMin g.pcyMax g.rows g.binning ok.bin ok.rows hr hy1 hy2).2 y hy
  exact ⟨_, qs, hf, a1, a2, b1, b2⟩

/-- non-vacuity: a 2 × 2 detector -/
example : Ok (gA 1) [spot] ∧ 2 ≤ (gA 1).rows / (gA 1).binning ∧ 2 ≤ (gA 1).cols / (gA 1).binning ∧ (gA 1).pcxMin ≤ 0.5 ∧ 0.5 ≤ (gA 1).pcxMax :=
  ⟨gA_ok 1 one_pos, by simp [gA], by simp [gA], le_refl _, le_refl _⟩

/-! ### A search that leaves the requested range -/

/-- A 2 by 2 pattern with the bright pixel in the opposite corner. -/
noncomputable def corner : Img := ⟨2, 2, fun i j => if i = 1 ∧ j = 1 then 1 else 0⟩

theorem corner_pixels : pixels corner = [0, 0, 0, 1] := by simp [pixels, corner, List.range_succ]

theorem corner_prep : prep 1 corner = some ⟨2, 2, fun i j => (if i = 1 ∧ j = 1 then 1 else 0) - 1 / 4⟩ := by
  unfold prep rescale
  rw [if_neg (by norm_num), corner_pixels]
  have h1 : MI.minOf [0, 0, 0, 1] = some (0 : ℝ) := by simp [MI.minOf]
  rw [h1, Option.bind_some]
  simp only
  rw [pixels_map, corner_pixels]
  have h2 : MI.maxOf (([0, 0, 0, 1] : List ℝ).map fun v => v - 0) = some (1 : ℝ) := by simp [MI.maxOf]
  rw [h2, Option.bind_some, if_neg one_ne_zero, Option.map_some]
  congr 1
  unfold demean
  rw [pixels_map, pixels_map, corner_pixels]
  simp only [mapImg, corner]
  congr 1
  funext i j
  norm_num

theorem corner_ok (b : ℕ) (hb : 0 < b) : Ok (gA b) [corner] where
  pats := by simp
  dict := by simp [gA]
  bin := by simp [gA]
  steps := by simp [gA]
  batch := hb
  rows := by simp [gA]
  cols := by simp [gA]
  shape := by simp [gA, corner]
  contrast := by
    intro x hx
    rw [List.mem_singleton] at hx; subst hx
    change (prep 1 corner).isSome
    rw [corner_prep]; rfl
  even := by rw [gA_cols]

theorem corner_pat (b i j : ℕ) (hi : i < 2) (hj : j < 2) : patPx (gA b) corner i j = (if i = 1 ∧ j = 1 then 1 else 0) - 1 / 4 := by
  unfold patPx Args.padded
  have : prep (gA b).binning corner = prep 1 corner := rfl
  rw [this, corner_prep, Option.bind_some, gA_pads]
  unfold pad
  simp only [Bool.false_eq_true, if_false]
  rw [if_pos (by omega)]
  rfl

theorem corner_overlap1 (b dy dx : ℕ) : overlap 2 2 ((gA b).sim (1 / 2) ⟨1, 0, 0, 0⟩).px (patPx (gA b) corner) dy dx = 0 := by
  unfold overlap
  apply Finset.sum_eq_zero; intro k _
  apply Finset.sum_eq_zero; intro l _
  rw [gA_sim1 b _ _ (Nat.mod_lt _ (by norm_num)) (Nat.mod_lt _ (by norm_num)), mul_zero]

theorem corner_overlap2 (b dy dx : ℕ) (hy : dy < 2) (hx : dx < 2) :
    overlap 2 2 ((gA b).sim (1 / 2) ⟨0, 0, 0, 1⟩).px (patPx (gA b) corner) dy dx = if dy = 1 ∧ dx = 1 then 3 / 4 else -1 / 4 := by
  unfold overlap
  simp only [Finset.sum_range_succ, Finset.range_zero, Finset.sum_empty, zero_add]
  interval_cases dy <;> interval_cases dx <;> norm_num <;>
    simp only [gA_sim2, corner_pat, Nat.lt_irrefl, Nat.zero_lt_succ, Nat.one_lt_two, Nat.ofNat_pos] <;> norm_num

theorem corner_score (b y c : ℕ) (hy : y < 2) (hc : c < 2) : score (gA b) (1 / 2) corner y c = if y = 0 ∧ c = 0 then 3 / 4 else 0 := by
  unfold score
  rw [gA_rows, gA_cols]
  have hd : (gA b).dict = [⟨1, 0, 0, 0⟩, ⟨0, 0, 0, 1⟩] := rfl
  rw [hd]
  simp only [bestOf, List.foldl_cons, List.foldl_nil, corner_overlap1]
  rw [corner_overlap2 b (displacementAt 2 y) (displacementAt 2 c) (Nat.mod_lt _ (by norm_num)) (Nat.mod_lt _ (by norm_num))]
  interval_cases y <;> interval_cases c <;> norm_num [displacementAt]

theorem corner_mean (b y c : ℕ) (hy : y < 2) (hc : c < 2) :
    meanScore (gA b) [corner] (1 / 2) y c = if y = 0 ∧ c = 0 then 3 / 4 else 0 := by
  unfold meanScore
  simp only [List.map_cons, List.map_nil, corner_score b y c hy hc]; simp

/-- **C95 fails**: the search is asked for the pattern centre (1/2, 1/2) only, and returns (0, 0). -/
theorem C95_range_fails : Ok (gA 2) [corner] ∧ (gA 2).pcxMin = 0.5 ∧ (gA 2).pcxMax = 0.5 ∧ (gA 2).pcyMin = 0.5 ∧ (gA 2).pcyMax = 0.5 ∧
    ∃ qs, fitter (gA 2) [corner] = some (⟨0, 0, 1 / 2⟩, qs) := by
  refine ⟨corner_ok 2 (by norm_num), rfl, rfl, rfl, rfl, ?_⟩
  obtain ⟨k, hk, hmax, -, hf⟩ := fitter_eq (corner_ok 2 (by norm_num))
  rw [gA_rows, gA_cols] at hk hmax hf
  have hz : (gA 2).zSteps = 1 := rfl
  rw [hz] at hk hmax
  have h3 := hmax 0 (by norm_num)
  have hk3 : k = 0 := by
    interval_cases k
    all_goals first
      | rfl
      | (exfalso
         rw [gA_z] at h3
         norm_num at h3
         rw [corner_mean 2 _ _ (by norm_num) (by norm_num), corner_mean 2 _ _ (by norm_num) (by norm_num)] at h3
         norm_num at h3)
  subst hk3
  refine ⟨[corner].map fun x => (gA 2).dict.getD ((tab (gA 2) ((zVals (gA 2)).getD (0 / (2 * 2)) 0) x).2 (0 / 2 % 2) (0 % 2)) ⟨1, 0, 0, 0⟩, ?_⟩
  rw [hf]
  have e1 : (gA 2).cols / (gA 2).binning = 2 := by simp [gA]
  have e2 : (gA 2).rows / (gA 2).binning = 2 := by simp [gA]
  have ez : (zVals (gA 2)).getD (0 / (2 * 2)) 0 = 1 / 2 := by rw [gA_z]; norm_num
  rw [e1, e2, gA_pads, ez]
  congr 2
  norm_num [pcOf]

end Verif.Fit
