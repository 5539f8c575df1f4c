import Verif.Model.GridSample
import Verif.Props.Clahe
import Verif.Props.Master
import Verif.Props.SphereInverse
/-! C153: looking up the master pattern in a direction (ebsd/master_pattern.py). -/
namespace Verif.Grid
open Verif Spec

/-! ### The look-up, one direction at a time -/

theorem side_length (h w : ℕ) (n s : ℕ → ℕ → ℝ) : (sideBySide h w n s).length = h := by simp [sideBySide]

theorem side_width {h : ℕ} (hh : 0 < h) (w : ℕ) (n s : ℕ → ℕ → ℝ) : ((sideBySide h w n s).headD []).length = 2 * w := by
  obtain ⟨k, rfl⟩ : ∃ k, h = k + 1 := ⟨h - 1, by omega⟩
  simp [sideBySide, List.range_succ_eq_map]
  omega

theorem side_entry {h w i : ℕ} (hi : i < h) (j : ℕ) (hj : j < 2 * w) (n s : ℕ → ℕ → ℝ) :
    entry (sideBySide h w n s) i j = if j < w then n i j else s i (j - w) := by
  unfold entry sideBySide
  have e : ((List.range h).map fun i => (List.range w).map (n i) ++ (List.range w).map (s i)).getD i [] =
      (List.range w).map (n i) ++ (List.range w).map (s i) := by
    rw [List.getD_eq_getElem?_getD, List.getElem?_map, List.getElem?_range hi]; rfl
  rw [e, List.getD_eq_getElem?_getD]
  by_cases h1 : j < w
  · rw [if_pos h1, List.getElem?_append_left (by simpa using h1), List.getElem?_map, List.getElem?_range h1]; rfl
  · rw [if_neg h1, List.getElem?_append_right (by simpa using h1), List.getElem?_map, List.length_map, List.length_range,
      List.getElem?_range (by omega)]; rfl

theorem position_range (align : Bool) (size : ℕ) (hs : 0 < size) (c : ℝ) : 0 ≤ position align size c ∧ position align size c ≤ (size : ℝ) - 1 := by
  have : (1 : ℝ) ≤ size := by exact_mod_cast hs
  exact ⟨le_min (le_max_right _ _) (by linarith), min_le_right _ _⟩

theorem position_eq (align : Bool) (size : ℕ) (c p : ℝ) (h0 : 0 ≤ p) (h1 : p ≤ (size : ℝ) - 1)
    (h : (if align then (c + 1) / 2 * ((size : ℝ) - 1) else ((c + 1) * size - 1) / 2) = p) : position align size c = p := by
  unfold position
  rw [h, max_eq_left h0, min_eq_left h1]

theorem lerp_at {size i : ℕ} {b : ℝ} (f : ℕ → ℝ) (b0 : 0 ≤ b) (b1 : b < 1) (hi : i + 1 < size ∨ b = 0) :
    Clahe.lerp size f (i + b) = (1 - b) * f i + b * f (i + 1) := by
  have fl : ⌊(i : ℝ) + b⌋ = (i : ℤ) := by rw [Int.floor_eq_iff]; push_cast; constructor <;> linarith
  unfold Clahe.lerp
  simp only [fl, Int.toNat_natCast, Int.cast_natCast, add_sub_cancel_left]
  rcases hi with h | h
  · rw [if_pos h]
  · rw [h]; simp

/-- The value looked up for the direction `v`. -/
noncomputable def value (align : Bool) (h w : ℕ) (n s : ℕ → ℕ → ℝ) (v : V) : ℝ :=
  gridSample align (sideBySide h w n s) (roscaLambertSideBySide v)

/-- **C153**: `interpolate` returns one value per direction, that of the direction alone. -/
theorem C153_pointwise (align : Bool) (h w : ℕ) (n s : ℕ → ℕ → ℝ) (rand : ℕ → ℕ) (fuel : ℕ) (coords : List V) (out : List ℝ) (m : Master)
    (hi : interpolate align (Master.init (sideBySide h w n s)) rand fuel coords 1 = some (m, out)) :
    out = coords.map (value align h w n s) := by
  obtain ⟨_, _, _, im, him, rfl⟩ := interpolate_spec (cache_init _) hi
  rw [if_neg (by omega)] at him
  rw [← Option.some.inj him]
  rfl

/-- **C153**: every value lies between the smallest and the largest pixel. -/
theorem C153_range (align : Bool) (h w : ℕ) (n s : ℕ → ℕ → ℝ) (rand : ℕ → ℕ) (fuel : ℕ) (coords : List V) (out : List ℝ) (m : Master)
    (hh : 0 < h) (hw : 0 < w) (lo hi : ℝ) (hn : ∀ i < h, ∀ j < w, (lo ≤ n i j ∧ n i j ≤ hi) ∧ lo ≤ s i j ∧ s i j ≤ hi)
    (hc : interpolate align (Master.init (sideBySide h w n s)) rand fuel coords 1 = some (m, out)) :
    ∀ x ∈ out, lo ≤ x ∧ x ≤ hi := by
  rw [C153_pointwise align h w n s rand fuel coords out m hc]
  intro x hx
  obtain ⟨v, -, rfl⟩ := List.mem_map.mp hx
  unfold value gridSample
  rw [side_length, side_width hh]
  obtain ⟨a1, a2⟩ := position_range align h hh (roscaLambertSideBySide v).2
  obtain ⟨b1, b2⟩ := position_range align (2 * w) (by omega) (roscaLambertSideBySide v).1
  refine Clahe.lerp_range hh a1 a2 fun i hi' => Clahe.lerp_range (by omega) b1 b2 fun j hj => ?_
  rw [side_entry hi' j hj]
  split_ifs with h1
  · exact (hn i hi' j h1).1
  · exact (hn i hi' (j - w) (by omega)).2

/-- Position of a coordinate of `[-1, 1]` on an axis of `size` pixels whose first and last edges are at -1 and 1, counted from the
centre of the first pixel. -/
noncomputable def onAxis (size : ℕ) (c : ℝ) : ℝ := ((c + 1) * size - 1) / 2

/-- **C153 (partial)**, `align_corners=False` as in dictionary indexing: in a direction whose square-Lambert image is at row
`i + a` and column `j + b` of its hemisphere, with pixels on both sides, the value is the bilinear interpolation of the
four pixels around it of that hemisphere.  Missing: the half pixel next to the seam, see `C153_seam_fails`, and `align_corners=True`, see `C153_align_fails`. -/
theorem C153_bilinear_partial (h w : ℕ) (n s : ℕ → ℕ → ℝ) (rand : ℕ → ℕ) (fuel : ℕ) (coords : List V) (out : List ℝ) (m : Master)
    (hc : interpolate false (Master.init (sideBySide h w n s)) rand fuel coords 1 = some (m, out))
    (k : ℕ) (v : V) (hv : coords[k]? = some v) (i j : ℕ) (a b : ℝ)
    (ha : 0 ≤ a ∧ a < 1) (hb : 0 ≤ b ∧ b < 1) (hi : i < h ∧ (i + 1 < h ∨ a = 0)) (hj : j < w ∧ (j + 1 < w ∨ b = 0))
    (ex : onAxis w (roscaLambert v).1 = j + b) (ey : onAxis h (roscaLambert v).2 = i + a) :
    out[k]? = some ((1 - a) * ((1 - b) * (if v.z < 0 then s else n) i j + b * (if v.z < 0 then s else n) i (j + 1)) +
      a * ((1 - b) * (if v.z < 0 then s else n) (i + 1) j + b * (if v.z < 0 then s else n) (i + 1) (j + 1))) := by
  rw [C153_pointwise false h w n s rand fuel coords out m hc, List.getElem?_map, hv, Option.map_some]
  congr 1
  have hh : 0 < h := by omega
  have hw : 0 < w := by omega
  unfold value gridSample
  rw [side_length, side_width hh]
  unfold onAxis at ex ey
  have py : position false h (roscaLambertSideBySide v).2 = i + a := by
    apply position_eq
    · have := ha.1; positivity
    · rcases hi.2 with h1 | h1
      · have : (i : ℝ) + 2 ≤ h := by exact_mod_cast h1
        linarith
      · have : (i : ℝ) + 1 ≤ h := by exact_mod_cast hi.1
        linarith
    · simpa [roscaLambertSideBySide] using ey
  set o : ℕ := if v.z < 0 then w else 0 with ho
  have px : position false (2 * w) (roscaLambertSideBySide v).1 = ((o + j : ℕ) : ℝ) + b := by
    have hbw : (j : ℝ) + b ≤ w - 1 := by
      rcases hj.2 with h1 | h1
      · have : (j : ℝ) + 2 ≤ w := by exact_mod_cast h1
        linarith [hb.2]
      · have : (j : ℝ) + 1 ≤ w := by exact_mod_cast hj.1
        linarith
    apply position_eq
    · have := hb.1; positivity
    · push_cast
      have : (o : ℝ) ≤ w := by
        rw [ho]; split_ifs
        · exact le_rfl
        · simp
      linarith
    · unfold roscaLambertSideBySide
      simp only [Bool.false_eq_true, if_false]
      push_cast
      rw [ho]
      split_ifs
      · linarith
      · push_cast; linarith
  rw [py, px, lerp_at _ ha.1 ha.2 hi.2]
  have row : ∀ r < h, Clahe.lerp (2 * w) (fun c => entry (sideBySide h w n s) r c) (((o + j : ℕ) : ℝ) + b) =
      (1 - b) * (if v.z < 0 then s else n) r j + b * (if v.z < 0 then s else n) r (j + 1) := by
    intro r hr
    have how : o + w ≤ 2 * w := by rw [ho]; split_ifs <;> omega
    rw [lerp_at _ hb.1 hb.2 (hj.2.imp (fun h1 => by omega) id)]
    have e : ∀ c < w, entry (sideBySide h w n s) r (o + c) = (if v.z < 0 then s else n) r c := by
      intro c hcw
      rw [side_entry hr _ (by omega)]
      by_cases hz : v.z < 0
      · rw [ho, if_pos hz, if_neg (by omega), if_pos hz, Nat.add_sub_cancel_left]
      · rw [ho, if_neg hz, if_pos (by omega), if_neg hz, Nat.zero_add]
    rw [e j hj.1]
    rcases hj.2 with h1 | h1
    · rw [show o + j + 1 = o + (j + 1) by omega, e (j + 1) h1]
    · rw [h1]; ring
  rw [row i hi.1]
  rcases hi.2 with h1 | h1
  · rw [row (i + 1) h1]
  · rw [h1]; ring

/-- **C153 (partial)**: in the direction of the centre of a pixel, the value is that pixel. -/
theorem C153_pixel_partial (h w : ℕ) (n s : ℕ → ℕ → ℝ) (rand : ℕ → ℕ) (fuel : ℕ) (coords : List V) (out : List ℝ) (m : Master)
    (hc : interpolate false (Master.init (sideBySide h w n s)) rand fuel coords 1 = some (m, out))
    (k : ℕ) (v : V) (hv : coords[k]? = some v) (i j : ℕ) (hi : i < h) (hj : j < w)
    (ex : onAxis w (roscaLambert v).1 = j) (ey : onAxis h (roscaLambert v).2 = i) :
    out[k]? = some (if v.z < 0 then s i j else n i j) := by
  rw [C153_bilinear_partial h w n s rand fuel coords out m hc k v hv i j 0 0 ⟨le_rfl, one_pos⟩ ⟨le_rfl, one_pos⟩ ⟨hi, Or.inr rfl⟩
    ⟨hj, Or.inr rfl⟩ (by rw [ex, add_zero]) (by rw [ey, add_zero])]
  congr 1
  split_ifs <;> ring

/-! ### The seam -/

/-- The call returns. -/
theorem interpolate_returns (align : Bool) (img : Image) (rand : ℕ → ℕ) (fuel : ℕ) (hf : 1 < fuel) (v : V) :
    ∃ m out, interpolate align (Master.init img) rand fuel [v] 1 = some (m, out) :=
  C44_returns roscaLambertSideBySide (gridSample align) img [] (Master.init img) rfl rand fuel [v] 1 (by simp) (by norm_num) (by simpa using hf)

theorem rosca_xz {z : ℝ} (h0 : 0 ≤ z) (h1 : z < 1) : roscaLambert ⟨√(1 - z ^ 2), 0, z⟩ = (√(1 - z), 0) := by
  have hp : 0 < √(1 - z ^ 2) := Real.sqrt_pos.mpr (by nlinarith)
  rw [rosca_eq]
  simp only
  rw [if_pos (by rw [abs_zero]; exact abs_nonneg _), abs_of_nonneg h0, max_eq_left (by linarith)]
  have hn : negOne √(1 - z ^ 2) = 1 := by unfold negOne; rw [if_neg (by linarith)]
  have ha : rlAngle √(1 - z ^ 2) 0 = 0 := by
    unfold rlAngle atan2
    rw [zero_mul, abs_of_pos hp]
    exact Complex.arg_ofReal_of_nonneg hp.le
  rw [hn, ha]
  simp

/-- **C153 fails** within half a pixel of the seam, for hemispheres of any size: north black, south white, and yet a direction
strictly inside the northern hemisphere is looked up as grey (the right edge of the northern square, the equator at `+x`, is
blended with the left edge of the southern one, the equator at `-x`). -/
theorem C153_seam_fails (h w : ℕ) (hh : 0 < h) (hw : 0 < w) (rand : ℕ → ℕ) (fuel : ℕ) (hf : 1 < fuel) :
    ∃ v : V, IsUnit3 v ∧ 0 < v.z ∧ 0 < v.x ∧ v.y = 0 ∧
      ∃ m x, interpolate false (Master.init (sideBySide h w (fun _ _ => 0) (fun _ _ => 1))) rand fuel [v] 1 = some (m, [x]) ∧ 0 < x := by
  have hw' : (1 : ℝ) ≤ w := by exact_mod_cast hw
  set z : ℝ := 1 / (2 * w) with hz
  have z0 : 0 < z := by positivity
  have z1 : z ≤ 1 / 2 := by rw [hz, div_le_div_iff₀ (by positivity) (by norm_num)]; linarith
  have zw : z * (2 * w) = 1 := by rw [hz]; field_simp
  have hsq : 1 - z ≤ √(1 - z) := by
    apply Real.le_sqrt_of_sq_le
    nlinarith
  have hsq1 : √(1 - z) ≤ 1 := by rw [Real.sqrt_le_left (by norm_num)]; linarith
  have hx0 : 0 < √(1 - z ^ 2) := Real.sqrt_pos.mpr (by nlinarith)
  refine ⟨⟨√(1 - z ^ 2), 0, z⟩, ?_, z0, hx0, rfl, ?_⟩
  · unfold IsUnit3
    simp only
    rw [Real.sq_sqrt (by nlinarith)]
    ring
  obtain ⟨m, out, hc⟩ := interpolate_returns false (sideBySide h w (fun _ _ => 0) (fun _ _ => 1)) rand fuel hf ⟨√(1 - z ^ 2), 0, z⟩
  refine ⟨m, value false h w (fun _ _ => 0) (fun _ _ => 1) ⟨√(1 - z ^ 2), 0, z⟩, ?_, ?_⟩
  · rw [hc, C153_pointwise false h w _ _ rand fuel _ out m hc]; rfl
  unfold value gridSample
  rw [side_length, side_width hh]
  obtain ⟨a1, a2⟩ := position_range false h hh (roscaLambertSideBySide ⟨√(1 - z ^ 2), 0, z⟩).2
  -- the column
  set X : ℝ := √(1 - z) with hX
  have b0 : 0 < (X * w - w + 1) / 2 := by
    have : (1 - z) * w ≤ X * w := mul_le_mul_of_nonneg_right hsq (by linarith)
    have : z * w = 1 / 2 := by linarith
    nlinarith
  have b1 : (X * w - w + 1) / 2 < 1 := by
    have : X * w ≤ 1 * w := mul_le_mul_of_nonneg_right hsq1 (by linarith)
    linarith
  have px : position false (2 * w) (roscaLambertSideBySide ⟨√(1 - z ^ 2), 0, z⟩).1 = ((w - 1 : ℕ) : ℝ) + (X * w - w + 1) / 2 := by
    apply position_eq
    · positivity
    · push_cast [Nat.cast_sub hw]; linarith
    · unfold roscaLambertSideBySide
      simp only
      rw [rosca_xz z0.le (by linarith)]
      simp only [Bool.false_eq_true, if_false, if_neg (not_lt.mpr z0.le)]
      push_cast [Nat.cast_sub hw]
      rw [← hX]
      ring
  have row : ∀ r < h, Clahe.lerp (2 * w) (fun c => entry (sideBySide h w (fun _ _ => 0) (fun _ _ => 1)) r c)
      (position false (2 * w) (roscaLambertSideBySide ⟨√(1 - z ^ 2), 0, z⟩).1) = (X * w - w + 1) / 2 := by
    intro r hr
    rw [px, lerp_at _ b0.le b1 (Or.inl (by omega)), side_entry hr _ (by omega), side_entry hr _ (by omega), if_pos (by omega), if_neg (by omega)]
    ring
  refine lt_of_lt_of_le b0 (Clahe.lerp_range hh (hi := (X * w - w + 1) / 2) a1 a2 fun i hi => ?_).1
  rw [row i hi]
  exact ⟨le_rfl, le_rfl⟩

theorem rosca_pole (z : ℝ) (hz : |z| = 1) : roscaLambert ⟨0, 0, z⟩ = (0, 0) := by
  rw [rosca_eq]; simp [hz]

/-- **C153 fails** with `align_corners=True`, as in the grid refinement: for hemispheres of odd size the pixel at the centre is
the pole, but the look-up at the pole returns a mixture with the next pixel, while the look-up of dictionary indexing
(`align_corners=False`) returns the pixel.  The same orientation is simulated differently by the two. -/
theorem C153_align_fails (c : ℕ) (hc : 0 < c) (n s : ℕ → ℕ → ℝ) (rand : ℕ → ℕ) (fuel : ℕ) (m m' : Master) (out out' : List ℝ)
    (h1 : interpolate true (Master.init (sideBySide (2 * c + 1) (2 * c + 1) n s)) rand fuel [⟨0, 0, 1⟩] 1 = some (m, out))
    (h2 : interpolate false (Master.init (sideBySide (2 * c + 1) (2 * c + 1) n s)) rand fuel [⟨0, 0, 1⟩] 1 = some (m', out')) :
    out = [3 / 4 * n c c + 1 / 4 * n c (c + 1)] ∧ out' = [n c c] := by
  constructor
  · rw [C153_pointwise true _ _ n s rand fuel _ out m h1]
    simp only [List.map_cons, List.map_nil, List.cons.injEq, and_true]
    unfold value gridSample
    rw [side_length, side_width (by omega)]
    have py : position true (2 * c + 1) (roscaLambertSideBySide ⟨0, 0, 1⟩).2 = (c : ℝ) + 0 := by
      apply position_eq
      · positivity
      · push_cast; linarith [(Nat.cast_nonneg c : (0 : ℝ) ≤ c)]
      · unfold roscaLambertSideBySide
        rw [rosca_pole 1 (by simp)]
        simp only [if_true]
        push_cast; ring
    have px : position true (2 * (2 * c + 1)) (roscaLambertSideBySide ⟨0, 0, 1⟩).1 = (c : ℝ) + 1 / 4 := by
      apply position_eq
      · positivity
      · push_cast; linarith [(Nat.cast_nonneg c : (0 : ℝ) ≤ c)]
      · unfold roscaLambertSideBySide
        rw [rosca_pole 1 (by simp)]
        norm_num
        ring
    rw [py, px, lerp_at _ le_rfl one_pos (Or.inr rfl), lerp_at _ (by norm_num) (by norm_num) (Or.inl (by omega)),
      side_entry (by omega) _ (by omega), side_entry (by omega) _ (by omega), if_pos (by omega), if_pos (by omega)]
    ring
  · have := C153_pixel_partial _ _ n s rand fuel _ out' m' h2 0 ⟨0, 0, 1⟩ rfl c c (by omega) (by omega)
      (by rw [rosca_pole 1 (by simp)]; unfold onAxis; push_cast; ring) (by rw [rosca_pole 1 (by simp)]; unfold onAxis; push_cast; ring)
    rw [if_neg (by norm_num)] at this
    have hl : out'.length = 1 := by rw [C153_pointwise false _ _ n s rand fuel _ out' m' h2]; rfl
    obtain ⟨x, rfl⟩ := List.length_eq_one_iff.mp hl
    simpa using this

/-- Every point strictly inside the square is the image of a direction of either hemisphere, the equator excluded. -/
theorem direction_of (p : ℝ × ℝ) (h1 : |p.1| < 1) (h2 : |p.2| < 1) (south : Bool) :
    ∃ v, IsUnit3 v ∧ (v.z < 0 ↔ south = true) ∧ roscaLambert v = p := by
  have up : ∃ v, IsUnit3 v ∧ 0 < v.z ∧ roscaLambert v = p := by
    by_cases h0 : p = (0, 0)
    · exact ⟨⟨0, 0, 1⟩, by unfold IsUnit3; norm_num, one_pos, by rw [h0]; exact rosca_pole 1 (by simp)⟩
    · obtain ⟨v, -, hu, hz, hv⟩ := C20_forward p h1.le h2.le h0
      refine ⟨v, hu, lt_of_le_of_ne hz fun he => ?_, hv⟩
      have hr := rosca_eq v
      rw [hv, ← he] at hr
      have one : ∀ b : ℝ, |negOne b * √(max (1 - |(0 : ℝ)|) 0)| = 1 := by intro b; rw [abs_mul, negOne_abs]; norm_num
      split_ifs at hr
      · rw [hr] at h1; simp only at h1; rw [one] at h1; exact lt_irrefl _ h1
      · rw [hr] at h2; simp only at h2; rw [one] at h2; exact lt_irrefl _ h2
  obtain ⟨v, hu, hz, hv⟩ := up
  cases south with
  | false => exact ⟨v, hu, by simp [hz.le], hv⟩
  | true =>
    refine ⟨⟨v.x, v.y, -v.z⟩, ?_, by simp [hz], ?_⟩
    · unfold IsUnit3 at *; simp only; linarith
    · rw [← hv, rosca_eq, rosca_eq]; simp only [abs_neg]

/-- **C153 (partial)**: every pixel of either hemisphere is the value in some direction of that hemisphere, that of the centre of
the pixel. -/
theorem C153_covers_partial (h w : ℕ) (n s : ℕ → ℕ → ℝ) (i j : ℕ) (hi : i < h) (hj : j < w) (south : Bool) :
    ∃ v : V, IsUnit3 v ∧ (v.z < 0 ↔ south = true) ∧
      roscaLambert v = ((2 * (j : ℝ) + 1) / w - 1, (2 * (i : ℝ) + 1) / h - 1) ∧
      ∀ (rand : ℕ → ℕ) (fuel : ℕ), 1 < fuel → ∃ m,
        interpolate false (Master.init (sideBySide h w n s)) rand fuel [v] 1 = some (m, [if south then s i j else n i j]) := by
  have b : ∀ k l : ℕ, k < l → |(2 * (k : ℝ) + 1) / l - 1| < 1 := by
    intro k l hk
    have hl : (0 : ℝ) < l := by exact_mod_cast (by omega : 0 < l)
    have h1 : (2 * (k : ℝ) + 1) / l < 2 := by
      rw [div_lt_iff₀ hl]
      have : (k : ℝ) + 1 ≤ l := by exact_mod_cast hk
      linarith
    have h2 : 0 < (2 * (k : ℝ) + 1) / l := by positivity
    rw [abs_lt]; constructor <;> linarith
  obtain ⟨v, hu, hz, hv⟩ := direction_of ((2 * (j : ℝ) + 1) / w - 1, (2 * (i : ℝ) + 1) / h - 1) (b j w hj) (b i h hi) south
  refine ⟨v, hu, hz, hv, fun rand fuel hf => ?_⟩
  obtain ⟨m, out, hc⟩ := interpolate_returns false (sideBySide h w n s) rand fuel hf v
  have ax : ∀ k l : ℕ, k < l → onAxis l ((2 * (k : ℝ) + 1) / l - 1) = k := by
    intro k l hk
    have hl : (l : ℝ) ≠ 0 := by exact_mod_cast (by omega : l ≠ 0)
    unfold onAxis; field_simp; ring
  have := C153_pixel_partial h w n s rand fuel _ out m hc 0 v rfl i j hi hj (by rw [hv]; exact ax j w hj) (by rw [hv]; exact ax i h hi)
  have hl : out.length = 1 := by rw [C153_pointwise false _ _ n s rand fuel _ out m hc]; rfl
  obtain ⟨x, rfl⟩ := List.length_eq_one_iff.mp hl
  refine ⟨m, ?_⟩
  rw [hc]
  have hx : x = if v.z < 0 then s i j else n i j := by simpa using this
  rw [hx]
  cases south with
  | false => rw [if_neg (by simp [hz])]; simp
  | true => rw [if_pos (by simp [hz])]; simp

/-! ### Non-vacuity -/

/-- Hemispheres of 3 by 3 pixels; the pole is the centre pixel, in the other hemisphere too. -/
example (rand : ℕ → ℕ) : ∃ m out, interpolate false (Master.init (sideBySide 3 3 (fun i j => i + 10 * j) fun i _ => 100 + i)) rand 5 [⟨0, 0, -1⟩] 1 = some (m, out) ∧
    out[0]? = some 101 := by
  obtain ⟨m, out, h⟩ := interpolate_returns false (sideBySide 3 3 (fun i j => i + 10 * j) fun i _ => 100 + i) rand 5 (by norm_num) ⟨0, 0, -1⟩
  refine ⟨m, out, h, ?_⟩
  have := C153_pixel_partial 3 3 _ _ rand 5 _ out m h 0 ⟨0, 0, -1⟩ rfl 1 1 (by norm_num) (by norm_num)
    (by rw [rosca_pole (-1) (by simp)]; norm_num [onAxis]) (by rw [rosca_pole (-1) (by simp)]; norm_num [onAxis])
  rw [this, if_pos (by norm_num)]
  norm_num

/-- The pole of a pattern of even size: the mean of four pixels. -/
example (rand : ℕ → ℕ) : ∃ m out, interpolate false (Master.init (sideBySide 2 2 (fun i j => i + 10 * j) fun i _ => 100 + i)) rand 5 [⟨0, 0, 1⟩] 1 = some (m, out) ∧
    out[0]? = some (11 / 2) := by
  obtain ⟨m, out, h⟩ := interpolate_returns false (sideBySide 2 2 (fun i j => i + 10 * j) fun i _ => 100 + i) rand 5 (by norm_num) ⟨0, 0, 1⟩
  refine ⟨m, out, h, ?_⟩
  have := C153_bilinear_partial 2 2 _ _ rand 5 _ out m h 0 ⟨0, 0, 1⟩ rfl 0 0 (1 / 2) (1 / 2) (by norm_num) (by norm_num) (by norm_num) (by norm_num)
    (by rw [rosca_pole 1 (by simp)]; norm_num [onAxis]) (by rw [rosca_pole 1 (by simp)]; norm_num [onAxis])
  rw [this, if_neg (by norm_num)]
  norm_num

example (rand : ℕ → ℕ) (v : V) : ∃ m out, interpolate true (Master.init (sideBySide 3 3 (fun i j => i + 10 * j) fun i _ => 100 + i)) rand 5 [v] 1 = some (m, out) ∧
    ∀ x ∈ out, 0 ≤ x ∧ x ≤ 102 := by
  obtain ⟨m, out, h⟩ := interpolate_returns true (sideBySide 3 3 (fun i j => i + 10 * j) fun i _ => 100 + i) rand 5 (by norm_num) v
  refine ⟨m, out, h, C153_range true 3 3 _ _ rand 5 _ out m (by norm_num) (by norm_num) 0 102 ?_ h⟩
  intro i hi j hj
  have : (i : ℝ) ≤ 2 := by exact_mod_cast (by omega : i ≤ 2)
  have : (j : ℝ) ≤ 2 := by exact_mod_cast (by omega : j ≤ 2)
  refine ⟨⟨by positivity, by linarith⟩, by positivity, by linarith⟩

example (rand : ℕ → ℕ) : ∃ m out m' out',
    interpolate true (Master.init (sideBySide (2 * 1 + 1) (2 * 1 + 1) (fun i j => i + 10 * j) fun i _ => 100 + i)) rand 5 [⟨0, 0, 1⟩] 1 = some (m, out) ∧
    interpolate false (Master.init (sideBySide (2 * 1 + 1) (2 * 1 + 1) (fun i j => i + 10 * j) fun i _ => 100 + i)) rand 5 [⟨0, 0, 1⟩] 1 = some (m', out') ∧
    out ≠ out' := by
  obtain ⟨m, out, h⟩ := interpolate_returns true (sideBySide (2 * 1 + 1) (2 * 1 + 1) (fun i j => i + 10 * j) fun i _ => 100 + i) rand 5 (by norm_num) ⟨0, 0, 1⟩
  obtain ⟨m', out', h'⟩ := interpolate_returns false (sideBySide (2 * 1 + 1) (2 * 1 + 1) (fun i j => i + 10 * j) fun i _ => 100 + i) rand 5 (by norm_num) ⟨0, 0, 1⟩
  refine ⟨m, out, m', out', h, h', ?_⟩
  obtain ⟨e1, e2⟩ := C153_align_fails 1 one_pos _ _ rand 5 m m' out out' h h'
  rw [e1, e2]
  norm_num

/-- A corner pixel of the southern hemisphere. -/
example : ∃ v : V, IsUnit3 v ∧ v.z < 0 ∧ ∃ m,
    interpolate false (Master.init (sideBySide 3 4 (fun i j => i + 10 * j) fun i _ => 100 + i)) (fun _ => 0) 5 [v] 1 = some (m, [102]) := by
  obtain ⟨v, hu, hz, -, h⟩ := C153_covers_partial 3 4 (fun i j => i + 10 * j) (fun i _ => 100 + i) 2 3 (by norm_num) (by norm_num) true
  obtain ⟨m, hm⟩ := h (fun _ => 0) 5 (by norm_num)
  exact ⟨v, hu, hz.mpr rfl, m, by rw [hm]; norm_num⟩

end Verif.Grid
