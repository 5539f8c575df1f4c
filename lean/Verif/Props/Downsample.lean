import Verif.Model.Downsample
import Verif.Props.Blur
/-!
C135: `BlurAndDownsample` (ebsdtorch/preprocessing/resampling.py).
-/
namespace Verif.Blur
open Finset

theorem radius_scale (s : ℝ) : radius (2 * s / 6) 3 = ⌊s + 1 / 2⌋.toNat := by
  unfold radius
  congr 2
  push_cast; ring

theorem sigma_pos {s : ℝ} (hs : 0 < s) : 0 < 2 * s / 6 := by positivity

theorem clampIdx_lt {n : ℕ} (hn : 0 < n) (p : ℤ) : clampIdx n p < n := by
  unfold clampIdx; omega

theorem clampIdx_eq {n : ℕ} {p : ℤ} (h0 : 0 ≤ p) (h1 : p < n) : clampIdx n p = p.toNat := by
  unfold clampIdx; congr 1; omega

theorem bicubic_sum (align : Bool) (n out i : ℕ) : ((bicubicTaps align n out i).map (·.2)).sum = 1 := by
  simp only [bicubicTaps, List.map_cons, List.map_nil, List.sum_cons, List.sum_nil, cubic1, cubic2]
  ring

theorem bilinear_sum (align : Bool) (n out i : ℕ) : ((bilinearTaps align n out i).map (·.2)).sum = 1 := by
  simp only [bilinearTaps, List.map_cons, List.map_nil, List.sum_cons, List.sum_nil]
  ring

theorem bilinear_nonneg (align : Bool) (n out i : ℕ) : ∀ a ∈ bilinearTaps align n out i, 0 ≤ a.2 := by
  intro a ha
  set src := max (srcCoord align n out i) 0 with hsrc
  have h1 := Int.floor_le src
  have h2 := Int.lt_floor_add_one src
  simp only [bilinearTaps, ← hsrc, List.mem_cons, List.not_mem_nil, or_false] at ha
  rcases ha with rfl | rfl <;> simp only <;> linarith

theorem bicubic_pos {n : ℕ} (hn : 0 < n) (align : Bool) (out i : ℕ) : ∀ a ∈ bicubicTaps align n out i, a.1 < n := by
  intro a ha
  simp only [bicubicTaps, List.mem_cons, List.not_mem_nil, or_false] at ha
  rcases ha with rfl | rfl | rfl | rfl <;> exact clampIdx_lt hn _

theorem bilinear_pos {n : ℕ} (hn : 0 < n) (align : Bool) (out i : ℕ) : ∀ a ∈ bilinearTaps align n out i, a.1 < n := by
  intro a ha
  simp only [bilinearTaps, List.mem_cons, List.not_mem_nil, or_false] at ha
  rcases ha with rfl | rfl <;> exact clampIdx_lt hn _

theorem list_sum_congr {α : Type} {l : List α} {f g : α → ℝ} (h : ∀ a ∈ l, f a = g a) :
    (l.map f).sum = (l.map g).sum := by rw [List.map_congr_left h]

theorem list_sum_le {α : Type} {l : List α} {f g : α → ℝ} (h : ∀ a ∈ l, f a ≤ g a) :
    (l.map f).sum ≤ (l.map g).sum := by
  induction l with
  | nil => simp
  | cons a t ih =>
    simp only [List.map_cons, List.sum_cons]
    exact add_le_add (h a (by simp)) (ih fun b hb => h b (by simp [hb]))

theorem list_sum_mul_left {α : Type} (l : List α) (c : ℝ) (f : α → ℝ) : (l.map fun a => c * f a).sum = c * (l.map f).sum := by
  induction l with
  | nil => simp
  | cons a t ih => simp only [List.map_cons, List.sum_cons, ih]; ring

theorem list_sum_mul_right {α : Type} (l : List α) (c : ℝ) (f : α → ℝ) : (l.map fun a => f a * c).sum = (l.map f).sum * c := by
  induction l with
  | nil => simp
  | cons a t ih => simp only [List.map_cons, List.sum_cons, ih]; ring

theorem applyTaps_const {ty tx : List (ℕ × ℝ)} (hy : (ty.map (·.2)).sum = 1) (hx : (tx.map (·.2)).sum = 1)
    {px : ℕ → ℕ → ℝ} {c : ℝ} (h : ∀ a ∈ ty, ∀ b ∈ tx, px a.1 b.1 = c) : applyTaps ty tx px = c := by
  unfold applyTaps
  have : ∀ a ∈ ty, (tx.map fun b : ℕ × ℝ => a.2 * b.2 * px a.1 b.1).sum = a.2 * c := by
    intro a ha
    rw [list_sum_congr (g := fun b : ℕ × ℝ => (a.2 * c) * b.2) (fun b hb => by rw [h a ha b hb]; ring),
      list_sum_mul_left, hx, mul_one]
  rw [list_sum_congr this, list_sum_mul_right, hy, one_mul]

theorem applyTaps_range {ty tx : List (ℕ × ℝ)} (hy : (ty.map (·.2)).sum = 1) (hx : (tx.map (·.2)).sum = 1)
    (py : ∀ a ∈ ty, 0 ≤ a.2) (pxn : ∀ a ∈ tx, 0 ≤ a.2) {px : ℕ → ℕ → ℝ} {lo hi : ℝ}
    (h : ∀ a ∈ ty, ∀ b ∈ tx, lo ≤ px a.1 b.1 ∧ px a.1 b.1 ≤ hi) :
    lo ≤ applyTaps ty tx px ∧ applyTaps ty tx px ≤ hi := by
  constructor
  · rw [← applyTaps_const hy hx (px := fun _ _ => lo) (c := lo) (fun _ _ _ _ => rfl)]
    exact list_sum_le fun a ha => list_sum_le fun b hb =>
      mul_le_mul_of_nonneg_left (h a ha b hb).1 (mul_nonneg (py a ha) (pxn b hb))
  · rw [← applyTaps_const hy hx (px := fun _ _ => hi) (c := hi) (fun _ _ _ _ => rfl)]
    exact list_sum_le fun a ha => list_sum_le fun b hb =>
      mul_le_mul_of_nonneg_left (h a ha b hb).2 (mul_nonneg (py a ha) (pxn b hb))

/-- what a successful call computes -/
theorem downsample_some {s : ℝ} {mode : String} {align : Bool} {x z : Img}
    (h : blurAndDownsample s mode align x = some z) :
    ∃ y, blur (2 * s / 6) 3 true x = some y ∧ z.h = outLen s x.h ∧ z.w = outLen s x.w ∧ 0 < y.h ∧ 0 < y.w ∧
      ((mode = "bicubic" ∧ z.px = fun i j => applyTaps (bicubicTaps align y.h (outLen s x.h) i)
          (bicubicTaps align y.w (outLen s x.w) j) y.px) ∨
       (mode = "bilinear" ∧ z.px = fun i j => applyTaps (bilinearTaps align y.h (outLen s x.h) i)
          (bilinearTaps align y.w (outLen s x.w) j) y.px)) := by
  unfold blurAndDownsample at h
  obtain ⟨y, hy, h'⟩ := Option.bind_eq_some_iff.mp h
  unfold interpolate at h'
  by_cases c : outLen s x.h = 0 ∨ outLen s x.w = 0 ∨ y.h = 0 ∨ y.w = 0
  · rw [if_pos c] at h'; exact absurd h' (by simp)
  rw [if_neg c] at h'
  push Not at c
  by_cases m : mode = "bicubic"
  · rw [if_pos m] at h'
    obtain rfl := Option.some.inj h'
    exact ⟨y, hy, rfl, rfl, Nat.pos_of_ne_zero c.2.2.1, Nat.pos_of_ne_zero c.2.2.2, Or.inl ⟨m, rfl⟩⟩
  rw [if_neg m] at h'
  by_cases m' : mode = "bilinear"
  · rw [if_pos m'] at h'
    obtain rfl := Option.some.inj h'
    exact ⟨y, hy, rfl, rfl, Nat.pos_of_ne_zero c.2.2.1, Nat.pos_of_ne_zero c.2.2.2, Or.inr ⟨m', rfl⟩⟩
  rw [if_neg m'] at h'; exact absurd h' (by simp)

/-- C135 (partial): for every positive scale factor, `BlurAndDownsample` with mode `bicubic` or `bilinear` returns an image
exactly when the kernel (radius: the scale rounded half up) fits the reflecting border and neither output side is zero,
and the output then has `⌊H / scale⌋` rows and `⌊W / scale⌋` columns.  Missing: every other mode raises
(`C135_mode_fails`); in double precision the size can be one less (`C135_size_rounding_fails`). -/
theorem C135_size_partial (s : ℝ) (hs : 0 < s) (mode : String) (hm : mode = "bicubic" ∨ mode = "bilinear")
    (align : Bool) (x : Img) :
    let r := ⌊s + 1 / 2⌋.toNat
    ((blurAndDownsample s mode align x).isSome ↔
      r < x.h ∧ r < x.w ∧ (x.h % 2 = 0 → r + 1 < x.h) ∧ (x.w % 2 = 0 → r + 1 < x.w) ∧
      1 < x.h ∧ 1 < x.w ∧ s ≤ x.h ∧ s ≤ x.w) ∧
    ∀ z, blurAndDownsample s mode align x = some z →
      (z.h : ℤ) = ⌊(x.h : ℝ) / s⌋ ∧ (z.w : ℤ) = ⌊(x.w : ℝ) / s⌋ := by
  intro r
  obtain ⟨hb, hv⟩ := C64_reflect_partial (2 * s / 6) 3 (sigma_pos hs) (by norm_num) x
  rw [radius_scale s] at hb
  have hlen : ∀ n : ℕ, (outLen s n : ℤ) = ⌊(n : ℝ) / s⌋ := by
    intro n
    unfold outLen
    rw [mul_one_div, Int.toNat_of_nonneg]
    exact Int.floor_nonneg.mpr (by positivity)
  have hzero : ∀ n : ℕ, outLen s n = 0 ↔ ¬ s ≤ n := by
    intro n
    have e := hlen n
    constructor
    · intro h0
      rw [h0] at e
      have := Int.floor_eq_zero_iff.mp e.symm
      have h2 := this.2
      rw [div_lt_one hs] at h2
      linarith
    · intro h0
      push Not at h0
      have : ⌊(n : ℝ) / s⌋ = 0 := Int.floor_eq_zero_iff.mpr ⟨by positivity, by rw [div_lt_one hs]; exact h0⟩
      omega
  constructor
  · constructor
    · intro h
      obtain ⟨z, hz⟩ := Option.isSome_iff_exists.mp h
      have hz' := hz
      obtain ⟨y, hy, e1, e2, p1, p2, -⟩ := downsample_some hz
      obtain ⟨a, b, c, d⟩ := hb.mp (by rw [hy]; rfl)
      obtain ⟨f1, f2, -⟩ := hv y hy
      have q1 : 1 < x.h := by rw [f1] at p1; unfold outSize at p1; split_ifs at p1 <;> omega
      have q2 : 1 < x.w := by rw [f2] at p2; unfold outSize at p2; split_ifs at p2 <;> omega
      refine ⟨a, b, c, d, q1, q2, ?_, ?_⟩
      · by_contra hc
        have := (hzero x.h).mpr hc
        unfold blurAndDownsample at hz'
        rw [hy, Option.bind_some, this] at hz'
        simp [interpolate] at hz'
      · by_contra hc
        have := (hzero x.w).mpr hc
        unfold blurAndDownsample at hz'
        rw [hy, Option.bind_some, this] at hz'
        simp [interpolate] at hz'
    · rintro ⟨a, b, c, d, q1, q2, l1, l2⟩
      obtain ⟨y, hy⟩ := Option.isSome_iff_exists.mp (hb.mpr ⟨a, b, c, d⟩)
      obtain ⟨f1, f2, -⟩ := hv y hy
      have p1 : y.h ≠ 0 := by rw [f1]; unfold outSize; split_ifs <;> omega
      have p2 : y.w ≠ 0 := by rw [f2]; unfold outSize; split_ifs <;> omega
      unfold blurAndDownsample
      rw [hy, Option.bind_some]
      unfold interpolate
      rw [if_neg (by
        push Not
        exact ⟨fun h => (hzero _).mp h l1, fun h => (hzero _).mp h l2, p1, p2⟩)]
      rcases hm with rfl | rfl
      · rw [if_pos rfl]; rfl
      · rw [if_neg (by decide), if_pos rfl]; rfl
  · intro z hz
    obtain ⟨y, hy, e1, e2, -⟩ := downsample_some hz
    rw [e1, e2]; exact ⟨hlen _, hlen _⟩

/-- C135: a uniform image stays uniform with the same grey level (both modes, with or without `align_corners`). -/
theorem C135_constant (s : ℝ) (hs : 0 < s) (mode : String) (align : Bool) (x z : Img) (c : ℝ)
    (hx : ∀ i < x.h, ∀ j < x.w, x.px i j = c) (hz : blurAndDownsample s mode align x = some z) :
    ∀ i < z.h, ∀ j < z.w, z.px i j = c := by
  obtain ⟨y, hy, e1, e2, p1, p2, h⟩ := downsample_some hz
  have hyc : ∀ i < y.h, ∀ j < y.w, y.px i j = c := by
    intro i hi j hj
    have := C64_range (2 * s / 6) 3 (sigma_pos hs) (by norm_num) x y c c
      (fun i hi j hj => ⟨(hx i hi j hj).ge, (hx i hi j hj).le⟩) hy i hi j hj
    exact le_antisymm this.2 this.1
  intro i _ j _
  rcases h with ⟨-, h⟩ | ⟨-, h⟩
  · rw [h]
    exact applyTaps_const (bicubic_sum _ _ _ _) (bicubic_sum _ _ _ _) fun a ha b hb =>
      hyc _ (bicubic_pos p1 _ _ _ a ha) _ (bicubic_pos p2 _ _ _ b hb)
  · rw [h]
    exact applyTaps_const (bilinear_sum _ _ _ _) (bilinear_sum _ _ _ _) fun a ha b hb =>
      hyc _ (bilinear_pos p1 _ _ _ a ha) _ (bilinear_pos p2 _ _ _ b hb)

/-- C135 (partial): with mode `bilinear` no grey level leaves the range of the input.  The default mode `bicubic` does not
have this property: `C135_range_fails`. -/
theorem C135_range_partial (s : ℝ) (hs : 0 < s) (align : Bool) (x z : Img) (lo hi : ℝ)
    (hx : ∀ i < x.h, ∀ j < x.w, lo ≤ x.px i j ∧ x.px i j ≤ hi)
    (hz : blurAndDownsample s "bilinear" align x = some z) :
    ∀ i < z.h, ∀ j < z.w, lo ≤ z.px i j ∧ z.px i j ≤ hi := by
  obtain ⟨y, hy, e1, e2, p1, p2, h⟩ := downsample_some hz
  have hyc := C64_range (2 * s / 6) 3 (sigma_pos hs) (by norm_num) x y lo hi hx hy
  intro i _ j _
  rcases h with ⟨h0, -⟩ | ⟨-, h⟩
  · exact absurd h0 (by decide)
  · rw [h]
    exact applyTaps_range (bilinear_sum _ _ _ _) (bilinear_sum _ _ _ _) (bilinear_nonneg _ _ _ _)
      (bilinear_nonneg _ _ _ _) fun a ha b hb =>
      hyc _ (bilinear_pos p1 _ _ _ a ha) _ (bilinear_pos p2 _ _ _ b hb)

/-- the source position of output `i` is the centre of the `i`-th block of `s` pixels -/
theorem src_centre {s m i : ℕ} (hm : 0 < m) :
    srcCoord false (s * m) m i = s * i + ((s : ℝ) - 1) / 2 := by
  have : (m : ℝ) ≠ 0 := by positivity
  unfold srcCoord
  rw [if_neg (by decide)]
  push_cast
  field_simp
  ring

theorem outLen_mul {s m : ℕ} (hs : 0 < s) : outLen s (s * m) = m := by
  unfold outLen
  have : (s : ℝ) ≠ 0 := by positivity
  have e : ((s * m : ℕ) : ℝ) * (1 / (s : ℝ)) = ((m : ℤ) : ℝ) := by push_cast; field_simp
  rw [e, Int.floor_intCast]; rfl

theorem taps_odd {k m i : ℕ} (hm : 0 < m) (hi : i < m) :
    ∃ p1 p2 p3 : ℕ, bicubicTaps false ((2 * k + 1) * m) m i =
      [(p1, 0), ((2 * k + 1) * i + k, 1), (p2, 0), (p3, 0)] := by
  have e : srcCoord false ((2 * k + 1) * m) m i = (((2 * k + 1) * i + k : ℕ) : ℤ) := by
    rw [src_centre hm]; push_cast; ring
  have hlt : (2 * k + 1) * i + k < (2 * k + 1) * m := by nlinarith
  unfold bicubicTaps
  simp only [e, Int.floor_intCast, sub_self]
  have c1 : cubic2 (0 + 1) = 0 := by unfold cubic2; norm_num
  have c2 : cubic1 0 = 1 := by unfold cubic1; norm_num
  have c3 : cubic1 (1 - 0) = 0 := by unfold cubic1; norm_num
  have c4 : cubic2 (2 - 0) = 0 := by unfold cubic2; norm_num
  rw [c1, c2, c3, c4]
  refine ⟨clampIdx ((2 * k + 1) * m) (((2 * k + 1) * i + k : ℕ) - 1), clampIdx ((2 * k + 1) * m) (((2 * k + 1) * i + k : ℕ) + 1),
    clampIdx ((2 * k + 1) * m) (((2 * k + 1) * i + k : ℕ) + 2), ?_⟩
  have : clampIdx ((2 * k + 1) * m) ((2 * k + 1) * i + k : ℕ) = (2 * k + 1) * i + k := by
    rw [clampIdx_eq (by positivity) (by exact_mod_cast hlt)]; exact Int.toNat_natCast _
  rw [this]

theorem taps_even {k m i : ℕ} (hm : 0 < m) :
    bicubicTaps false (2 * k * m) m i =
      [(clampIdx (2 * k * m) ((2 * k * i + k : ℕ) - 2), -3 / 32), (clampIdx (2 * k * m) ((2 * k * i + k : ℕ) - 1), 19 / 32),
       (clampIdx (2 * k * m) (2 * k * i + k : ℕ), 19 / 32), (clampIdx (2 * k * m) ((2 * k * i + k : ℕ) + 1), -3 / 32)] := by
  have e : srcCoord false (2 * k * m) m i = (((2 * k * i + k : ℕ) : ℤ) - 1 : ℤ) + (1 / 2 : ℝ) := by
    rw [src_centre hm]; push_cast; ring
  have f : ⌊srcCoord false (2 * k * m) m i⌋ = ((2 * k * i + k : ℕ) : ℤ) - 1 := by
    rw [e, Int.floor_intCast_add]
    have : ⌊(1 / 2 : ℝ)⌋ = 0 := by rw [Int.floor_eq_zero_iff]; norm_num
    rw [this, add_zero]
  unfold bicubicTaps
  simp only [f]
  rw [e]
  have t : ((((2 * k * i + k : ℕ) : ℤ) - 1 : ℤ) + (1 / 2 : ℝ)) - ((((2 * k * i + k : ℕ) : ℤ) - 1 : ℤ) : ℝ) = 1 / 2 := by ring
  rw [t]
  have c1 : cubic2 (1 / 2 + 1) = -3 / 32 := by unfold cubic2; norm_num
  have c2 : cubic1 (1 / 2) = 19 / 32 := by unfold cubic1; norm_num
  have c3 : cubic1 (1 - 1 / 2) = 19 / 32 := by unfold cubic1; norm_num
  have c4 : cubic2 (2 - 1 / 2) = -3 / 32 := by unfold cubic2; norm_num
  rw [c1, c2, c3, c4]
  have d1 : ((2 * k * i + k : ℕ) : ℤ) - 1 - 1 = (2 * k * i + k : ℕ) - 2 := by ring
  have d2 : ((2 * k * i + k : ℕ) : ℤ) - 1 + 1 = (2 * k * i + k : ℕ) := by ring
  have d3 : ((2 * k * i + k : ℕ) : ℤ) - 1 + 2 = (2 * k * i + k : ℕ) + 1 := by ring
  rw [d1, d2, d3]

/-- C135 (partial): for an odd integer scale `2k + 1` dividing two even image sides, output pixel `(i, j)` of the default
mode is exactly the blurred image (`GaussianBlur2d`) at the centre of block `(i, j)`.  Missing: sides that are odd, where
the blur drops a row and the samples drift (`C135_odd_side_fails`). -/
theorem C135_centre_odd_partial (k hh ww : ℕ) (x z : Img) (eh : x.h = (2 * k + 1) * hh) (ew : x.w = (2 * k + 1) * ww)
    (ph : x.h % 2 = 0) (pw : x.w % 2 = 0)
    (hz : blurAndDownsample ((2 * k + 1 : ℕ) : ℝ) "bicubic" false x = some z) :
    z.h = hh ∧ z.w = ww ∧ ∃ y, blur (2 * ((2 * k + 1 : ℕ) : ℝ) / 6) 3 true x = some y ∧
      ∀ i < hh, ∀ j < ww, z.px i j = y.px ((2 * k + 1) * i + k) ((2 * k + 1) * j + k) := by
  obtain ⟨y, hy, e1, e2, p1, p2, h⟩ := downsample_some hz
  obtain ⟨-, hv⟩ := C64_reflect_partial (2 * ((2 * k + 1 : ℕ) : ℝ) / 6) 3 (sigma_pos (by positivity)) (by norm_num) x
  obtain ⟨-, -, f, -⟩ := hv y hy
  obtain ⟨f1, f2⟩ := f ⟨ph, pw⟩
  rw [eh, outLen_mul (by omega)] at e1 h
  rw [ew, outLen_mul (by omega)] at e2 h
  refine ⟨e1, e2, y, hy, fun i hi j hj => ?_⟩
  rcases h with ⟨-, h⟩ | ⟨h0, -⟩
  · rw [h, f1, f2, eh, ew]
    obtain ⟨a1, a2, a3, ea⟩ := taps_odd (k := k) (i := i) (m := hh) (by omega) hi
    obtain ⟨b1, b2, b3, eb⟩ := taps_odd (k := k) (i := j) (m := ww) (by omega) hj
    simp only []
    rw [ea, eb]
    simp [applyTaps]
  · exact absurd h0 (by decide)

/-- Specification: a clamped position along an axis of `n` pixels. -/
def inside (n : ℕ) (p : ℤ) : ℕ := if p < 0 then 0 else if p < n then p.toNat else n - 1

/-- C135 (partial): for an even integer scale `2k` dividing both image sides, output pixel `(i, j)` of the default mode is
the four-by-four combination with weights (-3, 19, 19, -3)/32 of the blurred image around the centre of block `(i, j)`
(the two middle samples are the two pixels next to the centre; positions beyond the border are clamped). -/
theorem C135_centre_even_partial (k hh ww : ℕ) (hk : 0 < k) (x z : Img) (eh : x.h = 2 * k * hh) (ew : x.w = 2 * k * ww)
    (hz : blurAndDownsample ((2 * k : ℕ) : ℝ) "bicubic" false x = some z) :
    z.h = hh ∧ z.w = ww ∧ ∃ y, blur (2 * ((2 * k : ℕ) : ℝ) / 6) 3 true x = some y ∧
      ∀ i < hh, ∀ j < ww, z.px i j = ∑ a : Fin 4, ∑ b : Fin 4,
        (![-3, 19, 19, -3] a / 32 * (![-3, 19, 19, -3] b / 32) : ℝ) *
          y.px (inside x.h ((2 * k * i + k : ℕ) - 2 + (a : ℕ))) (inside x.w ((2 * k * j + k : ℕ) - 2 + (b : ℕ))) := by
  obtain ⟨y, hy, e1, e2, p1, p2, h⟩ := downsample_some hz
  obtain ⟨-, hv⟩ := C64_reflect_partial (2 * ((2 * k : ℕ) : ℝ) / 6) 3 (sigma_pos (by positivity)) (by norm_num) x
  obtain ⟨-, -, f, -⟩ := hv y hy
  have par : ∀ q : ℕ, (2 * k * q) % 2 = 0 := fun q => by rw [mul_assoc]; exact Nat.mul_mod_right 2 _
  obtain ⟨f1, f2⟩ := f ⟨by rw [eh]; exact par _, by rw [ew]; exact par _⟩
  have hcl : ∀ (n : ℕ) (p : ℤ), 0 < n → clampIdx n p = inside n p := by
    intro n p hn
    unfold clampIdx inside
    split_ifs <;> omega
  have hh0 : 0 < x.h := by rw [← f1]; exact p1
  have hw0 : 0 < x.w := by rw [← f2]; exact p2
  have q1 : outLen ((2 * k : ℕ) : ℝ) x.h = hh := by rw [eh, outLen_mul (by omega)]
  have q2 : outLen ((2 * k : ℕ) : ℝ) x.w = ww := by rw [ew, outLen_mul (by omega)]
  rw [q1] at e1 h
  rw [q2] at e2 h
  refine ⟨e1, e2, y, hy, fun i hi j hj => ?_⟩
  rcases h with ⟨-, h⟩ | ⟨h0, -⟩
  · rw [h, f1, f2]
    simp only []
    have t1 := taps_even (k := k) (i := i) (m := hh) (by omega)
    have t2 := taps_even (k := k) (i := j) (m := ww) (by omega)
    rw [← eh] at t1
    rw [← ew] at t2
    rw [t1, t2]
    simp only [hcl _ _ hh0, hcl _ _ hw0]
    generalize hA : ((2 * k * i + k : ℕ) : ℤ) = A
    generalize hB : ((2 * k * j + k : ℕ) : ℤ) = B
    have s0 : ∀ A : ℤ, A - 2 + ((0 : ℕ) : ℤ) = A - 2 := fun A => by ring
    have s1 : ∀ A : ℤ, A - 2 + ((1 : ℕ) : ℤ) = A - 1 := fun A => by push_cast; ring
    have s2 : ∀ A : ℤ, A - 2 + ((2 : ℕ) : ℤ) = A := fun A => by push_cast; ring
    have s3 : ∀ A : ℤ, A - 2 + ((3 : ℕ) : ℤ) = A + 1 := fun A => by push_cast; ring
    have v0 : ((0 : Fin 4) : ℕ) = 0 := rfl
    have v1 : ((1 : Fin 4) : ℕ) = 1 := rfl
    have v2 : ((2 : Fin 4) : ℕ) = 2 := rfl
    have v3 : ((3 : Fin 4) : ℕ) = 3 := rfl
    have w0 : (![-3, 19, 19, -3] : Fin 4 → ℝ) 0 = -3 := rfl
    have w1 : (![-3, 19, 19, -3] : Fin 4 → ℝ) 1 = 19 := rfl
    have w2 : (![-3, 19, 19, -3] : Fin 4 → ℝ) 2 = 19 := rfl
    have w3 : (![-3, 19, 19, -3] : Fin 4 → ℝ) 3 = -3 := rfl
    simp only [Fin.sum_univ_four, v0, v1, v2, v3, w0, w1, w2, w3, s0, s1, s2, s3]
    simp only [applyTaps, List.map_cons, List.map_nil, List.sum_cons, List.sum_nil]
    ring
  · exact absurd h0 (by decide)

/-- C135 fails: the default mode turns a non-negative image into one with a negative grey level (8 by 8 image, one bright
column, scale 2): the bicubic weights are negative at the outer taps. -/
theorem C135_range_fails : ∃ x z : Img, (∀ i j, 0 ≤ x.px i j) ∧ blurAndDownsample 2 "bicubic" false x = some z ∧
    0 < z.h ∧ 0 < z.w ∧ z.px 0 0 < 0 := by
  set x : Img := ⟨8, 8, fun _ j => if j = 4 then 1 else 0⟩ with hx
  have hr : ⌊(2 : ℝ) + 1 / 2⌋.toNat = 2 := by
    have : ⌊(2 : ℝ) + 1 / 2⌋ = 2 := by rw [Int.floor_eq_iff]; norm_num
    rw [this]; rfl
  have hsome := (C135_size_partial 2 (by norm_num) "bicubic" (Or.inl rfl) false x).1.mpr (by
    rw [hr, hx]; simp; norm_num)
  obtain ⟨z, hz⟩ := Option.isSome_iff_exists.mp hsome
  refine ⟨x, z, fun i j => by rw [hx]; simp only []; split_ifs <;> norm_num, hz, ?_⟩
  have hz' : blurAndDownsample ((2 * 1 : ℕ) : ℝ) "bicubic" false x = some z := by
    rw [← hz]; norm_num
  obtain ⟨e1, e2, y, hy, hpx⟩ := C135_centre_even_partial 1 4 4 (by norm_num) x z rfl rfl hz'
  refine ⟨by omega, by omega, ?_⟩
  obtain ⟨-, hv⟩ := C64_reflect_partial (2 * ((2 * 1 : ℕ) : ℝ) / 6) 3 (by norm_num) (by norm_num) x
  obtain ⟨-, -, f, hval⟩ := hv y hy
  obtain ⟨f1, f2⟩ := f ⟨show 8 % 2 = 0 by norm_num, show 8 % 2 = 0 by norm_num⟩
  have hrad : radius (2 * ((2 * 1 : ℕ) : ℝ) / 6) 3 = 2 := by
    rw [radius_scale]; push_cast; norm_num at hr ⊢; exact hr
  rw [hrad] at hval
  set K : ℕ → ℕ → ℝ := fun a b => Real.exp (-(((a : ℝ) - (2 : ℕ)) ^ 2 + ((b : ℝ) - (2 : ℕ)) ^ 2) /
    (2 * (2 * ((2 * 1 : ℕ) : ℝ) / 6) ^ 2)) / mass (2 * ((2 * 1 : ℕ) : ℝ) / 6) 2 with hK
  have Kpos : ∀ a b, 0 < K a b := fun a b => div_pos (Real.exp_pos _) (mass_pos _ _)
  have hv' : ∀ i < 8, ∀ j < 8, y.px i j = ∑ a ∈ range 5, ∑ b ∈ range 5,
      K a b * (if mirror 8 ((j : ℤ) + ((b : ℤ) - 2)) = 4 then 1 else 0) := by
    intro i hi j hj
    rw [hval i (by rw [f1]; exact hi) j (by rw [f2]; exact hj)]
    rfl
  have y0 : ∀ i < 8, y.px i 0 = 0 := by
    intro i hi
    rw [hv' i hi 0 (by norm_num)]
    apply Finset.sum_eq_zero; intro a _
    simp [Finset.sum_range_succ, mirror]
  have y1 : ∀ i < 8, y.px i 1 = 0 := by
    intro i hi
    rw [hv' i hi 1 (by norm_num)]
    apply Finset.sum_eq_zero; intro a _
    simp [Finset.sum_range_succ, mirror]
  have y2 : ∀ i < 8, y.px i 2 = ∑ a ∈ range 5, K a 4 := by
    intro i hi
    rw [hv' i hi 2 (by norm_num)]
    apply Finset.sum_congr rfl; intro a _
    simp [Finset.sum_range_succ, mirror]
  have cpos : 0 < ∑ a ∈ range 5, K a 4 := Finset.sum_pos (fun a _ => Kpos a 4) ⟨0, by simp⟩
  have h00 := hpx 0 (by norm_num) 0 (by norm_num)
  have w0 : (![-3, 19, 19, -3] : Fin 4 → ℝ) 0 = -3 := rfl
  have w1 : (![-3, 19, 19, -3] : Fin 4 → ℝ) 1 = 19 := rfl
  have w2 : (![-3, 19, 19, -3] : Fin 4 → ℝ) 2 = 19 := rfl
  have w3 : (![-3, 19, 19, -3] : Fin 4 → ℝ) 3 = -3 := rfl
  have i0 : inside 8 ((2 * 1 * 0 + 1 : ℕ) - 2 + ((0 : Fin 4) : ℕ)) = 0 := rfl
  have i1 : inside 8 ((2 * 1 * 0 + 1 : ℕ) - 2 + ((1 : Fin 4) : ℕ)) = 0 := rfl
  have i2 : inside 8 ((2 * 1 * 0 + 1 : ℕ) - 2 + ((2 : Fin 4) : ℕ)) = 1 := rfl
  have i3 : inside 8 ((2 * 1 * 0 + 1 : ℕ) - 2 + ((3 : Fin 4) : ℕ)) = 2 := rfl
  have xh : x.h = 8 := rfl
  have xw : x.w = 8 := rfl
  rw [xh, xw] at h00
  simp only [Fin.sum_univ_four, i0, i1, i2, i3, w0, w1, w2, w3, y0 0 (by norm_num), y0 1 (by norm_num), y0 2 (by norm_num),
    y1 0 (by norm_num), y1 1 (by norm_num), y1 2 (by norm_num), y2 0 (by norm_num), y2 1 (by norm_num), y2 2 (by norm_num)] at h00
  rw [h00]
  linarith

/-- C135 fails: every mode of `F.interpolate` other than the two above raises for every image, because the constructor
always passes a boolean `align_corners` (or the input has four axes). -/
theorem C135_mode_fails (s : ℝ) (mode : String) (align : Bool) (x : Img) (h1 : mode ≠ "bicubic") (h2 : mode ≠ "bilinear") :
    blurAndDownsample s mode align x = none := by
  cases h : blurAndDownsample s mode align x with
  | none => rfl
  | some z =>
    obtain ⟨y, -, -, -, -, -, h'⟩ := downsample_some h
    rcases h' with ⟨h', -⟩ | ⟨h', -⟩
    · exact absurd h' h1
    · exact absurd h' h2

/-- C135 fails: for an odd side the blur drops the last row, so the samples of a side of `s * m` pixels are not at the
block centres; the position of the last sample is short of its centre by `(2m - 1) / (2m)` of a pixel.  The 9 by 9
image with scale 3 is accepted. -/
theorem C135_odd_side_fails (s m : ℕ) (hs : 0 < s) (hm : 0 < m) (hodd : s * m % 2 = 1) :
    outSize (s * m) = s * m - 1 ∧
    srcCoord false (outSize (s * m)) m (m - 1) = s * ((m : ℝ) - 1) + ((s : ℝ) - 1) / 2 - (2 * (m : ℝ) - 1) / (2 * m) ∧
    (blurAndDownsample 3 "bicubic" false ⟨9, 9, fun i _ => i⟩).isSome := by
  have h0 : 0 < s * m := Nat.mul_pos hs hm
  have e : outSize (s * m) = s * m - 1 := by unfold outSize; rw [if_neg (by omega)]
  refine ⟨e, ?_, ?_⟩
  · rw [e]
    have : (m : ℝ) ≠ 0 := by positivity
    unfold srcCoord
    rw [if_neg (by decide), Nat.cast_sub h0, Nat.cast_sub hm]
    push_cast
    field_simp
    ring
  · have hr : ⌊(3 : ℝ) + 1 / 2⌋.toNat = 3 := by
      have : ⌊(3 : ℝ) + 1 / 2⌋ = 3 := by rw [Int.floor_eq_iff]; norm_num
      rw [this]; rfl
    refine (C135_size_partial 3 (by norm_num) "bicubic" (Or.inl rfl) false _).1.mpr ?_
    rw [hr]; simp; norm_num

/-- Specification: `y` is the positive number with a 53-bit significand nearest to `x` (IEEE double, no tie). -/
def Nearest53 (x y : ℝ) : Prop :=
  ∃ m e : ℤ, 2 ^ 52 ≤ m ∧ m < 2 ^ 53 ∧ y = m * (2 : ℝ) ^ e ∧ |x - y| < (2 : ℝ) ^ e / 2

/-- C135 fails in double precision: for scale 49 and a side of 98 pixels the rounded reciprocal `1.0 / 49` times 98 rounds
to a number below 2, so `int(H * self.downscale)` is 1 and not `98 / 49 = 2`. -/
theorem C135_size_rounding_fails : ∃ d p : ℝ, Nearest53 (1 / 49) d ∧ Nearest53 (98 * d) p ∧ ⌊p⌋ = 1 ∧ (98 : ℝ) / 49 = 2 := by
  refine ⟨5882252574524729 * (2 : ℝ) ^ (-58 : ℤ), 9007199254740991 * (2 : ℝ) ^ (-52 : ℤ),
    ⟨5882252574524729, -58, by norm_num, by norm_num, by norm_num, ?_⟩,
    ⟨9007199254740991, -52, by norm_num, by norm_num, by norm_num, ?_⟩, ?_, by norm_num⟩
  · rw [abs_lt]; constructor <;> norm_num
  · rw [abs_lt]; constructor <;> norm_num
  · rw [Int.floor_eq_iff]; constructor <;> norm_num

/-- non-vacuity: a 12 by 18 image with scales 3 (odd) and 2 (even), and a fractional scale. -/
example : (blurAndDownsample 3 "bicubic" false ⟨12, 18, fun i j => i + j⟩).isSome ∧
    (blurAndDownsample 2 "bilinear" true ⟨12, 18, fun i j => i + j⟩).isSome ∧
    (blurAndDownsample (5 / 2) "bicubic" true ⟨11, 18, fun i j => i + j⟩).isSome ∧
    (12 : ℕ) = (2 * 1 + 1) * 4 ∧ (18 : ℕ) = (2 * 1 + 1) * 6 := by
  have f3 : ⌊(3 : ℝ) + 1 / 2⌋ = 3 := by rw [Int.floor_eq_iff]; norm_num
  have f2 : ⌊(2 : ℝ) + 1 / 2⌋ = 2 := by rw [Int.floor_eq_iff]; norm_num
  have f5 : ⌊(5 / 2 : ℝ) + 1 / 2⌋ = 3 := by rw [Int.floor_eq_iff]; norm_num
  refine ⟨(C135_size_partial _ (by norm_num) _ (Or.inl rfl) _ _).1.mpr ?_,
    (C135_size_partial _ (by norm_num) _ (Or.inr rfl) _ _).1.mpr ?_,
    (C135_size_partial _ (by norm_num) _ (Or.inl rfl) _ _).1.mpr ?_, by norm_num, by norm_num⟩
  · rw [f3]; norm_num; decide
  · rw [f2]; norm_num; decide
  · rw [f5]; norm_num; decide
end Verif.Blur
