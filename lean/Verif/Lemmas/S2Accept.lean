import Verif.Lemmas.S2Zone
import Mathlib.Analysis.Real.Pi.Bounds
/-! The angular tests of laue_fz_s2.py against the bounding planes of the sectors. -/
open Quaternion
namespace Verif.S2
open Spec Real

/-- polar form of the equatorial projection -/
theorem polar (p : V) (hu : IsUnit3 p) : ∃ r, 0 ≤ r ∧ r ≤ 1 ∧ p.x = r * cos (etaOf p) ∧ p.y = r * sin (etaOf p) ∧
    r ^ 2 + p.z ^ 2 = 1 ∧ (r = 0 ↔ p.x = 0 ∧ p.y = 0) := by
  unfold IsUnit3 at hu
  have h0 : 0 ≤ p.x ^ 2 + p.y ^ 2 := by positivity
  have hs := sq_sqrt h0
  refine ⟨√(p.x ^ 2 + p.y ^ 2), sqrt_nonneg _, ?_, ?_, ?_, by rw [hs]; linarith, ?_⟩
  · apply sqrt_le_one.mpr; nlinarith [sq_nonneg p.z]
  · by_cases h : 0 < √(p.x ^ 2 + p.y ^ 2)
    · rw [etaOf, atan2_cos h hs.symm]; field_simp
    · have : √(p.x ^ 2 + p.y ^ 2) = 0 := le_antisymm (not_lt.mp h) (sqrt_nonneg _)
      rw [this] at hs ⊢
      nlinarith [sq_nonneg p.x, sq_nonneg p.y]
  · by_cases h : 0 < √(p.x ^ 2 + p.y ^ 2)
    · rw [etaOf, atan2_sin h hs.symm]; field_simp
    · have : √(p.x ^ 2 + p.y ^ 2) = 0 := le_antisymm (not_lt.mp h) (sqrt_nonneg _)
      rw [this] at hs ⊢
      nlinarith [sq_nonneg p.x, sq_nonneg p.y]
  · rw [sqrt_eq_zero h0]
    constructor
    · intro h; constructor <;> nlinarith [sq_nonneg p.x, sq_nonneg p.y]
    · rintro ⟨a, b⟩; rw [a, b]; norm_num

theorem eta_zero {p : V} (hx : p.x = 0) (hy : p.y = 0) : etaOf p = 0 := by
  unfold etaOf atan2
  have : (⟨p.x, p.y⟩ : ℂ) = 0 := by rw [hx, hy]; rfl
  rw [this, Complex.arg_zero]

theorem eta_range (p : V) : -π < etaOf p ∧ etaOf p ≤ π := atan2_range _ _

/-- `sin t ≥ -e` on `[-e, π]` -/
theorem sin_lb {t e : ℝ} (he : 0 ≤ e) (h1 : -e ≤ t) (h2 : t ≤ π) : -e ≤ sin t := by
  by_cases h : 0 ≤ t
  · linarith [sin_nonneg_of_nonneg_of_le_pi h h2]
  · have := sin_le (x := -t) (by linarith)
    rw [sin_neg] at this; linarith

theorem rsin_lb {r t e : ℝ} (hr : 0 ≤ r) (hr1 : r ≤ 1) (he : 0 ≤ e) (h1 : -e ≤ t) (h2 : t ≤ π) :
    -e ≤ r * sin t := by
  have h := sin_lb he h1 h2
  by_cases hs : 0 ≤ sin t
  · have := mul_nonneg hr hs; linarith
  · nlinarith

/-- the upper wall of an azimuth range -/
theorem wall_hi {p : V} (hu : IsUnit3 p) {b e : ℝ} (he : 0 ≤ e) (h1 : etaOf p ≤ b + e) (h2 : b - π ≤ etaOf p) :
    -e ≤ sin b * p.x - cos b * p.y := by
  obtain ⟨r, hr, hr1, hx, hy, _, _⟩ := polar p hu
  have := rsin_lb (t := b - etaOf p) hr hr1 he (by linarith) (by linarith)
  rw [sin_sub] at this
  rw [hx, hy]; linarith

/-- the lower wall of an azimuth range -/
theorem wall_lo {p : V} (hu : IsUnit3 p) {a : ℝ} (h1 : a ≤ etaOf p) (h2 : etaOf p ≤ a + π) :
    0 ≤ cos a * p.y - sin a * p.x := by
  obtain ⟨r, hr, hr1, hx, hy, _, _⟩ := polar p hu
  have := rsin_lb (t := etaOf p - a) (e := 0) hr hr1 le_rfl (by linarith) (by linarith)
  rw [sin_sub] at this
  rw [hx, hy]; linarith

theorem wall_z {p : V} (hu : IsUnit3 p) {e : ℝ} (he : 0 ≤ e) (h : chiOf p ≤ π / 2 + e) : -e ≤ p.z := by
  have hz : |p.z| ≤ 1 := by unfold IsUnit3 at hu; rw [abs_le_one_iff_mul_self_le_one]; nlinarith [sq_nonneg p.x, sq_nonneg p.y]
  have hb := abs_le.mp hz
  have h2 : p.z = cos (chiOf p) := (cos_arccos hb.1 hb.2).symm
  have h3 : p.z = sin (π / 2 - chiOf p) := by rw [sin_pi_div_two_sub, ← h2]
  rw [h3]
  exact sin_lb he (by linarith) (by have := arccos_nonneg p.z; unfold chiOf; linarith [pi_pos])

theorem chi_z {p : V} (hz : 0 ≤ p.z) : 0 ≤ chiOf p ∧ chiOf p ≤ π / 2 :=
  ⟨arccos_nonneg _, arccos_le_pi_div_two.mpr hz⟩

/-- azimuth at most `b` from the plane inequality, for points with `0 ≤ y` -/
theorem eta_le {p : V} (hu : IsUnit3 p) {b : ℝ} (hb : 0 < b)
    (h : 0 ≤ sin b * p.x - cos b * p.y) : etaOf p ≤ b := by
  obtain ⟨r, hr, hr1, hx, hy', _, h0⟩ := polar p hu
  by_contra hc
  push Not at hc
  have hr0 : r ≠ 0 := by
    intro h; have := h0.mp h
    rw [eta_zero this.1 this.2] at hc; linarith
  have hrp : 0 < r := lt_of_le_of_ne hr (Ne.symm hr0)
  have : sin (b - etaOf p) < 0 := sin_neg_of_neg_of_neg_pi_lt (by linarith) (by linarith [(eta_range p).2])
  rw [sin_sub] at this
  rw [hx, hy'] at h
  nlinarith

theorem eta_nonneg {p : V} (hy : 0 ≤ p.y) : 0 ≤ etaOf p := atan2_nonneg hy

theorem lune_of {p : V} (hu : IsUnit3 p) {b e : ℝ} (he : 0 ≤ e) (hb : 0 < b) (hy : 0 ≤ p.y)
    (h : 0 ≤ sin b * p.x - cos b * p.y) (hz : 0 ≤ p.z) : Lune e 0 b p := by
  have h1 := eta_le hu hb h
  have h2 := chi_z hz
  exact ⟨eta_nonneg hy, by linarith, h2.1, by linarith [h2.2]⟩

/-! ### the cubic bound -/

theorem cub_cos {t : ℝ} (h : 0 < cos t) : cos (cubBound t) = cos t / √(1 + cos t ^ 2) ∧
    sin (cubBound t) = 1 / √(1 + cos t ^ 2) ∧ 0 ≤ cubBound t ∧ cubBound t ≤ π / 2 := by
  have hk : 0 < 1 + cos t ^ 2 := by positivity
  have hs := sqrt_pos.mpr hk
  have e : √(1 / (2 + tan t ^ 2)) = cos t / √(1 + cos t ^ 2) := by
    have : 1 / (2 + tan t ^ 2) = (cos t / √(1 + cos t ^ 2)) ^ 2 := by
      rw [div_pow, sq_sqrt hk.le, tan_eq_sin_div_cos, div_pow]
      have h2 : 2 + sin t ^ 2 / cos t ^ 2 = (1 + cos t ^ 2) / cos t ^ 2 := by
        have := sin_sq_add_cos_sq t
        field_simp; linarith
      rw [h2, one_div_div]
    rw [this, sqrt_sq (by positivity)]
  have hle : cos t / √(1 + cos t ^ 2) ≤ 1 := by
    rw [div_le_one hs]; apply le_sqrt_of_sq_le; linarith
  have hge : 0 ≤ cos t / √(1 + cos t ^ 2) := by positivity
  unfold cubBound
  rw [e]
  refine ⟨cos_arccos (by linarith) hle, ?_, arccos_nonneg _, arccos_le_pi_div_two.mpr hge⟩
  rw [sin_arccos]
  have : 1 - (cos t / √(1 + cos t ^ 2)) ^ 2 = (1 / √(1 + cos t ^ 2)) ^ 2 := by
    rw [div_pow, div_pow, sq_sqrt hk.le]; field_simp; ring
  rw [this, sqrt_sq (by positivity)]

theorem chi_trig {p : V} {r : ℝ} (hr : 0 ≤ r) (h : r ^ 2 + p.z ^ 2 = 1) :
    cos (chiOf p) = p.z ∧ sin (chiOf p) = r := by
  have hz : |p.z| ≤ 1 := by rw [abs_le_one_iff_mul_self_le_one]; nlinarith [sq_nonneg r]
  have hb := abs_le.mp hz
  refine ⟨cos_arccos hb.1 hb.2, ?_⟩
  unfold chiOf
  rw [sin_arccos]
  have : 1 - p.z ^ 2 = r ^ 2 := by linarith
  rw [this, sqrt_sq hr]

/-- height above the wall `z = k r`, from the polar-angle test -/
theorem cub_lower {p : V} {t r e : ℝ} (he : 0 ≤ e) (hr : 0 ≤ r) (h : r ^ 2 + p.z ^ 2 = 1)
    (hk : 0 < cos t) (hc : chiOf p ≤ cubBound t + e) : -(2 * e) ≤ p.z - r * cos t := by
  obtain ⟨c1, c2, c3, c4⟩ := cub_cos hk
  obtain ⟨d1, d2⟩ := chi_trig hr h
  have h0 : 0 ≤ chiOf p := arccos_nonneg _
  have hk1 := cos_le_one t
  have e0 : cos (cubBound t) = cos t * sin (cubBound t) := by rw [c1, c2]; ring
  by_cases hle : chiOf p ≤ cubBound t
  · have a1 := cos_le_cos_of_nonneg_of_le_pi h0 (by linarith) hle
    have a2 := sin_le_sin_of_le_of_le_pi_div_two (by linarith) c4 hle
    rw [← d1, ← d2]
    nlinarith
  · push Not at hle
    have a1 := abs_le.mp (abs_cos_sub_cos_le (chiOf p) (cubBound t))
    have a2 := abs_le.mp (abs_sin_sub_sin_le (chiOf p) (cubBound t))
    rw [abs_of_nonneg (by linarith)] at a1 a2
    rw [← d1, ← d2]
    have a3 : sin (chiOf p) ≤ sin (cubBound t) + e := by linarith [a2.2]
    have a4 := mul_le_mul_of_nonneg_right a3 hk.le
    have a5 : e * cos t ≤ e * 1 := mul_le_mul_of_nonneg_left hk1 he
    linarith [a1.1]

/-- the polar-angle test from the wall -/
theorem cub_of {p : V} {t r : ℝ} (hr : 0 ≤ r) (h : r ^ 2 + p.z ^ 2 = 1)
    (hk : 0 < cos t) (hw : r * cos t ≤ p.z) : chiOf p ≤ cubBound t := by
  obtain ⟨c1, c2, c3, c4⟩ := cub_cos hk
  have hk' : 0 < 1 + cos t ^ 2 := by positivity
  have hs := sqrt_pos.mpr hk'
  have hz : 0 ≤ p.z := le_trans (mul_nonneg hr hk.le) hw
  have hz1 : p.z ≤ 1 := by nlinarith [sq_nonneg r]
  have e : cubBound t = arccos (cos t / √(1 + cos t ^ 2)) := by
    rw [← c1, arccos_cos c3 (by linarith [pi_pos])]
  rw [e]
  unfold chiOf
  apply arccos_le_arccos
  rw [div_le_iff₀ hs]
  have h1 : (r * cos t) ^ 2 ≤ p.z ^ 2 := by
    apply pow_le_pow_left₀ (mul_nonneg hr hk.le) hw
  have h2 : cos t ^ 2 ≤ (p.z * √(1 + cos t ^ 2)) ^ 2 := by
    rw [mul_pow, sq_sqrt hk'.le]
    have : r ^ 2 = 1 - p.z ^ 2 := by linarith
    rw [mul_pow, this] at h1
    nlinarith
  exact le_trans (le_abs_self _) (abs_le_of_sq_le_sq h2 (by positivity))

/-! ### the sectors -/

theorem s23 : sin (-2 * π / 3) = -(√3 / 2) ∧ cos (-2 * π / 3) = -(1 / 2) := by
  have e : -2 * π / 3 = π / 3 - π := by ring
  rw [e, sin_sub_pi, cos_sub_pi, sin_pi_div_three, cos_pi_div_three]; norm_num

/-- plane inequalities imply acceptance, for every tolerance -/
theorem acc_of_above {n : ℕ} {p : V} {e : ℝ} (h1 : 1 ≤ n) (h2 : n ≤ 10) (he : 0 ≤ e) (hu : IsUnit3 p)
    (h : Above n 0 p) (h7 : n = 7 → ¬ (p.x = 0 ∧ p.y = 0)) : s2InFz e n p = some true := by
  have hpi := pi_pos
  interval_cases n <;>
    simp only [Above, wallNormals, List.forall_mem_cons, List.not_mem_nil, false_imp_iff, implies_true,
      and_true] at h <;> simp [s2InFz]
  · linarith
  · obtain ⟨a, b⟩ := h
    exact lune_of hu he hpi (by linarith) (by simp; linarith) (by linarith)
  · obtain ⟨a, b, c⟩ := h
    exact lune_of hu he (by linarith) (by linarith) (by simp; linarith) (by linarith)
  · obtain ⟨a, b, c⟩ := h
    exact lune_of hu he (by linarith) (by linarith) (by simp; linarith) (by linarith)
  · obtain ⟨a, b, c⟩ := h
    have hp := isq2
    refine lune_of hu he (by linarith) (by linarith) ?_ (by linarith)
    rw [sin_pi_div_four, cos_pi_div_four]
    have : 0 ≤ p.x - p.y := by
      by_contra hc
      have := mul_neg_of_pos_of_neg hp (not_le.mp hc)
      linarith
    have := mul_nonneg (div_nonneg (sqrt_nonneg 2) zero_le_two) this
    linarith
  · -- trigonal-low
    obtain ⟨a, b, c⟩ := h
    obtain ⟨r, hr, hr1, hx, hy, _, h0⟩ := polar p hu
    obtain ⟨q1, q2⟩ := s23
    have hcz := chi_z (p := p) (by linarith)
    obtain ⟨g1, g2⟩ := eta_range p
    by_cases hz : r = 0
    · have := h0.mp hz
      have hη := eta_zero this.1 this.2
      refine ⟨by rw [hη]; linarith, by rw [hη]; linarith, hcz.1, by linarith [hcz.2]⟩
    · have hrp : 0 < r := lt_of_le_of_ne hr (Ne.symm hz)
      have hle : etaOf p ≤ 0 := by
        by_contra hc
        push Not at hc
        rcases lt_or_eq_of_le g2 with g | g
        · have := sin_pos_of_pos_of_lt_pi hc g
          nlinarith
        · rw [g] at hx hy
          simp at hx hy
          rw [hx, hy] at b
          have := s3_facts.1
          nlinarith
      refine ⟨?_, by linarith, hcz.1, by linarith [hcz.2]⟩
      by_contra hc
      push Not at hc
      have hc' : etaOf p < -2 * π / 3 := by linarith
      have := sin_neg_of_neg_of_neg_pi_lt (x := etaOf p - (-2 * π / 3)) (by linarith) (by linarith)
      rw [sin_sub, q1, q2] at this
      rw [hx, hy] at b
      nlinarith
  · -- trigonal-high
    obtain ⟨a, b, c⟩ := h
    obtain ⟨r, hr, hr1, hx, hy, _, h0⟩ := polar p hu
    have hcz := chi_z (p := p) (by linarith)
    obtain ⟨g1, g2⟩ := eta_range p
    have hrp : 0 < r := lt_of_le_of_ne hr (fun hz => h7 rfl (h0.mp hz.symm))
    have hlo : -(π / 2) ≤ etaOf p := by
      by_contra hc
      push Not at hc
      have := cos_neg_of_pi_div_two_lt_of_lt (x := -etaOf p) (by linarith) (by linarith)
      rw [cos_neg] at this
      nlinarith
    have hhi : etaOf p ≤ π / 2 := by
      by_contra hc
      push Not at hc
      have := cos_neg_of_pi_div_two_lt_of_lt (x := etaOf p) (by linarith) (by linarith)
      nlinarith
    refine ⟨by linarith, ?_, hcz.1, by linarith [hcz.2]⟩
    by_contra hc
    push Not at hc
    have := sin_neg_of_neg_of_neg_pi_lt (x := -(π / 6) - etaOf p) (by linarith) (by linarith)
    rw [sin_sub, sin_neg, cos_neg, sin_pi_div_six, cos_pi_div_six] at this
    rw [hx, hy] at b
    nlinarith
  · obtain ⟨a, b, c⟩ := h
    refine lune_of hu he (by linarith) (by linarith) ?_ (by linarith)
    rw [sin_pi_div_three, cos_pi_div_three]; linarith
  · obtain ⟨a, b, c⟩ := h
    refine lune_of hu he (by linarith) (by linarith) ?_ (by linarith)
    rw [sin_pi_div_six, cos_pi_div_six]; linarith
  · -- cubic-low
    obtain ⟨a, b, c, d⟩ := h
    have hp := isq2
    have hx0 : 0 ≤ p.x := by linarith
    have hy0 : 0 ≤ p.y := by linarith
    have hzx : p.x ≤ p.z := by
      by_contra hc
      have := mul_neg_of_pos_of_neg hp (sub_neg_of_lt (not_le.mp hc))
      linarith
    have hzy : p.y ≤ p.z := by
      by_contra hc
      have := mul_neg_of_pos_of_neg hp (sub_neg_of_lt (not_le.mp hc))
      linarith
    obtain ⟨r, hr, hr1, hx, hy, hrz, h0⟩ := polar p hu
    have hη0 := eta_nonneg hy0
    have hη1 : etaOf p ≤ π / 2 := eta_le hu (by linarith) (by simp; linarith)
    refine ⟨?_, hη0, by linarith, arccos_nonneg _⟩
    split_ifs with hc
    · have := cub_of (p := p) (t := π / 2 - etaOf p) hr hrz
        (cos_pos_of_mem_Ioo ⟨by linarith, by linarith⟩) (by rw [cos_pi_div_two_sub, ← hy]; exact hzy)
      linarith
    · have := cub_of (p := p) (t := etaOf p) hr hrz
        (cos_pos_of_mem_Ioo ⟨by linarith, by linarith⟩) (by rw [← hx]; exact hzx)
      linarith

/-- cubic-high: accepted off the edge `y = 0` -/
theorem acc11 {p : V} {e : ℝ} (he : 0 < e) (hu : IsUnit3 p) (hy0 : 0 < p.y) (hxy : p.y ≤ p.x) (hzx : p.x ≤ p.z) :
    s2InFz e 11 p = some true := by
  have hpi := pi_pos
  simp [s2InFz]
  obtain ⟨r, hr, hr1, hx, hy, hrz, h0⟩ := polar p hu
  have hη0 := eta_nonneg hy0.le
  have hη1 : etaOf p ≤ π / 4 := by
    refine eta_le hu (by linarith) ?_
    rw [sin_pi_div_four, cos_pi_div_four]
    have := mul_nonneg (div_nonneg (sqrt_nonneg 2) zero_le_two) (sub_nonneg.mpr hxy)
    linarith
  refine ⟨?_, ?_, by linarith, ?_⟩
  · rw [if_neg (not_lt.mpr hη1)]
    have := cub_of (p := p) (t := etaOf p) hr hrz
      (cos_pos_of_mem_Ioo ⟨by linarith, by linarith⟩) (by rw [← hx]; exact hzx)
    linarith
  · rcases lt_or_eq_of_le hη0 with h | h
    · exact h
    · rw [← h] at hy; simp at hy; linarith
  · unfold chiOf
    rw [arccos_pos]
    unfold IsUnit3 at hu
    nlinarith

/-- acceptance keeps a point above every wall up to twice the tolerance -/
theorem above_of_acc {n : ℕ} {p : V} {e : ℝ} (h1 : 1 ≤ n) (h2 : n ≤ 11) (he : 0 ≤ e) (he1 : e ≤ 1 / 2) (hu : IsUnit3 p)
    (h : s2InFz e n p = some true) : Above n (-(2 * e)) p := by
  have hpi := pi_gt_three
  obtain ⟨g1, g2⟩ := eta_range p
  have hL : ∀ {lo hi : ℝ}, Lune e lo hi p → hi - π ≤ lo → hi ≤ lo + π → hi + e ≤ lo + π ∨ π ≤ lo + π →
      0 ≤ cos lo * p.y - sin lo * p.x ∧ -e ≤ sin hi * p.x - cos hi * p.y ∧ -e ≤ p.z := by
    rintro lo hi ⟨a, b, c, d⟩ k1 k2 k3
    refine ⟨wall_lo hu a (by rcases k3 with k | k <;> linarith), wall_hi hu he b (by linarith), wall_z hu he d⟩
  have s2 : 1 / √2 = √2 / 2 := by rw [div_eq_div_iff (by have := s2_facts.1; positivity) two_ne_zero]; linarith [s2_facts.2.1]
  have s2pos := s2_facts.1
  have s2le : √2 ≤ 2 := by linarith [s2_facts.2.2.2]
  interval_cases n <;> simp only [Above, wallNormals, List.forall_mem_cons, List.not_mem_nil, false_imp_iff,
    implies_true, and_true] <;> simp [s2InFz] at h
  · linarith
  · obtain ⟨a, b, c⟩ := hL h (by linarith) (by linarith) (Or.inr (by linarith))
    simp at a b
    exact ⟨by linarith, by linarith⟩
  · obtain ⟨a, b, c⟩ := hL h (by linarith) (by linarith) (Or.inl (by linarith))
    simp at a b
    exact ⟨by linarith, by linarith, by linarith⟩
  · obtain ⟨a, b, c⟩ := hL h (by linarith) (by linarith) (Or.inl (by linarith))
    simp at a b
    exact ⟨by linarith, by linarith, by linarith⟩
  · obtain ⟨a, b, c⟩ := hL h (by linarith) (by linarith) (Or.inl (by linarith))
    rw [sin_pi_div_four, cos_pi_div_four] at b
    simp at a
    rw [s2]
    exact ⟨by linarith, by linarith, by linarith⟩
  · have h' : Lune e (-2 * π / 3) 0 p := by simpa using h
    obtain ⟨a, b, c⟩ := hL h' (by linarith) (by linarith) (Or.inl (by linarith))
    rw [s23.1, s23.2] at a
    simp at b
    exact ⟨by linarith, by linarith, by linarith⟩
  · obtain ⟨a, b, c⟩ := hL h (by linarith) (by linarith) (Or.inl (by linarith))
    rw [sin_neg, cos_neg, sin_pi_div_six, cos_pi_div_six] at b
    simp at a
    exact ⟨by linarith, by linarith, by linarith⟩
  · obtain ⟨a, b, c⟩ := hL h (by linarith) (by linarith) (Or.inl (by linarith))
    rw [sin_pi_div_three, cos_pi_div_three] at b
    simp at a
    exact ⟨by linarith, by linarith, by linarith⟩
  · obtain ⟨a, b, c⟩ := hL h (by linarith) (by linarith) (Or.inl (by linarith))
    rw [sin_pi_div_six, cos_pi_div_six] at b
    simp at a
    exact ⟨by linarith, by linarith, by linarith⟩
  · obtain ⟨hc, h0, h3, _⟩ := h
    have hw := wall_lo (p := p) hu (a := 0) h0 (by linarith)
    have hw' := wall_hi (p := p) hu (b := π / 2) he h3 (by linarith)
    simp at hw hw'
    obtain ⟨r, hr, hr1, hx, hy, hrz, hr0⟩ := polar p hu
    have key : -(2 * e) ≤ p.z - p.x ∧ -(2 * e) ≤ p.z - p.y := by
      split_ifs at hc with hq
      · have := cub_lower (p := p) he hr hrz (cos_pos_of_mem_Ioo ⟨by linarith, by linarith⟩) hc
        rw [cos_pi_div_two_sub, ← hy] at this
        refine ⟨?_, this⟩
        have : 0 ≤ sin (π / 4) * p.y - cos (π / 4) * p.x + 0 := by
          have := wall_lo (p := p) hu (a := π / 4) hq (by linarith)
          rw [sin_pi_div_four, cos_pi_div_four] at *; linarith
        rw [sin_pi_div_four, cos_pi_div_four] at this
        nlinarith
      · push Not at hq
        have := cub_lower (p := p) he hr hrz (cos_pos_of_mem_Ioo ⟨by linarith, by linarith⟩) hc
        rw [← hx] at this
        refine ⟨this, ?_⟩
        have : 0 ≤ sin (π / 4) * p.x - cos (π / 4) * p.y := by
          have := wall_hi (p := p) hu (b := π / 4) (e := 0) le_rfl (by linarith) (by linarith)
          linarith
        rw [sin_pi_div_four, cos_pi_div_four] at this
        nlinarith
    rw [s2]
    refine ⟨by linarith, by linarith, ?_, ?_⟩ <;> nlinarith [key.1, key.2]
  · obtain ⟨hc, h0, h3, _⟩ := h
    have hw := wall_lo (p := p) hu (a := 0) h0.le (by linarith)
    have hw' := wall_hi (p := p) hu (b := π / 4) he h3.le (by linarith)
    rw [sin_pi_div_four, cos_pi_div_four] at hw'
    simp at hw
    obtain ⟨r, hr, hr1, hx, hy, hrz, hr0⟩ := polar p hu
    have key : -(2 * e) ≤ p.z - p.x := by
      split_ifs at hc with hq
      · have := cub_lower (p := p) he hr hrz (cos_pos_of_mem_Ioo ⟨by linarith, by linarith⟩) hc.le
        rw [cos_pi_div_two_sub, ← hy] at this
        have : 0 ≤ cos (π / 4) * p.y - sin (π / 4) * p.x := wall_lo (p := p) hu (a := π / 4) hq.le (by linarith)
        rw [sin_pi_div_four, cos_pi_div_four] at this
        nlinarith
      · push Not at hq
        have := cub_lower (p := p) he hr hrz (cos_pos_of_mem_Ioo ⟨by linarith, by linarith⟩) hc
        rwa [← hx] at this
    rw [s2]
    refine ⟨by linarith, by linarith, ?_⟩
    nlinarith

end Verif.S2
