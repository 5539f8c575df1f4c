import Verif.Lemmas.HoRound
import Verif.Model.HoRef
import Mathlib.Analysis.SpecialFunctions.Pow.Deriv
import Mathlib.Analysis.SpecialFunctions.Log.Deriv
import Mathlib.Analysis.Calculus.Deriv.MeanValue
/-!
Newton's method for `w ↦ (3/4 (w - sin w))^(1/3)` on `(0, π]`, as run by `ho2ax_newton`: the iterates increase to the root and
the error is squared at every step.  Used for C106.
-/
namespace Verif.HoNewton
open Real

theorem nonneg_of_deriv {F F' : ℝ → ℝ} (h : ∀ x, HasDerivAt F (F' x) x) (h0 : F 0 = 0) (hp : ∀ x, 0 ≤ x → 0 ≤ F' x)
    {x : ℝ} (hx : 0 ≤ x) : 0 ≤ F x := by
  have hm : MonotoneOn F (Set.Ici 0) := by
    apply monotoneOn_of_deriv_nonneg (convex_Ici 0)
    · exact fun y _ => (h y).continuousAt.continuousWithinAt
    · exact fun y _ => (h y).differentiableAt.differentiableWithinAt
    · intro y hy
      rw [(h y).deriv]
      rw [interior_Ici] at hy
      exact hp y (le_of_lt hy)
  have := hm (Set.mem_Ici.mpr le_rfl) (Set.mem_Ici.mpr hx) hx
  linarith

theorem cos_2 {x : ℝ} (hx : 0 ≤ x) : 0 ≤ cos x - 1 + x ^ 2 / 2 :=
  nonneg_of_deriv (F := fun x => cos x - 1 + x ^ 2 / 2) (F' := fun x => x - sin x)
    (fun x => (((hasDerivAt_cos x).sub_const 1).add ((hasDerivAt_pow 2 x).div_const 2)).congr_deriv (by norm_num; ring))
    (by simp) (fun x hx => by have := sin_le hx; linarith) hx

theorem sin_3 {x : ℝ} (hx : 0 ≤ x) : 0 ≤ sin x - x + x ^ 3 / 6 :=
  nonneg_of_deriv (F := fun x => sin x - x + x ^ 3 / 6) (F' := fun x => cos x - 1 + x ^ 2 / 2)
    (fun x => (((hasDerivAt_sin x).sub (hasDerivAt_id x)).add ((hasDerivAt_pow 3 x).div_const 6)).congr_deriv
      (by norm_num; ring)) (by simp) (fun x hx => cos_2 hx) hx

theorem cos_4 {x : ℝ} (hx : 0 ≤ x) : 0 ≤ 1 - x ^ 2 / 2 + x ^ 4 / 24 - cos x :=
  nonneg_of_deriv (F := fun x => 1 - x ^ 2 / 2 + x ^ 4 / 24 - cos x) (F' := fun x => sin x - x + x ^ 3 / 6)
    (fun x => ((((hasDerivAt_pow 2 x).div_const 2).const_sub 1).add ((hasDerivAt_pow 4 x).div_const 24) |>.sub
      (hasDerivAt_cos x)).congr_deriv (by norm_num; ring)) (by simp) (fun x hx => sin_3 hx) hx

theorem sin_5 {x : ℝ} (hx : 0 ≤ x) : 0 ≤ x - x ^ 3 / 6 + x ^ 5 / 120 - sin x :=
  nonneg_of_deriv (F := fun x => x - x ^ 3 / 6 + x ^ 5 / 120 - sin x) (F' := fun x => 1 - x ^ 2 / 2 + x ^ 4 / 24 - cos x)
    (fun x => ((((hasDerivAt_id x).sub ((hasDerivAt_pow 3 x).div_const 6)).add ((hasDerivAt_pow 5 x).div_const 120)).sub
      (hasDerivAt_sin x)).congr_deriv (by norm_num; ring)) (by simp) (fun x hx => cos_4 hx) hx

theorem cos_6 {x : ℝ} (hx : 0 ≤ x) : 0 ≤ cos x - 1 + x ^ 2 / 2 - x ^ 4 / 24 + x ^ 6 / 720 :=
  nonneg_of_deriv (F := fun x => cos x - 1 + x ^ 2 / 2 - x ^ 4 / 24 + x ^ 6 / 720)
    (F' := fun x => x - x ^ 3 / 6 + x ^ 5 / 120 - sin x)
    (fun x => (((((hasDerivAt_cos x).sub_const 1).add ((hasDerivAt_pow 2 x).div_const 2)).sub
      ((hasDerivAt_pow 4 x).div_const 24)).add ((hasDerivAt_pow 6 x).div_const 720)).congr_deriv (by norm_num; ring))
    (by simp) (fun x hx => sin_5 hx) hx

theorem sin_7 {x : ℝ} (hx : 0 ≤ x) : 0 ≤ sin x - x + x ^ 3 / 6 - x ^ 5 / 120 + x ^ 7 / 5040 :=
  nonneg_of_deriv (F := fun x => sin x - x + x ^ 3 / 6 - x ^ 5 / 120 + x ^ 7 / 5040)
    (F' := fun x => cos x - 1 + x ^ 2 / 2 - x ^ 4 / 24 + x ^ 6 / 720)
    (fun x => (((((hasDerivAt_sin x).sub (hasDerivAt_id x)).add ((hasDerivAt_pow 3 x).div_const 6)).sub
      ((hasDerivAt_pow 5 x).div_const 120)).add ((hasDerivAt_pow 7 x).div_const 5040)).congr_deriv (by norm_num; ring))
    (by simp) (fun x hx => cos_6 hx) hx

theorem cos_8 {x : ℝ} (hx : 0 ≤ x) : 0 ≤ 1 - x ^ 2 / 2 + x ^ 4 / 24 - x ^ 6 / 720 + x ^ 8 / 40320 - cos x :=
  nonneg_of_deriv (F := fun x => 1 - x ^ 2 / 2 + x ^ 4 / 24 - x ^ 6 / 720 + x ^ 8 / 40320 - cos x)
    (F' := fun x => sin x - x + x ^ 3 / 6 - x ^ 5 / 120 + x ^ 7 / 5040)
    (fun x => ((((((hasDerivAt_pow 2 x).div_const 2).const_sub 1).add ((hasDerivAt_pow 4 x).div_const 24)).sub
      ((hasDerivAt_pow 6 x).div_const 720)).add ((hasDerivAt_pow 8 x).div_const 40320) |>.sub
      (hasDerivAt_cos x)).congr_deriv (by norm_num; ring)) (by simp) (fun x hx => sin_7 hx) hx

theorem sin_9 {x : ℝ} (hx : 0 ≤ x) : 0 ≤ x - x ^ 3 / 6 + x ^ 5 / 120 - x ^ 7 / 5040 + x ^ 9 / 362880 - sin x :=
  nonneg_of_deriv (F := fun x => x - x ^ 3 / 6 + x ^ 5 / 120 - x ^ 7 / 5040 + x ^ 9 / 362880 - sin x)
    (F' := fun x => 1 - x ^ 2 / 2 + x ^ 4 / 24 - x ^ 6 / 720 + x ^ 8 / 40320 - cos x)
    (fun x => ((((((hasDerivAt_id x).sub ((hasDerivAt_pow 3 x).div_const 6)).add ((hasDerivAt_pow 5 x).div_const 120)).sub
      ((hasDerivAt_pow 7 x).div_const 5040)).add ((hasDerivAt_pow 9 x).div_const 362880)).sub
      (hasDerivAt_sin x)).congr_deriv (by norm_num; ring)) (by simp) (fun x hx => cos_8 hx) hx

/-- `k = sin t - sin³ t / 3 - t cos t` lies between 0 and `t sin t (t - sin t cos t) / 3` on `[0, π/2]`. -/
theorem k_nonneg {t : ℝ} (h0 : 0 ≤ t) (h1 : t ≤ π / 2) : 0 ≤ sin t - sin t ^ 3 / 3 - t * cos t := by
  have hm : MonotoneOn (fun t => sin t - sin t ^ 3 / 3 - t * cos t) (Set.Icc 0 (π / 2)) := by
    have hd : ∀ t, HasDerivAt (fun t => sin t - sin t ^ 3 / 3 - t * cos t) (sin t * (t - sin t * cos t)) t := fun t =>
      (((hasDerivAt_sin t).sub (((hasDerivAt_sin t).pow 3).div_const 3)).sub ((hasDerivAt_id t).mul (hasDerivAt_cos t))).congr_deriv
        (by norm_num; ring)
    apply monotoneOn_of_deriv_nonneg (convex_Icc _ _)
    · exact fun y _ => (hd y).continuousAt.continuousWithinAt
    · exact fun y _ => (hd y).differentiableAt.differentiableWithinAt
    · intro y hy
      rw [interior_Icc] at hy
      rw [(hd y).deriv]
      have hs : 0 ≤ sin y := sin_nonneg_of_nonneg_of_le_pi hy.1.le (by linarith [hy.2, pi_pos])
      have := sin_le hy.1.le
      have := mul_le_of_le_one_right hs (cos_le_one y)
      exact mul_nonneg hs (by linarith)
  have := hm (Set.mem_Icc.mpr ⟨le_rfl, by positivity⟩) (Set.mem_Icc.mpr ⟨h0, h1⟩) h0
  simpa using this

theorem aux_M {t : ℝ} (h0 : 0 ≤ t) (h1 : t ≤ π / 2) : 0 ≤ t ^ 2 - 3 * t * sin t * cos t + 2 * sin t ^ 2 := by
  have hs : 0 ≤ sin t := sin_nonneg_of_nonneg_of_le_pi h0 (by linarith [pi_pos])
  have a := sin_le h0
  have b := sin_3 h0
  have c := cos_4 h0
  have hpi := pi_lt_d2
  have ht2 : t ^ 2 ≤ 2.5 := by nlinarith
  -- (t - s)(2s - t) ≤ (t^3/6) s ≤ 3 t s (1 - c)
  have e1 : (t - sin t) * (2 * sin t - t) ≤ t ^ 3 / 6 * sin t := by
    by_cases h : 2 * sin t - t ≤ 0
    · have : (t - sin t) * (2 * sin t - t) ≤ 0 := mul_nonpos_of_nonneg_of_nonpos (by linarith) h
      have : 0 ≤ t ^ 3 / 6 * sin t := by positivity
      linarith
    · push Not at h
      exact mul_le_mul (by linarith) (by linarith) h.le (by positivity)
  have e2 : t ^ 3 / 6 * sin t ≤ 3 * t * sin t * (1 - cos t) := by
    have : t ^ 2 / 18 ≤ 1 - cos t := by nlinarith [sq_nonneg t]
    have := mul_le_mul_of_nonneg_left this (by positivity : 0 ≤ 3 * t * sin t)
    nlinarith
  nlinarith

theorem k_le {t : ℝ} (h0 : 0 ≤ t) (h1 : t ≤ π / 2) :
    sin t - sin t ^ 3 / 3 - t * cos t ≤ t * sin t * (t - sin t * cos t) / 3 := by
  have hm : MonotoneOn (fun t => t * sin t * (t - sin t * cos t) / 3 - (sin t - sin t ^ 3 / 3 - t * cos t))
      (Set.Icc 0 (π / 2)) := by
    have hd : ∀ t, HasDerivAt (fun t => t * sin t * (t - sin t * cos t) / 3 - (sin t - sin t ^ 3 / 3 - t * cos t))
        (cos t * (t ^ 2 - 3 * t * sin t * cos t + 2 * sin t ^ 2) / 3) t := fun t =>
      (((((hasDerivAt_id t).mul (hasDerivAt_sin t)).mul ((hasDerivAt_id t).sub ((hasDerivAt_sin t).mul (hasDerivAt_cos t)))).div_const 3).sub
       (((hasDerivAt_sin t).sub (((hasDerivAt_sin t).pow 3).div_const 3)).sub
        ((hasDerivAt_id t).mul (hasDerivAt_cos t)))).congr_deriv (by
          have := sin_sq t
          norm_num
          linear_combination (t * sin t / 3) * this)
    apply monotoneOn_of_deriv_nonneg (convex_Icc _ _)
    · exact fun y _ => (hd y).continuousAt.continuousWithinAt
    · exact fun y _ => (hd y).differentiableAt.differentiableWithinAt
    · intro y hy
      rw [interior_Icc] at hy
      rw [(hd y).deriv]
      have hc : 0 ≤ cos y := cos_nonneg_of_neg_pi_div_two_le_of_le (by linarith [hy.1, pi_pos]) hy.2.le
      have := aux_M hy.1.le hy.2.le
      positivity
  have := hm (Set.mem_Icc.mpr ⟨le_rfl, by positivity⟩) (Set.mem_Icc.mpr ⟨h0, h1⟩) h0
  simp only [zero_mul, sin_zero] at this
  norm_num at this
  linarith

/-- The derivative of the homochoric radius, as in orientations.py:655-659. -/
noncomputable def dRad (w : ℝ) : ℝ := (1 - cos w) / ((6 : ℝ) ^ ((2 : ℝ) / 3) * (w - sin w) ^ ((2 : ℝ) / 3))

/-- The homochoric radius. -/
noncomputable def rad (w : ℝ) : ℝ := (3 / 4 * (w - sin w)) ^ ((1 : ℝ) / 3)

theorem six_pow : (6 : ℝ) ^ ((2 : ℝ) / 3) = 4 * (3 / 4 : ℝ) ^ ((2 : ℝ) / 3) := by
  have : (4 : ℝ) = (8 : ℝ) ^ ((2 : ℝ) / 3) := by
    rw [show (8 : ℝ) = 2 ^ (3 : ℝ) by norm_num, ← rpow_mul (by norm_num)]; norm_num
  rw [this, ← mul_rpow (by norm_num) (by norm_num)]
  norm_num

theorem rad_deriv {w : ℝ} (h : 0 < w) : HasDerivAt rad (dRad w) w := by
  have hg : 0 < w - sin w := by have := sin_lt h; linarith
  have h1 : HasDerivAt (fun w => 3 / 4 * (w - sin w)) (3 / 4 * (1 - cos w)) w :=
    ((hasDerivAt_id w).sub (hasDerivAt_sin w)).const_mul _
  have h2 := h1.rpow_const (p := (1 : ℝ) / 3) (Or.inl (by positivity))
  refine h2.congr_deriv ?_
  unfold dRad
  rw [six_pow, show (1 : ℝ) / 3 - 1 = -(2 / 3) by norm_num, rpow_neg (by positivity), mul_rpow (by norm_num) hg.le]
  have : (0:ℝ) < (w - sin w) ^ ((2 : ℝ) / 3) := rpow_pos_of_pos hg _
  have : (0:ℝ) < (3 / 4 : ℝ) ^ ((2 : ℝ) / 3) := rpow_pos_of_pos (by norm_num) _
  field_simp

theorem dRad_pos {w : ℝ} (h : 0 < w) (h1 : w ≤ π) : 0 < dRad w := by
  have hg : 0 < w - sin w := by have := sin_lt h; linarith
  have : cos w < 1 := by
    have := cos_lt_cos_of_nonneg_of_le_pi le_rfl h1 h
    simpa using this
  unfold dRad
  have : (0:ℝ) < (w - sin w) ^ ((2 : ℝ) / 3) := rpow_pos_of_pos hg _
  have : (0:ℝ) < (6 : ℝ) ^ ((2 : ℝ) / 3) := rpow_pos_of_pos (by norm_num) _
  apply div_pos <;> [linarith; positivity]

/-- logarithm of the derivative, up to a constant -/
noncomputable def lg (t : ℝ) : ℝ := 2 * log (sin t) - 2 / 3 * log (t - sin t * cos t)

theorem d_pos {t : ℝ} (h0 : 0 < t) : 0 < t - sin t * cos t := by
  have := sin_lt (by linarith : 0 < 2 * t)
  rw [sin_two_mul] at this
  linarith

theorem dRad_lg {t : ℝ} (h0 : 0 < t) (h1 : t ≤ π / 2) :
    dRad (2 * t) = 2 / ((6 : ℝ) ^ ((2 : ℝ) / 3) * (2 : ℝ) ^ ((2 : ℝ) / 3)) * exp (lg t) := by
  have hs : 0 < sin t := sin_pos_of_pos_of_lt_pi h0 (by linarith [pi_pos])
  have hd := d_pos h0
  unfold dRad lg
  rw [exp_sub, mul_comm 2 (log _), exp_mul, exp_log hs, mul_comm (2 / 3) (log _), exp_mul, exp_log hd, sin_two_mul,
    show 2 * t - 2 * sin t * cos t = 2 * (t - sin t * cos t) by ring, mul_rpow (by norm_num) hd.le, cos_two_mul, cos_sq']
  have : (0:ℝ) < (t - sin t * cos t) ^ ((2 : ℝ) / 3) := rpow_pos_of_pos hd _
  have : (0:ℝ) < (6 : ℝ) ^ ((2 : ℝ) / 3) := rpow_pos_of_pos (by norm_num) _
  have : (0:ℝ) < (2 : ℝ) ^ ((2 : ℝ) / 3) := rpow_pos_of_pos (by norm_num) _
  have e : sin t ^ (2 : ℝ) = sin t ^ 2 := by rw [← rpow_natCast]; norm_num
  rw [e]
  field_simp
  ring

theorem lg_deriv {t : ℝ} (h0 : 0 < t) (h1 : t ≤ π / 2) :
    HasDerivAt lg (-2 * (sin t - sin t ^ 3 / 3 - t * cos t) / (sin t * (t - sin t * cos t))) t := by
  have hs : 0 < sin t := sin_pos_of_pos_of_lt_pi h0 (by linarith [pi_pos])
  have hd := d_pos h0
  have h2 : HasDerivAt (fun t => t - sin t * cos t) (1 - (cos t * cos t + sin t * -sin t)) t :=
    (hasDerivAt_id t).sub ((hasDerivAt_sin t).mul (hasDerivAt_cos t))
  refine ((((hasDerivAt_sin t).log hs.ne').const_mul 2).sub ((h2.log hd.ne').const_mul (2 / 3))).congr_deriv ?_
  have e := sin_sq t
  have hd' : t - sin t * cos t ≠ 0 := hd.ne'
  have hs' : sin t ≠ 0 := hs.ne'
  generalize sin t = s at *
  generalize cos t = c at *
  rw [eq_div_iff (mul_ne_zero hs' hd')]
  have x1 : 2 * (c / s) * (s * (t - s * c)) = 2 * c * (t - s * c) := by field_simp
  have x2 : 2 / 3 * ((1 - (c * c + s * -s)) / (t - s * c)) * (s * (t - s * c)) = 2 / 3 * (1 - (c * c + s * -s)) * s := by
    rw [show 2 / 3 * ((1 - (c * c + s * -s)) / (t - s * c)) * (s * (t - s * c)) =
      2 / 3 * s * ((1 - (c * c + s * -s)) / (t - s * c) * (t - s * c)) by ring, div_mul_cancel₀ _ hd']
    ring
  rw [sub_mul, x1, x2]
  linear_combination (-4 / 3 * s) * e

theorem lg_bounds {a b : ℝ} (h0 : 0 < a) (hab : a ≤ b) (h1 : b ≤ π / 2) :
    lg b ≤ lg a ∧ lg a + a ^ 2 / 3 ≤ lg b + b ^ 2 / 3 := by
  have hin : ∀ y ∈ Set.Icc a b, 0 < y ∧ y ≤ π / 2 := fun y hy => ⟨lt_of_lt_of_le h0 hy.1, hy.2.trans h1⟩
  constructor
  · have hm : AntitoneOn lg (Set.Icc a b) := by
      apply antitoneOn_of_deriv_nonpos (convex_Icc _ _)
      · exact fun y hy => (lg_deriv (hin y hy).1 (hin y hy).2).continuousAt.continuousWithinAt
      · intro y hy
        have := hin y (interior_subset hy)
        exact (lg_deriv this.1 this.2).differentiableAt.differentiableWithinAt
      · intro y hy
        have := hin y (interior_subset hy)
        rw [(lg_deriv this.1 this.2).deriv]
        have hs : 0 < sin y := sin_pos_of_pos_of_lt_pi this.1 (by linarith [pi_pos])
        have hd := d_pos this.1
        have hk := k_nonneg this.1.le this.2
        apply div_nonpos_of_nonpos_of_nonneg <;> [linarith; positivity]
    exact hm (Set.mem_Icc.mpr ⟨le_rfl, hab⟩) (Set.mem_Icc.mpr ⟨hab, le_rfl⟩) hab
  · have hde : ∀ y, 0 < y → y ≤ π / 2 → HasDerivAt (fun t => lg t + t ^ 2 / 3)
        (-2 * (sin y - sin y ^ 3 / 3 - y * cos y) / (sin y * (y - sin y * cos y)) + 2 * y / 3) y := fun y ha hb =>
      ((lg_deriv ha hb).add ((hasDerivAt_pow 2 y).div_const 3)).congr_deriv (by norm_num)
    have hm : MonotoneOn (fun t => lg t + t ^ 2 / 3) (Set.Icc a b) := by
      apply monotoneOn_of_deriv_nonneg (convex_Icc _ _)
      · exact fun y hy => (hde y (hin y hy).1 (hin y hy).2).continuousAt.continuousWithinAt
      · intro y hy
        have := hin y (interior_subset hy)
        exact (hde y this.1 this.2).differentiableAt.differentiableWithinAt
      · intro y hy
        have := hin y (interior_subset hy)
        rw [(hde y this.1 this.2).deriv]
        have hs : 0 < sin y := sin_pos_of_pos_of_lt_pi this.1 (by linarith [pi_pos])
        have hd := d_pos this.1
        have hk := k_le this.1.le this.2
        have : (-2 * (sin y - sin y ^ 3 / 3 - y * cos y) / (sin y * (y - sin y * cos y)) + 2 * y / 3) =
          2 * (y * sin y * (y - sin y * cos y) / 3 - (sin y - sin y ^ 3 / 3 - y * cos y)) / (sin y * (y - sin y * cos y)) := by
          field_simp; ring
        rw [this]
        apply div_nonneg <;> [linarith; positivity]
    exact hm (Set.mem_Icc.mpr ⟨le_rfl, hab⟩) (Set.mem_Icc.mpr ⟨hab, le_rfl⟩) hab

/-- The derivative of the radius decreases, but not fast. -/
theorem dRad_bounds {w u : ℝ} (h0 : 0 < w) (hwu : w ≤ u) (h1 : u ≤ π) :
    dRad u ≤ dRad w ∧ dRad w * (1 - (u ^ 2 - w ^ 2) / 12) ≤ dRad u := by
  obtain ⟨b1, b2⟩ := lg_bounds (a := w / 2) (b := u / 2) (by linarith) (by linarith) (by linarith)
  have ew := dRad_lg (t := w / 2) (by linarith) (by linarith)
  have eu := dRad_lg (t := u / 2) (by linarith) (by linarith)
  rw [show 2 * (w / 2) = w by ring] at ew
  rw [show 2 * (u / 2) = u by ring] at eu
  have hc : (0:ℝ) < 2 / ((6 : ℝ) ^ ((2 : ℝ) / 3) * (2 : ℝ) ^ ((2 : ℝ) / 3)) := by
    have : (0:ℝ) < (6 : ℝ) ^ ((2 : ℝ) / 3) := rpow_pos_of_pos (by norm_num) _
    have : (0:ℝ) < (2 : ℝ) ^ ((2 : ℝ) / 3) := rpow_pos_of_pos (by norm_num) _
    positivity
  generalize (2 : ℝ) / ((6 : ℝ) ^ ((2 : ℝ) / 3) * (2 : ℝ) ^ ((2 : ℝ) / 3)) = C at *
  rw [ew, eu]
  constructor
  · exact mul_le_mul_of_nonneg_left (exp_le_exp.mpr b1) hc.le
  · rw [mul_assoc]
    apply mul_le_mul_of_nonneg_left _ hc.le
    have e1 : lg (w / 2) + -((u ^ 2 - w ^ 2) / 12) ≤ lg (u / 2) := by linarith
    have e2 := exp_le_exp.mpr e1
    rw [exp_add] at e2
    have e3 := add_one_le_exp (-((u ^ 2 - w ^ 2) / 12))
    have e4 := mul_le_mul_of_nonneg_left e3 (exp_pos (lg (w / 2))).le
    linarith

/-- Tangent and cubic bounds of the radius. -/
theorem rad_bounds {w z : ℝ} (h0 : 0 < w) (hwz : w ≤ z) (h1 : z ≤ π) :
    rad z - rad w ≤ dRad w * (z - w) ∧
    dRad w * ((z - w) - (z - w) ^ 2 * (z + 2 * w) / 36) ≤ rad z - rad w := by
  have hin : ∀ y ∈ Set.Icc w z, 0 < y ∧ w ≤ y ∧ y ≤ π := fun y hy => ⟨lt_of_lt_of_le h0 hy.1, hy.1, hy.2.trans h1⟩
  constructor
  · have hde : ∀ y, 0 < y → HasDerivAt (fun y => dRad w * y - rad y) (dRad w - dRad y) y := fun y hy =>
      (((hasDerivAt_id y).const_mul (dRad w)).sub (rad_deriv hy)).congr_deriv (by ring)
    have hm : MonotoneOn (fun y => dRad w * y - rad y) (Set.Icc w z) := by
      apply monotoneOn_of_deriv_nonneg (convex_Icc _ _)
      · exact fun y hy => (hde y (hin y hy).1).continuousAt.continuousWithinAt
      · exact fun y hy => (hde y (hin y (interior_subset hy)).1).differentiableAt.differentiableWithinAt
      · intro y hy
        have hy := hin y (interior_subset hy)
        rw [(hde y hy.1).deriv]
        linarith [(dRad_bounds h0 hy.2.1 hy.2.2).1]
    have := hm (Set.mem_Icc.mpr ⟨le_rfl, hwz⟩) (Set.mem_Icc.mpr ⟨hwz, le_rfl⟩) hwz
    dsimp only at this
    linarith
  · have hde : ∀ y, 0 < y → HasDerivAt (fun y => rad y - dRad w * (y - (y ^ 3 / 3 - w ^ 2 * y) / 12))
        (dRad y - dRad w * (1 - (y ^ 2 - w ^ 2) / 12)) y := fun y hy =>
      ((rad_deriv hy).sub (((hasDerivAt_id y).sub ((((hasDerivAt_pow 3 y).div_const 3).sub
        ((hasDerivAt_id y).const_mul (w ^ 2))).div_const 12)).const_mul (dRad w))).congr_deriv (by norm_num)
    have hm : MonotoneOn (fun y => rad y - dRad w * (y - (y ^ 3 / 3 - w ^ 2 * y) / 12)) (Set.Icc w z) := by
      apply monotoneOn_of_deriv_nonneg (convex_Icc _ _)
      · exact fun y hy => (hde y (hin y hy).1).continuousAt.continuousWithinAt
      · exact fun y hy => (hde y (hin y (interior_subset hy)).1).differentiableAt.differentiableWithinAt
      · intro y hy
        have hy := hin y (interior_subset hy)
        rw [(hde y hy.1).deriv]
        linarith [(dRad_bounds h0 hy.2.1 hy.2.2).2]
    have := hm (Set.mem_Icc.mpr ⟨le_rfl, hwz⟩) (Set.mem_Icc.mpr ⟨hwz, le_rfl⟩) hwz
    dsimp only at this
    linarith

open Verif.Cubo in
/-- One update from below: the iterate does not pass the root, does not move away, and the error is squared. -/
theorem update_bounds {w z : ℝ} (h0 : 0 < w) (hwz : w ≤ z) (h1 : z ≤ π) :
    w ≤ newtonUpdate (rad z) w ∧ newtonUpdate (rad z) w ≤ z ∧ z - newtonUpdate (rad z) w ≤ z / 12 * (z - w) ^ 2 := by
  obtain ⟨b1, b2⟩ := rad_bounds h0 hwz h1
  have hp := dRad_pos h0 (hwz.trans h1)
  have e : newtonUpdate (rad z) w = w + (rad z - rad w) / dRad w := by
    unfold newtonUpdate
    change w - (rad w - rad z) / dRad w = _
    ring
  rw [e]
  generalize rad z - rad w = r at *
  have c1 : r / dRad w ≤ z - w := by rw [div_le_iff₀ hp]; linarith
  have c2 : (z - w) - (z - w) ^ 2 * (z + 2 * w) / 36 ≤ r / dRad w := by rw [le_div_iff₀ hp]; linarith
  have c3 : (z - w) ^ 2 * (z + 2 * w) / 36 ≤ z / 12 * (z - w) ^ 2 := by nlinarith [sq_nonneg (z - w)]
  refine ⟨?_, by linarith, by linarith⟩
  have : 0 ≤ (z - w) - (z - w) ^ 2 * (z + 2 * w) / 36 := by
    have hpi := pi_lt_d2
    have : (z - w) * (z + 2 * w) ≤ 36 := by nlinarith
    nlinarith
  linarith

theorem rad_cube {z : ℝ} (h : 0 < z) : 0 < rad z ∧ rad z ^ 3 = 3 / 4 * (z - sin z) := by
  have hg : 0 < z - sin z := by have := sin_lt h; linarith
  constructor
  · unfold rad; exact rpow_pos_of_pos (by positivity) _
  · unfold rad
    rw [← rpow_natCast, ← rpow_mul (by positivity)]; norm_num

theorem le_of_cube {a b : ℝ} (hb : 0 ≤ b) (h : a ^ 3 ≤ b ^ 3) : a ≤ b := by
  by_contra hc
  push Not at hc
  have := pow_lt_pow_left₀ hc hb (by norm_num : 3 ≠ 0)
  linarith

/-- `(z/2) / (1 + z²/60)` is above the radius. -/
theorem rad_upper {z : ℝ} (h0 : 0 < z) (h1 : z ≤ π) : rad z * (z ^ 2 + 60) ≤ 30 * z := by
  obtain ⟨hp, hc⟩ := rad_cube h0
  apply le_of_cube (by positivity)
  rw [mul_pow, hc]
  have hs := sin_7 h0.le
  have hpi := pi_lt_d2
  have hx : z ^ 2 ≤ 9.93 := by nlinarith
  have e1 : 3 / 4 * (z - sin z) ≤ z ^ 3 / 8 * (1 - z ^ 2 / 20 + (z ^ 2) ^ 2 / 840) := by nlinarith
  have e2 : (1 - z ^ 2 / 20 + (z ^ 2) ^ 2 / 840) * (z ^ 2 + 60) ^ 3 ≤ 60 ^ 3 := by
    have hx0 := sq_nonneg z
    generalize z ^ 2 = x at hx hx0
    have : (1 - x / 20 + x ^ 2 / 840) * (x + 60) ^ 3 - 60 ^ 3 =
      x ^ 2 * (-720 / 7 + x * (34 / 7 + x * (23 / 140 + x / 840))) := by ring
    have h1 : x * (34 / 7 + x * (23 / 140 + x / 840)) ≤ 9.93 * (34 / 7 + 9.93 * (23 / 140 + 9.93 / 840)) := by
      gcongr
    have : x ^ 2 * (-720 / 7 + x * (34 / 7 + x * (23 / 140 + x / 840))) ≤ 0 :=
      mul_nonpos_of_nonneg_of_nonpos (by positivity) (by norm_num at h1 ⊢; linarith)
    linarith
  have e3 := mul_le_mul_of_nonneg_right e1 (by positivity : (0:ℝ) ≤ (z ^ 2 + 60) ^ 3)
  have e4 := mul_le_mul_of_nonneg_left e2 (by positivity : (0:ℝ) ≤ z ^ 3 / 8)
  nlinarith

/-- and a quartic is below it. -/
theorem rad_lower {z : ℝ} (h0 : 0 < z) (h1 : z ≤ π) : z / 2 * (1 - z ^ 2 / 60 + z ^ 4 / 10000) ≤ rad z := by
  obtain ⟨hp, hc⟩ := rad_cube h0
  apply le_of_cube hp.le
  rw [mul_pow, hc]
  have hs := sin_9 h0.le
  have hpi := pi_lt_d2
  have hx : z ^ 2 ≤ 9.87 := by have := pi_lt_d4; nlinarith
  have e1 : z ^ 3 / 8 * (1 - z ^ 2 / 20 + (z ^ 2) ^ 2 / 840 - (z ^ 2) ^ 3 / 60480) ≤ 3 / 4 * (z - sin z) := by nlinarith
  have e2 : (1 - z ^ 2 / 60 + z ^ 4 / 10000) ^ 3 ≤ 1 - z ^ 2 / 20 + (z ^ 2) ^ 2 / 840 - (z ^ 2) ^ 3 / 60480 := by
    rw [show z ^ 4 = (z ^ 2) ^ 2 by ring]
    have hx0 := sq_nonneg z
    generalize z ^ 2 = x at hx hx0
    have h2 : x * (1 / 525000 + x * (17 / 150000000 + x ^ 2 / 10 ^ 12)) ≤
        9.87 * (1 / 525000 + 9.87 * (17 / 150000000 + 9.87 ^ 2 / 10 ^ 12)) := by gcongr
    have h3 : 0 ≤ x ^ 2 * (1 / 17500 - x * (1 / 525000 + x * (17 / 150000000 + x ^ 2 / 10 ^ 12))) :=
      mul_nonneg (by positivity) (by norm_num at h2 ⊢; linarith)
    have h4 : 0 ≤ x ^ 5 / 2000000000 := by positivity
    nlinarith
  have e3 := mul_le_mul_of_nonneg_left e2 (by positivity : (0:ℝ) ≤ z ^ 3 / 8)
  nlinarith

/-- The starting value of `ho2ax_newton` (orientations.py:649) is below the root by at most 0.08. -/
theorem start_bounds {z : ℝ} (h0 : 0 < z) (h1 : z ≤ π) :
    0 < (15 - sqrt (225 - 60 * rad z ^ 2)) / rad z ∧ (15 - sqrt (225 - 60 * rad z ^ 2)) / rad z ≤ z ∧
      z - (15 - sqrt (225 - 60 * rad z ^ 2)) / rad z ≤ 0.08 := by
  obtain ⟨hp, -⟩ := rad_cube h0
  have hu := rad_upper h0 h1
  have hl := rad_lower h0 h1
  have hpi := pi_lt_d4
  have hx : z ^ 2 ≤ 9.87 := by nlinarith
  generalize rad z = h at *
  have hh : h * 2 ≤ z := by nlinarith [sq_nonneg z, mul_nonneg hp.le (sq_nonneg z)]
  have hD : 0 ≤ 225 - 60 * h ^ 2 := by nlinarith
  have hsq := sq_sqrt hD
  have hs0 := sqrt_nonneg (225 - 60 * h ^ 2)
  have hs1 : sqrt (225 - 60 * h ^ 2) < 15 := by
    rw [sqrt_lt' (by norm_num)]; nlinarith
  generalize sqrt (225 - 60 * h ^ 2) = s at *
  refine ⟨div_pos (by linarith) hp, ?_, ?_⟩
  · rw [div_le_iff₀ hp]
    -- 15 - z h ≤ s
    by_contra hc
    push Not at hc
    have h2 : s ^ 2 < (15 - z * h) ^ 2 := pow_lt_pow_left₀ (by linarith) hs0 (by norm_num)
    have h3 : 0 < h * (h * (z ^ 2 + 60) - 30 * z) := by nlinarith
    have := (pos_iff_pos_of_mul_pos h3).mp hp
    linarith
  · by_cases hz : z ≤ 0.08
    · have := div_pos (by linarith : 0 < 15 - s) hp
      linarith
    · push Not at hz
      have key : 30 * (z - 0.08) ≤ h * ((z - 0.08) ^ 2 + 60) := by
        have k1 := mul_le_mul_of_nonneg_right hl (by positivity : (0:ℝ) ≤ (z - 0.08) ^ 2 + 60)
        refine le_trans ?_ k1
        have hz1 : z ≤ 3.1416 := by linarith
        have x0 := sq_nonneg z
        have p1 : (z ^ 2) ^ 2 ≤ 9.87 ^ 2 := pow_le_pow_left₀ x0 hx 2
        have p2 : (z ^ 2) ^ 3 ≤ 9.87 * (z ^ 2) ^ 2 := by nlinarith [sq_nonneg (z ^ 2)]
        have p3 : z ^ 2 - (z ^ 2) ^ 2 / 60 + (z ^ 2) ^ 3 / 10000 ≤ 8.4 := by
          generalize z ^ 2 = x at *
          nlinarith [mul_nonneg (by linarith : 0 ≤ 9.87 - x) (by linarith : 0 ≤ 9.87 - x),
            mul_nonneg x0 (by linarith : 0 ≤ 9.87 - x)]
        have p4 : z * (z ^ 2) ^ 2 ≤ 3.1416 * 9.87 ^ 2 := mul_le_mul hz1 p1 (by positivity) (by norm_num)
        have p5 : 0 ≤ z * (z ^ 2) ^ 3 := by positivity
        have p6 : 0 ≤ z * (1 - z ^ 2 / 60 + z ^ 4 / 10000) := mul_nonneg h0.le (by nlinarith [sq_nonneg (z ^ 2)])
        have p7 : z / 2 * (1 - z ^ 2 / 60 + z ^ 4 / 10000) * ((z - 0.08) ^ 2 + 60) - 30 * (z - 0.08) =
          2.4 - (1 / 60 - 0.006) / 2 * (z * (z ^ 2) ^ 2) + 1 / 20000 * (z * (z ^ 2) ^ 3) +
          0.0032 * (z * (1 - z ^ 2 / 60 + z ^ 4 / 10000)) - 0.08 * (z ^ 2 - (z ^ 2) ^ 2 / 60 + (z ^ 2) ^ 3 / 10000) := by
          norm_num; ring
        norm_num at p4 p7
        linarith
      have : z - 0.08 ≤ (15 - s) / h := by
        rw [le_div_iff₀ hp]
        by_contra hc
        push Not at hc
        have h1' : (15 - (z - 0.08) * h) < s := by linarith
        have hzz : 0 ≤ 15 - (z - 0.08) * h := by nlinarith
        have h2 : (15 - (z - 0.08) * h) ^ 2 < s ^ 2 := pow_lt_pow_left₀ h1' hzz (by norm_num)
        have h3 : 0 < h * (30 * (z - 0.08) - h * ((z - 0.08) ^ 2 + 60)) := by nlinarith
        have := (pos_iff_pos_of_mul_pos h3).mp hp
        linarith
      linarith

open Verif.Cubo in
/-- All updates: two leave an error below `8e-7`, three one below `2e-13`. -/
theorem newton_error {z : ℝ} (h0 : 0 < z) (h1 : z ≤ π) (single : Bool) :
    abs ((newtonUpdate (rad z))^[if single then 2 else 3] ((15 - sqrt (225 - 60 * rad z ^ 2)) / rad z) - z) ≤
      if single then 8e-7 else 2e-13 := by
  obtain ⟨s0, s1, s2⟩ := start_bounds h0 h1
  generalize (15 - sqrt (225 - 60 * rad z ^ 2)) / rad z = w0 at *
  have hpi := pi_lt_d4
  obtain ⟨a1, a2, a3⟩ := update_bounds s0 s1 h1
  have e1 : z - newtonUpdate (rad z) w0 ≤ 1.676e-3 := by
    have : (z - w0) ^ 2 ≤ 0.08 ^ 2 := pow_le_pow_left₀ (by linarith) s2 2
    have := mul_le_mul (by linarith : z / 12 ≤ 3.1416 / 12) this (by positivity) (by norm_num)
    norm_num at this ⊢; linarith
  obtain ⟨b1, b2, b3⟩ := update_bounds (lt_of_lt_of_le s0 a1) a2 h1
  have e2 : z - newtonUpdate (rad z) (newtonUpdate (rad z) w0) ≤ 7.4e-7 := by
    have : (z - newtonUpdate (rad z) w0) ^ 2 ≤ 1.676e-3 ^ 2 := pow_le_pow_left₀ (by linarith) e1 2
    have := mul_le_mul (by linarith : z / 12 ≤ 3.1416 / 12) this (by positivity) (by norm_num)
    norm_num at this ⊢; linarith
  obtain ⟨c1, c2, c3⟩ := update_bounds (lt_of_lt_of_le (lt_of_lt_of_le s0 a1) b1) b2 h1
  have e3 : z - newtonUpdate (rad z) (newtonUpdate (rad z) (newtonUpdate (rad z) w0)) ≤ 1.5e-13 := by
    have : (z - newtonUpdate (rad z) (newtonUpdate (rad z) w0)) ^ 2 ≤ 7.4e-7 ^ 2 := pow_le_pow_left₀ (by linarith) e2 2
    have := mul_le_mul (by linarith : z / 12 ≤ 3.1416 / 12) this (by positivity) (by norm_num)
    norm_num at this ⊢; linarith
  cases single
  · simp only [Bool.false_eq_true, if_false, Function.iterate_succ, Function.iterate_zero, Function.comp, id]
    rw [abs_le]; constructor <;> norm_num at e3 ⊢ <;> linarith
  · simp only [if_true, Function.iterate_succ, Function.iterate_zero, Function.comp, id]
    rw [abs_le]; constructor <;> norm_num at e2 ⊢ <;> linarith

end Verif.HoNewton
