import Verif.Model.KVec
import Verif.Props.Sphere
import Verif.Lemmas.Trig
import Mathlib.Analysis.SpecialFunctions.Trigonometric.Deriv
import Mathlib.Analysis.SpecialFunctions.Sqrt
import Mathlib.Analysis.Real.Pi.Bounds
/-!
C89: the square and hexagon maps of `rosca_lambert.py` and `kvectors.py`.
-/
namespace Verif.KV
open Real Verif.Spec

/-- closed form of the map on the part `|y| ≤ |x|` -/
noncomputable def core (x y : ℝ) : ℝ × ℝ × ℝ :=
  (x * sqrt (2 - x ^ 2) * cos (π * y / (4 * x)), x * sqrt (2 - x ^ 2) * sin (π * y / (4 * x)), 1 - x ^ 2)

theorem ratio_bound {x y : ℝ} (hx : x ≠ 0) (h : |y| ≤ |x|) : |π * y / (4 * x)| ≤ π / 4 := by
  have hp := pi_pos
  have hx' : 0 < |x| := abs_pos.mpr hx
  rw [abs_div, abs_mul, abs_mul, abs_of_pos hp, abs_of_pos (by norm_num : (0:ℝ) < 4), div_le_div_iff₀ (by positivity) (by norm_num)]
  nlinarith

theorem ratio_strict {x y : ℝ} (hx : x ≠ 0) (h : |y| < |x|) : |π * y / (4 * x)| < π / 4 := by
  have hp := pi_pos
  have hx' : 0 < |x| := abs_pos.mpr hx
  rw [abs_div, abs_mul, abs_mul, abs_of_pos hp, abs_of_pos (by norm_num : (0:ℝ) < 4), div_lt_div_iff₀ (by positivity) (by norm_num)]
  nlinarith

theorem abs_arg {x y : ℝ} : π / 4 * (|y| / |x|) = |π * y / (4 * x)| := by
  rw [abs_div, abs_mul, abs_mul, abs_of_pos pi_pos, abs_of_pos (by norm_num : (0:ℝ) < 4)]
  ring

theorem cos_core_pos {x y : ℝ} (hx : x ≠ 0) (h : |y| ≤ |x|) : 0 < cos (π * y / (4 * x)) := by
  have := abs_le.mp (ratio_bound hx h)
  have hp := pi_pos
  exact cos_pos_of_mem_Ioo ⟨by linarith, by linarith⟩

theorem xsin_sign {x y : ℝ} (hx : x ≠ 0) (h : |y| ≤ |x|) :
    (y < 0 → x * sin (π * y / (4 * x)) ≤ 0) ∧ (0 ≤ y → 0 ≤ x * sin (π * y / (4 * x))) := by
  have hb := abs_le.mp (ratio_bound hx h)
  have hp := pi_pos
  rcases lt_or_gt_of_ne hx with h0 | h0
  · constructor
    · intro hy
      have : 0 ≤ π * y / (4 * x) := div_nonneg_of_nonpos (by nlinarith) (by linarith)
      exact mul_nonpos_of_nonpos_of_nonneg h0.le (sin_nonneg_of_nonneg_of_le_pi this (by linarith))
    · intro hy
      have : π * y / (4 * x) ≤ 0 := div_nonpos_of_nonneg_of_nonpos (by positivity) (by linarith)
      exact mul_nonneg_of_nonpos_of_nonpos h0.le (sin_nonpos_of_nonpos_of_neg_pi_le this (by linarith))
  · constructor
    · intro hy
      have : π * y / (4 * x) ≤ 0 := div_nonpos_of_nonpos_of_nonneg (by nlinarith) (by linarith)
      exact mul_nonpos_of_nonneg_of_nonpos h0.le (sin_nonpos_of_nonpos_of_neg_pi_le this (by linarith))
    · intro hy
      have : 0 ≤ π * y / (4 * x) := div_nonneg (by positivity) (by linarith)
      exact mul_nonneg h0.le (sin_nonneg_of_nonneg_of_le_pi this (by linarith))

theorem core_copysign {x y : ℝ} (hx : x ≠ 0) (h : |y| ≤ |x|) :
    copysign (invCore x y).1 x = (core x y).1 ∧ copysign (invCore x y).2 y = (core x y).2.1 := by
  have hc := cos_core_pos hx h
  have hs := xsin_sign hx h
  have hr := sqrt_nonneg (2 - x ^ 2)
  unfold invCore core copysign
  simp only [abs_arg, cos_abs]
  constructor
  · rw [abs_mul, abs_mul, abs_abs, abs_of_nonneg hr, abs_of_pos hc]
    split
    · rename_i h0; rw [abs_of_neg h0]; ring
    · rename_i h0; rw [abs_of_nonneg (not_lt.mp h0)]
  · have e : abs (|x| * sqrt (2 - x ^ 2) * sin |π * y / (4 * x)|) = sqrt (2 - x ^ 2) * abs (x * sin (π * y / (4 * x))) := by
      have : abs (sin |π * y / (4 * x)|) = abs (sin (π * y / (4 * x))) := by
        rcases abs_cases (π * y / (4 * x)) with h | h <;> rw [h.1]
        rw [sin_neg, abs_neg]
      rw [abs_mul, abs_mul, abs_abs, abs_of_nonneg hr, this, abs_mul]; ring
    rw [e]
    split
    · rename_i h0; rw [abs_of_nonpos (hs.1 h0)]; ring
    · rename_i h0; rw [abs_of_nonneg (hs.2 (not_lt.mp h0))]; ring

/-- the kvectors map in closed form -/
theorem squareK_eq (x y : ℝ) : squareToHemisphereK (x, y) =
    if x = 0 ∧ y = 0 then ⟨0, 0, 1⟩ else
    if |y| ≤ |x| then ⟨(core x y).1, (core x y).2.1, (core x y).2.2⟩
    else ⟨(core y x).2.1, (core y x).1, (core y x).2.2⟩ := by
  by_cases h0 : x = 0 ∧ y = 0
  · simp [squareToHemisphereK, h0]
  · rw [if_neg h0]
    have hor : x ≠ 0 ∨ y ≠ 0 := by by_contra hc; push Not at hc; exact h0 hc
    have hi := inv_eq x y hor
    have hk : some (squareToHemisphereK (x, y)) = invRoscaLambert (x, y) := by
      have hn : invRoscaLambert (x, y) ≠ none := by rw [hi]; simp
      have gen : ∀ (c : Prop) (inst : Decidable c) (v : V), (@ite _ c inst none (some v)) ≠ none →
          some v = @ite _ c inst none (some v) := by
        intro c inst v h
        by_cases hcc : c
        · rw [if_pos hcc] at h; exact absurd rfl h
        · rw [if_neg hcc]
      unfold invRoscaLambert at hn ⊢
      unfold squareToHemisphereK
      simp only [if_neg h0]
      exact gen _ _ _ hn
    rw [hi] at hk
    rw [Option.some_inj.mp hk]
    by_cases hc : |y| ≤ |x|
    · have hx : x ≠ 0 := by
        rintro rfl
        simp at hc; exact h0 ⟨rfl, hc⟩
      obtain ⟨a, b⟩ := core_copysign hx hc
      simp only [if_pos hc, a, b]; rfl
    · have hy : y ≠ 0 := by rintro rfl; simp at hc
      obtain ⟨a, b⟩ := core_copysign hy (not_le.mp hc).le
      simp only [if_neg hc, a, b]; rfl

theorem square1_eq (x y : ℝ) : squareToHemisphere (x, y) =
    if x = 0 ∧ y = 0 then none else
    some (if |y| ≤ |x| then ⟨(core x y).1, (core x y).2.1, (core x y).2.2⟩
    else ⟨(core y x).2.1, (core y x).1, (core y x).2.2⟩) := by
  have hpi := Real.pi_pos
  obtain ⟨s, hs, hs2⟩ : ∃ s : ℝ, 0 < s ∧ s ^ 2 = Real.pi / 2 :=
    ⟨_, Real.sqrt_pos.mpr (by positivity), Real.sq_sqrt (by positivity)⟩
  have hsq : Real.sqrt (Real.pi / 2) = s := by rw [← hs2, Real.sqrt_sq hs.le]
  have root : ∀ c : ℝ, Real.sqrt (Real.pi - (c * s) ^ 2) = s * Real.sqrt (2 - c ^ 2) := by
    intro c
    rw [← Real.sqrt_sq hs.le, ← Real.sqrt_mul (by positivity), Real.sqrt_sq hs.le]
    congr 1
    rw [mul_pow, hs2]; ring
  have pre : ∀ c T : ℝ, 2 * (c * s) / Real.pi * (s * T) = c * T := by
    intro c T
    have : Real.pi = 2 * s ^ 2 := by rw [hs2]; ring
    rw [this]; field_simp
  have arg : ∀ c d : ℝ, Real.pi * (d * s) / (4 * (c * s)) = Real.pi * d / (4 * c) := by
    intro c d
    rw [show Real.pi * (d * s) = (Real.pi * d) * s by ring, show 4 * (c * s) = (4 * c) * s by ring,
      mul_div_mul_right _ _ hs.ne']
  have zz : ∀ c : ℝ, 1 - 2 * (c * s) ^ 2 / Real.pi = 1 - c ^ 2 := by
    intro c; rw [mul_pow, hs2]; field_simp
  have hab : |y * s| ≤ |x * s| ↔ |y| ≤ |x| := by
    rw [abs_mul, abs_mul, abs_of_pos hs]; exact mul_le_mul_iff_left₀ hs
  have hz : x * s = 0 ↔ x = 0 := by simp [hs.ne']
  unfold squareToHemisphere core
  simp only [rpow_half, hsq, hab, root, pre, arg, zz, hz]
  by_cases hc : |y| ≤ |x|
  · simp only [if_pos hc]
    by_cases hx : x = 0
    · subst hx
      have : y = 0 := by simpa using hc
      simp [this]
    · simp [hx]
  · have hy : y ≠ 0 := by rintro rfl; simp at hc
    simp [hc, hy]

/-- C89: the three square maps of the package and the inverse of the sphere module agree on every point other than
the centre of the square; at the centre the k-vector map gives the pole and the other three give NaN. -/
theorem C89_agree (p : ℝ × ℝ) :
    (p ≠ (0, 0) → squareToHemisphere p = some (squareToHemisphereK p) ∧
      squareToHemisphereV2 p = some (squareToHemisphereK p) ∧
      invRoscaLambert p = some (squareToHemisphereK p)) ∧
    (p = (0, 0) → squareToHemisphere p = none ∧ squareToHemisphereV2 p = none ∧ invRoscaLambert p = none ∧
      squareToHemisphereK p = ⟨0, 0, 1⟩) := by
  obtain ⟨x, y⟩ := p
  have hv : squareToHemisphereV2 (x, y) = invRoscaLambert (x, y) := rfl
  constructor
  · intro h
    have h0 : ¬ (x = 0 ∧ y = 0) := by rintro ⟨rfl, rfl⟩; exact h rfl
    have hor : x ≠ 0 ∨ y ≠ 0 := by by_contra hc; push Not at hc; exact h0 hc
    have hi : invRoscaLambert (x, y) = some (squareToHemisphereK (x, y)) := by
      rw [inv_eq x y hor, squareK_eq, if_neg h0]
      by_cases hc : |y| ≤ |x|
      · have hx : x ≠ 0 := by
          rintro rfl
          simp at hc; exact h0 ⟨rfl, hc⟩
        obtain ⟨a, b⟩ := core_copysign hx hc
        simp only [if_pos hc, a, b]; rfl
      · have hy : y ≠ 0 := by rintro rfl; simp at hc
        obtain ⟨a, b⟩ := core_copysign hy (not_le.mp hc).le
        simp only [if_neg hc, a, b]; rfl
    refine ⟨?_, hv.trans hi, hi⟩
    rw [square1_eq, squareK_eq, if_neg h0, if_neg h0]
  · intro h
    obtain ⟨rfl, rfl⟩ := Prod.mk.inj h
    have hi : invRoscaLambert (0, 0) = none := by simp [invRoscaLambert]
    refine ⟨by simp [square1_eq], hv.trans hi, hi, by simp [squareK_eq]⟩

example : ((1/2, 0) : ℝ × ℝ) ≠ (0, 0) := by simp

theorem core_facts {x y : ℝ} (hx : |x| ≤ 1) :
    (core x y).1 ^ 2 + (core x y).2.1 ^ 2 + (core x y).2.2 ^ 2 = 1 ∧ 0 ≤ (core x y).2.2 := by
  have h2 : x ^ 2 ≤ 1 := (sq_le_one_iff_abs_le_one x).mpr hx
  have hr : sqrt (2 - x ^ 2) ^ 2 = 2 - x ^ 2 := sq_sqrt (by linarith)
  have ht := sin_sq_add_cos_sq (π * y / (4 * x))
  unfold core
  simp only
  constructor
  · have : (x * sqrt (2 - x ^ 2) * cos (π * y / (4 * x))) ^ 2 + (x * sqrt (2 - x ^ 2) * sin (π * y / (4 * x))) ^ 2
        = x ^ 2 * sqrt (2 - x ^ 2) ^ 2 := by
      linear_combination (x ^ 2 * sqrt (2 - x ^ 2) ^ 2) * ht
    rw [this, hr]; ring
  · linarith

/-- C89: every point of the square goes to a unit vector of the upper hemisphere. -/
theorem C89_unit (x y : ℝ) (hx : |x| ≤ 1) (hy : |y| ≤ 1) :
    IsUnit3 (squareToHemisphereK (x, y)) ∧ 0 ≤ (squareToHemisphereK (x, y)).z := by
  rw [squareK_eq]
  unfold IsUnit3
  split
  · norm_num
  · split
    · obtain ⟨a, b⟩ := core_facts (y := y) hx
      exact ⟨by simp only; linarith, b⟩
    · obtain ⟨a, b⟩ := core_facts (y := x) hy
      exact ⟨by simp only; linarith, b⟩

example : |(1/2 : ℝ)| ≤ 1 ∧ |(-1/3 : ℝ)| ≤ 1 := by constructor <;> rw [abs_le] <;> norm_num

theorem core_neg_fst (x y : ℝ) : core (-x) y = (-(core x y).1, (core x y).2.1, (core x y).2.2) := by
  unfold core
  have : π * y / (4 * -x) = -(π * y / (4 * x)) := by rw [mul_neg, div_neg]
  simp only [this, cos_neg, sin_neg, neg_sq]
  simp

theorem core_neg_snd (x y : ℝ) : core x (-y) = ((core x y).1, -(core x y).2.1, (core x y).2.2) := by
  unfold core
  have : π * -y / (4 * x) = -(π * y / (4 * x)) := by rw [mul_neg, neg_div]
  simp only [this, cos_neg, sin_neg]
  simp

theorem core_diag {x y : ℝ} (h : |y| = |x|) (hx : x ≠ 0) : (core x y).1 = (core y x).2.1 ∧ (core x y).2.1 = (core y x).1
    ∧ (core x y).2.2 = (core y x).2.2 := by
  have e1 : π * x / (4 * x) = π / 4 := by field_simp
  have e2 : π * -x / (4 * x) = -(π / 4) := by field_simp
  have e3 : π * x / (4 * -x) = -(π / 4) := by field_simp
  unfold core
  rcases (abs_eq_abs.mp h) with rfl | rfl
  · simp [e1, cos_pi_div_four, sin_pi_div_four]
  · simp only [e2, e3, cos_neg, sin_neg, neg_sq, cos_pi_div_four, sin_pi_div_four]
    refine ⟨?_, ?_, trivial⟩ <;> ring

/-- C89: reflecting or transposing the square reflects or transposes the hemisphere, so the map carries the
4/mmm symmetry of the square to that of the sphere. -/
theorem C89_equivariant (x y : ℝ) :
    squareToHemisphereK (-x, y) = ⟨-(squareToHemisphereK (x, y)).x, (squareToHemisphereK (x, y)).y, (squareToHemisphereK (x, y)).z⟩ ∧
    squareToHemisphereK (x, -y) = ⟨(squareToHemisphereK (x, y)).x, -(squareToHemisphereK (x, y)).y, (squareToHemisphereK (x, y)).z⟩ ∧
    squareToHemisphereK (y, x) = ⟨(squareToHemisphereK (x, y)).y, (squareToHemisphereK (x, y)).x, (squareToHemisphereK (x, y)).z⟩ := by
  simp only [squareK_eq, abs_neg, neg_eq_zero]
  by_cases h0 : x = 0 ∧ y = 0
  · simp [h0]
  · rw [if_neg h0]
    refine ⟨?_, ?_, ?_⟩
    · by_cases hc : |y| ≤ |x|
      · simp [hc, h0, core_neg_fst]
      · simp [hc, h0, core_neg_snd]
    · by_cases hc : |y| ≤ |x|
      · simp [hc, h0, core_neg_snd]
      · simp [hc, h0, core_neg_fst]
    · rw [if_neg (by tauto)]
      rcases lt_trichotomy |x| |y| with h | h | h
      · simp [h.le, not_le.mpr h, h0]
      · have hx : x ≠ 0 := by
          rintro rfl
          have : y = 0 := by simpa using h.symm
          exact h0 ⟨rfl, this⟩
        obtain ⟨a, b, c⟩ := core_diag h.symm hx
        simp [h, a, b, c, h0]
      · simp [h.le, not_le.mpr h, h0]

theorem negOne_mul_abs (x : ℝ) : negOne x * |x| = x := by
  unfold negOne; split
  · rename_i h; rw [abs_of_neg h]; ring
  · rename_i h; rw [abs_of_nonneg (not_lt.mp h)]; ring

/-- one case of the forward projection of an image point -/
theorem rosca_core {x y : ℝ} (hx0 : x ≠ 0) (hx : |x| ≤ 1) (h : |y| ≤ |x|) :
    |(core x y).2.1| ≤ |(core x y).1| ∧ (|y| < |x| → |(core x y).2.1| < |(core x y).1|) ∧ negOne (core x y).1 = negOne x ∧
    sqrt (max (1 - |(core x y).2.2|) 0) = |x| ∧ 4 / π * rlAngle (core x y).1 (core x y).2.1 = y / x := by
  have h2 : x ^ 2 ≤ 1 := (sq_le_one_iff_abs_le_one x).mpr hx
  have hx2 := sq_pos_of_ne_zero hx0
  have hr : 0 < sqrt (2 - x ^ 2) := sqrt_pos.mpr (by linarith)
  have hc := cos_core_pos hx0 h
  have hb := abs_le.mp (ratio_bound hx0 h)
  have hp := pi_pos
  have hxa := abs_pos.mpr hx0
  have ha : abs (core x y).1 = |x| * sqrt (2 - x ^ 2) * cos (π * y / (4 * x)) := by
    unfold core; simp only; rw [abs_mul, abs_mul, abs_of_pos hr, abs_of_pos hc]
  have hs : abs (core x y).2.1 = |x| * sqrt (2 - x ^ 2) * sin |π * y / (4 * x)| := by
    have hb' := ratio_bound hx0 h
    have hsn : 0 ≤ sin |π * y / (4 * x)| := sin_nonneg_of_nonneg_of_le_pi (abs_nonneg _) (by linarith)
    have : abs (sin (π * y / (4 * x))) = sin |π * y / (4 * x)| := by
      rw [← abs_of_nonneg hsn]
      rcases abs_cases (π * y / (4 * x)) with h | h <;> rw [h.1]
      rw [sin_neg, abs_neg]
    unfold core; simp only; rw [abs_mul, abs_mul, abs_of_pos hr, this]
  have hneg : negOne (core x y).1 = negOne x := by
    have : (core x y).1 < 0 ↔ x < 0 := by
      have : (core x y).1 = (sqrt (2 - x ^ 2) * cos (π * y / (4 * x))) * x := by unfold core; ring
      rw [this]
      constructor
      · intro h'; by_contra hc'; have := mul_nonneg (mul_pos hr hc).le (not_lt.mp hc'); linarith
      · intro h'; exact mul_neg_of_pos_of_neg (mul_pos hr hc) h'
    unfold negOne; simp only [this]
  refine ⟨?_, ?_, hneg, ?_, ?_⟩
  · rw [ha, hs]
    have hb' := ratio_bound hx0 h
    refine mul_le_mul_of_nonneg_left ?_ (by positivity)
    rw [← cos_abs (π * y / (4 * x)), ← cos_pi_div_two_sub]
    exact cos_le_cos_of_nonneg_of_le_pi (abs_nonneg _) (by linarith [abs_nonneg (π * y / (4 * x))]) (by linarith)
  · intro h'
    rw [ha, hs]
    have hb' := ratio_strict hx0 h'
    refine mul_lt_mul_of_pos_left ?_ (by positivity)
    rw [← cos_abs (π * y / (4 * x)), ← cos_pi_div_two_sub]
    exact cos_lt_cos_of_nonneg_of_le_pi (abs_nonneg _) (by linarith [abs_nonneg (π * y / (4 * x))]) (by linarith)
  · have : (core x y).2.2 = 1 - x ^ 2 := rfl
    rw [this, abs_of_nonneg (by linarith), max_eq_left (by linarith), show 1 - (1 - x ^ 2) = x ^ 2 by ring, sqrt_sq_eq_abs]
  · have e : rlAngle (core x y).1 (core x y).2.1 = π * y / (4 * x) := by
      unfold rlAngle
      rw [hneg, ha]
      have h1 : (core x y).2.1 * negOne x = |x| * sqrt (2 - x ^ 2) * sin (π * y / (4 * x)) := by
        unfold core; simp only
        rw [← negOne_mul_self x]; ring
      rw [h1]
      exact atan2_of_polar (by positivity) (by linarith) (by linarith)
    rw [e]; field_simp

/-- C89: the forward projection inverts the square map at every point of the square other than the centre. -/
theorem C89_forward (x y : ℝ) (hx : |x| ≤ 1) (hy : |y| ≤ 1) (h0 : ¬ (x = 0 ∧ y = 0)) :
    roscaLambert (squareToHemisphereK (x, y)) = (x, y) := by
  rw [squareK_eq, if_neg h0, rosca_eq]
  by_cases hc : |y| ≤ |x|
  · have hx0 : x ≠ 0 := by
      rintro rfl
      simp at hc; exact h0 ⟨rfl, hc⟩
    obtain ⟨a, -, b, c, d⟩ := rosca_core hx0 hx hc
    simp only [if_pos hc, if_pos a, b, c, d, negOne_mul_abs]
    rw [mul_div_cancel₀ _ hx0]
  · have hc' := not_le.mp hc
    have hy0 : y ≠ 0 := by rintro rfl; simp at hc
    obtain ⟨-, a, b, c, d⟩ := rosca_core hy0 hy hc'.le
    simp only [if_neg hc, if_neg (not_le.mpr (a hc')), b, c, d, negOne_mul_abs]
    rw [mul_div_cancel₀ _ hy0]

example : |(1/2 : ℝ)| ≤ 1 ∧ |(-1/3 : ℝ)| ≤ 1 ∧ ¬ ((1/2 : ℝ) = 0 ∧ (-1/3 : ℝ) = 0) := by
  refine ⟨?_, ?_, ?_⟩ <;> norm_num [abs_le]

/-- C89: the k-vector square map is a bijection from the closed square onto the closed upper hemisphere. -/
theorem C89_bijective : Set.BijOn squareToHemisphereK {p | |p.1| ≤ 1 ∧ |p.2| ≤ 1} {v | IsUnit3 v ∧ 0 ≤ v.z} := by
  have pole_only : ∀ x y : ℝ, |x| ≤ 1 → |y| ≤ 1 → squareToHemisphereK (x, y) = ⟨0, 0, 1⟩ → x = 0 ∧ y = 0 := by
    intro x y hx hy h
    by_contra h0
    have hz : (squareToHemisphereK (x, y)).z = 1 := by rw [h]
    rw [squareK_eq, if_neg h0] at hz
    by_cases hc : |y| ≤ |x|
    · simp only [if_pos hc, core] at hz
      have : x = 0 := by nlinarith [sq_nonneg x]
      subst this; simp at hc; exact h0 ⟨rfl, hc⟩
    · simp only [if_neg hc, core] at hz
      have : y = 0 := by nlinarith [sq_nonneg y]
      subst this; simp at hc
  have hpole : squareToHemisphereK (0, 0) = ⟨0, 0, 1⟩ := by simp [squareK_eq]
  refine ⟨?_, ?_, ?_⟩
  · rintro ⟨x, y⟩ ⟨hx, hy⟩
    exact C89_unit x y hx hy
  · rintro ⟨x, y⟩ ⟨hx, hy⟩ ⟨u, v⟩ ⟨hu, hv⟩ h
    by_cases h0 : x = 0 ∧ y = 0
    · obtain ⟨rfl, rfl⟩ := h0
      rw [hpole] at h
      obtain ⟨rfl, rfl⟩ := pole_only u v hu hv h.symm
      rfl
    · by_cases h1 : u = 0 ∧ v = 0
      · obtain ⟨rfl, rfl⟩ := h1
        rw [hpole] at h
        exact absurd (pole_only x y hx hy h) h0
      · rw [← C89_forward x y hx hy h0, h, C89_forward u v hu hv h1]
  · rintro v ⟨hv, hz⟩
    by_cases h1 : v.z = 1
    · refine ⟨(0, 0), by simp, ?_⟩
      rw [hpole]
      unfold IsUnit3 at hv
      rw [h1] at hv
      have : v.x = 0 := by nlinarith [sq_nonneg v.x, sq_nonneg v.y]
      have : v.y = 0 := by nlinarith [sq_nonneg v.x, sq_nonneg v.y]
      obtain ⟨a, b, c⟩ := v; simp_all
    · have hr := C20_roundtrip v hv hz h1
      refine ⟨roscaLambert v, C20_range v, ?_⟩
      by_cases h0 : roscaLambert v = (0, 0)
      · rw [((C89_agree _).2 h0).2.2.1] at hr; simp at hr
      · rw [((C89_agree _).1 h0).2.2] at hr
        exact Option.some_inj.mp hr

/-! ### equal area -/

theorem core_deriv {x y : ℝ} (hx0 : x ≠ 0) (hx : x ^ 2 < 2) :
    HasDerivAt (fun t => (core t y).1) ((2 - 2 * x ^ 2) / sqrt (2 - x ^ 2) * cos (π * y / (4 * x)) +
      x * sqrt (2 - x ^ 2) * (sin (π * y / (4 * x)) * (π * y / (4 * x ^ 2)))) x ∧
    HasDerivAt (fun t => (core t y).2.1) ((2 - 2 * x ^ 2) / sqrt (2 - x ^ 2) * sin (π * y / (4 * x)) -
      x * sqrt (2 - x ^ 2) * (cos (π * y / (4 * x)) * (π * y / (4 * x ^ 2)))) x ∧
    HasDerivAt (fun t => (core t y).2.2) (-(2 * x)) x ∧
    HasDerivAt (fun t => (core x t).1) (-(sqrt (2 - x ^ 2) * sin (π * y / (4 * x)) * (π / 4))) y ∧
    HasDerivAt (fun t => (core x t).2.1) (sqrt (2 - x ^ 2) * cos (π * y / (4 * x)) * (π / 4)) y ∧
    HasDerivAt (fun t => (core x t).2.2) 0 y := by
  have hpos : 0 < 2 - x ^ 2 := by linarith
  have hr : 0 < sqrt (2 - x ^ 2) := sqrt_pos.mpr hpos
  have hr2 : sqrt (2 - x ^ 2) ^ 2 = 2 - x ^ 2 := sq_sqrt hpos.le
  have hq : HasDerivAt (fun t : ℝ => 2 - t ^ 2) (-(2 * x)) x := by
    have := (hasDerivAt_pow 2 x).const_sub 2
    simpa using this
  have hsq : HasDerivAt (fun t : ℝ => sqrt (2 - t ^ 2)) (-(2 * x) / (2 * sqrt (2 - x ^ 2))) x := hq.sqrt hpos.ne'
  have hρ : HasDerivAt (fun t : ℝ => t * sqrt (2 - t ^ 2)) ((2 - 2 * x ^ 2) / sqrt (2 - x ^ 2)) x := by
    have h := (hasDerivAt_id x).mul hsq
    refine h.congr_deriv ?_
    simp only [id]
    field_simp
    rw [hr2]; ring
  have ha : HasDerivAt (fun t : ℝ => π * y / (4 * t)) (-(π * y / (4 * x ^ 2))) x := by
    have h := ((hasDerivAt_id x).const_mul 4).inv (by simpa using hx0)
    have h' := h.const_mul (π * y)
    refine (h'.congr_deriv ?_)
    simp only [id]
    field_simp
  have hb : HasDerivAt (fun t : ℝ => π * t / (4 * x)) (π / (4 * x)) y := by
    have h := ((hasDerivAt_id y).const_mul π).div_const (4 * x)
    simpa using h
  unfold core
  refine ⟨?_, ?_, ?_, ?_, ?_, ?_⟩
  · refine (hρ.mul ha.cos).congr_deriv ?_; ring
  · refine (hρ.mul ha.sin).congr_deriv ?_; ring
  · have := (hasDerivAt_pow 2 x).const_sub 1
    simpa using this
  · refine (hb.cos.const_mul (x * sqrt (2 - x ^ 2))).congr_deriv ?_; field_simp
  · refine (hb.sin.const_mul (x * sqrt (2 - x ^ 2))).congr_deriv ?_; field_simp
  · exact hasDerivAt_const _ _

/-- the surface element `‖u × v‖²` of a parametrised surface with tangent vectors `u`, `v` -/
def crossSq (u v : V) : ℝ :=
  (u.y * v.z - u.z * v.y) ^ 2 + (u.z * v.x - u.x * v.z) ^ 2 + (u.x * v.y - u.y * v.x) ^ 2

/-- `f` has the partial derivatives `u` (in x) and `v` (in y) at `(x, y)` -/
def HasPartials (f : ℝ × ℝ → V) (x y : ℝ) (u v : V) : Prop :=
  HasDerivAt (fun t => (f (t, y)).x) u.x x ∧ HasDerivAt (fun t => (f (t, y)).y) u.y x ∧
  HasDerivAt (fun t => (f (t, y)).z) u.z x ∧ HasDerivAt (fun t => (f (x, t)).x) v.x y ∧
  HasDerivAt (fun t => (f (x, t)).y) v.y y ∧ HasDerivAt (fun t => (f (x, t)).z) v.z y

theorem cross_core {x y : ℝ} (hx : x ^ 2 < 2) (a b c d e : ℝ)
    (ha : a = (2 - 2 * x ^ 2) / sqrt (2 - x ^ 2) * cos (π * y / (4 * x)) +
      x * sqrt (2 - x ^ 2) * (sin (π * y / (4 * x)) * (π * y / (4 * x ^ 2))))
    (hb : b = (2 - 2 * x ^ 2) / sqrt (2 - x ^ 2) * sin (π * y / (4 * x)) -
      x * sqrt (2 - x ^ 2) * (cos (π * y / (4 * x)) * (π * y / (4 * x ^ 2))))
    (hc : c = -(2 * x)) (hd : d = -(sqrt (2 - x ^ 2) * sin (π * y / (4 * x)) * (π / 4)))
    (he : e = sqrt (2 - x ^ 2) * cos (π * y / (4 * x)) * (π / 4)) :
    (c * e) ^ 2 + (c * d) ^ 2 + (a * e - b * d) ^ 2 = (π / 2) ^ 2 := by
  have hpos : 0 < 2 - x ^ 2 := by linarith
  have hr : 0 < sqrt (2 - x ^ 2) := sqrt_pos.mpr hpos
  have hr2 : sqrt (2 - x ^ 2) ^ 2 = 2 - x ^ 2 := sq_sqrt hpos.le
  set r := sqrt (2 - x ^ 2)
  set C := cos (π * y / (4 * x))
  set S := sin (π * y / (4 * x))
  have ht : S ^ 2 + C ^ 2 = 1 := sin_sq_add_cos_sq _
  have h1 : a * e - b * d = (2 - 2 * x ^ 2) * (π / 4) := by
    have : a * e - b * d = ((2 - 2 * x ^ 2) / r * r) * (π / 4) * (S ^ 2 + C ^ 2) := by rw [ha, hb, hd, he]; ring
    rw [this, ht, div_mul_cancel₀ _ hr.ne', mul_one]
  have h2 : (c * e) ^ 2 + (c * d) ^ 2 = 4 * x ^ 2 * r ^ 2 * (π / 4) ^ 2 := by
    have : (c * e) ^ 2 + (c * d) ^ 2 = 4 * x ^ 2 * r ^ 2 * (π / 4) ^ 2 * (S ^ 2 + C ^ 2) := by rw [hc, hd, he]; ring
    rw [this, ht, mul_one]
  rw [h1, h2, hr2]; ring

/-- C89: the square map is equal-area: off the diagonals it is differentiable and its surface element is the constant
`π/2`, the ratio of the hemisphere's area `2π` to the square's area `4`. -/
theorem C89_equal_area (x y : ℝ) (hx : |x| ≤ 1) (hy : |y| ≤ 1) (hd : |x| ≠ |y|) :
    ∃ u v : V, HasPartials squareToHemisphereK x y u v ∧ crossSq u v = (π / 2) ^ 2 := by
  have hx2 : x ^ 2 < 2 := by have := (sq_le_one_iff_abs_le_one x).mpr hx; linarith
  have hy2 : y ^ 2 < 2 := by have := (sq_le_one_iff_abs_le_one y).mpr hy; linarith
  rcases lt_or_gt_of_ne hd with h | h
  · -- |x| < |y|
    have hy0 : y ≠ 0 := by rintro rfl; simp at h; linarith [abs_nonneg x]
    obtain ⟨d1, d2, d3, d4, d5, d6⟩ := core_deriv (y := x) hy0 hy2
    have n1 : ∀ᶠ t in nhds x, squareToHemisphereK (t, y) = ⟨(core y t).2.1, (core y t).1, (core y t).2.2⟩ := by
      filter_upwards [(continuous_abs.tendsto x).eventually_lt_const h] with t ht
      rw [squareK_eq, if_neg (fun hh => hy0 hh.2), if_neg (not_le.mpr ht)]
    have n2 : ∀ᶠ t in nhds y, squareToHemisphereK (x, t) = ⟨(core t x).2.1, (core t x).1, (core t x).2.2⟩ := by
      filter_upwards [(continuous_abs.tendsto y).eventually_const_lt h, isOpen_ne.mem_nhds hy0] with t ht ht0
      rw [squareK_eq, if_neg (fun hh => ht0 hh.2), if_neg (not_le.mpr ht)]
    refine ⟨⟨_, _, _⟩, ⟨_, _, _⟩, ⟨d5.congr_of_eventuallyEq (n1.mono fun t ht => by simp only [ht]),
      d4.congr_of_eventuallyEq (n1.mono fun t ht => by simp only [ht]), d6.congr_of_eventuallyEq (n1.mono fun t ht => by simp only [ht]),
      d2.congr_of_eventuallyEq (n2.mono fun t ht => by simp only [ht]), d1.congr_of_eventuallyEq (n2.mono fun t ht => by simp only [ht]),
      d3.congr_of_eventuallyEq (n2.mono fun t ht => by simp only [ht])⟩, ?_⟩
    rw [← cross_core (y := x) hy2 _ _ _ _ _ rfl rfl rfl rfl rfl]
    unfold crossSq; simp only; ring
  · have hx0 : x ≠ 0 := by rintro rfl; simp at h; linarith [abs_nonneg y]
    obtain ⟨d1, d2, d3, d4, d5, d6⟩ := core_deriv (y := y) hx0 hx2
    have n1 : ∀ᶠ t in nhds x, squareToHemisphereK (t, y) = ⟨(core t y).1, (core t y).2.1, (core t y).2.2⟩ := by
      filter_upwards [(continuous_abs.tendsto x).eventually_const_lt h, isOpen_ne.mem_nhds hx0] with t ht ht0
      rw [squareK_eq, if_neg (fun hh => ht0 hh.1), if_pos ht.le]
    have n2 : ∀ᶠ t in nhds y, squareToHemisphereK (x, t) = ⟨(core x t).1, (core x t).2.1, (core x t).2.2⟩ := by
      filter_upwards [(continuous_abs.tendsto y).eventually_lt_const h] with t ht
      rw [squareK_eq, if_neg (fun hh => hx0 hh.1), if_pos ht.le]
    refine ⟨⟨_, _, _⟩, ⟨_, _, _⟩, ⟨d1.congr_of_eventuallyEq (n1.mono fun t ht => by simp only [ht]),
      d2.congr_of_eventuallyEq (n1.mono fun t ht => by simp only [ht]), d3.congr_of_eventuallyEq (n1.mono fun t ht => by simp only [ht]),
      d4.congr_of_eventuallyEq (n2.mono fun t ht => by simp only [ht]), d5.congr_of_eventuallyEq (n2.mono fun t ht => by simp only [ht]),
      d6.congr_of_eventuallyEq (n2.mono fun t ht => by simp only [ht])⟩, ?_⟩
    rw [← cross_core (y := y) hx2 _ _ _ _ _ rfl rfl rfl rfl rfl]
    unfold crossSq; simp only; ring

example : |(1/2 : ℝ)| ≤ 1 ∧ |(1/3 : ℝ)| ≤ 1 ∧ |(1/2 : ℝ)| ≠ |(1/3 : ℝ)| := by
  refine ⟨?_, ?_, ?_⟩ <;> norm_num [abs_le]

end Verif.KV
