import Verif.Props.FzHaar
import Verif.Props.Sampling
/-! C162: `so3_uniform_quat` draws orientations with the uniform distribution. -/
namespace Verif.Cubo
open Verif Verif.Samp Real MeasureTheory

/-- The quaternion of one row of draws. -/
noncomputable def quatOfDraw (d : Fin 3 → ℝ) : Q := ⟨√(1 - d 0) * sin (2 * π * d 1), √(1 - d 0) * cos (2 * π * d 1), √(d 0) * sin (2 * π * d 2), √(d 0) * cos (2 * π * d 2)⟩

theorem quatOfDraw_eq (d : Fin 3 → ℝ) : so3UniformQuat [ofComp d] = [quatOfDraw d] := rfl

/-! ### The Jacobian -/

theorem volume_of_rows4_const {F : (Fin 4 → ℝ) → Fin 4 → ℝ} {M : (Fin 4 → ℝ) → Matrix (Fin 4) (Fin 4) ℝ} {B : Set (Fin 4 → ℝ)} {c : ℝ}
    (hB : MeasurableSet B) (h : ∀ u ∈ B, ∀ i, D4 (fun v => F v i) (M u i) u) (hdet : ∀ u ∈ B, |(M u).det| = c)
    (hinj : Set.InjOn F B) : volume (F '' B) = ENNReal.ofReal c * volume B := by
  have hd : ∀ u ∈ B, HasFDerivWithinAt F (LinearMap.toContinuousLinearMap (Matrix.toLin' (M u))) B u := by
    intro u hu
    apply HasFDerivAt.hasFDerivWithinAt
    rw [hasFDerivAt_pi']
    intro i
    refine (h u hu i).congr_fderiv ?_
    ext v
    simp [Matrix.mulVec, dotProduct]
  rw [← lintegral_abs_det_fderiv_eq_addHaar_image volume hB hd hinj, setLIntegral_congr_fun hB (g := fun _ => ENNReal.ofReal c), setLIntegral_const]
  intro u hu
  simp only [LinearMap.det_toContinuousLinearMap, LinearMap.det_toLin', hdet u hu]

theorem hopf_det (a b c d S C S' C' p : ℝ) (x y : ℝ) :
    (Matrix.of ![![a * S, b * S, x * (p * C), 0], ![a * C, b * C, x * (-(p * S)), 0],
      ![c * S', d * S', 0, y * (p * C')], ![c * C', d * C', 0, y * (-(p * S'))]]).det =
      -(p ^ 2 * x * y * (a * d - b * c) * (S ^ 2 + C ^ 2) * (S' ^ 2 + C' ^ 2)) := by
  rw [Matrix.det_succ_row_zero]
  simp [Fin.sum_univ_succ, Matrix.det_fin_three, Matrix.submatrix, Fin.succAbove]
  ring

/-- Radius coordinate and draws to a point of the unit ball. -/
noncomputable def drawMap (y : Fin 4 → ℝ) : Fin 4 → ℝ :=
  ![√(2 * √(y 0) * (1 - y 1)) * sin (2 * π * y 2), √(2 * √(y 0) * (1 - y 1)) * cos (2 * π * y 2),
    √(2 * √(y 0) * y 1) * sin (2 * π * y 3), √(2 * √(y 0) * y 1) * cos (2 * π * y 3)]

theorem drawMap_deriv (y : Fin 4 → ℝ) (h0 : 0 < y 0) (h1 : 0 < y 1) (h2 : y 1 < 1) :
    ∃ M : Matrix (Fin 4) (Fin 4) ℝ, (∀ i, D4 (fun v => drawMap v i) (M i) y) ∧ |M.det| = 2 * π ^ 2 := by
  obtain ⟨s, hs⟩ : ∃ s, s = 2 * √(y 0) := ⟨_, rfl⟩
  have s0 : 0 < s := by rw [hs]; have := sqrt_pos.mpr h0; linarith
  have da : HasDerivAt (fun t => 2 * √t) (2 / s) (y 0) := by
    have := (hasDerivAt_sqrt h0.ne').const_mul 2
    refine this.congr_deriv ?_
    rw [hs]; field_simp
  have dS := D4.comp (φ := fun t => 2 * √t) da (D4.coord 0 y)
  have dm : HasDerivAt (fun t : ℝ => 1 - t) (-1) (y 1) := by simpa using (hasDerivAt_id (y 1)).const_sub 1
  have dU := D4.comp (φ := fun t : ℝ => 1 - t) dm (D4.coord 1 y)
  have dA0 := dS.mul dU
  have dB0 := dS.mul (D4.coord 1 y)
  have hA : 0 < 2 * √(y 0) * (1 - y 1) := by rw [← hs]; exact mul_pos s0 (by linarith)
  have hB : 0 < 2 * √(y 0) * y 1 := by rw [← hs]; exact mul_pos s0 h1
  have dA := D4.comp (φ := fun t => √t) (hasDerivAt_sqrt hA.ne') dA0
  have dB := D4.comp (φ := fun t => √t) (hasDerivAt_sqrt hB.ne') dB0
  have dsin : ∀ t, HasDerivAt (fun t => sin (2 * π * t)) (2 * π * cos (2 * π * t)) t := fun t => by
    have := ((hasDerivAt_id t).const_mul (2 * π)).sin
    refine this.congr_deriv ?_
    simp; ring
  have dcos : ∀ t, HasDerivAt (fun t => cos (2 * π * t)) (-(2 * π * sin (2 * π * t))) t := fun t => by
    have := ((hasDerivAt_id t).const_mul (2 * π)).cos
    refine this.congr_deriv ?_
    simp; ring
  have r0 := dA.mul (D4.comp (φ := fun t => sin (2 * π * t)) (dsin (y 2)) (D4.coord 2 y))
  have r1 := dA.mul (D4.comp (φ := fun t => cos (2 * π * t)) (dcos (y 2)) (D4.coord 2 y))
  have r2 := dB.mul (D4.comp (φ := fun t => sin (2 * π * t)) (dsin (y 3)) (D4.coord 3 y))
  have r3 := dB.mul (D4.comp (φ := fun t => cos (2 * π * t)) (dcos (y 3)) (D4.coord 3 y))
  obtain ⟨a, ha⟩ : ∃ a, a = √(2 * √(y 0) * (1 - y 1)) := ⟨_, rfl⟩
  obtain ⟨b, hb⟩ : ∃ b, b = √(2 * √(y 0) * y 1) := ⟨_, rfl⟩
  have a0 : 0 < a := by rw [ha]; exact sqrt_pos.mpr hA
  have b0 : 0 < b := by rw [hb]; exact sqrt_pos.mpr hB
  rw [← ha] at r0 r1
  rw [← hb] at r2 r3
  rw [← hs] at r0 r1 r2 r3
  refine ⟨Matrix.of ![![(1 - y 1) / (s * a) * sin (2 * π * y 2), -(s / (2 * a)) * sin (2 * π * y 2), a * (2 * π * cos (2 * π * y 2)), 0],
      ![(1 - y 1) / (s * a) * cos (2 * π * y 2), -(s / (2 * a)) * cos (2 * π * y 2), a * (-(2 * π * sin (2 * π * y 2))), 0],
      ![y 1 / (s * b) * sin (2 * π * y 3), s / (2 * b) * sin (2 * π * y 3), 0, b * (2 * π * cos (2 * π * y 3))],
      ![y 1 / (s * b) * cos (2 * π * y 3), s / (2 * b) * cos (2 * π * y 3), 0, b * (-(2 * π * sin (2 * π * y 3)))]], ?_, ?_⟩
  · intro i
    fin_cases i
    · refine r0.congr fun j => ?_
      fin_cases j <;> simp <;> field_simp
    · refine r1.congr fun j => ?_
      fin_cases j <;> simp <;> field_simp
    · refine r2.congr fun j => ?_
      fin_cases j <;> simp <;> field_simp
    · refine r3.congr fun j => ?_
      fin_cases j <;> simp <;> field_simp
  · rw [hopf_det, sin_sq_add_cos_sq, sin_sq_add_cos_sq, abs_neg]
    have e : (2 * π) ^ 2 * a * b * ((1 - y 1) / (s * a) * (s / (2 * b)) - -(s / (2 * a)) * (y 1 / (s * b))) * 1 * 1 = 2 * π ^ 2 := by
      field_simp; ring
    rw [e, abs_of_pos (by positivity)]

theorem turn_unique {v w : ℝ} (hv : 0 ≤ v ∧ v < 1) (hw : 0 ≤ w ∧ w < 1) (hs : sin (2 * π * v) = sin (2 * π * w))
    (hc : cos (2 * π * v) = cos (2 * π * w)) : v = w := by
  have hp := pi_pos
  have h1 : cos (2 * π * v - 2 * π * w) = 1 := by
    rw [cos_sub, hs, hc]; nlinarith [sin_sq_add_cos_sq (2 * π * w)]
  have := (cos_eq_one_iff_of_lt_of_lt (x := 2 * π * v - 2 * π * w) (by nlinarith) (by nlinarith)).mp h1
  have h2 : 2 * π * (v - w) = 0 := by linarith
  have : v - w = 0 := by
    rcases mul_eq_zero.mp h2 with h | h
    · nlinarith
    · exact h
  linarith

/-- The coordinates of the ball. -/
def drawBox : Set (Fin 4 → ℝ) := {y | y 0 ∈ Set.Ioo (0 : ℝ) (1 / 4) ∧ tail4 y ∈ {d : Fin 3 → ℝ | 0 < d 0 ∧ d 0 < 1 ∧ (0 ≤ d 1 ∧ d 1 < 1) ∧ 0 ≤ d 2 ∧ d 2 < 1}}

theorem drawBox_facts {y : Fin 4 → ℝ} (h : y ∈ drawBox) : 0 < y 0 ∧ y 0 < 1 / 4 ∧ 0 < y 1 ∧ y 1 < 1 ∧ (0 ≤ y 2 ∧ y 2 < 1) ∧ (0 ≤ y 3 ∧ y 3 < 1) := by
  obtain ⟨⟨a, b⟩, c, d, e, f⟩ := h
  exact ⟨a, b, c, d, e, f⟩

theorem drawMap_sq {y : Fin 4 → ℝ} (h : y ∈ drawBox) : drawMap y 0 ^ 2 + drawMap y 1 ^ 2 = 2 * √(y 0) * (1 - y 1) ∧
    drawMap y 2 ^ 2 + drawMap y 3 ^ 2 = 2 * √(y 0) * y 1 := by
  obtain ⟨h0, -, h1, h2, -, -⟩ := drawBox_facts h
  have q1 : 0 ≤ 2 * √(y 0) * (1 - y 1) := mul_nonneg (by positivity) (by linarith)
  have q2 : 0 ≤ 2 * √(y 0) * y 1 := by positivity
  constructor
  · show (√(2 * √(y 0) * (1 - y 1)) * sin (2 * π * y 2)) ^ 2 + (√(2 * √(y 0) * (1 - y 1)) * cos (2 * π * y 2)) ^ 2 = _
    rw [mul_pow, mul_pow, sq_sqrt q1, ← mul_add, sin_sq_add_cos_sq, mul_one]
  · show (√(2 * √(y 0) * y 1) * sin (2 * π * y 3)) ^ 2 + (√(2 * √(y 0) * y 1) * cos (2 * π * y 3)) ^ 2 = _
    rw [mul_pow, mul_pow, sq_sqrt q2, ← mul_add, sin_sq_add_cos_sq, mul_one]

theorem drawMap_inj : Set.InjOn drawMap drawBox := by
  intro y hy z hz e
  obtain ⟨h0, -, h1, h2, h3, h4⟩ := drawBox_facts hy
  obtain ⟨k0, -, k1, k2, k3, k4⟩ := drawBox_facts hz
  have a := drawMap_sq hy
  have b := drawMap_sq hz
  rw [e] at a
  have e1 := a.1.symm.trans b.1
  have e2 := a.2.symm.trans b.2
  have es : √(y 0) = √(z 0) := by linarith
  have e0 : y 0 = z 0 := (sqrt_inj h0.le k0.le).mp es
  have ez := sqrt_pos.mpr k0
  have eu : y 1 = z 1 := by
    rw [es] at e2
    exact mul_left_cancel₀ (by positivity) e2
  have q1 : 0 < √(2 * √(z 0) * (1 - z 1)) := sqrt_pos.mpr (mul_pos (by positivity) (by linarith))
  have q2 : 0 < √(2 * √(z 0) * z 1) := sqrt_pos.mpr (by positivity)
  have c0 := congrFun e 0
  have c1 := congrFun e 1
  have c2 := congrFun e 2
  have c3 := congrFun e 3
  simp only [drawMap, Matrix.cons_val, e0, eu] at c0 c1 c2 c3
  have f2 := turn_unique h3 k3 (mul_left_cancel₀ q1.ne' c0) (mul_left_cancel₀ q1.ne' c1)
  have f3 := turn_unique h4 k4 (mul_left_cancel₀ q2.ne' c2) (mul_left_cancel₀ q2.ne' c3)
  ext i
  fin_cases i
  exacts [e0, eu, f2, f3]

theorem drawMap_norm {y : Fin 4 → ℝ} (h : y ∈ drawBox) : norm4 (drawMap y) = √(2 * √(y 0)) := by
  obtain ⟨a, b⟩ := drawMap_sq h
  unfold norm4
  congr 1
  linarith

theorem drawMap_unit {y : Fin 4 → ℝ} (h : y ∈ drawBox) : unitQ (drawMap y) = quatOfDraw (tail4 y) := by
  obtain ⟨h0, -, h1, h2, -, -⟩ := drawBox_facts h
  have hs : 0 < 2 * √(y 0) := by have := sqrt_pos.mpr h0; linarith
  have hs' : √(2 * √(y 0)) ≠ 0 := (sqrt_pos.mpr hs).ne'
  unfold unitQ
  rw [drawMap_norm h]
  simp only [drawMap, Matrix.cons_val, quatOfDraw, tail4, Fin.succ_zero_eq_one, Fin.succ_one_eq_two, show (Fin.succ 2 : Fin 4) = 3 from rfl]
  rw [sqrt_mul hs.le, sqrt_mul hs.le]
  ext <;> simp only <;> field_simp

theorem turn_exists (a b : ℝ) (h : 0 < a ^ 2 + b ^ 2) : ∃ v, 0 ≤ v ∧ v < 1 ∧ a = √(a ^ 2 + b ^ 2) * sin (2 * π * v) ∧ b = √(a ^ 2 + b ^ 2) * cos (2 * π * v) := by
  have hp := pi_pos
  have hr := sqrt_pos.mpr h
  let z : ℂ := ⟨b, a⟩
  have hz : ‖z‖ = √(a ^ 2 + b ^ 2) := by
    rw [Complex.norm_def, Complex.normSq_mk]; congr 1; ring
  have hz0 : z ≠ 0 := by rw [← norm_pos_iff, hz]; exact hr
  have hc : cos z.arg = b / √(a ^ 2 + b ^ 2) := by rw [Complex.cos_arg hz0, hz]
  have hs : sin z.arg = a / √(a ^ 2 + b ^ 2) := by rw [Complex.sin_arg, hz]
  have h1 := Complex.neg_pi_lt_arg z
  have h2 := Complex.arg_le_pi z
  rcases le_or_gt 0 z.arg with h3 | h3
  · refine ⟨z.arg / (2 * π), by positivity, by rw [div_lt_one (by positivity)]; linarith, ?_, ?_⟩
    · rw [mul_div_cancel₀ _ (by positivity), hs]; field_simp
    · rw [mul_div_cancel₀ _ (by positivity), hc]; field_simp
  · refine ⟨(z.arg + 2 * π) / (2 * π), div_nonneg (by linarith) (by linarith), by rw [div_lt_one (by positivity)]; linarith, ?_, ?_⟩
    · rw [mul_div_cancel₀ _ (by positivity), sin_add_two_pi, hs]; field_simp
    · rw [mul_div_cancel₀ _ (by positivity), cos_add_two_pi, hc]; field_simp

theorem drawMap_onto {x : Fin 4 → ℝ} (h0 : 0 < x 0 ^ 2 + x 1 ^ 2) (h1 : 0 < x 2 ^ 2 + x 3 ^ 2) (hx : norm4 x < 1) : ∃ y ∈ drawBox, drawMap y = x := by
  obtain ⟨v, v0, v1, ev0, ev1⟩ := turn_exists _ _ h0
  obtain ⟨w, w0, w1, ew0, ew1⟩ := turn_exists _ _ h1
  obtain ⟨s, hs⟩ : ∃ s, s = x 0 ^ 2 + x 1 ^ 2 + (x 2 ^ 2 + x 3 ^ 2) := ⟨_, rfl⟩
  have s0 : 0 < s := by linarith
  have s1 : s < 1 := by
    have : norm4 x = √s := by unfold norm4; congr 1; rw [hs]; ring
    rw [this, sqrt_lt' (by norm_num)] at hx
    linarith
  have hsq : 2 * √(s ^ 2 / 4) = s := by
    rw [show s ^ 2 / 4 = (s / 2) ^ 2 by ring, sqrt_sq (by linarith)]; ring
  have e1 : s * (1 - (x 2 ^ 2 + x 3 ^ 2) / s) = x 0 ^ 2 + x 1 ^ 2 := by
    field_simp; linarith
  have e2 : s * ((x 2 ^ 2 + x 3 ^ 2) / s) = x 2 ^ 2 + x 3 ^ 2 := by field_simp
  refine ⟨![s ^ 2 / 4, (x 2 ^ 2 + x 3 ^ 2) / s, v, w], ⟨⟨?_, ?_⟩, ?_, ?_, ⟨v0, v1⟩, w0, w1⟩, ?_⟩
  · show 0 < s ^ 2 / 4; positivity
  · show s ^ 2 / 4 < 1 / 4; nlinarith
  · show 0 < (x 2 ^ 2 + x 3 ^ 2) / s; positivity
  · show (x 2 ^ 2 + x 3 ^ 2) / s < 1
    rw [div_lt_one s0]; linarith
  · ext i
    fin_cases i
    · show √(2 * √(s ^ 2 / 4) * (1 - (x 2 ^ 2 + x 3 ^ 2) / s)) * sin (2 * π * v) = x 0
      rw [hsq, e1]; exact ev0.symm
    · show √(2 * √(s ^ 2 / 4) * (1 - (x 2 ^ 2 + x 3 ^ 2) / s)) * cos (2 * π * v) = x 1
      rw [hsq, e1]; exact ev1.symm
    · show √(2 * √(s ^ 2 / 4) * ((x 2 ^ 2 + x 3 ^ 2) / s)) * sin (2 * π * w) = x 2
      rw [hsq, e2]; exact ew0.symm
    · show √(2 * √(s ^ 2 / 4) * ((x 2 ^ 2 + x 3 ^ 2) / s)) * cos (2 * π * w) = x 3
      rw [hsq, e2]; exact ew1.symm

theorem coord_null {k : ℕ} (i : Fin k) : volume {x : Fin k → ℝ | x i = 0} = 0 := by
  have := Measure.addHaar_submodule (volume : Measure (Fin k → ℝ)) (LinearMap.ker (LinearMap.proj i : (Fin k → ℝ) →ₗ[ℝ] ℝ)) (by
    intro h
    rw [LinearMap.ker_eq_top] at h
    have h0 := LinearMap.congr_fun h (fun _ => 1)
    simp at h0)
  convert this using 2
  ext x; simp

theorem quatOfDraw_meas : Measurable fun d => comp4 (quatOfDraw d) := by
  apply measurable_pi_lambda
  intro i
  fin_cases i <;> simp only [comp4, quatOfDraw] <;> simp <;> fun_prop

/-- **C162**: `so3_uniform_quat` is uniform: when the draws are uniform in the cube, the probability that the returned quaternion lies in a
region is the share of the region in the measure `2π²` of the unit quaternions. -/
theorem C162_uniform (B : Set (Fin 4 → ℝ)) (hB : MeasurableSet B) :
    ENNReal.ofReal (2 * π ^ 2) * volume {d : Fin 3 → ℝ | (∀ i, 0 ≤ d i ∧ d i < 1) ∧ ∀ q ∈ so3UniformQuat [ofComp d], comp4 q ∈ B} = haar {q | comp4 q ∈ B} := by
  let D : Set (Fin 3 → ℝ) := {d | 0 < d 0 ∧ d 0 < 1 ∧ (0 ≤ d 1 ∧ d 1 < 1) ∧ 0 ≤ d 2 ∧ d 2 < 1}
  let E : Set (Fin 3 → ℝ) := D ∩ {d | comp4 (quatOfDraw d) ∈ B}
  have e3 : ∀ d : Fin 3 → ℝ, (∀ i, 0 ≤ d i ∧ d i < 1) ↔ (0 ≤ d 0 ∧ d 0 < 1) ∧ (0 ≤ d 1 ∧ d 1 < 1) ∧ 0 ≤ d 2 ∧ d 2 < 1 := fun d =>
    ⟨fun h => ⟨h 0, h 1, h 2⟩, fun h i => by fin_cases i; exacts [h.1, h.2.1, h.2.2]⟩
  have hE : volume {d : Fin 3 → ℝ | (∀ i, 0 ≤ d i ∧ d i < 1) ∧ ∀ q ∈ so3UniformQuat [ofComp d], comp4 q ∈ B} = volume E := by
    have e : E = {d : Fin 3 → ℝ | (∀ i, 0 ≤ d i ∧ d i < 1) ∧ ∀ q ∈ so3UniformQuat [ofComp d], comp4 q ∈ B} \ {d | d 0 = 0} := by
      ext d
      simp only [E, D, quatOfDraw_eq, List.mem_singleton, forall_eq, Set.mem_inter_iff, Set.mem_ofPred_eq, Set.mem_sdiff, e3]
      constructor
      · rintro ⟨⟨a, b, c⟩, f⟩
        exact ⟨⟨⟨⟨a.le, b⟩, c⟩, f⟩, a.ne'⟩
      · rintro ⟨⟨⟨⟨a, b⟩, c⟩, f⟩, g⟩
        exact ⟨⟨lt_of_le_of_ne a (Ne.symm g), b, c⟩, f⟩
    rw [e, measure_sdiff_null (coord_null 0)]
  have mD : MeasurableSet D := by
    have f : ∀ i : Fin 3, Measurable fun d : Fin 3 → ℝ => d i := fun i => measurable_pi_apply i
    exact (measurableSet_lt measurable_const (f 0)).inter ((measurableSet_lt (f 0) measurable_const).inter
      (((measurableSet_le measurable_const (f 1)).inter (measurableSet_lt (f 1) measurable_const)).inter
        ((measurableSet_le measurable_const (f 2)).inter (measurableSet_lt (f 2) measurable_const))))
  have mE : MeasurableSet E := mD.inter (quatOfDraw_meas hB)
  let C : Set (Fin 4 → ℝ) := {y | y 0 ∈ Set.Ioo (0 : ℝ) (1 / 4) ∧ tail4 y ∈ E}
  have hCbox : C ⊆ drawBox := fun y hy => ⟨hy.1, hy.2.1⟩
  have mC : MeasurableSet C := by
    have ht : Measurable (fun y : Fin 4 → ℝ => tail4 y) := measurable_pi_lambda _ fun i => measurable_pi_apply _
    exact (measurable_pi_apply 0 measurableSet_Ioo).inter (ht mE)
  have hvol := volume_of_rows4_const (F := drawMap) (c := 2 * π ^ 2) (B := C)
    (M := fun y => open Classical in if h : 0 < y 0 ∧ 0 < y 1 ∧ y 1 < 1 then (drawMap_deriv y h.1 h.2.1 h.2.2).choose else 0) mC
    (fun y hy i => by
      obtain ⟨h0, -, h1, h2, -⟩ := drawBox_facts (hCbox hy)
      rw [dif_pos ⟨h0, h1, h2⟩]
      exact (drawMap_deriv y h0 h1 h2).choose_spec.1 i)
    (fun y hy => by
      obtain ⟨h0, -, h1, h2, -⟩ := drawBox_facts (hCbox hy)
      rw [dif_pos ⟨h0, h1, h2⟩]
      exact (drawMap_deriv y h0 h1 h2).choose_spec.2)
    (drawMap_inj.mono hCbox)
  have himg : volume (drawMap '' C) = volume (coneOf {q | comp4 q ∈ B}) := by
    have hN : volume ({x : Fin 4 → ℝ | x 0 = 0} ∪ {x | x 2 = 0}) = 0 := measure_union_null (coord_null 0) (coord_null 2)
    apply le_antisymm
    · apply measure_mono
      rintro x ⟨y, hy, rfl⟩
      obtain ⟨h0, h4, -⟩ := drawBox_facts (hCbox hy)
      refine ⟨?_, ?_, ?_⟩
      · rw [drawMap_norm (hCbox hy)]
        have := sqrt_pos.mpr h0
        exact sqrt_pos.mpr (by linarith)
      · rw [drawMap_norm (hCbox hy), sqrt_lt' (by norm_num)]
        have : √(y 0) < 1 / 2 := by rw [sqrt_lt' (by norm_num)]; linarith
        linarith
      · rw [drawMap_unit (hCbox hy)]
        exact hy.2.2
    · rw [← measure_sdiff_null (s := coneOf {q | comp4 q ∈ B}) hN]
      apply measure_mono
      rintro x ⟨⟨-, a2, a3⟩, hx⟩
      simp only [Set.mem_union, Set.mem_ofPred_eq, not_or] at hx
      obtain ⟨y, hy, rfl⟩ := drawMap_onto (x := x) (by have := sq_nonneg (x 1); have := sq_pos_of_ne_zero hx.1; linarith)
        (by have := sq_nonneg (x 3); have := sq_pos_of_ne_zero hx.2; linarith) a2
      rw [drawMap_unit hy] at a3
      exact ⟨y, ⟨hy.1, hy.2, a3⟩, rfl⟩
  rw [hE, haar_cone, ← himg, hvol, cylinder_volume E, ← mul_assoc, ← mul_assoc]
  congr 1
  rw [show (4 : ENNReal) = ENNReal.ofReal 4 by norm_num, ← ENNReal.ofReal_mul (by norm_num), ← ENNReal.ofReal_mul (by positivity)]
  congr 1; ring

/-! ### Non-vacuity -/

/-- The share of one half-space is one half, as the whole space shows. -/
example : ENNReal.ofReal (2 * π ^ 2) * volume {d : Fin 3 → ℝ | (∀ i, 0 ≤ d i ∧ d i < 1) ∧ ∀ q ∈ so3UniformQuat [ofComp d], comp4 q ∈ {x | 0 < x 0}} =
    haar {q | comp4 q ∈ {x | 0 < x 0}} := C162_uniform _ (measurableSet_lt measurable_const (measurable_pi_apply 0))

end Verif.Cubo
