import Verif.Props.S2Area
import Verif.Props.SphereArea
import Verif.Props.UniformQuat
/-! C163: the area of sets of directions does not depend on the axis used to measure it. -/
namespace Verif.S2
open Verif Verif.Cubo Real MeasureTheory
open Verif.Spec

theorem volume_of_rows3_abs {F : (Fin 3 → ℝ) → Fin 3 → ℝ} {M : (Fin 3 → ℝ) → Matrix (Fin 3) (Fin 3) ℝ} {B : Set (Fin 3 → ℝ)} {c : ℝ}
    (hB : MeasurableSet B) (h : ∀ u ∈ B, ∀ i, D3 (fun v => F v i) (M u i) u) (hdet : ∀ u ∈ B, |(M u).det| = c)
    (hinj : Set.InjOn F B) : volume (F '' B) = ENNReal.ofReal c * volume B := by
  have hd : ∀ u ∈ B, HasFDerivWithinAt F (LinearMap.toContinuousLinearMap (Matrix.toLin' (M u))) B u :=
    fun u hu => (hasFDerivAt_of_rows (h u hu)).hasFDerivWithinAt
  rw [← lintegral_abs_det_fderiv_eq_addHaar_image volume hB hd hinj, setLIntegral_congr_fun hB (g := fun _ => ENNReal.ofReal c), setLIntegral_const]
  intro u hu
  simp only [LinearMap.det_toContinuousLinearMap, LinearMap.det_toLin', hdet u hu]

/-- Volume coordinate, height and azimuth to a point of the unit ball. -/
noncomputable def ballMap (y : Fin 3 → ℝ) : Fin 3 → ℝ :=
  ![(3 * y 0) ^ ((1 : ℝ) / 3) * (√(1 - y 1 ^ 2) * cos (y 2)), (3 * y 0) ^ ((1 : ℝ) / 3) * (√(1 - y 1 ^ 2) * sin (y 2)),
    (3 * y 0) ^ ((1 : ℝ) / 3) * y 1]

theorem cbrt_deriv {t : ℝ} (h : 0 < t) : HasDerivAt (fun t : ℝ => (3 * t) ^ ((1 : ℝ) / 3)) (1 / ((3 * t) ^ ((1 : ℝ) / 3)) ^ 2) t := by
  have h3 : 0 < 3 * t := by linarith
  have := ((hasDerivAt_id t).const_mul 3).rpow_const (p := 1 / 3) (Or.inl h3.ne')
  refine this.congr_deriv ?_
  simp only [id, mul_one]
  rw [← rpow_natCast, ← rpow_mul h3.le, one_div (_ ^ _), ← rpow_neg h3.le]
  norm_num

theorem cbrt_cube {t : ℝ} (h : 0 ≤ t) : ((3 * t) ^ ((1 : ℝ) / 3)) ^ 3 = 3 * t := by
  rw [← rpow_natCast, ← rpow_mul (by linarith)]; norm_num

theorem cbrt_pos {t : ℝ} (h : 0 < t) : 0 < (3 * t) ^ ((1 : ℝ) / 3) := rpow_pos_of_pos (by linarith) _

theorem ball_det (r s z C S p : ℝ) (hs : s ^ 2 = 1 - z ^ 2) (hp : p * r ^ 2 = 1) (h0 : s ≠ 0) (hc : S ^ 2 + C ^ 2 = 1) :
    (Matrix.of ![![p * (s * C), r * (-(z / s) * C), r * (s * -S)], ![p * (s * S), r * (-(z / s) * S), r * (s * C)],
      ![p * z, r, 0]]).det = -1 := by
  rw [Matrix.det_fin_three]
  simp
  have hC : C ^ 2 = 1 - S ^ 2 := by linarith
  field_simp
  linear_combination (-(r ^ 2 * p) * (z ^ 2 + s ^ 2)) * hc - (r ^ 2 * p) * hs - hp

theorem ballMap_deriv (y : Fin 3 → ℝ) (h0 : 0 < y 0) (h1 : -1 < y 1) (h2 : y 1 < 1) :
    ∃ M : Matrix (Fin 3) (Fin 3) ℝ, (∀ i, D3 (fun v => ballMap v i) (M i) y) ∧ |M.det| = 1 := by
  have hq : 0 < 1 - y 1 ^ 2 := by nlinarith
  have dr := D3.comp (φ := fun t : ℝ => (3 * t) ^ ((1 : ℝ) / 3)) (cbrt_deriv h0) (D3.coord 0 y)
  have dq : HasDerivAt (fun z : ℝ => √(1 - z ^ 2)) (-(y 1 / √(1 - y 1 ^ 2))) (y 1) := by
    have := ((hasDerivAt_pow 2 (y 1)).const_sub 1).sqrt hq.ne'
    refine this.congr_deriv ?_
    field_simp; norm_num
  have ds := D3.comp (φ := fun z : ℝ => √(1 - z ^ 2)) dq (D3.coord 1 y)
  have dc := D3.comp (φ := cos) (hasDerivAt_cos (y 2)) (D3.coord 2 y)
  have dn := D3.comp (φ := sin) (hasDerivAt_sin (y 2)) (D3.coord 2 y)
  have r0 := dr.mul (ds.mul dc)
  have r1 := dr.mul (ds.mul dn)
  have r2 := dr.mul (D3.coord 1 y)
  have hr := cbrt_pos h0
  have hs := sqrt_pos.mpr hq
  have hs2 := sq_sqrt hq.le
  obtain ⟨r, er⟩ : ∃ r, r = (3 * y 0) ^ ((1 : ℝ) / 3) := ⟨_, rfl⟩
  obtain ⟨s, es⟩ : ∃ s, s = √(1 - y 1 ^ 2) := ⟨_, rfl⟩
  rw [← er] at r0 r1 r2 hr
  rw [← es] at r0 r1 hs hs2
  refine ⟨Matrix.of ![![1 / r ^ 2 * (s * cos (y 2)), r * (-(y 1 / s) * cos (y 2)), r * (s * -sin (y 2))],
    ![1 / r ^ 2 * (s * sin (y 2)), r * (-(y 1 / s) * sin (y 2)), r * (s * cos (y 2))], ![1 / r ^ 2 * y 1, r, 0]], ?_, ?_⟩
  · intro i
    fin_cases i
    · refine r0.congr fun j => ?_
      fin_cases j <;> simp <;> first | ring1 | (left; ring1)
    · refine r1.congr fun j => ?_
      fin_cases j <;> simp <;> first | ring1 | (left; ring1)
    · refine r2.congr fun j => ?_
      fin_cases j <;> simp
      ring
  · rw [ball_det r s (y 1) (cos (y 2)) (sin (y 2)) (1 / r ^ 2) hs2 (by field_simp) hs.ne' (sin_sq_add_cos_sq _)]
    norm_num

/-- The coordinates of the ball. -/
def ballBox : Set (Fin 3 → ℝ) := {y | (0 < y 0 ∧ y 0 < 1 / 3) ∧ (-1 < y 1 ∧ y 1 < 1) ∧ -(π / 4) < y 2 ∧ y 2 ≤ 2 * π - π / 4}

theorem azimuth_unique {v w : ℝ} (hv : -(π / 4) < v ∧ v ≤ 2 * π - π / 4) (hw : -(π / 4) < w ∧ w ≤ 2 * π - π / 4) (hs : sin v = sin w)
    (hc : cos v = cos w) : v = w := by
  have h1 : cos (v - w) = 1 := by
    rw [cos_sub, hs, hc]; nlinarith [sin_sq_add_cos_sq w]
  have := (cos_eq_one_iff_of_lt_of_lt (x := v - w) (by linarith) (by linarith)).mp h1
  linarith

theorem ballMap_eq {y : Fin 3 → ℝ} (_h : y ∈ ballBox) : ofComp (ballMap y) = (atHeight (y 1) (y 2)).smul ((3 * y 0) ^ ((1 : ℝ) / 3)) := rfl

theorem ballMap_norm {y : Fin 3 → ℝ} (h : y ∈ ballBox) : norm3 (ballMap y) = (3 * y 0) ^ ((1 : ℝ) / 3) := by
  obtain ⟨⟨a, -⟩, ⟨b, c⟩, -⟩ := h
  have hq : 0 ≤ 1 - y 1 ^ 2 := by nlinarith
  have hs := sq_sqrt hq
  unfold norm3
  rw [sqrt_eq_iff_mul_self_eq_of_pos (cbrt_pos a)]
  simp only [ballMap, Matrix.cons_val]
  obtain ⟨r, er⟩ : ∃ r, r = (3 * y 0) ^ ((1 : ℝ) / 3) := ⟨_, rfl⟩
  rw [← er]
  linear_combination (-(r ^ 2 * √(1 - y 1 ^ 2) ^ 2)) * sin_sq_add_cos_sq (y 2) - r ^ 2 * hs

theorem ballMap_dir {y : Fin 3 → ℝ} (h : y ∈ ballBox) : dirOf (ballMap y) = atHeight (y 1) (y 2) := by
  have hr := (cbrt_pos h.1.1).ne'
  unfold dirOf
  rw [ballMap_norm h]
  simp only [ballMap, Matrix.cons_val, atHeight, mul_div_cancel_left₀ _ hr]

theorem ballMap_inj : Set.InjOn ballMap ballBox := by
  intro y hy z hz e
  have en := ballMap_norm hy
  rw [e, ballMap_norm hz] at en
  have e0 : y 0 = z 0 := by
    have : ((3 * z 0) ^ ((1 : ℝ) / 3)) ^ 3 = ((3 * y 0) ^ ((1 : ℝ) / 3)) ^ 3 := by rw [en]
    rw [cbrt_cube hy.1.1.le, cbrt_cube hz.1.1.le] at this
    linarith
  have ed := ballMap_dir hy
  rw [e, ballMap_dir hz] at ed
  simp only [atHeight, V.mk.injEq] at ed
  obtain ⟨d1, d2, d3⟩ := ed
  have hq : 0 < √(1 - z 1 ^ 2) := sqrt_pos.mpr (by have := hz.2.1; nlinarith)
  rw [← d3] at d1 d2
  have e2 := azimuth_unique hz.2.2 hy.2.2 (by rw [d3] at hq; rw [← d3] at hq; exact mul_left_cancel₀ hq.ne' d2) (mul_left_cancel₀ hq.ne' d1)
  ext i
  fin_cases i
  exacts [e0, d3.symm, e2.symm]

theorem azimuth_exists (a b : ℝ) (h : 0 < a ^ 2 + b ^ 2) : ∃ v, (-(π / 4) < v ∧ v ≤ 2 * π - π / 4) ∧ a = √(a ^ 2 + b ^ 2) * cos v ∧ b = √(a ^ 2 + b ^ 2) * sin v := by
  have hp := pi_pos
  obtain ⟨v, v0, v1, e1, e2⟩ := turn_exists b a (by linarith)
  rw [add_comm] at e1 e2
  rcases le_or_gt (2 * π * v) (2 * π - π / 4) with h1 | h1
  · exact ⟨2 * π * v, ⟨by nlinarith, h1⟩, e2, e1⟩
  · refine ⟨2 * π * v - 2 * π, ⟨by linarith, by nlinarith⟩, ?_, ?_⟩
    · rw [cos_sub_two_pi]; exact e2
    · rw [sin_sub_two_pi]; exact e1

theorem ballMap_onto {x : Fin 3 → ℝ} (h : 0 < x 0 ^ 2 + x 1 ^ 2) (h1 : norm3 x < 1) : ∃ y ∈ ballBox, ballMap y = x := by
  obtain ⟨v, hv, e1, e2⟩ := azimuth_exists _ _ h
  have hsq := norm3_sq x
  have hn : 0 < norm3 x := sqrt_pos.mpr (by nlinarith [sq_nonneg (x 2)])
  obtain ⟨n, en⟩ : ∃ n, n = norm3 x := ⟨_, rfl⟩
  rw [← en] at hsq hn h1
  have hz : (x 2 / n) ^ 2 < 1 := by
    rw [div_pow, div_lt_one (by positivity)]; linarith
  have hz' := abs_lt.mp ((sq_lt_one_iff_abs_lt_one _).mp hz)
  have hr : (3 * (n ^ 3 / 3)) ^ ((1 : ℝ) / 3) = n := by
    rw [show 3 * (n ^ 3 / 3) = n ^ (3 : ℝ) by rw [show (3 : ℝ) = ((3 : ℕ) : ℝ) by norm_num, rpow_natCast]; push_cast; ring, ← rpow_mul hn.le]
    norm_num
  have hs : n * √(1 - (x 2 / n) ^ 2) = √(x 0 ^ 2 + x 1 ^ 2) := by
    rw [← sqrt_sq hn.le, ← sqrt_mul (by positivity), sqrt_sq hn.le]
    congr 1
    field_simp
    linarith
  refine ⟨![n ^ 3 / 3, x 2 / n, v], ⟨⟨?_, ?_⟩, hz', hv⟩, ?_⟩
  · show 0 < n ^ 3 / 3; positivity
  · show n ^ 3 / 3 < 1 / 3
    have := pow_lt_one₀ hn.le h1 (n := 3) (by norm_num)
    linarith
  · ext i
    fin_cases i
    · show (3 * (n ^ 3 / 3)) ^ ((1 : ℝ) / 3) * (√(1 - (x 2 / n) ^ 2) * cos v) = x 0
      rw [hr, ← mul_assoc, hs]; exact e1.symm
    · show (3 * (n ^ 3 / 3)) ^ ((1 : ℝ) / 3) * (√(1 - (x 2 / n) ^ 2) * sin v) = x 1
      rw [hr, ← mul_assoc, hs]; exact e2.symm
    · show (3 * (n ^ 3 / 3)) ^ ((1 : ℝ) / 3) * (x 2 / n) = x 2
      rw [hr]; field_simp

theorem cyl_volume (P : Set (ℝ × ℝ)) : volume {y : Fin 3 → ℝ | y 0 ∈ Set.Ioo (0 : ℝ) (1 / 3) ∧ (y 1, y 2) ∈ P} = ENNReal.ofReal (1 / 3) * volume P := by
  have m1 := (volume_preserving_piFinSuccAbove (fun _ : Fin 3 => ℝ) 0)
  have m2 := volume_preserving_finTwoArrow ℝ
  have h1 := m1.measure_preimage_equiv (Set.Ioo (0 : ℝ) (1 / 3) ×ˢ ((MeasurableEquiv.finTwoArrow (α := ℝ)) ⁻¹' P))
  rw [Measure.volume_eq_prod, Measure.prod_prod, Real.volume_Ioo, sub_zero, m2.measure_preimage_equiv] at h1
  rw [← h1]
  rfl

/-- **C163**: the area of a set of directions as the volume of its cone equals the area in height and azimuth about the `z` axis. -/
theorem C163_area (S : Set V) (hS : MeasurableSet {x : Fin 3 → ℝ | ofComp x ∈ S}) : dirArea S = solidAngle S := by
  let P : Set (ℝ × ℝ) := {p | -1 < p.1 ∧ p.1 < 1 ∧ -(π / 4) < p.2 ∧ p.2 ≤ 2 * π - π / 4 ∧ atHeight p.1 p.2 ∈ S}
  let E : Set (Fin 3 → ℝ) := {y | y 0 ∈ Set.Ioo (0 : ℝ) (1 / 3) ∧ (y 1, y 2) ∈ P}
  have hE : E = ballBox ∩ {y | atHeight (y 1) (y 2) ∈ S} := by
    ext y
    simp only [E, P, ballBox, Set.mem_ofPred_eq, Set.mem_inter_iff, Set.mem_Ioo]
    tauto
  have hEb : E ⊆ ballBox := by rw [hE]; exact Set.inter_subset_left
  have mE : MeasurableSet E := by
    rw [hE]
    apply MeasurableSet.inter
    · unfold ballBox
      measurability
    · have hc : Continuous fun y : Fin 3 → ℝ => (![√(1 - y 1 ^ 2) * cos (y 2), √(1 - y 1 ^ 2) * sin (y 2), y 1] : Fin 3 → ℝ) := by
        refine continuous_pi fun i => ?_
        fin_cases i <;> simp <;> fun_prop
      exact hc.measurable hS
  choose! M hM hdet using fun y (hy : y ∈ E) => ballMap_deriv y (hEb hy).1.1 (hEb hy).2.1.1 (hEb hy).2.1.2
  have hvol := volume_of_rows3_abs mE hM hdet (ballMap_inj.mono hEb)
  have hN : volume {x : Fin 3 → ℝ | x 0 = 0} = 0 := coord_null 0
  have himg : volume (ballMap '' E) = volume (cone3 S) := by
    apply le_antisymm
    · apply measure_mono
      rintro _ ⟨y, hy, rfl⟩
      have hb := hEb hy
      rw [hE] at hy
      refine ⟨?_, ?_, ?_⟩
      · rw [ballMap_norm hb]; exact cbrt_pos hb.1.1
      · rw [ballMap_norm hb]
        exact rpow_lt_one (by linarith [hb.1.1]) (by linarith [hb.1.2]) (by norm_num)
      · rw [ballMap_dir hb]; exact hy.2
    · rw [← measure_sdiff_null (s := cone3 S) hN]
      apply measure_mono
      rintro x ⟨⟨-, a2, a3⟩, hx⟩
      obtain ⟨y, hy, rfl⟩ := ballMap_onto (x := x) (by have := sq_nonneg (x 1); have := sq_pos_of_ne_zero hx; linarith) a2
      rw [ballMap_dir hy] at a3
      exact ⟨y, by rw [hE]; exact ⟨hy, a3⟩, rfl⟩
  rw [dirArea, ← himg, hvol, cyl_volume P, ← mul_assoc, ← mul_assoc, show (3 : ENNReal) = ENNReal.ofReal 3 by norm_num,
    ← ENNReal.ofReal_mul (by norm_num), ← ENNReal.ofReal_mul (by norm_num)]
  norm_num
  rfl

/-! ### Rotated frames -/

theorem quApply_meas (g : Q) {S : Set V} (hS : MeasurableSet {x : Fin 3 → ℝ | ofComp x ∈ S}) :
    MeasurableSet {x : Fin 3 → ℝ | quApply g (ofComp x) ∈ S} := by
  have hc : Continuous fun x : Fin 3 → ℝ => (![(quApply g (ofComp x)).x, (quApply g (ofComp x)).y, (quApply g (ofComp x)).z] : Fin 3 → ℝ) := by
    refine continuous_pi fun i => ?_
    fin_cases i <;> simp [quApply, ofComp] <;> fun_prop
  exact hc.measurable hS

/-- **C163**: the area in height and azimuth is the same about every axis: it does not change when `qu_apply` turns the directions. -/
theorem C163_rotation (S : Set V) (hS : MeasurableSet {x : Fin 3 → ℝ | ofComp x ∈ S}) (g : Q) (hg : g.w ^ 2 + g.x ^ 2 + g.y ^ 2 + g.z ^ 2 = 1) :
    solidAngle {v | quApply g v ∈ S} = solidAngle S := by
  rw [← C163_area S hS, ← C163_area {v | quApply g v ∈ S} (quApply_meas g hS)]
  have := area_invariant g hg 1 (Or.inl rfl) S
  simpa only [rotates_iff, exists_eq_left, one_mul] using this

theorem C163_sphere : solidAngle Set.univ = ENNReal.ofReal (4 * π) := by
  rw [← C163_area _ (by simp), dirArea_all]

theorem negOne_meas {f : (Fin 3 → ℝ) → ℝ} (hf : Measurable f) : Measurable fun x => negOne (f x) := by
  unfold negOne
  exact Measurable.ite (measurableSet_lt hf measurable_const) measurable_const measurable_const

theorem atan2_meas {f g : (Fin 3 → ℝ) → ℝ} (hf : Measurable f) (hg : Measurable g) : Measurable fun x => atan2 (f x) (g x) := by
  unfold atan2
  have : Measurable fun x => Complex.measurableEquivRealProd.symm (g x, f x) := Complex.measurableEquivRealProd.symm.measurable.comp (hg.prodMk hf)
  exact Complex.measurable_arg.comp this

theorem rosca_meas {A : Set (ℝ × ℝ)} (hA : MeasurableSet A) : MeasurableSet {x : Fin 3 → ℝ | roscaLambert (ofComp x) ∈ A} := by
  have : Measurable fun x : Fin 3 → ℝ => roscaLambert (ofComp x) := by
    have h0 : Measurable fun x : Fin 3 → ℝ => x 0 := measurable_pi_apply 0
    have h1 : Measurable fun x : Fin 3 → ℝ => x 1 := measurable_pi_apply 1
    have h2 : Measurable fun x : Fin 3 → ℝ => x 2 := measurable_pi_apply 2
    have hc : MeasurableSet {x : Fin 3 → ℝ | |x 1| ≤ |x 0|} := measurableSet_le (continuous_abs.measurable.comp h1) (continuous_abs.measurable.comp h0)
    have hf : Measurable fun x : Fin 3 → ℝ => √(max (2 * (1 - |x 2|)) 0) := by fun_prop
    have hb : Measurable fun x : Fin 3 → ℝ => @ite ℝ (|x 1| ≤ |x 0|) (Classical.propDecidable _) (x 0) (x 1) := by classical exact Measurable.ite hc h0 h1
    have hs : Measurable fun x : Fin 3 → ℝ => @ite ℝ (|x 1| ≤ |x 0|) (Classical.propDecidable _) (x 1) (x 0) := by classical exact Measurable.ite hc h1 h0
    have hn := negOne_meas hb
    have h3 := (hn.mul hf).mul_const (2 / (8 : ℝ) ^ (0.5 : ℝ))
    have h4 := ((hn.mul hf).mul (atan2_meas (hs.mul hn) (continuous_abs.measurable.comp hb))).mul_const (2 * (2 : ℝ) ^ (0.5 : ℝ) / π)
    classical exact Measurable.ite hc (h3.prodMk h4) (h4.prodMk h3)
  exact this hA

/-- **C163**: `rosca_lambert` keeps the area of all regions of any hemisphere, whichever direction is turned to its pole first. -/
theorem C163_pole (A : Set (ℝ × ℝ)) (hA : MeasurableSet A) (g : Q) (hg : g.w ^ 2 + g.x ^ 2 + g.y ^ 2 + g.z ^ 2 = 1) :
    solidAngle {v | 0 < (quApply g v).z ∧ roscaLambert (quApply g v) ∈ A} = ENNReal.ofReal (π / 2) * volume (A ∩ Set.Ioo (-1) 1 ×ˢ Set.Ioo (-1) 1) := by
  rw [← C155_upper A hA]
  refine C163_rotation {v | 0 < v.z ∧ roscaLambert v ∈ A} ?_ g hg
  exact (measurableSet_lt measurable_const (measurable_pi_apply 2)).inter (rosca_meas hA)

/-! ### Non-vacuity -/

/-- The hemisphere about the `x` axis has the area of the one about the `z` axis. -/
example : solidAngle {v | 0 < (quApply ⟨1 / 2, 1 / 2, 1 / 2, 1 / 2⟩ v).z} = ENNReal.ofReal (2 * π) :=
  (C163_rotation {v | 0 < v.z} (measurableSet_lt measurable_const (measurable_pi_apply 2)) _ (by norm_num)).trans C155_hemisphere

end Verif.S2
