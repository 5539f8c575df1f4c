import Verif.Model.SE3
import Verif.Props.AxisAngle
/-!
C23 (exponential map), C24 (left Jacobian), C25 (logarithm).
-/
namespace Verif
open Spec

theorem skew_eq (w : V) : skew w = skewM w := rfl

theorem skew_cube (w : V) : skew w * skew w * skew w = (-(w.x ^ 2 + w.y ^ 2 + w.z ^ 2)) • skew w := by
  apply m3_ext
  intro i j
  fin_cases i <;> fin_cases j <;>
    simp [skew, Matrix.mul_apply, Fin.sum_univ_three] <;> ring

theorem axis_unit {w : V} (h : 0 < w.norm) : IsUnit3 (V.sdiv w w.norm) := by
  have := V.norm_sq w
  simp only [IsUnit3, V.sdiv, div_pow]
  rw [← add_div, ← add_div, ← this, div_self (by positivity)]

theorem skew_axis {w : V} (h : 0 < w.norm) : skew w = w.norm • skewM (V.sdiv w w.norm) := by
  rw [← skewM_smul, skew_eq]
  congr 1
  ext <;> simp only [V.smul, V.sdiv] <;> field_simp

/-- Rodrigues' formula in the code equals the matrix of the axis-angle quaternion. -/
theorem exp_rodrigues {w : V} (h : 0 < w.norm) :
    1 + (Real.sin w.norm / w.norm) • skew w + ((1 - Real.cos w.norm) / w.norm ^ 2) • (skew w * skew w)
      = qu2om (ax2qu ⟨V.sdiv w w.norm, w.norm⟩) := by
  rw [rodrigues_entries _ _ (axis_unit h), skew_axis h, smul_smul, Matrix.smul_mul, Matrix.mul_smul, smul_smul,
    smul_smul]
  congr 3
  · field_simp
  · field_simp

/-! ### C23 -/

/-- The rotation block of a 4x4 matrix. -/
def rotBlock (m : M4) : M3 := fun i j => m i.castSucc j.castSucc

theorem rotBlock_se3Mat (R : M3) (t : V) : rotBlock (se3Mat R t) = R := by
  apply m3_ext
  intro i j
  fin_cases i <;> fin_cases j <;> simp [rotBlock, se3Mat]

/-- C23: above the switch the rotation block of `se3_exp_map_om` is a proper rotation: the textbook
rotation by `|omega|` about `omega/|omega|`; the last row is `(0,0,0,1)`. -/
theorem C23_exp_om (v : Twist) (h : 0.001 < v.w.norm) :
    IsRotation (rotBlock (se3ExpOm v)) ∧
    (∀ u, (rotBlock (se3ExpOm v)).mulVec (col u) = col (rotateAbout (V.sdiv v.w v.w.norm) v.w.norm u)) ∧
    (se3ExpOm v) 3 = ![0, 0, 0, 1] := by
  have hp : 0 < v.w.norm := by linarith
  have hR : (wExpVmat v.w).1 = qu2om (ax2qu ⟨V.sdiv v.w v.w.norm, v.w.norm⟩) := by
    unfold wExpVmat; simp only; rw [if_pos h]; exact exp_rodrigues hp
  unfold se3ExpOm
  rw [rotBlock_se3Mat, hR]
  refine ⟨qu2om_isRotation (ax2qu_unit (axis_unit hp)), fun u => ?_, ?_⟩
  · rw [qu2om_apply, ax2qu_apply (a := ⟨V.sdiv v.w v.w.norm, v.w.norm⟩) (axis_unit hp)]
  · ext j; fin_cases j <;> simp [se3Mat]

/-- C23: above the switch of `se3_exp_map_quat` (0.05) both exponential maps return the same pose. -/
theorem C23_quat_agrees (v : Twist) (h : 0.05 < v.w.norm) :
    IsUnit4 (se3ExpQuat v).1 ∧ qu2om (se3ExpQuat v).1 = rotBlock (se3ExpOm v) ∧
    se3ExpOm v = se3Mat (qu2om (se3ExpQuat v).1) (se3ExpQuat v).2 := by
  have hp : 0 < v.w.norm := by linarith
  have h' : 0.001 < v.w.norm := by linarith
  have hth : quatTheta v.w = v.w.norm := by unfold quatTheta; rw [if_pos h]
  have hR : (wExpVmat v.w).1 = qu2om (ax2qu ⟨V.sdiv v.w v.w.norm, v.w.norm⟩) := by
    unfold wExpVmat; simp only; rw [if_pos h']; exact exp_rodrigues hp
  have hV : (wExpVmat v.w).2 = wToV v.w := by
    unfold wExpVmat wToV; simp only; rw [if_pos h', if_pos h]
  unfold se3ExpQuat se3ExpOm
  simp only [hth]
  rw [rotBlock_se3Mat, hR, hV]
  exact ⟨ax2qu_unit (axis_unit hp), rfl, rfl⟩

/-- C23: `w_exp` is the same rotation. -/
theorem C23_w_exp (w : V) (h : 0.001 < w.norm) : wExp w = qu2om (ax2qu ⟨V.sdiv w w.norm, w.norm⟩) := by
  unfold wExp; simp only; rw [if_pos h]; exact exp_rodrigues (by linarith)

theorem norm_345 (a : ℝ) (ha : 0 ≤ a) : (V.mk 0 (3 * a) (4 * a)).norm = 5 * a := by
  unfold V.norm
  simp only
  rw [show (0:ℝ) ^ 2 + (3 * a) ^ 2 + (4 * a) ^ 2 = (5 * a) ^ 2 by ring, Real.sqrt_sq (by positivity)]

example : 0.05 < (V.mk 0 (3 * 0.1) (4 * 0.1)).norm := by rw [norm_345] <;> norm_num

/-! ### C24 -/

/-- C24: `skew` is the cross-product matrix. -/
theorem C24_skew (w v : V) : (skew w).mulVec (col v) = col (V.cross w v) := by
  ext i
  fin_cases i <;> simp [skew, col, V.cross, Matrix.mulVec, dotProduct, Fin.sum_univ_three] <;> ring

theorem poly_mul (K : M3) (s a b c : ℝ) (hK : K * K * K = (-s) • K) :
    (1 + a • K + b • (K * K)) * (1 - (0.5 : ℝ) • K + c • (K * K)) =
      1 + (a - 1/2 - s * (a * c - b / 2)) • K + (b + c - a / 2 - s * (b * c)) • (K * K) := by
  have hK4 : K * K * (K * K) = (-s) • (K * K) := by
    rw [← Matrix.mul_assoc, hK, Matrix.smul_mul]
  have h3 : K * (K * K) = (-s) • K := by rw [← Matrix.mul_assoc, hK]
  simp only [Matrix.add_mul, Matrix.mul_add, Matrix.mul_sub, Matrix.sub_mul, Matrix.one_mul, Matrix.mul_one,
    Matrix.smul_mul, Matrix.mul_smul, smul_smul, hK, hK4, h3]
  module

theorem poly_mul' (K : M3) (s a b c : ℝ) (hK : K * K * K = (-s) • K) :
    (1 - (0.5 : ℝ) • K + c • (K * K)) * (1 + a • K + b • (K * K)) =
      1 + (a - 1/2 - s * (a * c - b / 2)) • K + (b + c - a / 2 - s * (b * c)) • (K * K) := by
  have hK4 : K * K * (K * K) = (-s) • (K * K) := by
    rw [← Matrix.mul_assoc, hK, Matrix.smul_mul]
  have h3 : K * (K * K) = (-s) • K := by rw [← Matrix.mul_assoc, hK]
  simp only [Matrix.add_mul, Matrix.mul_add, Matrix.mul_sub, Matrix.sub_mul, Matrix.one_mul, Matrix.mul_one,
    Matrix.smul_mul, Matrix.mul_smul, smul_smul, hK, hK4, h3]
  module

theorem v_coeffs {th : ℝ} (h0 : th ≠ 0) (hs : Real.sin (th / 2) ≠ 0) :
    ((1 - Real.cos th) / th ^ 2) - 1/2 - th ^ 2 * (((1 - Real.cos th) / th ^ 2) *
      ((1 - th * Real.cos (th / 2) / (2 * Real.sin (th / 2))) / th ^ 2) - ((th - Real.sin th) / th ^ 3) / 2) = 0 ∧
    ((th - Real.sin th) / th ^ 3) + ((1 - th * Real.cos (th / 2) / (2 * Real.sin (th / 2))) / th ^ 2)
      - ((1 - Real.cos th) / th ^ 2) / 2 - th ^ 2 * (((th - Real.sin th) / th ^ 3) *
      ((1 - th * Real.cos (th / 2) / (2 * Real.sin (th / 2))) / th ^ 2)) = 0 := by
  have hu := Real.sin_sq_add_cos_sq (th / 2)
  have hc : Real.cos th = 1 - 2 * Real.sin (th / 2) ^ 2 := by rw [half_cos th]; linarith
  rw [hc, half_sin th]
  generalize Real.sin (th / 2) = S at *
  generalize Real.cos (th / 2) = C at *
  constructor
  · field_simp
    ring
  · field_simp
    linear_combination (-2 * S * th) * hu

theorem v_inverse {w : V} (h : 0.05 < w.norm) (hs : Real.sin (w.norm / 2) ≠ 0) :
    wToV w * wToVInv w = 1 ∧ wToVInv w * wToV w = 1 := by
  have h0 : w.norm ≠ 0 := by linarith
  have hc := v_coeffs h0 hs
  have hK := skew_cube w
  rw [← V.norm_sq w] at hK
  unfold wToV wToVInv
  simp only
  rw [if_pos h, if_pos h, poly_mul _ _ _ _ _ hK, poly_mul' _ _ _ _ _ hK, hc.1, hc.2]
  simp

/-- C24: above the switch, and as long as the angle is no multiple of `2π` (where `V` has no inverse),
`w_to_v` and `w_to_v_inv` are inverse matrices. -/
theorem C24_inverse (w : V) (h : 0.05 < w.norm) (hs : ∀ k : ℤ, w.norm ≠ k * (2 * Real.pi)) :
    wToV w * wToVInv w = 1 ∧ wToVInv w * wToV w = 1 := by
  apply v_inverse h
  intro hz
  obtain ⟨k, hk⟩ := Real.sin_eq_zero_iff.mp hz
  exact hs k (by linarith)

/-- C24: at angle `2π` the matrix `w_to_v` is singular, so the exclusion is necessary. -/
theorem C24_singular (w : V) (h : w.norm = 2 * Real.pi) : wToV w * (skew w * skew w) = 0 := by
  have hpi := Real.pi_gt_three
  have hK := skew_cube w
  rw [← V.norm_sq w] at hK
  have hK4 : skew w * skew w * (skew w * skew w) = (-w.norm ^ 2) • (skew w * skew w) := by
    rw [← Matrix.mul_assoc, hK, Matrix.smul_mul]
  have h3 : skew w * (skew w * skew w) = (-w.norm ^ 2) • skew w := by rw [← Matrix.mul_assoc, hK]
  unfold wToV
  simp only
  rw [if_pos (by rw [h]; norm_num; linarith), h, Real.cos_two_pi, Real.sin_two_pi]
  rw [h] at hK4 h3
  simp only [Matrix.add_mul, Matrix.smul_mul, Matrix.one_mul, h3, hK4, smul_smul]
  have : (2 * Real.pi - 0) / (2 * Real.pi) ^ 3 * -(2 * Real.pi) ^ 2 = -1 := by field_simp; ring
  rw [this]
  simp

example : ∃ w : V, 0.05 < w.norm ∧ ∀ k : ℤ, w.norm ≠ k * (2 * Real.pi) := by
  refine ⟨⟨0, 3 * 0.2, 4 * 0.2⟩, ?_, ?_⟩
  · rw [norm_345] <;> norm_num
  · rw [norm_345 _ (by norm_num)]
    intro k hk
    have h3 := Real.pi_gt_three
    have hk0 : 0 < k := by
      by_contra hc
      have : (k : ℝ) ≤ 0 := by exact_mod_cast not_lt.mp hc
      nlinarith
    have hk1 : (1 : ℝ) ≤ k := by exact_mod_cast hk0
    norm_num at hk
    nlinarith

/-! ### C25 -/

theorem mulV_mul (A B : M3) (v : V) : mulV A (mulV B v) = mulV (A * B) v := by
  ext <;> simp [mulV, Matrix.mul_apply, Fin.sum_univ_three] <;> ring
theorem mulV_one (v : V) : mulV 1 v = v := by
  ext <;> simp [mulV]

theorem half_sin_ne {t : ℝ} (h0 : 0 < t) (h1 : t < Real.pi) : Real.sin (t / 2) ≠ 0 :=
  (Real.sin_pos_of_pos_of_lt_pi (by linarith) (by linarith)).ne'

/-- the logarithm recovers `omega` from the rotation matrix of an axis-angle pair -/
theorem log_core {sw : ℝ} {n : V} {t : ℝ} (hn : IsUnit3 n) (h0 : 0 < t) (h1 : t < Real.pi) (hsw : sw < t) (tv : V) :
    se3LogCore sw (qu2om (ax2qu ⟨n, t⟩)) tv = ⟨V.smul t n, mulV (wToVInv (V.smul t n)) tv⟩ := by
  have hs : 0 < Real.sin t := Real.sin_pos_of_pos_of_lt_pi h0 h1
  have e := rodrigues_entries n t hn
  have hn' := hn
  unfold IsUnit3 at hn
  have htr : 0.5 * ((qu2om (ax2qu ⟨n, t⟩)) 0 0 + (qu2om (ax2qu ⟨n, t⟩)) 1 1 + (qu2om (ax2qu ⟨n, t⟩)) 2 2 - 1) = Real.cos t := by
    rw [e]
    simp [skewM, Matrix.mul_apply, Fin.sum_univ_three]
    linear_combination (1 - Real.cos t) * (-1) * hn
  have hx : (qu2om (ax2qu ⟨n, t⟩)) 2 1 - (qu2om (ax2qu ⟨n, t⟩)) 1 2 = 2 * Real.sin t * n.x := by
    rw [e]; simp [skewM, Matrix.mul_apply, Fin.sum_univ_three]; ring
  have hy : (qu2om (ax2qu ⟨n, t⟩)) 0 2 - (qu2om (ax2qu ⟨n, t⟩)) 2 0 = 2 * Real.sin t * n.y := by
    rw [e]; simp [skewM, Matrix.mul_apply, Fin.sum_univ_three]; ring
  have hz : (qu2om (ax2qu ⟨n, t⟩)) 1 0 - (qu2om (ax2qu ⟨n, t⟩)) 0 1 = 2 * Real.sin t * n.z := by
    rw [e]; simp [skewM, Matrix.mul_apply, Fin.sum_univ_three]; ring
  unfold se3LogCore
  simp only
  rw [htr, clamp1_of_mem (Real.neg_one_le_cos _) (Real.cos_le_one _), Real.arccos_cos h0.le h1.le,
    if_pos hsw, hx, hy, hz]
  have : V.smul (0.5 * t / Real.sin t) ⟨2 * Real.sin t * n.x, 2 * Real.sin t * n.y, 2 * Real.sin t * n.z⟩
      = V.smul t n := by
    ext <;> simp only [V.smul] <;> field_simp <;> ring
  rw [this]

theorem smul_axis {w : V} (h : 0 < w.norm) : V.smul w.norm (V.sdiv w w.norm) = w := by
  ext <;> simp only [V.smul, V.sdiv] <;> field_simp

/-- C25: the logarithms invert the exponentials for rotation angles between the switch and `π`. -/
theorem C25_log_exp (v : Twist) (h : 0.05 < v.w.norm) (h1 : v.w.norm < Real.pi) :
    se3LogOm (se3ExpOm v) = v ∧ se3LogSplit (se3ExpSplit v).1 (se3ExpSplit v).2 = v ∧
    se3LogQuat (se3ExpQuat v).1 (se3ExpQuat v).2 = v := by
  have hp : 0 < v.w.norm := by linarith
  have h' : 0.001 < v.w.norm := by linarith
  have hinv := (v_inverse h (half_sin_ne hp h1)).2
  have hR : (wExpVmat v.w).1 = qu2om (ax2qu ⟨V.sdiv v.w v.w.norm, v.w.norm⟩) := by
    unfold wExpVmat; simp only; rw [if_pos h']; exact exp_rodrigues hp
  have hV : (wExpVmat v.w).2 = wToV v.w := by
    unfold wExpVmat wToV; simp only; rw [if_pos h', if_pos h]
  have hth : quatTheta v.w = v.w.norm := by unfold quatTheta; rw [if_pos h]
  refine ⟨?_, ?_, ?_⟩
  · unfold se3LogOm se3ExpOm
    have eR : ∀ (R : M3) (t : V), (!![se3Mat R t 0 0, se3Mat R t 0 1, se3Mat R t 0 2; se3Mat R t 1 0, se3Mat R t 1 1,
        se3Mat R t 1 2; se3Mat R t 2 0, se3Mat R t 2 1, se3Mat R t 2 2] : M3) = R := by
      intro R t
      apply m3_ext
      intro i j
      fin_cases i <;> fin_cases j <;> simp [se3Mat]
    have et : ∀ (R : M3) (t : V), (⟨se3Mat R t 0 3, se3Mat R t 1 3, se3Mat R t 2 3⟩ : V) = t := by
      intro R t; ext <;> simp [se3Mat]
    rw [eR, et, hR, hV, log_core (axis_unit hp) hp h1 (by linarith), smul_axis hp, mulV_mul, hinv, mulV_one]
  · unfold se3LogSplit se3ExpSplit
    rw [hR, hV, log_core (axis_unit hp) hp h1 (by linarith), smul_axis hp, mulV_mul, hinv, mulV_one]
  · unfold se3LogQuat se3ExpQuat
    simp only [hth]
    rw [C16_roundtrip _ (axis_unit hp) hp h1]
    simp only
    rw [smul_axis hp, mulV_mul, hinv, mulV_one]

/-- C25: conversely the exponential inverts the logarithm on poses whose rotation angle lies between
the switch and `π` (every rotation matrix is such an axis-angle matrix). -/
theorem C25_exp_log (n t : V) (a : ℝ) (hn : IsUnit3 n) (h : 0.05 < a) (h1 : a < Real.pi) :
    se3ExpOm (se3LogOm (se3Mat (qu2om (ax2qu ⟨n, a⟩)) t)) = se3Mat (qu2om (ax2qu ⟨n, a⟩)) t := by
  have ha : 0 < a := by linarith
  have hnorm : (V.smul a n).norm = a := by
    unfold V.norm V.smul IsUnit3 at *
    simp only
    rw [show (a * n.x) ^ 2 + (a * n.y) ^ 2 + (a * n.z) ^ 2 = a ^ 2 * (n.x ^ 2 + n.y ^ 2 + n.z ^ 2) by ring, hn,
      mul_one, Real.sqrt_sq ha.le]
  have hax : V.sdiv (V.smul a n) a = n := by
    ext <;> simp only [V.smul, V.sdiv] <;> field_simp
  have eR : ∀ (R : M3) (t : V), (!![se3Mat R t 0 0, se3Mat R t 0 1, se3Mat R t 0 2; se3Mat R t 1 0, se3Mat R t 1 1,
      se3Mat R t 1 2; se3Mat R t 2 0, se3Mat R t 2 1, se3Mat R t 2 2] : M3) = R := by
    intro R t
    apply m3_ext
    intro i j
    fin_cases i <;> fin_cases j <;> simp [se3Mat]
  have et : ∀ (R : M3) (t : V), (⟨se3Mat R t 0 3, se3Mat R t 1 3, se3Mat R t 2 3⟩ : V) = t := by
    intro R t; ext <;> simp [se3Mat]
  unfold se3LogOm
  rw [eR, et, log_core hn ha h1 (by linarith)]
  set w := V.smul a n
  have hw : 0.05 < w.norm := by rw [hnorm]; exact h
  have hinv := (v_inverse hw (half_sin_ne (by linarith) (by rw [hnorm]; exact h1))).1
  have h' : 0.001 < w.norm := by linarith
  have hR : (wExpVmat w).1 = qu2om (ax2qu ⟨n, a⟩) := by
    unfold wExpVmat; simp only; rw [if_pos h', exp_rodrigues (by linarith), hnorm, hax]
  have hV : (wExpVmat w).2 = wToV w := by
    unfold wExpVmat wToV; simp only; rw [if_pos h', if_pos hw]
  unfold se3ExpOm
  simp only
  rw [hR, hV, mulV_mul, hinv, mulV_one]

example : 0.05 < (V.mk 0 (3 * 0.2) (4 * 0.2)).norm ∧ (V.mk 0 (3 * 0.2) (4 * 0.2)).norm < Real.pi := by
  rw [norm_345 _ (by norm_num)]
  exact ⟨by norm_num, by have := Real.pi_gt_three; norm_num; linarith⟩

end Verif
