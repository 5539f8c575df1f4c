import Verif.Lemmas.Om2qu
import Mathlib.LinearAlgebra.LinearIndependent.Lemmas
import Mathlib.Tactic.NormNum
/-!
C13 (quaternion to matrix), C14 (matrix to quaternion), C15 (6D representation).
`IsRotation`, `col`, `IsUnit4`, `Rotates` are in Spec.
-/
namespace Verif
open Spec

/-! ### C13 -/

/-- C13: `qu2om` of a unit quaternion is a proper rotation matrix. -/
theorem C13_rotation (q : Q) (hq : IsUnit4 q) : IsRotation (qu2om q) := qu2om_isRotation hq

/-- C13: the matrix acts on vectors as the quaternion `v ↦ q v q*`, and as `qu_apply`. -/
theorem C13_action (q : Q) (v r : V) :
    Rotates (toH q) v r ↔ (qu2om q).mulVec (col v) = col r := by
  rw [qu2om_apply]
  unfold Rotates
  rw [rotates_apply_scaled]
  constructor
  · intro h
    have hx := congrArg (fun h => h.imI) h
    have hy := congrArg (fun h => h.imJ) h
    have hz := congrArg (fun h => h.imK) h
    simp at hx hy hz
    simp [col, hx, hy, hz]
  · intro h
    have hx := congrFun h 0
    have hy := congrFun h 1
    have hz := congrFun h 2
    simp [col] at hx hy hz
    ext <;> simp [hx, hy, hz]

/-- C13: `qu2om` and `qu_apply` agree. -/
theorem C13_apply (q : Q) (v : V) : (qu2om q).mulVec (col v) = col (quApply q v) := qu2om_apply q v

/-- C13: `qu2om` turns the (standardised) quaternion product into the matrix product. -/
theorem C13_multiplicative (a b : Q) : qu2om (quProd a b) = qu2om a * qu2om b := by
  rw [qu2om_mul]
  rcases quStd_cases (quProdRaw a b) with h | h <;> unfold quProd <;> rw [h]
  exact qu2om_neg _

/-- C13: two unit quaternions have the same matrix exactly when they are equal up to sign. -/
theorem C13_fibre (a b : Q) (ha : IsUnit4 a) (hb : IsUnit4 b) :
    qu2om a = qu2om b ↔ SameUpToSign (toH a) (toH b) := by
  constructor
  · intro h
    have h1 : qu2om (quProdRaw (quConj a) b) = 1 := by
      rw [← qu2om_mul, ← h, ← qu2om_transpose]
      exact rot_transpose_mul (qu2om_isRotation ha)
    have hu : IsUnit4 (quProdRaw (quConj a) b) := unit_prodRaw (unit_conj.mpr ha) hb
    have key : toH b = toH a * toH (quProdRaw (quConj a) b) := by
      rw [toH_prodRaw, toH_conj, ← mul_assoc, ← toH_conj, ← toH_prodRaw, prod_conj_unit ha]
      ext <;> simp
    generalize quProdRaw (quConj a) b = p at *
    obtain ⟨w, x, y, z⟩ := p
    have e00 := congrFun (congrFun h1 0) 0
    have e11 := congrFun (congrFun h1 1) 1
    have e22 := congrFun (congrFun h1 2) 2
    simp [qu2om] at e00 e11 e22
    unfold IsUnit4 at hu
    simp only at hu
    have hx : x = 0 := by nlinarith
    have hy : y = 0 := by nlinarith
    have hz : z = 0 := by nlinarith
    subst hx hy hz
    have hw : (w - 1) * (w + 1) = 0 := by linarith
    rcases mul_eq_zero.mp hw with hw | hw
    · left
      have : w = 1 := by linarith
      rw [key, this]; ext <;> simp
    · right
      have : w = -1 := by linarith
      rw [key, this]; ext <;> simp
  · rintro (h | h)
    · rw [toH_inj h]
    · rw [← toH_neg] at h
      rw [toH_inj h, qu2om_neg]

/-- C13: every rotation matrix is reached. -/
theorem C13_surjective (R : M3) (h : IsRotation R) : ∃ q : Q, IsUnit4 q ∧ qu2om q = R := by
  obtain ⟨q, hq, hR⟩ := rot_surj h
  exact ⟨q, hq, hR.symm⟩

example : IsUnit4 ⟨0.6, 0, 0.8, 0⟩ ∧ qu2om ⟨0.6, 0, 0.8, 0⟩ ≠ 1 := by
  constructor
  · norm_num [IsUnit4]
  · intro h
    have := congrFun (congrFun h 0) 0
    norm_num [qu2om] at this

/-! ### C14 -/

theorem copysign_self_pos {w x : ℝ} (hw : 0 < w) : copysign x (w * x) = x := by
  apply copysign_eq rfl
  by_cases hx : x = 0
  · right; exact hx
  · left; have := sq_pos_of_ne_zero hx; nlinarith [mul_pos hw this]

theorem copysign_self_neg {w x : ℝ} (hw : w < 0) : copysign x (w * x) = -x := by
  apply copysign_eq (by simp)
  by_cases hx : x = 0
  · right; simp [hx]
  · left; have := sq_pos_of_ne_zero hx; nlinarith [mul_pos_of_neg_of_neg hw (neg_neg_of_pos this)]

/-- C14: exact round trip for a positive scalar part. -/
theorem C14_positive (q : Q) (hq : IsUnit4 q) (hw : 0 < q.w) : om2qu (qu2om q) = q := by
  rw [om2qu_qu2om q hq, copysign_self_pos hw, copysign_self_pos hw, copysign_self_pos hw, abs_of_pos hw]

/-- C14, partial: the round trip returns `q` or `-q` whenever `q` is not a half-turn.  Missing: half
turns (`w = 0`), where it is false, see `C14_halfturn_fails`. -/
theorem C14_roundtrip_partial (q : Q) (hq : IsUnit4 q) (hw : q.w ≠ 0) :
    SameUpToSign (toH (om2qu (qu2om q))) (toH q) ∧ 0 < (om2qu (qu2om q)).w := by
  rcases lt_or_gt_of_ne hw with h | h
  · rw [om2qu_qu2om q hq, copysign_self_neg h, copysign_self_neg h, copysign_self_neg h, abs_of_neg h]
    refine ⟨Or.inr ?_, by simp; exact h⟩
    ext <;> simp
  · rw [C14_positive q hq h]
    exact ⟨Or.inl rfl, h⟩

/-- C14: what `om2qu` returns on a half-turn: the axis with all signs dropped. -/
theorem C14_halfturn (q : Q) (hq : IsUnit4 q) (hw : q.w = 0) :
    om2qu (qu2om q) = ⟨0, |q.x|, |q.y|, |q.z|⟩ := by
  rw [om2qu_qu2om q hq, hw]
  simp [copysign]

/-- C14, matrix side, partial: `qu2om (om2qu R) = R` for every rotation matrix that is not a half-turn
(`trace R ≠ -1`). -/
theorem C14_matrix_partial (R : M3) (h : IsRotation R) (ht : R 0 0 + R 1 1 + R 2 2 ≠ -1) :
    qu2om (om2qu R) = R ∧ IsUnit4 (om2qu R) := by
  obtain ⟨q, hq, rfl⟩ := rot_surj h
  have hw : q.w ≠ 0 := by
    intro hw
    apply ht
    unfold IsUnit4 at hq
    rw [hw] at hq
    simp [qu2om, hw]; linarith
  have hs := (C14_roundtrip_partial q hq hw).1
  rcases hs with hs | hs
  · rw [toH_inj hs]; exact ⟨rfl, hq⟩
  · rw [← toH_neg] at hs
    rw [toH_inj hs, qu2om_neg]; exact ⟨rfl, unit_neg.mpr hq⟩

/-- C14 is false for half-turns whose axis has components of opposite sign: the 180° rotation about
`(3, -4, 0)/5` comes back as the one about `(3, 4, 0)/5`. -/
theorem C14_halfturn_fails : ∃ q : Q, IsUnit4 q ∧ ¬ SameUpToSign (toH (om2qu (qu2om q))) (toH q) ∧
    qu2om (om2qu (qu2om q)) ≠ qu2om q := by
  have hu : IsUnit4 ⟨0, 3/5, -4/5, 0⟩ := by norm_num [IsUnit4]
  refine ⟨⟨0, 3/5, -4/5, 0⟩, hu, ?_, ?_⟩
  · rw [C14_halfturn _ hu rfl]
    rintro (h | h)
    · have := congrArg (fun h => h.imJ) h
      norm_num [toH, abs_of_pos, abs_of_neg] at this
    · have := congrArg (fun h => h.imI) h
      simp only [Quaternion.imI_neg, toH_imI] at this
      rw [abs_of_pos (by norm_num)] at this; norm_num at this
  · rw [C14_halfturn _ hu rfl]
    intro h
    have := congrFun (congrFun h 0) 1
    simp only [qu2om] at this
    rw [abs_of_pos (by norm_num : (0:ℝ) < 3/5), abs_of_neg (by norm_num : (-4/5:ℝ) < 0)] at this
    norm_num at this

example : IsUnit4 ⟨0.6, 0, -0.8, 0⟩ ∧ (0:ℝ) < 0.6 := by norm_num [IsUnit4]

/-! ### C15 -/

theorem V.norm_eq_one {v : V} (h : IsUnit3 v) : v.norm = 1 := by
  unfold V.norm; rw [h]; simp

theorem V.norm_pos {v : V} (h : v ≠ ⟨0, 0, 0⟩) : 0 < v.norm := by
  apply Real.sqrt_pos.mpr
  by_contra hc
  apply h
  have h2 := sq_nonneg v.x
  have h3 := sq_nonneg v.y
  have h4 := sq_nonneg v.z
  ext
  · exact pow_eq_zero_iff (two_ne_zero) |>.mp (by linarith)
  · exact pow_eq_zero_iff (two_ne_zero) |>.mp (by linarith)
  · exact pow_eq_zero_iff (two_ne_zero) |>.mp (by linarith)

theorem V.sdiv_unit {v : V} (h : v ≠ ⟨0, 0, 0⟩) : IsUnit3 (V.sdiv v v.norm) := by
  have hp := V.norm_pos h
  have := V.norm_sq v
  simp only [IsUnit3, V.sdiv, div_pow]
  rw [← add_div, ← add_div, ← this, div_self (by positivity)]

/-- Orthonormal first two rows completed by the cross product. -/
theorem rows3_rotation {a b : V} (ha : IsUnit3 a) (hb : IsUnit3 b) (hd : V.dot a b = 0) :
    IsRotation (rows3 a b (V.cross a b)) := by
  obtain ⟨a1, a2, a3⟩ := a
  obtain ⟨b1, b2, b3⟩ := b
  simp only [IsUnit3, V.dot] at ha hb hd
  have hc : (a2 * b3 - a3 * b2) ^ 2 + (a3 * b1 - a1 * b3) ^ 2 + (a1 * b2 - a2 * b1) ^ 2 = 1 := by
    have : (a2 * b3 - a3 * b2) ^ 2 + (a3 * b1 - a1 * b3) ^ 2 + (a1 * b2 - a2 * b1) ^ 2
      = (a1 ^ 2 + a2 ^ 2 + a3 ^ 2) * (b1 ^ 2 + b2 ^ 2 + b3 ^ 2) - (a1 * b1 + a2 * b2 + a3 * b3) ^ 2 := by ring
    rw [this, ha, hb, hd]; norm_num
  constructor
  · apply m3_ext
    intro i j
    fin_cases i <;> fin_cases j <;>
      simp [rows3, V.cross, Matrix.mul_apply, Fin.sum_univ_three] <;> nlinarith
  · rw [Matrix.det_fin_three]
    simp [rows3, V.cross]
    linarith

theorem cross_unit {a b : V} (ha : IsUnit3 a) (hb : IsUnit3 b) (hd : V.dot a b = 0) :
    IsUnit3 (V.cross a b) := by
  obtain ⟨a1, a2, a3⟩ := a
  obtain ⟨b1, b2, b3⟩ := b
  simp only [IsUnit3, V.dot, V.cross] at *
  have : (a2 * b3 - a3 * b2) ^ 2 + (a3 * b1 - a1 * b3) ^ 2 + (a1 * b2 - a2 * b1) ^ 2
      = (a1 ^ 2 + a2 ^ 2 + a3 ^ 2) * (b1 ^ 2 + b2 ^ 2 + b3 ^ 2) - (a1 * b1 + a2 * b2 + a3 * b3) ^ 2 := by ring
  rw [this, ha, hb, hd]; norm_num

theorem V.sdiv_one (v : V) : V.sdiv v 1 = v := by ext <;> simp [V.sdiv]

/-- C15: every linearly independent pair is mapped to a rotation matrix whose first row is `a1`
normalised and whose second row lies in the span, on the side of `a2` (Gram–Schmidt). -/
theorem C15_rotation (a1 a2 : V) (h : LinearIndependent ℝ ![col a1, col a2]) :
    IsRotation (zh2om a1 a2) ∧
    (∃ s : ℝ, 0 < s ∧ (zh2om a1 a2) 0 = s • col a1) ∧
    ∃ s t : ℝ, 0 < s ∧ (zh2om a1 a2) 1 = s • col a2 + t • col a1 := by
  rw [LinearIndependent.pair_iff] at h
  have h1 : a1 ≠ ⟨0, 0, 0⟩ := by
    rintro rfl
    have := (h 1 0 (by ext i; fin_cases i <;> simp [col])).1
    norm_num at this
  have hn := V.norm_pos h1
  set b1 := V.sdiv a1 a1.norm with hb1
  have hu1 : IsUnit3 b1 := V.sdiv_unit h1
  set b2' := V.sub a2 (V.smul (V.dot b1 a2) b1) with hb2'
  have h2 : b2' ≠ ⟨0, 0, 0⟩ := by
    intro he
    have hx := congrArg V.x he
    have hy := congrArg V.y he
    have hz := congrArg V.z he
    simp only [hb2', V.sub, V.smul] at hx hy hz
    have := (h (-(V.dot b1 a2) / a1.norm) 1 (by
      ext i
      fin_cases i <;> simp [col]
      · have : b1.x = a1.x / a1.norm := rfl
        rw [this] at hx
        rw [← hx]; ring
      · have : b1.y = a1.y / a1.norm := rfl
        rw [this] at hy
        rw [← hy]; ring
      · have : b1.z = a1.z / a1.norm := rfl
        rw [this] at hz
        rw [← hz]; ring)).2
    norm_num at this
  have hu2 : IsUnit3 (V.sdiv b2' b2'.norm) := V.sdiv_unit h2
  have hd : V.dot b1 (V.sdiv b2' b2'.norm) = 0 := by
    have : V.dot b1 b2' = 0 := by
      simp only [hb2', V.dot, V.sub, V.smul]
      unfold IsUnit3 at hu1
      linear_combination -(b1.x * a2.x + b1.y * a2.y + b1.z * a2.z) * hu1
    simp only [V.dot, V.sdiv] at this ⊢
    rw [mul_div, mul_div, mul_div, ← add_div, ← add_div, this, zero_div]
  have e : zh2om a1 a2 = rows3 b1 (V.sdiv b2' b2'.norm) (V.cross b1 (V.sdiv b2' b2'.norm)) := by
    unfold zh2om
    simp only
    rw [← hb1, ← hb2', V.norm_eq_one (cross_unit hu1 hu2 hd), V.sdiv_one]
  have hn2 := V.norm_pos h2
  rw [e]
  refine ⟨rows3_rotation hu1 hu2 hd, ⟨1 / a1.norm, by positivity, ?_⟩,
    ⟨1 / b2'.norm, -(V.dot b1 a2) / a1.norm / b2'.norm, by positivity, ?_⟩⟩
  · ext i
    fin_cases i <;> simp [rows3, col, hb1, V.sdiv] <;> ring
  · have g : ∀ p q r : ℝ, (p - V.dot b1 a2 * (q / a1.norm)) / b2'.norm
        = 1 / b2'.norm * p + -(V.dot b1 a2) / a1.norm / b2'.norm * q := by
      intro p q r; field_simp; ring
    ext i
    fin_cases i
    · exact g a2.x a1.x 0
    · exact g a2.y a1.y 0
    · exact g a2.z a1.z 0

/-- C15: `zh2om` inverts `om2zh` on rotation matrices. -/
theorem C15_retraction (R : M3) (h : IsRotation R) : zh2om (om2zh R).1 (om2zh R).2 = R := by
  rw [Matrix.eta_fin_three R] at h ⊢
  obtain ⟨⟨r0, r1, r2, r01, r02, r12⟩, -, ha, hb, hc, hd, hk, hl, hm, hn, ho⟩ := rot_scalars h
  generalize R 0 0 = a at *
  generalize R 0 1 = b at *
  generalize R 0 2 = c at *
  generalize R 1 0 = d at *
  generalize R 1 1 = k at *
  generalize R 1 2 = l at *
  generalize R 2 0 = m at *
  generalize R 2 1 = n at *
  generalize R 2 2 = o at *
  have hu1 : IsUnit3 ⟨a, b, c⟩ := r0
  have hu2 : IsUnit3 ⟨d, k, l⟩ := r1
  have hd' : V.dot ⟨a, b, c⟩ ⟨d, k, l⟩ = 0 := r01
  have e : om2zh !![a, b, c; d, k, l; m, n, o] = (⟨a, b, c⟩, ⟨d, k, l⟩) := by simp [om2zh]
  have hs : V.sub ⟨d, k, l⟩ (V.smul 0 ⟨a, b, c⟩) = ⟨d, k, l⟩ := by ext <;> simp [V.sub, V.smul]
  rw [e]
  unfold zh2om
  simp only
  rw [V.norm_eq_one hu1, V.sdiv_one, hd', hs, V.norm_eq_one hu2, V.sdiv_one,
    V.norm_eq_one (cross_unit hu1 hu2 hd'), V.sdiv_one]
  simp only [rows3, V.cross]
  rw [← hm, ← hn, ← ho]

/-- C15: the quaternion route `qu2zh` then `zh2qu` returns every unit quaternion with positive scalar
part. -/
theorem C15_quat (q : Q) (hq : IsUnit4 q) (hw : 0 < q.w) : zh2qu (qu2zh q).1 (qu2zh q).2 = q := by
  unfold zh2qu qu2zh
  rw [C15_retraction _ (qu2om_isRotation hq), C14_positive q hq hw]

example : LinearIndependent ℝ ![col ⟨1, 2, 3⟩, col ⟨0, 1, -1⟩] := by
  rw [LinearIndependent.pair_iff]
  intro s t h
  have h0 := congrFun h 0
  have h1 := congrFun h 1
  simp [col] at h0 h1
  subst h0
  simp at h1
  exact ⟨rfl, h1⟩

end Verif
