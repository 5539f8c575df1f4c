import Verif.Lemmas.Om2qu
import Verif.Lemmas.Trig
import Verif.Props.Orient
import Mathlib.Analysis.Real.Pi.Bounds
/-!
C16 (axis-angle ↔ quaternion), C17 (Rodrigues ↔ axis-angle), C18 (axis-angle → matrix),
C19 (Bunge angles).  `rotateAbout` is the textbook rotation of Spec/Matrix.lean.
-/
namespace Verif
open Spec

theorem clamp1_of_mem {x : ℝ} (h1 : -1 ≤ x) (h2 : x ≤ 1) : clamp1 x = x := by
  unfold clamp1; rw [min_eq_left h2, max_eq_right h1]

theorem ax2qu_unit {a : AX} (h : IsUnit3 a.n) : IsUnit4 (ax2qu a) := by
  unfold IsUnit3 at h
  simp only [IsUnit4, ax2qu]
  have := Real.sin_sq_add_cos_sq (a.ang / 2)
  linear_combination (Real.sin (a.ang / 2)) ^ 2 * h + this

theorem half_cos (t : ℝ) : Real.cos t = 2 * Real.cos (t / 2) ^ 2 - 1 := by
  rw [← Real.cos_two_mul]; ring_nf
theorem half_sin (t : ℝ) : Real.sin t = 2 * Real.sin (t / 2) * Real.cos (t / 2) := by
  rw [← Real.sin_two_mul]; ring_nf

theorem ax2qu_apply {a : AX} (h : IsUnit3 a.n) (v : V) : quApply (ax2qu a) v = rotateAbout a.n a.ang v := by
  obtain ⟨⟨n1, n2, n3⟩, t⟩ := a
  simp only [IsUnit3] at h
  have hs := Real.sin_sq_add_cos_sq (t / 2)
  simp only [rotateAbout]
  rw [half_cos t, half_sin t]
  generalize hC : Real.cos (t / 2) = C at *
  generalize hS : Real.sin (t / 2) = S at *
  ext <;> simp only [quApply, ax2qu, hC, hS]
  · linear_combination (-S ^ 2 * v.x) * h + (2 * n1 * (n1 * v.x + n2 * v.y + n3 * v.z) - v.x) * hs
  · linear_combination (-S ^ 2 * v.y) * h + (2 * n2 * (n1 * v.x + n2 * v.y + n3 * v.z) - v.y) * hs
  · linear_combination (-S ^ 2 * v.z) * h + (2 * n3 * (n1 * v.x + n2 * v.y + n3 * v.z) - v.z) * hs

/-! ### C16 -/

/-- C16: `ax2qu` of a unit axis and any angle is a unit quaternion realising the textbook rotation by
that angle about that axis; in particular it fixes the axis. -/
theorem C16_ax2qu (a : AX) (h : IsUnit3 a.n) :
    IsUnit4 (ax2qu a) ∧ (∀ v, Rotates (toH (ax2qu a)) v (rotateAbout a.n a.ang v)) ∧
    quApply (ax2qu a) a.n = a.n := by
  refine ⟨ax2qu_unit h, fun v => ?_, ?_⟩
  · rw [← ax2qu_apply h]; exact rotates_apply_scaled _ _
  · rw [ax2qu_apply h]
    unfold IsUnit3 at h
    have hd : a.n.x * a.n.x + a.n.y * a.n.y + a.n.z * a.n.z = 1 := by linarith
    ext <;> simp only [rotateAbout, hd] <;> ring

theorem vec_norm_unit {q : Q} (h : IsUnit4 q) : q.vec.norm = Real.sqrt (1 - q.w ^ 2) := by
  unfold V.norm Q.vec IsUnit4 at *
  simp only
  congr 1
  linarith

theorem unit_w_mem {q : Q} (h : IsUnit4 q) : -1 ≤ q.w ∧ q.w ≤ 1 := by
  unfold IsUnit4 at h
  constructor <;> nlinarith [sq_nonneg q.x, sq_nonneg q.y, sq_nonneg q.z]

/-- C16: `qu2ax` inverts `ax2qu` on angles of `(0, π)`. -/
theorem C16_roundtrip (a : AX) (h : IsUnit3 a.n) (h0 : 0 < a.ang) (h1 : a.ang < Real.pi) :
    qu2ax (ax2qu a) = a := by
  have hu := ax2qu_unit h
  obtain ⟨n, t⟩ := a
  simp only at h h0 h1
  have hw : (ax2qu ⟨n, t⟩).w = Real.cos (t / 2) := rfl
  have hc : 0 < Real.cos (t / 2) := Real.cos_pos_of_mem_Ioo ⟨by linarith, by linarith⟩
  have hs : 0 < Real.sin (t / 2) := Real.sin_pos_of_pos_of_lt_pi (by linarith) (by linarith)
  have hn : (ax2qu ⟨n, t⟩).vec.norm = Real.sin (t / 2) := by
    rw [vec_norm_unit hu, hw, ← Real.sin_sq, Real.sqrt_sq hs.le]
  unfold qu2ax
  rw [hw, clamp1_of_mem (Real.neg_one_le_cos _) (Real.cos_le_one _),
    Real.arccos_cos (by linarith) (by linarith), hn]
  have e : 2 * (t / 2) = t := by ring
  simp only [e, if_neg h0.ne', if_pos hc.ne', ne_eq, not_false_eq_true, hc.ne', sgn, if_pos hc]
  ext <;> simp only [ax2qu, if_true] <;> field_simp

/-- C16, partial: for a non-negative scalar part `qu2ax` describes the same rotation as `q`.  Missing:
negative scalar parts, where it is false (`C16_negative_fails`). -/
theorem C16_qu2ax_partial (q : Q) (hq : IsUnit4 q) (hw : 0 ≤ q.w) :
    ax2qu (qu2ax q) = q ∧ IsUnit3 (qu2ax q).n ∧ 0 ≤ (qu2ax q).ang ∧ (qu2ax q).ang ≤ Real.pi := by
  obtain ⟨hm1, hm2⟩ := unit_w_mem hq
  have hnorm := vec_norm_unit hq
  have hcl := clamp1_of_mem hm1 hm2
  have hcos : Real.cos (Real.arccos q.w) = q.w := Real.cos_arccos hm1 hm2
  have hsin : Real.sin (Real.arccos q.w) = q.vec.norm := by rw [Real.sin_arccos, hnorm]
  have hpi : Real.arccos q.w ≤ Real.pi / 2 := Real.arccos_le_pi_div_two.mpr hw
  have hnn := Real.arccos_nonneg q.w
  unfold qu2ax
  rw [hcl]
  simp only
  by_cases ha : 2 * Real.arccos q.w = 0
  · rw [if_pos ha]
    have : Real.arccos q.w = 0 := by linarith
    have hw1 : q.w = 1 := le_antisymm hm2 (Real.arccos_eq_zero.mp this)
    unfold IsUnit4 at hq
    rw [hw1] at hq
    have hx : q.x = 0 := by nlinarith [sq_nonneg q.x, sq_nonneg q.y, sq_nonneg q.z]
    have hy : q.y = 0 := by nlinarith [sq_nonneg q.x, sq_nonneg q.y, sq_nonneg q.z]
    have hz : q.z = 0 := by nlinarith [sq_nonneg q.x, sq_nonneg q.y, sq_nonneg q.z]
    refine ⟨?_, by simp [IsUnit3], le_refl _, Real.pi_pos.le⟩
    ext <;> simp [ax2qu, hw1, hx, hy, hz]
  · rw [if_neg ha]
    have hpos : 0 < q.vec.norm := by
      rw [← hsin]
      apply Real.sin_pos_of_pos_of_lt_pi
      · exact lt_of_le_of_ne hnn (fun h => ha (by rw [← h]; ring))
      · linarith [Real.pi_pos]
    have hs : (if q.w ≠ 0 then sgn q.w / q.vec.norm else 1) = 1 / q.vec.norm := by
      by_cases h0 : q.w = 0
      · rw [if_neg (by simpa using h0), hnorm, h0]; simp
      · have : 0 < q.w := lt_of_le_of_ne hw (Ne.symm h0)
        rw [if_pos h0]; simp [sgn, this]
    have e : 2 * Real.arccos q.w / 2 = Real.arccos q.w := by ring
    have hsq := V.norm_sq q.vec
    refine ⟨?_, ?_, by simp only; linarith, by simp only; linarith⟩
    · ext <;> simp only [ax2qu, e, hcos, hsin, hs] <;> field_simp
    · simp only [IsUnit3, hs, mul_one_div, div_pow]
      rw [← add_div, ← add_div]
      simp only [Q.vec] at hsq hpos ⊢
      rw [← hsq, div_self (by positivity)]

/-- C16 is false for negative scalar parts: `qu2ax (-0.6, 0.8, 0, 0)` describes the inverse rotation. -/
theorem C16_negative_fails : ∃ q : Q, IsUnit4 q ∧ q.w ≠ 0 ∧
    ¬ SameUpToSign (toH (ax2qu (qu2ax q))) (toH q) := by
  have hq : IsUnit4 ⟨-3/5, 4/5, 0, 0⟩ := by norm_num [IsUnit4]
  have hn := vec_norm_unit hq
  have hn' : (Q.vec ⟨-3/5, 4/5, 0, 0⟩).norm = 4/5 := by
    rw [hn, show (1 - (-3/5 : ℝ) ^ 2) = (4/5) ^ 2 by norm_num]
    exact Real.sqrt_sq (by norm_num)
  refine ⟨⟨-3/5, 4/5, 0, 0⟩, hq, by norm_num, ?_⟩
  have hcos : Real.cos (Real.arccos (-3/5)) = -3/5 := Real.cos_arccos (by norm_num) (by norm_num)
  have hsin : Real.sin (Real.arccos (-3/5)) = 4/5 := by
    rw [Real.sin_arccos, show (1 - (-3/5 : ℝ) ^ 2) = (4/5) ^ 2 by norm_num]
    exact Real.sqrt_sq (by norm_num)
  have ha : 2 * Real.arccos (-3/5) ≠ 0 := by
    intro h
    have : Real.arccos (-3/5) = 0 := by linarith
    rw [this] at hsin; norm_num at hsin
  have e : 2 * Real.arccos (-3/5) / 2 = Real.arccos (-3/5) := by ring
  have hax : qu2ax ⟨-3/5, 4/5, 0, 0⟩ = ⟨⟨-1, 0, 0⟩, 2 * Real.arccos (-3/5)⟩ := by
    unfold qu2ax
    rw [clamp1_of_mem (by norm_num) (by norm_num), hn']
    simp only
    rw [if_neg ha, if_pos (by norm_num)]
    norm_num [sgn]
  rw [hax]
  rintro (h | h)
  · have := congrArg (fun h => h.imI) h
    simp [ax2qu, toH, e, hsin] at this
    norm_num at this
  · have := congrArg (fun h => h.re) h
    simp only [Quaternion.re_neg, toH_re, ax2qu, e, hcos] at this
    norm_num at this

example : IsUnit3 ⟨2/3, -1/3, 2/3⟩ ∧ (0:ℝ) < 1 ∧ (1:ℝ) < Real.pi := by
  refine ⟨by norm_num [IsUnit3], by norm_num, by linarith [Real.pi_gt_three]⟩

/-! ### C17 -/

/-- C17: `ro2ax` inverts `ax2ro` on unit axes and angles of `(0, π)`. -/
theorem C17_roundtrip (a : AX) (h : IsUnit3 a.n) (h0 : 0 < a.ang) (h1 : a.ang < Real.pi) :
    ro2ax (ax2ro a) = a := by
  have ht : 0 < Real.tan (a.ang / 2) := Real.tan_pos_of_pos_of_lt_pi_div_two (by linarith) (by linarith)
  unfold ax2ro ro2ax
  simp only
  rw [if_neg (by rw [abs_eq_zero]; exact ht.ne'), V.norm_eq_one h, V.sdiv_one,
    Real.arctan_tan (by linarith) (by linarith)]
  ext <;> simp only
  ring

/-- C17: conversely `ax2ro` inverts `ro2ax` on unit axes and finite positive magnitudes. -/
theorem C17_roundtrip_ro (n : V) (t : ℝ) (h : IsUnit3 n) (h0 : 0 < t) :
    ax2ro (ro2ax ⟨n, .fin t⟩) = ⟨n, .fin t⟩ := by
  unfold ax2ro ro2ax
  simp only
  rw [if_neg (by rw [abs_eq_zero]; exact h0.ne'), V.norm_eq_one h, V.sdiv_one]
  simp only
  rw [show 2 * Real.arctan t / 2 = Real.arctan t by ring, Real.tan_arctan]

/-- C17: going through Rodrigues vectors, `ro2qu (qu2ro q)` is `±q` for every unit quaternion whose
scalar part is zero or at least the infinity threshold (1e-10) in magnitude. -/
theorem C17_quaternion (q : Q) (hq : IsUnit4 q) (hw : q.w = 0 ∨ 1e-10 ≤ |q.w|) :
    SameUpToSign (toH (ro2qu (qu2ro q))) (toH q) := by
  obtain ⟨hm1, hm2⟩ := unit_w_mem hq
  have hnorm := vec_norm_unit hq
  have hsq : q.x ^ 2 + q.y ^ 2 + q.z ^ 2 = 1 - q.w ^ 2 := by unfold IsUnit4 at hq; linarith
  have hcos : Real.cos (Real.arccos q.w) = q.w := Real.cos_arccos hm1 hm2
  have hsin : Real.sin (Real.arccos q.w) = Real.sqrt (1 - q.w ^ 2) := Real.sin_arccos _
  unfold ro2qu qu2ro
  rw [hsq, clamp1_of_mem hm1 hm2]
  simp only
  rcases hw with hw | hw
  · rw [if_pos (by rw [hw]; norm_num)]
    left
    ext <;> simp [ro2ax, ax2qu, hw]
  rw [if_neg (by linarith)]
  have hw0 : q.w ≠ 0 := by
    rintro h; rw [h] at hw; norm_num at hw
  by_cases h1 : 1 - q.w ^ 2 = 0
  · -- no rotation
    have hx : q.x = 0 := by nlinarith [sq_nonneg q.x, sq_nonneg q.y, sq_nonneg q.z]
    have hy : q.y = 0 := by nlinarith [sq_nonneg q.x, sq_nonneg q.y, sq_nonneg q.z]
    have hz : q.z = 0 := by nlinarith [sq_nonneg q.x, sq_nonneg q.y, sq_nonneg q.z]
    have ht : Real.tan (Real.arccos q.w) = 0 := by rw [Real.tan_eq_sin_div_cos, hsin, h1]; simp
    rw [ht]
    have : q.w = 1 ∨ q.w = -1 := by
      have : (q.w - 1) * (q.w + 1) = 0 := by linarith
      rcases mul_eq_zero.mp this with h | h
      · left; linarith
      · right; linarith
    rcases this with h | h
    · left; ext <;> simp [ro2ax, ax2qu, h, hx, hy, hz]
    · right; ext <;> simp [ro2ax, ax2qu, h, hx, hy, hz]
  have hpos : 0 < 1 - q.w ^ 2 := lt_of_le_of_ne (by nlinarith) (Ne.symm h1)
  have hsp := Real.sqrt_pos.mpr hpos
  have hss := Real.sq_sqrt hpos.le
  have ht : Real.tan (Real.arccos q.w) ≠ 0 := by
    rw [Real.tan_eq_sin_div_cos, hsin, hcos]; exact div_ne_zero hsp.ne' hw0
  have hun : IsUnit3 ⟨q.x * (1 / Real.sqrt (1 - q.w ^ 2)), q.y * (1 / Real.sqrt (1 - q.w ^ 2)),
      q.z * (1 / Real.sqrt (1 - q.w ^ 2))⟩ := by
    simp only [IsUnit3, mul_one_div, div_pow]
    rw [← add_div, ← add_div, hsq, hss, div_self h1]
  unfold ro2ax
  simp only
  rw [if_neg (by rw [abs_eq_zero]; exact ht), V.norm_eq_one hun, V.sdiv_one]
  have hat : (Real.arctan (Real.tan (Real.arccos q.w)) = Real.arccos q.w ∧ 0 < q.w) ∨
      Real.arctan (Real.tan (Real.arccos q.w)) = Real.arccos q.w - Real.pi := by
    rcases lt_or_gt_of_ne hw0 with h | h
    · right
      have h2 : Real.pi / 2 < Real.arccos q.w := by
        by_contra hc
        have := Real.arccos_le_pi_div_two.mp (not_lt.mp hc)
        linarith
      have h3 : Real.arccos q.w ≤ Real.pi := Real.arccos_le_pi _
      rw [← Real.tan_sub_pi]
      exact Real.arctan_tan (by linarith) (by linarith)
    · left
      refine ⟨Real.arctan_tan ?_ ?_, h⟩
      · linarith [Real.arccos_nonneg q.w, Real.pi_pos]
      · exact Real.arccos_lt_pi_div_two.mpr h
  rcases hat with ⟨hat, -⟩ | hat
  · left
    rw [hat]
    ext <;> simp only [ax2qu, toH] <;>
      rw [show 2 * Real.arccos q.w / 2 = Real.arccos q.w by ring] <;> try rw [hcos]
    all_goals rw [hsin]; field_simp
  · right
    rw [hat]
    ext <;> simp only [ax2qu, toH_re, toH_imI, toH_imJ, toH_imK, Quaternion.re_neg, Quaternion.imI_neg,
        Quaternion.imJ_neg, Quaternion.imK_neg] <;>
      rw [show 2 * (Real.arccos q.w - Real.pi) / 2 = Real.arccos q.w - Real.pi by ring] <;>
      first | rw [Real.cos_sub_pi, hcos] | (rw [Real.sin_sub_pi, hsin]; field_simp)

example : ∃ q : Q, IsUnit4 q ∧ (q.w = 0 ∨ 1e-10 ≤ |q.w|) ∧ q.w < 0 :=
  ⟨⟨-3/5, 4/5, 0, 0⟩, by norm_num [IsUnit4], Or.inr (by rw [abs_of_neg] <;> norm_num), by norm_num⟩

/-! ### C18 -/

/-- The rotation matrix of the axis-angle pair written with exact trigonometric factors. -/
theorem rodrigues_entries (n : V) (t : ℝ) (h : IsUnit3 n) :
    qu2om (ax2qu ⟨n, t⟩) = 1 + Real.sin t • skewM n + (1 - Real.cos t) • (skewM n * skewM n) := by
  have hs := Real.sin_sq_add_cos_sq (t / 2)
  unfold IsUnit3 at h
  rw [half_cos t, half_sin t]
  apply m3_ext
  intro i j
  generalize hC : Real.cos (t / 2) = C at *
  generalize hS : Real.sin (t / 2) = S at *
  have hS2 : S ^ 2 = 1 - C ^ 2 := by linarith
  obtain ⟨a, b, c⟩ := n
  simp only at h
  fin_cases i <;> fin_cases j <;>
    simp [qu2om, ax2qu, skewM, Matrix.mul_apply, Fin.sum_univ_three, hC, hS]
  · linear_combination (S ^ 2) * h + (1 - 2 * (b ^ 2 + c ^ 2)) * hs
  · linear_combination (2 * a * b) * hs
  · linear_combination (2 * a * c) * hs
  · linear_combination (2 * a * b) * hs
  · linear_combination (S ^ 2) * h + (1 - 2 * (a ^ 2 + c ^ 2)) * hs
  · linear_combination (2 * b * c) * hs
  · linear_combination (2 * a * c) * hs
  · linear_combination (2 * b * c) * hs
  · linear_combination (S ^ 2) * h + (1 - 2 * (a ^ 2 + b ^ 2)) * hs

theorem skewM_smul (t : ℝ) (n : V) : skewM (V.smul t n) = t • skewM n := by
  apply m3_ext
  intro i j
  fin_cases i <;> fin_cases j <;> simp [skewM, V.smul]

theorem ax2om_exact (a : AX) (h : IsUnit3 a.n) (ht : 0.05 < a.ang) : ax2om a = qu2om (ax2qu a) := by
  obtain ⟨n, t⟩ := a
  simp only at h ht
  have ht0 : t ≠ 0 := by
    rintro rfl
    norm_num at ht
  rw [rodrigues_entries n t h]
  unfold ax2om
  simp only
  rw [if_pos ht, skewM_smul, smul_smul, Matrix.smul_mul, Matrix.mul_smul, smul_smul, smul_smul]
  congr 3
  · field_simp
  · field_simp

/-- C18: above the small-angle switch `ax2om` is the rotation matrix of the pair: proper orthogonal,
equal to `qu2om (ax2qu a)`, and acting as the textbook rotation. -/
theorem C18_exact (a : AX) (h : IsUnit3 a.n) (ht : 0.05 < a.ang) :
    IsRotation (ax2om a) ∧ ax2om a = qu2om (ax2qu a) ∧
    ∀ v, (ax2om a).mulVec (col v) = col (rotateAbout a.n a.ang v) := by
  rw [ax2om_exact a h ht]
  refine ⟨qu2om_isRotation (ax2qu_unit h), rfl, fun v => ?_⟩
  rw [qu2om_apply, ax2qu_apply h]

theorem skewM_entry_le (n : V) (h : IsUnit3 n) (i j : Fin 3) : |skewM n i j| ≤ 1 := by
  unfold IsUnit3 at h
  rw [abs_le_one_iff_mul_self_le_one]
  fin_cases i <;> fin_cases j <;> simp [skewM] <;>
    nlinarith [sq_nonneg n.x, sq_nonneg n.y, sq_nonneg n.z]

theorem skewM_sq_entry_le (n : V) (h : IsUnit3 n) (i j : Fin 3) : |(skewM n * skewM n) i j| ≤ 1 := by
  unfold IsUnit3 at h
  have hx := sq_nonneg n.x
  have hy := sq_nonneg n.y
  have hz := sq_nonneg n.z
  have h1 := sq_nonneg (n.x + n.y)
  have h2 := sq_nonneg (n.x - n.y)
  have h3 := sq_nonneg (n.x + n.z)
  have h4 := sq_nonneg (n.x - n.z)
  have h5 := sq_nonneg (n.y + n.z)
  have h6 := sq_nonneg (n.y - n.z)
  have e : skewM n * skewM n = !![-(n.z ^ 2) - n.y ^ 2, n.x * n.y, n.x * n.z;
      n.x * n.y, -(n.z ^ 2) - n.x ^ 2, n.y * n.z; n.x * n.z, n.y * n.z, -(n.y ^ 2) - n.x ^ 2] := by
    apply m3_ext
    intro i j
    fin_cases i <;> fin_cases j <;> simp [skewM, Matrix.mul_apply, Fin.sum_univ_three] <;> ring
  rw [e, abs_le]
  fin_cases i <;> fin_cases j <;> simp only [Fin.zero_eta, Fin.mk_one, Fin.reduceFinMk, Fin.isValue,
    Matrix.of_apply, Matrix.cons_val', Matrix.cons_val_zero, Matrix.cons_val_one, Matrix.cons_val,
    Matrix.cons_val_fin_one] <;> constructor <;> linarith

/-- C18: on `[0, 0.05]` the two-term Taylor factors are used; every entry is then within `1e-6` of the
exact rotation matrix. -/
theorem C18_small_angle (a : AX) (h : IsUnit3 a.n) (h0 : 0 ≤ a.ang) (ht : a.ang ≤ 0.05) (i j : Fin 3) :
    |ax2om a i j - qu2om (ax2qu a) i j| ≤ 1e-6 := by
  obtain ⟨n, t⟩ := a
  simp only at h h0 ht
  rw [rodrigues_entries n t h]
  unfold ax2om
  simp only
  rw [if_neg (by linarith), skewM_smul, Matrix.smul_mul, Matrix.mul_smul]
  have ht1 : |t| ≤ 1 := by rw [abs_of_nonneg h0]; linarith
  have hsb := Real.sin_bound ht1
  have hcb := Real.cos_bound ht1
  rw [abs_of_nonneg h0] at hsb hcb
  have ht4 : t ^ 4 ≤ 0.05 ^ 4 := by gcongr
  set A := skewM n i j with hA
  set B := (skewM n * skewM n) i j with hB
  have hAb : |A| ≤ 1 := skewM_entry_le n h i j
  have hBb : |B| ≤ 1 := skewM_sq_entry_le n h i j
  have e : (1 + (1 - t ^ 2 / 6) • t • skewM n + (1 / 2 - t ^ 2 / 24) • t • t • (skewM n * skewM n) : M3) i j
      - (1 + Real.sin t • skewM n + (1 - Real.cos t) • (skewM n * skewM n) : M3) i j
      = -(Real.sin t - (t - t ^ 3 / 6)) * A + ((Real.cos t - (1 - t ^ 2 / 2)) - t ^ 4 / 24) * B := by
    simp only [Matrix.add_apply, Matrix.smul_apply, smul_eq_mul, ← hA, ← hB]
    ring
  rw [e]
  have t40 : 0 ≤ t ^ 4 := by positivity
  have k1 : |-(Real.sin t - (t - t ^ 3 / 6)) * A| ≤ t ^ 5 / 100 * 1 := by
    rw [abs_mul, abs_neg]; gcongr
  have k2 : |((Real.cos t - (1 - t ^ 2 / 2)) - t ^ 4 / 24) * B| ≤ (t ^ 4 * (5 / 96) + t ^ 4 / 24) * 1 := by
    rw [abs_mul]
    gcongr
    refine (abs_sub _ _).trans ?_
    rw [abs_of_nonneg (by positivity : 0 ≤ t ^ 4 / 24)]
    linarith
  refine (abs_add_le _ _).trans ?_
  have t5 : t ^ 5 ≤ t ^ 4 := by
    calc t ^ 5 = t ^ 4 * t := by ring
      _ ≤ t ^ 4 * 1 := by gcongr; linarith
      _ = t ^ 4 := by ring
  norm_num at ht4
  have e6 : (1e-6 : ℝ) = 1 / 1000000 := by norm_num
  rw [e6]
  linarith

/-- Finding (outside C18's guard): for negative angles the code also takes the Taylor branch, and the
result is not a rotation matrix (here: axis `z`, angle `-2`). -/
theorem C18_negative_angle_not_rotation : ¬ IsRotation (ax2om ⟨⟨0, 0, 1⟩, -2⟩) := by
  intro h
  have hm : ax2om ⟨⟨0, 0, 1⟩, -2⟩ = !![-1/3, 2/3, 0; -2/3, -1/3, 0; 0, 0, 1] := by
    unfold ax2om
    simp only
    rw [if_neg (by norm_num)]
    apply m3_ext
    intro i j
    fin_cases i <;> fin_cases j <;> simp [skewM, V.smul, Matrix.mul_apply, Fin.sum_univ_three] <;> norm_num
  have := congrFun (congrFun h.1 0) 0
  rw [hm] at this
  simp [Matrix.mul_apply, Fin.sum_univ_three] at this
  norm_num at this

example : IsUnit3 ⟨2/3, -1/3, 2/3⟩ ∧ (0.05:ℝ) < 3 ∧ (0:ℝ) ≤ 0.01 := by norm_num [IsUnit3]

/-! ### C19 -/

/-- The quaternion of `bu2qu` before the sign correction. -/
noncomputable def bunge (b : BU) : Q :=
  ⟨Real.cos (0.5 * b.P) * Real.cos (0.5 * (b.p1 + b.p2)), -Real.sin (0.5 * b.P) * Real.cos (0.5 * (b.p1 - b.p2)),
   -Real.sin (0.5 * b.P) * Real.sin (0.5 * (b.p1 - b.p2)), -Real.cos (0.5 * b.P) * Real.sin (0.5 * (b.p1 + b.p2))⟩

theorem bu2qu_eq_std (b : BU) : bu2qu b = quStd (bunge b) := by
  unfold bu2qu quStd bunge
  simp only
  by_cases h : Real.cos (0.5 * b.P) * Real.cos (0.5 * (b.p1 + b.p2)) < 0
  · rw [if_pos h, if_neg (by linarith)]; ext <;> simp [Q.neg]
  · rw [if_neg h, if_pos (by linarith)]; ext <;> simp

theorem bunge_unit (b : BU) : IsUnit4 (bunge b) := by
  have h1 := Real.sin_sq_add_cos_sq (0.5 * b.P)
  have h2 := Real.sin_sq_add_cos_sq (0.5 * (b.p1 + b.p2))
  have h3 := Real.sin_sq_add_cos_sq (0.5 * (b.p1 - b.p2))
  simp only [IsUnit4, bunge]
  linear_combination h1 + Real.cos (0.5 * b.P) ^ 2 * h2 + Real.sin (0.5 * b.P) ^ 2 * h3

theorem bunge_prod (b : BU) : bunge b =
    quProdRaw (ax2qu ⟨⟨0, 0, 1⟩, -b.p2⟩) (quProdRaw (ax2qu ⟨⟨1, 0, 0⟩, -b.P⟩) (ax2qu ⟨⟨0, 0, 1⟩, -b.p1⟩)) := by
  have hP : 0.5 * b.P = b.P / 2 := by ring
  have hs : 0.5 * (b.p1 + b.p2) = b.p1 / 2 + b.p2 / 2 := by ring
  have hd : 0.5 * (b.p1 - b.p2) = b.p1 / 2 - b.p2 / 2 := by ring
  ext <;> simp only [bunge, quProdRaw, ax2qu, hP, hs, hd, Real.cos_add, Real.cos_sub, Real.sin_add, Real.sin_sub,
    neg_div, Real.cos_neg, Real.sin_neg] <;> ring

/-- C19: `bu2qu` is a unit quaternion with non-negative scalar part whose rotation is the composition of
the three elementary (passive, i.e. negative-angle) rotations: `phi1` about z, `Phi` about x, `phi2`
about z. -/
theorem C19_bu2qu (b : BU) :
    IsUnit4 (bu2qu b) ∧ 0 ≤ (bu2qu b).w ∧
    ∀ v, Rotates (toH (bu2qu b)) v
      (rotateAbout ⟨0, 0, 1⟩ (-b.p2) (rotateAbout ⟨1, 0, 0⟩ (-b.P) (rotateAbout ⟨0, 0, 1⟩ (-b.p1) v))) := by
  rw [bu2qu_eq_std]
  refine ⟨unit_std.mpr (bunge_unit b), quStd_nonneg _, fun v => ?_⟩
  have hz : IsUnit3 ⟨0, 0, 1⟩ := by simp [IsUnit3]
  have hx : IsUnit3 ⟨1, 0, 0⟩ := by simp [IsUnit3]
  have : rotateAbout ⟨0, 0, 1⟩ (-b.p2) (rotateAbout ⟨1, 0, 0⟩ (-b.P) (rotateAbout ⟨0, 0, 1⟩ (-b.p1) v))
      = quApply (quStd (bunge b)) v := by
    rw [quApply_std, bunge_prod, quApply_prodRaw, quApply_prodRaw,
      ax2qu_apply (a := ⟨⟨0, 0, 1⟩, -b.p1⟩) hz, ax2qu_apply (a := ⟨⟨1, 0, 0⟩, -b.P⟩) hx,
      ax2qu_apply (a := ⟨⟨0, 0, 1⟩, -b.p2⟩) hz]
  rw [this]
  exact rotates_apply_scaled _ _

/-- C19: the rotation depends on each angle only modulo `2π`. -/
theorem C19_periodic (b : BU) (k1 k k2 : ℤ) :
    SameUpToSign (toH (bu2qu ⟨b.p1 + k1 * (2 * Real.pi), b.P + k * (2 * Real.pi), b.p2 + k2 * (2 * Real.pi)⟩))
      (toH (bu2qu b)) := by
  have h1 := (C19_bu2qu ⟨b.p1 + k1 * (2 * Real.pi), b.P + k * (2 * Real.pi), b.p2 + k2 * (2 * Real.pi)⟩)
  have h2 := C19_bu2qu b
  rw [← C13_fibre _ _ h1.1 h2.1]
  have hr : ∀ (n v : V) (t : ℝ) (m : ℤ), rotateAbout n (-(t + m * (2 * Real.pi))) v = rotateAbout n (-t) v := by
    intro n v t m
    have hc : Real.cos (-(t + m * (2 * Real.pi))) = Real.cos (-t) := by
      rw [Real.cos_neg, Real.cos_neg, Real.cos_add_int_mul_two_pi]
    have hs : Real.sin (-(t + m * (2 * Real.pi))) = Real.sin (-t) := by
      rw [Real.sin_neg, Real.sin_neg, Real.sin_add_int_mul_two_pi]
    simp only [rotateAbout, hc, hs]
  have hv : ∀ v : V, (qu2om (bu2qu ⟨b.p1 + k1 * (2 * Real.pi), b.P + k * (2 * Real.pi),
      b.p2 + k2 * (2 * Real.pi)⟩)).mulVec (col v) = (qu2om (bu2qu b)).mulVec (col v) := by
    intro v
    have a1 := h1.2.2 v
    have a2 := h2.2.2 v
    simp only [hr] at a1
    rw [(C13_action _ _ _).mp a1, (C13_action _ _ _).mp a2]
  apply m3_ext
  intro i j
  have c1 := congrFun (hv ⟨1, 0, 0⟩) i
  have c2 := congrFun (hv ⟨0, 1, 0⟩) i
  have c3 := congrFun (hv ⟨0, 0, 1⟩) i
  simp [Matrix.mulVec, dotProduct, Fin.sum_univ_three, col] at c1 c2 c3
  fin_cases j
  · exact c1
  · exact c2
  · exact c3

theorem wrap2pi_cos (a : ℝ) : Real.cos (wrap2pi a) = Real.cos a := by
  unfold wrap2pi; split
  · exact Real.cos_add_two_pi a
  · rfl
theorem wrap2pi_sin (a : ℝ) : Real.sin (wrap2pi a) = Real.sin a := by
  unfold wrap2pi; split
  · exact Real.sin_add_two_pi a
  · rfl
theorem wrap2pi_range {a : ℝ} (h1 : -Real.pi < a) (h2 : a ≤ Real.pi) :
    0 ≤ wrap2pi a ∧ wrap2pi a < 2 * Real.pi := by
  have := Real.pi_pos
  unfold wrap2pi; split <;> constructor <;> linarith

/-- If the Euler angles have the right sines and cosines, the Bunge quaternion is `±q`. -/
theorem bunge_of_angles {b : BU} {w x y z p r ca sa cb sb : ℝ} (hp : 0 ≤ p) (hr : 0 ≤ r)
    (hpr : p ^ 2 + r ^ 2 = 1)
    (hw : w = p * ca) (hz : z = -(p * sa)) (hx : x = -(r * cb)) (hy : y = -(r * sb))
    (ha : ca ^ 2 + sa ^ 2 = 1)
    (c1 : Real.cos b.p1 = ca * cb - sa * sb) (s1 : Real.sin b.p1 = sa * cb + ca * sb)
    (c2 : Real.cos b.p2 = ca * cb + sa * sb) (s2 : Real.sin b.p2 = sa * cb - ca * sb)
    (hb : cb ^ 2 + sb ^ 2 = 1)
    (hP : 0 ≤ b.P ∧ b.P ≤ Real.pi) (hcP : Real.cos b.P = p ^ 2 - r ^ 2) :
    bunge b = ⟨w, x, y, z⟩ ∨ bunge b = (⟨w, x, y, z⟩ : Q).neg := by
  have hs := half_sign (t := 0.5 * (b.p1 + b.p2)) ha
    (by rw [show 2 * (0.5 * (b.p1 + b.p2)) = b.p1 + b.p2 by ring, Real.cos_add, c1, c2, s1, s2]
        linear_combination (ca ^ 2 - sa ^ 2) * hb)
    (by rw [show 2 * (0.5 * (b.p1 + b.p2)) = b.p1 + b.p2 by ring, Real.sin_add, c1, c2, s1, s2]
        linear_combination (2 * ca * sa) * hb)
  obtain ⟨e, he, hce, hse⟩ := hs
  have he2 : e ^ 2 = 1 := by rcases he with rfl | rfl <;> norm_num
  have hd : 0.5 * (b.p1 - b.p2) = b.p1 - 0.5 * (b.p1 + b.p2) := by ring
  have hcd : Real.cos (0.5 * (b.p1 - b.p2)) = e * cb := by
    rw [hd, Real.cos_sub, hce, hse, c1, s1]; linear_combination e * cb * ha
  have hsd : Real.sin (0.5 * (b.p1 - b.p2)) = e * sb := by
    rw [hd, Real.sin_sub, hce, hse, c1, s1]; linear_combination e * sb * ha
  have hhalf : 0.5 * b.P = b.P / 2 := by ring
  have hcp : Real.cos (b.P / 2) = p := by
    have h0 : 0 ≤ Real.cos (b.P / 2) := Real.cos_nonneg_of_mem_Icc ⟨by linarith [Real.pi_pos], by linarith⟩
    have h2 : Real.cos (b.P / 2) ^ 2 = p ^ 2 := by
      have := half_cos b.P; linarith
    exact (pow_left_inj₀ h0 hp two_ne_zero).mp h2
  have hsp : Real.sin (b.P / 2) = r := by
    have h0 : 0 ≤ Real.sin (b.P / 2) := Real.sin_nonneg_of_nonneg_of_le_pi (by linarith) (by linarith [Real.pi_pos])
    have h2 : Real.sin (b.P / 2) ^ 2 = r ^ 2 := by
      have := Real.sin_sq_add_cos_sq (b.P / 2); rw [hcp] at this; linarith
    exact (pow_left_inj₀ h0 hr two_ne_zero).mp h2
  have e1 : bunge b = ⟨e * w, e * x, e * y, e * z⟩ := by
    ext <;> simp only [bunge, hhalf, hcp, hsp, hcd, hsd, hce, hse, hw, hx, hy, hz] <;> ring
  rcases he with rfl | rfl
  · left; rw [e1]; ext <;> simp
  · right; rw [e1]; ext <;> simp [Q.neg]

/-- C19: `bu2qu` inverts `qu2bu` up to sign, and the angles lie in the Bunge ranges. -/
theorem C19_roundtrip (q : Q) (hq : IsUnit4 q) :
    SameUpToSign (toH (bu2qu (qu2bu q))) (toH q) ∧
    (0 ≤ (qu2bu q).p1 ∧ (qu2bu q).p1 < 2 * Real.pi) ∧ (0 ≤ (qu2bu q).P ∧ (qu2bu q).P ≤ Real.pi) ∧
    (0 ≤ (qu2bu q).p2 ∧ (qu2bu q).p2 < 2 * Real.pi) := by
  obtain ⟨w, x, y, z⟩ := q
  unfold IsUnit4 at hq
  simp only at hq
  have hpi := Real.pi_pos
  have fin : ∀ b : BU, (bunge b = ⟨w, x, y, z⟩ ∨ bunge b = (⟨w, x, y, z⟩ : Q).neg) →
      SameUpToSign (toH (bu2qu b)) (toH ⟨w, x, y, z⟩) := by
    intro b hb
    rw [bu2qu_eq_std]
    have h1 := toH_std (bunge b)
    unfold SameUpToSign at *
    rcases hb with hb | hb <;> rw [hb] at h1 ⊢
    · exact h1
    · rw [toH_neg] at h1
      rcases h1 with h1 | h1
      · right; exact h1
      · left; simpa using h1
  have w0 : wrap2pi 0 = 0 := by simp [wrap2pi]
  by_cases hchi : Real.sqrt ((w ^ 2 + z ^ 2) * (x ^ 2 + y ^ 2)) = 0
  · by_cases h12 : x ^ 2 + y ^ 2 = 0
    · have hx : x = 0 := by nlinarith [sq_nonneg x, sq_nonneg y]
      have hy : y = 0 := by nlinarith [sq_nonneg x, sq_nonneg y]
      subst hx hy
      have e : qu2bu ⟨w, 0, 0, z⟩ = ⟨wrap2pi (atan2 (-2 * w * z) (w ^ 2 - z ^ 2)), 0, 0⟩ := by
        unfold qu2bu; simp only; rw [if_pos hchi, if_pos h12]; simp only [w0]
      have hn : (w ^ 2 - z ^ 2) ^ 2 + (-2 * w * z) ^ 2 = 1 ^ 2 := by
        have : w ^ 2 + z ^ 2 = 1 := by linarith
        nlinarith
      rw [e]
      refine ⟨fin _ ?_, wrap2pi_range (atan2_range _ _).1 (atan2_range _ _).2, ⟨le_refl _, hpi.le⟩,
        ⟨le_refl _, by linarith⟩⟩
      have hc := atan2_cos one_pos hn
      have hs := atan2_sin one_pos hn
      apply bunge_of_angles (p := 1) (r := 0) (ca := w) (sa := -z) (cb := w) (sb := -z) <;> try simp only [wrap2pi_cos, wrap2pi_sin, hc, hs,
        Real.cos_zero, Real.sin_zero]
      all_goals first | linarith | skip
      exact ⟨le_refl _, hpi.le⟩
    · have h03 : w ^ 2 + z ^ 2 = 0 := by
        have h0 : (w ^ 2 + z ^ 2) * (x ^ 2 + y ^ 2) = 0 := (Real.sqrt_eq_zero (by positivity)).mp hchi
        rcases mul_eq_zero.mp h0 with h | h
        · exact h
        · exact absurd h h12
      have hw : w = 0 := by nlinarith [sq_nonneg w, sq_nonneg z]
      have hz : z = 0 := by nlinarith [sq_nonneg w, sq_nonneg z]
      subst hw hz
      have e : qu2bu ⟨0, x, y, 0⟩ = ⟨wrap2pi (atan2 (2 * x * y) (x ^ 2 - y ^ 2)), Real.pi, 0⟩ := by
        unfold qu2bu; simp only; rw [if_pos hchi, if_neg h12]; simp only [w0]
      have hn : (x ^ 2 - y ^ 2) ^ 2 + (2 * x * y) ^ 2 = 1 ^ 2 := by
        have : x ^ 2 + y ^ 2 = 1 := by linarith
        nlinarith
      rw [e]
      refine ⟨fin _ ?_, wrap2pi_range (atan2_range _ _).1 (atan2_range _ _).2, ⟨hpi.le, le_refl _⟩,
        ⟨le_refl _, by linarith⟩⟩
      have hc := atan2_cos one_pos hn
      have hs := atan2_sin one_pos hn
      apply bunge_of_angles (p := 0) (r := 1) (ca := -x) (sa := -y) (cb := -x) (sb := -y) <;> try simp only [wrap2pi_cos, wrap2pi_sin, hc, hs,
        Real.cos_zero, Real.sin_zero, Real.cos_pi]
      all_goals first | linarith | skip
      exact ⟨hpi.le, le_refl _⟩
  · have hprod : 0 < (w ^ 2 + z ^ 2) * (x ^ 2 + y ^ 2) := by
      have : 0 ≤ (w ^ 2 + z ^ 2) * (x ^ 2 + y ^ 2) := by positivity
      rcases this.lt_or_eq with h | h
      · exact h
      · rw [← h] at hchi; simp at hchi
    have hp0 : 0 < w ^ 2 + z ^ 2 := by
      rcases (show (0:ℝ) ≤ w ^ 2 + z ^ 2 by positivity).lt_or_eq with h | h
      · exact h
      · rw [← h] at hprod; simp at hprod
    have hr0 : 0 < x ^ 2 + y ^ 2 := by
      rcases (show (0:ℝ) ≤ x ^ 2 + y ^ 2 by positivity).lt_or_eq with h | h
      · exact h
      · rw [← h] at hprod; simp at hprod
    obtain ⟨p, hp, hp2⟩ : ∃ p : ℝ, 0 < p ∧ p ^ 2 = w ^ 2 + z ^ 2 :=
      ⟨_, Real.sqrt_pos.mpr hp0, Real.sq_sqrt hp0.le⟩
    obtain ⟨r, hr, hr2⟩ : ∃ r : ℝ, 0 < r ∧ r ^ 2 = x ^ 2 + y ^ 2 :=
      ⟨_, Real.sqrt_pos.mpr hr0, Real.sq_sqrt hr0.le⟩
    have hchi' : Real.sqrt ((w ^ 2 + z ^ 2) * (x ^ 2 + y ^ 2)) = p * r := by
      rw [← hp2, ← hr2, ← mul_pow, Real.sqrt_sq (by positivity)]
    have e : qu2bu ⟨w, x, y, z⟩ = ⟨wrap2pi (atan2 ((x * z - w * y) / (p * r)) ((-w * x - y * z) / (p * r))),
       atan2 (2 * (p * r)) (w ^ 2 + z ^ 2 - (x ^ 2 + y ^ 2)),
       wrap2pi (atan2 ((w * y + x * z) / (p * r)) ((y * z - w * x) / (p * r)))⟩ := by
      unfold qu2bu; simp only; rw [if_neg hchi, hchi']
    have n1 : ((-w * x - y * z) / (p * r)) ^ 2 + ((x * z - w * y) / (p * r)) ^ 2 = 1 ^ 2 := by
      rw [div_pow, div_pow, ← add_div, div_eq_iff (by positivity), mul_pow, hp2, hr2]; ring
    have n2 : ((y * z - w * x) / (p * r)) ^ 2 + ((w * y + x * z) / (p * r)) ^ 2 = 1 ^ 2 := by
      rw [div_pow, div_pow, ← add_div, div_eq_iff (by positivity), mul_pow, hp2, hr2]; ring
    have n3 : (w ^ 2 + z ^ 2 - (x ^ 2 + y ^ 2)) ^ 2 + (2 * (p * r)) ^ 2 = 1 ^ 2 := by
      rw [mul_pow, mul_pow, hp2, hr2]
      have : w ^ 2 + z ^ 2 = 1 - (x ^ 2 + y ^ 2) := by linarith
      rw [this]; ring
    rw [e]
    refine ⟨fin _ ?_, wrap2pi_range (atan2_range _ _).1 (atan2_range _ _).2,
      ⟨atan2_nonneg (by positivity), (atan2_range _ _).2⟩, wrap2pi_range (atan2_range _ _).1 (atan2_range _ _).2⟩
    apply bunge_of_angles (p := p) (r := r) (ca := w / p) (sa := -z / p) (cb := -x / r) (sb := -y / r) hp.le hr.le <;>
      try simp only [wrap2pi_cos, wrap2pi_sin, atan2_cos one_pos n1, atan2_sin one_pos n1, atan2_cos one_pos n2,
        atan2_sin one_pos n2, atan2_cos one_pos n3]
    · linarith
    · field_simp
    · field_simp
    · field_simp
    · field_simp
    · rw [div_pow, div_pow, ← add_div, div_eq_iff (by positivity)]; linarith
    · field_simp
    · field_simp; ring
    · field_simp; ring
    · field_simp; ring
    · rw [div_pow, div_pow, ← add_div, div_eq_iff (by positivity)]; linarith
    · exact ⟨atan2_nonneg (by positivity), (atan2_range _ _).2⟩
    · rw [hp2, hr2]; ring

example : IsUnit4 ⟨-1/2, 1/2, -1/2, 1/2⟩ := by norm_num [IsUnit4]

end Verif
