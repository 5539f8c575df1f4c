import Verif.Lemmas.HoRound
import Verif.Lemmas.HoNewton
import Verif.Props.Cubo
import Verif.Props.AxisAngle
/-!
C106: converting a rotation to homochoric (or cubochoric) coordinates and back gives the same axis and, to a stated
accuracy, the same angle, for every axis and every angle in `[0, π]`.
-/
namespace Verif.HoAcc
open Verif Verif.Cubo Verif.Spec Verif.HoFit Real

/-- C106, `ho2ax` with `fast = True` (the default): a rotation by less than 0.0021 rad may come back as the identity; every
other one comes back with its own axis, and with its angle to within `3e-7` (single precision fit) or `1.2e-8`. -/
theorem C106_ho2ax_fast (single : Bool) (a : AX) (hu : IsUnit3 a.n) (h0 : 0 ≤ a.ang) (hπ : a.ang ≤ π) :
    (a.ang < 0.0021 ∧ ho2ax single true (ax2ho a) = ⟨⟨0, 0, 1⟩, 0⟩) ∨
    (0.002 ≤ a.ang ∧ (ho2ax single true (ax2ho a)).n = a.n ∧
      |(ho2ax single true (ax2ho a)).ang - a.ang| ≤ if single then 3e-7 else 1.2e-8) := by
  have key := round (u0 := 1e-3) (s := ho2axPoly single) (δ := if single then 3e-7 else 1.2e-8) hu h0 hπ (by norm_num) (by norm_num) (by
    intro u n h1 h2 h3 h4
    unfold clamp1
    cases single
    · rw [poly_double]; exact fitDouble_angle h1 h2 h3 h4
    · rw [poly_single]; exact fitSingle_angle h1 h2 h3 h4)
  dsimp only at key
  rw [show ((1e-3 : ℝ)) ^ 2 = 1e-6 by norm_num] at key
  unfold ho2ax
  dsimp only
  generalize hn : (ax2ho a).x ^ 2 + (ax2ho a).y ^ 2 + (ax2ho a).z ^ 2 = n at *
  by_cases hc : |n| < 1e-6
  · left
    rw [if_pos hc]
    exact ⟨lt_of_lt_of_le (key.1 hc) (by norm_num), rfl⟩
  · right
    obtain ⟨k1, k2, k3⟩ := key.2 hc
    rw [if_neg hc]
    refine ⟨le_trans (by norm_num) k1, k2, ?_⟩
    simpa using k3

/-- C106, `ho2ax` in double precision with `fast = False`: the Newton step improves the angle to `1e-11`. -/
theorem C106_ho2ax_newton_step (a : AX) (hu : IsUnit3 a.n) (h0 : 0 ≤ a.ang) (hπ : a.ang ≤ π) :
    (a.ang < 0.0021 ∧ ho2ax false false (ax2ho a) = ⟨⟨0, 0, 1⟩, 0⟩) ∨
    (0.002 ≤ a.ang ∧ (ho2ax false false (ax2ho a)).n = a.n ∧ |(ho2ax false false (ax2ho a)).ang - a.ang| ≤ 1e-11) := by
  obtain ⟨ρ, hρ0, hρ3, hho, hn⟩ := ho_sq hu h0
  have hb : 0 ≤ 0.75 * (a.ang - sin a.ang) := by
    have := sin_le h0
    apply mul_nonneg (by norm_num); linarith
  have hρ : ρ = (0.75 * (a.ang - sin a.ang)) ^ ((1 : ℝ) / 3) := by
    rw [← hρ3, ← rpow_natCast, ← rpow_mul hρ0]; norm_num
  rcases C106_ho2ax_fast false a hu h0 hπ with ⟨h1, h2⟩ | ⟨h1, h2, h3⟩
  · refine Or.inl ⟨h1, ?_⟩
    unfold ho2ax at h2 ⊢
    dsimp only at h2 ⊢
    by_cases hc : |(ax2ho a).x ^ 2 + (ax2ho a).y ^ 2 + (ax2ho a).z ^ 2| < 1e-6
    · rw [if_pos hc]
    · rw [if_neg hc] at h2
      have hang := congrArg AX.ang h2
      have key := round (u0 := 1e-3) (s := ho2axPoly false) (δ := 1.2e-8) hu h0 hπ (by norm_num) (by norm_num) (by
        intro u n h1 h2 h3 h4
        unfold clamp1
        rw [poly_double]; exact fitDouble_angle h1 h2 h3 h4)
      dsimp only at key
      rw [show ((1e-3 : ℝ)) ^ 2 = 1e-6 by norm_num] at key
      obtain ⟨k1, k2, k3⟩ := key.2 hc
      simp only [Bool.true_eq_false, and_false, if_false] at hang
      rw [hang, zero_sub, abs_neg, abs_of_nonneg h0] at k3
      linarith
  · refine Or.inr ⟨h1, ?_⟩
    unfold ho2ax at h2 h3 ⊢
    dsimp only at h2 h3 ⊢
    by_cases hc : |(ax2ho a).x ^ 2 + (ax2ho a).y ^ 2 + (ax2ho a).z ^ 2| < 1e-6
    · rw [if_pos hc] at h3
      simp only [zero_sub, abs_neg, abs_of_nonneg h0, Bool.false_eq_true, if_false] at h3
      linarith
    · rw [if_neg hc] at h2 h3 ⊢
      refine ⟨h2, ?_⟩
      simp only [Bool.false_eq_true, Bool.true_eq_false, and_false, if_false, and_self, if_true] at h3 ⊢
      rw [hn] at h3 ⊢
      rw [sqrt_sq hρ0, hρ] at *
      exact newton_step (w := a.ang) (by linarith) hπ h3

/-- C106, `ho2ax_reference`: both coefficient sets, with the smaller cut-off of that function; any other name is refused. -/
theorem C106_ho2ax_reference (coeffs : String) (a : AX) (hu : IsUnit3 a.n) (h0 : 0 ≤ a.ang) (hπ : a.ang ≤ π) :
    (coeffs ≠ "kikuchipy" ∧ coeffs ≠ "EMsoft" ∧ ho2axReference (ax2ho a) coeffs = none) ∨
    ((coeffs = "kikuchipy" ∨ coeffs = "EMsoft") ∧ ∃ r, ho2axReference (ax2ho a) coeffs = some r ∧
      ((a.ang < 0.00021 ∧ r = ⟨⟨0, 0, 1⟩, 0⟩) ∨
       (0.0002 ≤ a.ang ∧ r.n = a.n ∧ |r.ang - a.ang| ≤ if coeffs = "EMsoft" then 8e-11 else 4e-8))) := by
  by_cases hk : coeffs = "kikuchipy"
  · right
    refine ⟨Or.inl hk, ?_⟩
    have key := round (u0 := 1e-4) (s := fun n => (kikuchipyFit.zipIdx.map fun ci => ci.1 * n ^ ci.2).sum) (δ := 4e-8) hu h0 hπ
      (by norm_num) (by norm_num) (by
      intro u n h1 h2 h3 h4
      unfold clamp1
      beta_reduce
      rw [poly_kikuchipy]; exact fitKikuchipy_angle h1 h2 h3 h4)
    dsimp only at key
    rw [show ((1e-4 : ℝ)) ^ 2 = 1e-8 by norm_num] at key
    subst hk
    unfold ho2axReference referenceFit
    rw [if_pos rfl, if_neg (by decide : ¬("kikuchipy" : String) = "EMsoft"), Option.map_some]
    refine ⟨_, rfl, ?_⟩
    by_cases hc : |(ax2ho a).x ^ 2 + (ax2ho a).y ^ 2 + (ax2ho a).z ^ 2| < 1e-8
    · left
      rw [if_pos hc]
      exact ⟨lt_of_lt_of_le (key.1 hc) (by norm_num), rfl⟩
    · right
      obtain ⟨k1, k2, k3⟩ := key.2 hc
      rw [if_neg hc]
      exact ⟨le_trans (by norm_num) k1, k2, k3⟩
  · by_cases he : coeffs = "EMsoft"
    · right
      refine ⟨Or.inr he, ?_⟩
      have key := round (u0 := 1e-4) (s := fun n => (emsoftFit.zipIdx.map fun ci => ci.1 * n ^ ci.2).sum) (δ := 8e-11) hu h0 hπ
        (by norm_num) (by norm_num) (by
        intro u n h1 h2 h3 h4
        unfold clamp1
        beta_reduce
        rw [poly_emsoft]; exact fitEMsoft_angle h1 h2 h3 h4)
      dsimp only at key
      rw [show ((1e-4 : ℝ)) ^ 2 = 1e-8 by norm_num] at key
      subst he
      unfold ho2axReference referenceFit
      rw [if_neg hk, if_pos rfl, if_pos rfl, Option.map_some]
      refine ⟨_, rfl, ?_⟩
      by_cases hc : |(ax2ho a).x ^ 2 + (ax2ho a).y ^ 2 + (ax2ho a).z ^ 2| < 1e-8
      · left
        rw [if_pos hc]
        exact ⟨lt_of_lt_of_le (key.1 hc) (by norm_num), rfl⟩
      · right
        obtain ⟨k1, k2, k3⟩ := key.2 hc
        rw [if_neg hc]
        exact ⟨le_trans (by norm_num) k1, k2, k3⟩
    · left
      refine ⟨hk, he, ?_⟩
      unfold ho2axReference referenceFit
      rw [if_neg hk, if_neg he]; rfl

/-- what quaternion round trips mean for angles: unit quaternions about one axis -/
theorem dot_same_axis (n : V) (hu : IsUnit3 n) (w w' : ℝ) :
    (ax2qu ⟨n, w⟩).w * (ax2qu ⟨n, w'⟩).w + (ax2qu ⟨n, w⟩).x * (ax2qu ⟨n, w'⟩).x + (ax2qu ⟨n, w⟩).y * (ax2qu ⟨n, w'⟩).y +
      (ax2qu ⟨n, w⟩).z * (ax2qu ⟨n, w'⟩).z = cos ((w' - w) / 2) := by
  unfold ax2qu
  dsimp only
  unfold IsUnit3 at hu
  rw [show (w' - w) / 2 = w' / 2 - w / 2 by ring, cos_sub]
  linear_combination (sin (w / 2) * sin (w' / 2)) * hu

/-- a unit quaternion with nonnegative scalar part comes from an axis and an angle in `[0, π]`, and `qu2ho` agrees with `ax2ho`
except for rotations below `1e-8` rad, which it sends to the origin -/
theorem qu2ho_axis (q : Q) (hq : IsUnit4 q) (hw : 0 ≤ q.w) :
    ∃ a : AX, IsUnit3 a.n ∧ 0 ≤ a.ang ∧ a.ang ≤ π ∧ ax2qu a = q ∧
      ((a.ang < 1e-8 ∧ qu2ho q = ⟨0, 0, 0⟩) ∨ qu2ho q = ax2ho a) := by
  unfold IsUnit4 at hq
  have hw1 : q.w ≤ 1 := by nlinarith [sq_nonneg q.x, sq_nonneg q.y, sq_nonneg q.z]
  have hcl : clamp1 q.w = q.w := by
    unfold clamp1; rw [min_eq_left hw1, max_eq_right (by linarith)]
  have hs : sin (arccos q.w) = sqrt (q.x ^ 2 + q.y ^ 2 + q.z ^ 2) := by
    rw [sin_arccos]; congr 1; linarith
  have hpi : arccos q.w ≤ π / 2 := arccos_le_pi_div_two.mpr hw
  have hnn := arccos_nonneg q.w
  by_cases hv : q.x ^ 2 + q.y ^ 2 + q.z ^ 2 = 0
  · have hx : q.x = 0 := by nlinarith [sq_nonneg q.x, sq_nonneg q.y, sq_nonneg q.z]
    have hy : q.y = 0 := by nlinarith [sq_nonneg q.x, sq_nonneg q.y, sq_nonneg q.z]
    have hz : q.z = 0 := by nlinarith [sq_nonneg q.x, sq_nonneg q.y, sq_nonneg q.z]
    have hw' : q.w = 1 := by nlinarith
    refine ⟨⟨⟨0, 0, 1⟩, 0⟩, by unfold IsUnit3; norm_num, le_rfl, pi_pos.le, ?_, Or.inl ⟨by norm_num, ?_⟩⟩
    · unfold ax2qu
      ext <;> simp [hx, hy, hz, hw']
    · unfold qu2ho
      dsimp only
      rw [hcl, hw', arccos_one, if_pos (by norm_num)]
  · have hpos : 0 < q.x ^ 2 + q.y ^ 2 + q.z ^ 2 := lt_of_le_of_ne (by positivity) (Ne.symm hv)
    have hr : 0 < sqrt (q.x ^ 2 + q.y ^ 2 + q.z ^ 2) := sqrt_pos.mpr hpos
    have hvn : q.vec.norm = sqrt (q.x ^ 2 + q.y ^ 2 + q.z ^ 2) := rfl
    refine ⟨⟨V.sdiv q.vec q.vec.norm, 2 * arccos q.w⟩, ?_, by linarith, by linarith, ?_, ?_⟩
    · unfold IsUnit3 V.sdiv
      rw [hvn]
      simp only [Q.vec, div_pow, sq_sqrt hpos.le]
      field_simp
    · unfold ax2qu V.sdiv
      rw [hvn]
      simp only [Q.vec]
      rw [show 2 * arccos q.w / 2 = arccos q.w by ring, hs, cos_arccos (by linarith) hw1]
      ext <;> simp <;> field_simp
    · unfold qu2ho
      dsimp only
      rw [hcl]
      by_cases hc : 2 * arccos q.w < 1e-8
      · left; rw [if_pos hc]; exact ⟨hc, rfl⟩
      · right; rw [if_neg hc]
        unfold ax2ho
        dsimp only
        congr 2
        ring

/-- C106 for quaternions: `ho2qu (qu2ho q)` differs from `q` by a rotation of at most `3e-7` (single) or `1.2e-8` rad, or both
`q` is a rotation of less than 0.0021 rad and the result is the identity. -/
theorem C106_quaternion (single : Bool) (q : Q) (hq : IsUnit4 q) (hw : 0 ≤ q.w) :
    (cos (0.0021 / 2) < q.w ∧ ho2qu single (qu2ho q) = ⟨1, 0, 0, 0⟩) ∨
    cos ((if single then 3e-7 else 1.2e-8) / 2) ≤
      q.w * (ho2qu single (qu2ho q)).w + q.x * (ho2qu single (qu2ho q)).x + q.y * (ho2qu single (qu2ho q)).y +
        q.z * (ho2qu single (qu2ho q)).z := by
  obtain ⟨a, hu, h0, hπ, ha, hh⟩ := qu2ho_axis q hq hw
  have hpi := pi_gt_three
  have small : a.ang < 0.0021 → cos (0.0021 / 2) < q.w := by
    intro h
    rw [← ha]
    unfold ax2qu
    dsimp only
    exact cos_lt_cos_of_nonneg_of_le_pi (by linarith) (by linarith) (by linarith)
  have hone : ax2qu ⟨⟨0, 0, 1⟩, 0⟩ = ⟨1, 0, 0, 0⟩ := by
    unfold ax2qu; ext <;> simp
  rcases hh with ⟨h1, h2⟩ | h2
  · left
    refine ⟨small (by linarith), ?_⟩
    rw [h2]
    unfold ho2qu ho2ax
    dsimp only
    rw [if_pos (by norm_num), hone]
  · rw [h2]
    unfold ho2qu
    rcases C106_ho2ax_fast single a hu h0 hπ with ⟨k1, k2⟩ | ⟨k1, k2, k3⟩
    · left; rw [k2]; exact ⟨small k1, hone⟩
    · right
      generalize hr : ho2ax single true (ax2ho a) = r at *
      obtain ⟨rn, rw'⟩ := r
      obtain ⟨an, aw⟩ := a
      dsimp only at k2 k3
      subst k2
      rw [← ha, dot_same_axis _ hu, ← cos_abs ((rw' - aw) / 2)]
      apply cos_le_cos_of_nonneg_of_le_pi (abs_nonneg _)
      · cases single <;> norm_num <;> linarith
      · rw [abs_div, abs_of_pos (by norm_num : (0 : ℝ) < 2)]
        linarith

/-- C106 for cubochoric coordinates: the same accuracy. -/
theorem C106_cubochoric (A B : Argsort) (single : Bool) (q : Q) (hq : IsUnit4 q) (hw : 0 ≤ q.w) :
    (cos (0.0021 / 2) < q.w ∧ cu2qu A single (qu2cu B q) = ⟨1, 0, 0, 0⟩) ∨
    cos ((if single then 3e-7 else 1.2e-8) / 2) ≤
      q.w * (cu2qu A single (qu2cu B q)).w + q.x * (cu2qu A single (qu2cu B q)).x +
        q.y * (cu2qu A single (qu2cu B q)).y + q.z * (cu2qu A single (qu2cu B q)).z := by
  unfold cu2qu qu2cu
  rw [C84_cu2ho_ho2cu]
  exact C106_quaternion single q hq hw

/-- C106, `ho2ax_newton`, what holds: the axis points the right way; its squared length is the homochoric radius. -/
theorem C106_newton_axis_partial (single : Bool) (a : AX) (hu : IsUnit3 a.n) (h0 : 0 < a.ang) :
    ∃ s : ℝ, 0 < s ∧ (ho2axNewton single (ax2ho a)).n = V.smul s a.n ∧ s ^ 6 = 0.75 * (a.ang - sin a.ang) := by
  obtain ⟨ρ, hρ0, hρ3, hho, hn⟩ := ho_sq hu h0.le
  have hpos : 0 < ρ := by
    rcases hρ0.lt_or_eq with h | h
    · exact h
    · rw [← h] at hρ3
      have := sin_lt h0
      norm_num at hρ3
      linarith
  refine ⟨sqrt ρ, sqrt_pos.mpr hpos, ?_, ?_⟩
  · unfold ho2axNewton
    dsimp only
    rw [hn, sqrt_sq hρ0, if_neg hpos.ne', hho]
    have hs : sqrt ρ ≠ 0 := (sqrt_pos.mpr hpos).ne'
    have : 1 / sqrt ρ * ρ = sqrt ρ := by
      rw [one_div, inv_mul_eq_div, div_sqrt]
    unfold V.smul
    ext <;> dsimp only <;> rw [← mul_assoc, this]
  · rw [← hρ3, show sqrt ρ ^ 6 = (sqrt ρ ^ 2) ^ 3 by ring, sq_sqrt hρ0]

/-- C106, `ho2ax_newton`, what holds of the angle: after the two updates of single precision it is right to `8e-7`, after the
three of double precision to `2e-13`, for every angle down to 0 (no cut-off). -/
theorem C106_newton_angle_partial (single : Bool) (a : AX) (hu : IsUnit3 a.n) (h0 : 0 ≤ a.ang) (hπ : a.ang ≤ π) :
    |(ho2axNewton single (ax2ho a)).ang - a.ang| ≤ if single then 8e-7 else 2e-13 := by
  obtain ⟨ρ, hρ0, hρ3, hho, hn⟩ := ho_sq hu h0
  rcases h0.lt_or_eq with h | h
  · have hr : ρ = HoNewton.rad a.ang := by
      obtain ⟨r0, r3⟩ := HoNewton.rad_cube h
      have e : ρ ^ 3 = HoNewton.rad a.ang ^ 3 := by rw [hρ3, r3]; norm_num
      exact le_antisymm (HoNewton.le_of_cube r0.le e.le) (HoNewton.le_of_cube hρ0 e.ge)
    have hpos : 0 < ρ := by rw [hr]; exact (HoNewton.rad_cube h).1
    unfold ho2axNewton
    dsimp only
    rw [hn, sqrt_sq hρ0, if_neg hpos.ne', hr]
    exact HoNewton.newton_error h hπ single
  · have hz : ρ = 0 := by
      rw [← h] at hρ3
      simpa using hρ3
    unfold ho2axNewton
    dsimp only
    rw [hn, sqrt_sq hρ0, if_pos hz, ← h]
    cases single <;> norm_num

/-- C106 fails for `ho2ax_newton`: a half turn about `z` comes back with an axis that is not a unit vector. -/
theorem C106_newton_fails (single : Bool) :
    IsUnit3 (⟨0, 0, 1⟩ : V) ∧ ¬ IsUnit3 (ho2axNewton single (ax2ho ⟨⟨0, 0, 1⟩, π⟩)).n := by
  have hu : IsUnit3 (⟨0, 0, 1⟩ : V) := by unfold IsUnit3; norm_num
  refine ⟨hu, fun h => ?_⟩
  obtain ⟨s, hs, hn, h6⟩ := C106_newton_axis_partial single ⟨⟨0, 0, 1⟩, π⟩ hu pi_pos
  rw [hn] at h
  unfold IsUnit3 V.smul at h
  simp only [mul_zero, mul_one] at h
  dsimp only at h6
  rw [sin_pi] at h6
  have h2 : s ^ 2 = 1 := by linarith
  have : s ^ 6 = 1 := by rw [show s ^ 6 = (s ^ 2) ^ 3 by ring, h2]; norm_num
  linarith [pi_gt_three]

-- the hypotheses are met, and the second alternative of each theorem applies, by a right angle about the z axis
example : |(ho2ax false false (ax2ho ⟨⟨0, 0, 1⟩, π / 2⟩)).ang - π / 2| ≤ 1e-11 := by
  have hpi := pi_gt_three
  rcases C106_ho2ax_newton_step ⟨⟨0, 0, 1⟩, π / 2⟩ (by unfold IsUnit3; norm_num) (by positivity) (by dsimp only; linarith)
    with ⟨h, -⟩ | h
  · dsimp only at h; linarith
  · exact h.2.2

example : |(ho2ax true true (ax2ho ⟨⟨0, 0, 1⟩, π / 2⟩)).ang - π / 2| ≤ 3e-7 := by
  have hpi := pi_gt_three
  rcases C106_ho2ax_fast true ⟨⟨0, 0, 1⟩, π / 2⟩ (by unfold IsUnit3; norm_num) (by positivity) (by dsimp only; linarith)
    with ⟨h, -⟩ | h
  · dsimp only at h; linarith
  · exact h.2.2

example : |(ho2axNewton false (ax2ho ⟨⟨0, 0.6, 0.8⟩, π⟩)).ang - π| ≤ 2e-13 := by
  simpa using C106_newton_angle_partial false ⟨⟨0, 0.6, 0.8⟩, π⟩ (by unfold IsUnit3; norm_num) pi_pos.le le_rfl

-- an angle below the cut
example : (ho2ax true true (ax2ho ⟨⟨0, 0, 1⟩, 1e-3⟩)) = ⟨⟨0, 0, 1⟩, 0⟩ := by
  have hpi := pi_gt_three
  rcases C106_ho2ax_fast true ⟨⟨0, 0, 1⟩, 1e-3⟩ (by unfold IsUnit3; norm_num) (by norm_num) (by dsimp only; linarith)
    with h | h
  · exact h.2
  · exact absurd h.1 (by norm_num)

example : ∃ r, ho2axReference (ax2ho ⟨⟨0, 0, 1⟩, π⟩) "EMsoft" = some r ∧ |r.ang - π| ≤ 8e-11 := by
  have hpi := pi_gt_three
  rcases C106_ho2ax_reference "EMsoft" ⟨⟨0, 0, 1⟩, π⟩ (by unfold IsUnit3; norm_num) pi_pos.le le_rfl with
    ⟨-, h, -⟩ | ⟨-, r, h, h1 | h1⟩
  · exact absurd rfl h
  · dsimp only at h1; linarith [h1.1]
  · exact ⟨r, h, by simpa using h1.2.2⟩

example : cos (1.2e-8 / 2) ≤ (ho2qu false (qu2ho ⟨0, 0.6, 0, 0.8⟩)).x * 0.6 + (ho2qu false (qu2ho ⟨0, 0.6, 0, 0.8⟩)).z * 0.8 := by
  rcases C106_quaternion false ⟨0, 0.6, 0, 0.8⟩ (by unfold IsUnit4; norm_num) le_rfl with ⟨h, -⟩ | h
  · have : 0 < cos (0.0021 / 2 : ℝ) := cos_pos_of_mem_Ioo ⟨by linarith [pi_gt_three], by linarith [pi_gt_three]⟩
    dsimp only at h; linarith
  · dsimp only at h; simp only [Bool.false_eq_true, if_false] at h; linarith

end Verif.HoAcc
