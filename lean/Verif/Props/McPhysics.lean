import Verif.Spec.JoyLuo
import Verif.Props.McKernel
/-! C120: the formulas of one scattering event of the Monte Carlo kernel, against Joy's formulas in CGS units. -/
namespace Verif.Mck
open Verif Verif.Spec Real

theorem kPi_near : |kPi - π| ≤ 1e-12 := by
  have h1 := pi_gt_d20
  have h2 := pi_lt_d20
  unfold kPi
  rw [abs_le]; constructor <;> norm_num at h1 h2 ⊢ <;> linarith

/-- C120: a trial starts at the surface with the full energy, in the direction with the given tilt and azimuth in degrees (up to the
twelve digits of the constant PI of the kernel). -/
theorem C120_start (p : KParams) (u : ℕ → ℝ × ℝ × ℝ) :
    (path p u 0).energy = p.startE ∧ (path p u 0).depth = 0 ∧
    |(path p u 0).dir.x - sin (p.sigma * π / 180) * cos (p.omega * π / 180)| ≤ 1e-14 * (|p.sigma| + |p.omega|) ∧
    |(path p u 0).dir.y - sin (p.sigma * π / 180) * sin (p.omega * π / 180)| ≤ 1e-14 * (|p.sigma| + |p.omega|) ∧
    |(path p u 0).dir.z - cos (p.sigma * π / 180)| ≤ 1e-14 * |p.sigma| := by
  have key : ∀ s o : ℝ, IsUnit3 ⟨sin s * cos o, sin s * sin o, cos s⟩ := by
    intro s o
    have h1 := sin_sq_add_cos_sq s
    have h2 := sin_sq_add_cos_sq o
    simp only [IsUnit3]
    linear_combination sin s ^ 2 * h2 + h1
  have hd : (path p u 0).dir = ⟨sin (p.sigma * kPi / 180) * cos (p.omega * kPi / 180),
      sin (p.sigma * kPi / 180) * sin (p.omega * kPi / 180), cos (p.sigma * kPi / 180)⟩ := by
    change (kStart p).dir = _
    unfold kStart
    dsimp only
    rw [vnormalize_unit (key _ _)]
  have near : ∀ x : ℝ, |x * kPi / 180 - x * π / 180| ≤ 1e-14 * |x| := by
    intro x
    have : x * kPi / 180 - x * π / 180 = (kPi - π) / 180 * x := by ring
    rw [this, abs_mul, abs_div, abs_of_pos (by norm_num : (0 : ℝ) < 180)]
    have := kPi_near
    have h0 := abs_nonneg x
    have : |kPi - π| / 180 ≤ 1e-14 := by rw [div_le_iff₀ (by norm_num)]; norm_num at this ⊢; linarith
    nlinarith
  have hc : ∀ a b : ℝ, |cos a - cos b| ≤ |a - b| := by
    intro a b
    have := Real.lipschitzWith_cos.dist_le_mul a b
    simpa [Real.dist_eq] using this
  have hs : ∀ a b : ℝ, |sin a - sin b| ≤ |a - b| := by
    intro a b
    have := Real.lipschitzWith_sin.dist_le_mul a b
    simpa [Real.dist_eq] using this
  have prod : ∀ a b c d : ℝ, |a| ≤ 1 → |d| ≤ 1 → |a * b - c * d| ≤ |a - c| + |b - d| := by
    intro a b c d ha hd
    have : a * b - c * d = a * (b - d) + (a - c) * d := by ring
    rw [this]
    refine (abs_add_le _ _).trans ?_
    rw [abs_mul, abs_mul]
    have h1 := abs_nonneg (b - d)
    have h2 := abs_nonneg (a - c)
    nlinarith
  refine ⟨rfl, rfl, ?_, ?_, ?_⟩
  · rw [hd]
    refine (prod _ _ _ _ (abs_sin_le_one _) (abs_cos_le_one _)).trans ?_
    have a := (hs (p.sigma * kPi / 180) (p.sigma * π / 180)).trans (near _)
    have b := (hc (p.omega * kPi / 180) (p.omega * π / 180)).trans (near _)
    linarith
  · rw [hd]
    refine (prod _ _ _ _ (abs_sin_le_one _) (abs_sin_le_one _)).trans ?_
    have a := (hs (p.sigma * kPi / 180) (p.sigma * π / 180)).trans (near _)
    have b := (hs (p.omega * kPi / 180) (p.omega * π / 180)).trans (near _)
    linarith
  · rw [hd]
    exact (hc _ _).trans (near _)

theorem loss_eq {p : KParams} (hp : Phys p) {e : ℝ} (he : 0 < e) (s : ℝ) :
    s * p.rho * kDeDs p e = -(JoyLuo.lossPerCm p.atomNum p.weightA p.rho e * (s * 1e-7)) := by
  obtain ⟨-, -, -, hZ, hr, hA⟩ := hp
  have hm : kMip p = JoyLuo.potential p.atomNum := by unfold kMip JoyLuo.potential; norm_num; ring
  have hJ : 0 < JoyLuo.potential p.atomNum := by unfold JoyLuo.potential; positivity
  unfold kDeDs JoyLuo.lossPerCm
  rw [hm]
  have e1 : 1.166 * (e + 0.85 * JoyLuo.potential p.atomNum) / JoyLuo.potential p.atomNum =
      1.166 * e / JoyLuo.potential p.atomNum + 0.9911 := by
    field_simp; ring
  rw [e1]
  generalize log (1.166 * e / JoyLuo.potential p.atomNum + 0.9911) = L
  field_simp
  ring

theorem mfp_eq {p : KParams} (hp : Phys p) {e : ℝ} (he : 0 < e) :
    kMfp p e = JoyLuo.meanFreePathCm p.atomNum p.weightA p.rho e * 1e7 * (π / kPi) := by
  obtain ⟨-, -, -, hZ, hr, hA⟩ := hp
  have hk := kPi_pos
  have hpi := pi_pos
  have ha : kAlpha p e = JoyLuo.screening p.atomNum e := by unfold kAlpha JoyLuo.screening; ring
  have ha0 : 0 < JoyLuo.screening p.atomNum e := by unfold JoyLuo.screening; positivity
  have h2 : p.atomNum ^ (2.0 : ℝ) = p.atomNum ^ 2 := by
    have : (2.0 : ℝ) = ((2 : ℕ) : ℝ) := by norm_num
    rw [this, rpow_natCast]
  unfold kMfp JoyLuo.meanFreePathCm JoyLuo.crossSection
  dsimp only
  rw [ha, h2]
  generalize JoyLuo.screening p.atomNum e = a at ha0
  have h1 : 0 < 1 + a := by linarith
  have h3 : 0 < 511 + e := by linarith
  have h4 : 0 < 1024 + e := by linarith
  rw [add_comm e 511, add_comm e 1024]
  field_simp
  norm_num

/-- C120: one scattering event, whatever is drawn: the electron flies a path of `s` nm with `s` the mean free path of the screened
Rutherford cross-section times `-log u1` (up to 1e-12 relative, from the constant PI of the kernel), loses the Joy-Luo stopping power
times `s`, and its depth changes by `s` times the vertical component of the new direction. -/
theorem C120_physics (p : KParams) (hp : Phys p) (u : ℕ → ℝ × ℝ × ℝ) (k : ℕ) (he : 0 < (path p u k).energy)
    (h0 : 0 < (u k).1) (h1 : (u k).1 < 1) :
    ∃ s : ℝ, 0 < s ∧
      |s - JoyLuo.meanFreePathCm p.atomNum p.weightA p.rho (path p u k).energy * 1e7 * -log (u k).1| ≤ 1e-12 * s ∧
      (path p u (k + 1)).energy = (path p u k).energy -
        JoyLuo.lossPerCm p.atomNum p.weightA p.rho (path p u k).energy * (s * 1e-7) ∧
      (path p u (k + 1)).depth = (path p u k).depth + s * (path p u (k + 1)).dir.z := by
  refine ⟨kStepNm p (path p u k).energy (u k).1, step_pos hp he h0 h1, ?_, ?_, rfl⟩
  · have hs := step_pos hp he h0 h1
    have hk := kPi_pos
    have e1 : JoyLuo.meanFreePathCm p.atomNum p.weightA p.rho (path p u k).energy * 1e7 * -log (u k).1 =
        kStepNm p (path p u k).energy (u k).1 * (kPi / π) := by
      unfold kStepNm
      rw [mfp_eq hp he]
      have hpi := pi_pos
      field_simp
    rw [e1]
    have e2 : kStepNm p (path p u k).energy (u k).1 - kStepNm p (path p u k).energy (u k).1 * (kPi / π) =
        -((kPi - π) / π) * kStepNm p (path p u k).energy (u k).1 := by
      have hpi := pi_pos
      field_simp; ring
    rw [e2, abs_mul, abs_of_pos hs, abs_neg, abs_div, abs_of_pos pi_pos]
    apply mul_le_mul_of_nonneg_right _ hs.le
    rw [div_le_iff₀ pi_pos]
    have := kPi_near
    have := pi_gt_three
    linarith
  · have : (path p u (k + 1)).energy = (path p u k).energy +
      kStepNm p (path p u k).energy (u k).1 * p.rho * kDeDs p (path p u k).energy := rfl
    rw [this, loss_eq hp he]; ring

/-- C120: the azimuth of an event (away from the surface normal): seen along the old direction `c`, the new direction has polar angle
`phi` and azimuth `2 PI u3` with respect to the axes `(c × (c × z))` and `(z × c)`. -/
theorem C120_azimuth (p : KParams) (u : ℕ → ℝ × ℝ × ℝ) (k : ℕ) (hz : |(path p u k).dir.z| ≤ 0.99999) :
    let c := (path p u k).dir
    let d := (path p u (k + 1)).dir
    let r := √(1 - c.z ^ 2)
    ∃ phi : ℝ, 0 ≤ phi ∧ phi ≤ π ∧ cos phi = V.dot d c ∧
      V.dot d ⟨c.x * c.z / r, c.y * c.z / r, -r⟩ = sin phi * cos (2 * kPi * (u k).2.2) ∧
      V.dot d ⟨-c.y / r, c.x / r, 0⟩ = sin phi * sin (2 * kPi * (u k).2.2) := by
  intro c d r
  have hu : IsUnit3 c := path_unit p u k
  have hd : d = mcScatter c (kPhi (kAlpha p (path p u k).energy) (u k).2.1) (2 * kPi * (u k).2.2) :=
    (move_dir (p := p) hu (kStepNm p (path p u k).energy (u k).1) _ _).1
  refine ⟨kPhi (kAlpha p (path p u k).energy) (u k).2.1, arccos_nonneg _, arccos_le_pi _, ?_, ?_⟩
  · rw [hd]; exact (C52_angle_partial _ hu _ _ (Or.inl hz)).symm
  have hz2 : 0 < 1 - c.z ^ 2 := by
    have : c.z ^ 2 ≤ 0.99999 ^ 2 := sq_le_sq' (by have := (abs_le.mp hz).1; norm_num at this ⊢; linarith) (abs_le.mp hz).2
    norm_num at this ⊢; linarith
  have hr : 0 < r := sqrt_pos.mpr hz2
  have hr2 : r ^ 2 = 1 - c.z ^ 2 := sq_sqrt hz2.le
  generalize kPhi (kAlpha p (path p u k).energy) (u k).2.1 = phi at hd
  generalize 2 * kPi * (u k).2.2 = psi at hd
  have hx : c.x ^ 2 + c.y ^ 2 = r ^ 2 := by
    rw [hr2]; unfold IsUnit3 at hu; linarith
  have hd' : d = ⟨sin phi * (c.x * c.z * cos psi - c.y * sin psi) / r + c.x * cos phi,
      sin phi * (c.y * c.z * cos psi + c.x * sin psi) / r + c.y * cos phi, -sin phi * cos psi * r + c.z * cos phi⟩ := by
    rw [hd, ← scatter_eq hu]
    unfold kScatter
    rw [if_neg (not_lt.mpr hz)]
    have : √(1 - c.z * c.z) = r := by rw [← pow_two]
    simp only [this, mul_one_div]
  rw [hd']
  clear_value r
  have hz3 : c.z ^ 2 = 1 - r ^ 2 := by linarith
  constructor
  · simp only [V.dot]
    field_simp
    linear_combination (c.z ^ 2 * sin phi * cos psi + c.z * r * cos phi) * hx + r ^ 2 * sin phi * cos psi * hz3
  · simp only [V.dot]
    field_simp
    linear_combination (sin phi * sin psi) * hx
/-- a nickel sample, 20 keV: the first event meets the hypotheses of `C120_physics` -/
example : ∃ s : ℝ, 0 < s ∧ (path nickel (fun _ => (1 / 2, 1 / 2, 1 / 2)) 1).depth =
    s * (path nickel (fun _ => (1 / 2, 1 / 2, 1 / 2)) 1).dir.z := by
  have he : (path nickel (fun _ => (1 / 2, 1 / 2, 1 / 2)) 0).energy = 20 := rfl
  obtain ⟨s, h1, -, -, h2⟩ := C120_physics nickel nickel_phys (fun _ => (1 / 2, 1 / 2, 1 / 2)) 0 (by rw [he]; norm_num)
    (by norm_num) (by norm_num)
  refine ⟨s, h1, ?_⟩
  rw [h2, (C120_start nickel _).2.1, zero_add]

/-- a tilted beam meets the hypothesis of `C120_azimuth` -/
example : ∃ p : KParams, Phys p ∧ ∀ u, |(path p u 0).dir.z| ≤ 0.99999 := by
  refine ⟨⟨10, 20, 20, 501, 100, 1, 1, 28, 8.9, 58.69, 300, 60, 0, false⟩, by constructor <;> norm_num, fun u => ?_⟩
  have h := (C120_start ⟨10, 20, 20, 501, 100, 1, 1, 28, 8.9, 58.69, 300, 60, 0, false⟩ u).2.2.2.2
  dsimp only at h
  have e : cos (60 * π / 180) = 1 / 2 := by rw [show (60 : ℝ) * π / 180 = π / 3 by ring]; exact cos_pi_div_three
  rw [e, abs_of_pos (by norm_num : (0 : ℝ) < 60)] at h
  rw [abs_le] at h ⊢
  norm_num at h ⊢
  constructor <;> linarith [h.1, h.2]

end Verif.Mck
