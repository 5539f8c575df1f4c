import Verif.Lemmas.HoFits
import Verif.Model.HoRef
import Verif.Spec.Rotation
/-!
Homochoric vectors and back: the squared radius, and the accuracy of each polynomial.
-/
namespace Verif.HoFit
open Verif Verif.PolyCert Verif.Cubo Verif.Spec Real

theorem R_lo : posOn 0 100 1000 (add R [-(98 * 10 ^ 16)]) = true := by decide +kernel
theorem R_lo2 : posOn 0 2468 1000 (add R [-(7 * 10 ^ 17)]) = true := by decide +kernel

/-- the squared radius against the half angle -/
theorem radius_lo {u n : ℝ} (h0 : 0 < u) (h1 : u ≤ π / 2) (hn : 0 ≤ n)
    (h : n ^ 3 = (0.75 * (2 * u - sin (2 * u))) ^ 2) : min (0.97 * u ^ 2) 0.06 ≤ n := by
  obtain ⟨hx0, hx1⟩ := sq_range h0 h1
  have hr := (radius h0 h1 hn h).1
  rw [abs_le] at hr
  by_cases hc : u ^ 2 < 0.1
  · have k := posOn_sound R_lo (by norm_num) (x := u ^ 2) (by push_cast; simpa using hx0)
      (by push_cast; norm_num at hc ⊢; linarith)
    rw [ev_add] at k
    simp only [ev] at k
    push_cast at k
    apply (min_le_left _ _).trans
    nlinarith [hr.1]
  · have k := posOn_sound R_lo2 (by norm_num) (x := u ^ 2) (by push_cast; simpa using hx0)
      (by push_cast; norm_num at hx1 ⊢; linarith)
    rw [ev_add] at k
    simp only [ev] at k
    push_cast at k
    apply (min_le_right _ _).trans
    nlinarith [hr.1]

theorem radius_hi {u n : ℝ} (h0 : 0 < u) (hn : 0 ≤ n)
    (h : n ^ 3 = (0.75 * (2 * u - sin (2 * u))) ^ 2) : n ≤ u ^ 2 := by
  refine le_of_pow_le_pow_left₀ (n := 3) (by norm_num) (by positivity) ?_
  rw [h, show (u ^ 2) ^ 3 = (u ^ 3) ^ 2 by ring]
  have hs := sin_gt_sub_cube (x := 2 * u) (by linarith)
  have hl := sin_le (x := 2 * u) (by linarith)
  gcongr
  linarith

/-- the squared radius of the homochoric vector of an axis and an angle -/
theorem ho_sq {a : AX} (hu : IsUnit3 a.n) (h0 : 0 ≤ a.ang) :
    ∃ ρ, 0 ≤ ρ ∧ ρ ^ 3 = 0.75 * (a.ang - sin a.ang) ∧ ax2ho a = V.smul ρ a.n ∧
      (ax2ho a).x ^ 2 + (ax2ho a).y ^ 2 + (ax2ho a).z ^ 2 = ρ ^ 2 := by
  have hb : 0 ≤ 0.75 * (a.ang - sin a.ang) := by
    have := sin_le h0
    apply mul_nonneg (by norm_num); linarith
  refine ⟨(0.75 * (a.ang - sin a.ang)) ^ ((1 : ℝ) / 3), rpow_nonneg hb _, ?_, rfl, ?_⟩
  · rw [← rpow_natCast, ← rpow_mul hb]; norm_num
  · unfold ax2ho V.smul
    simp only
    unfold IsUnit3 at hu
    linear_combination ((0.75 * (a.ang - sin a.ang)) ^ ((1 : ℝ) / 3)) ^ 2 * hu

theorem ho_axis {a : AX} (hu : IsUnit3 a.n) {ρ : ℝ} (hρ : 0 < ρ) :
    V.smul (1 / sqrt (ρ ^ 2)) (V.smul ρ a.n) = a.n := by
  rw [sqrt_sq hρ.le]
  unfold V.smul
  ext <;> simp <;> field_simp

/-- general round trip for a polynomial `s` of the squared radius with cut-off `cut` -/
theorem round {a : AX} (hu : IsUnit3 a.n) (h0 : 0 ≤ a.ang) (hπ : a.ang ≤ π) {u0 δ : ℝ} {s : ℝ → ℝ} (hu0 : 0 < u0) (hu1 : u0 ≤ 1e-3)
    (hs : ∀ u n : ℝ, u0 ≤ u → u ≤ π / 2 → 0 ≤ n → n ^ 3 = (0.75 * (2 * u - sin (2 * u))) ^ 2 →
      |2 * arccos (clamp1 (s n)) - 2 * u| ≤ δ) :
    let ho := ax2ho a
    let n := ho.x ^ 2 + ho.y ^ 2 + ho.z ^ 2
    (|n| < u0 ^ 2 → a.ang < 2.1 * u0) ∧
    (¬|n| < u0 ^ 2 → 2 * u0 ≤ a.ang ∧ V.smul (1 / sqrt n) ho = a.n ∧ |2 * arccos (clamp1 (s n)) - a.ang| ≤ δ) := by
  obtain ⟨ρ, hρ0, hρ3, hho, hn⟩ := ho_sq hu h0
  dsimp only
  rw [hn, abs_of_nonneg (by positivity)]
  have hc : (ρ ^ 2) ^ 3 = (0.75 * (2 * (a.ang / 2) - sin (2 * (a.ang / 2)))) ^ 2 := by
    rw [show 2 * (a.ang / 2) = a.ang by ring, ← hρ3]; ring
  constructor
  · intro hlt
    by_contra hge
    push Not at hge
    have hl := radius_lo (u := a.ang / 2) (by linarith) (by linarith) (by positivity) hc
    have h1 : u0 ^ 2 < 0.97 * (a.ang / 2) ^ 2 := by nlinarith
    have h2 : u0 ^ 2 < 0.06 := by nlinarith
    have := lt_min h1 h2
    linarith
  · intro hge
    push Not at hge
    have hpos : 0 < ρ := by
      rcases hρ0.lt_or_eq with h | h
      · exact h
      · rw [← h] at hge; nlinarith
    have ha : 0 < a.ang := by
      rcases h0.lt_or_eq with h | h
      · exact h
      · rw [← h] at hρ3; simp at hρ3; exact absurd hρ3 hpos.ne'
    have hh := radius_hi (u := a.ang / 2) (by linarith) (by positivity) hc
    have hle : u0 ≤ a.ang / 2 := le_of_pow_le_pow_left₀ (n := 2) (by norm_num) (by linarith) (hge.trans hh)
    refine ⟨by linarith, ?_, ?_⟩
    · rw [hho]; exact ho_axis hu hpos
    · have := hs (a.ang / 2) (ρ ^ 2) hle (by linarith) (by positivity) hc
      rwa [show 2 * (a.ang / 2) = a.ang by ring] at this

theorem poly_single (n : ℝ) : ho2axPoly true n = ev fitSingle n / 10 ^ 25 := by
  simp only [ho2axPoly, ho2axFit, if_true, List.zipIdx_cons, List.zipIdx_nil, List.map_cons, List.map_nil, List.sum_cons,
    List.sum_nil, fitSingle, ev]
  push_cast
  simp only [pow_zero, mul_one, add_zero, mul_zero]
  norm_num
  ring

theorem poly_double (n : ℝ) : ho2axPoly false n = ev fitDouble n / 10 ^ 25 := by
  simp only [ho2axPoly, ho2axFit, Bool.false_eq_true, if_false, List.zipIdx_cons, List.zipIdx_nil, List.map_cons, List.map_nil, List.sum_cons,
    List.sum_nil, fitDouble, ev]
  push_cast
  simp only [pow_zero, mul_one, add_zero, mul_zero]
  norm_num
  ring

theorem poly_kikuchipy (n : ℝ) : (kikuchipyFit.zipIdx.map fun ci => ci.1 * n ^ ci.2).sum = ev fitKikuchipy n / 10 ^ 25 := by
  simp only [kikuchipyFit, List.zipIdx_cons, List.zipIdx_nil, List.map_cons, List.map_nil, List.sum_cons,
    List.sum_nil, fitKikuchipy, ev]
  push_cast
  simp only [pow_zero, mul_one, add_zero, mul_zero]
  norm_num
  ring

theorem poly_emsoft (n : ℝ) : (emsoftFit.zipIdx.map fun ci => ci.1 * n ^ ci.2).sum = ev fitEMsoft n / 10 ^ 25 := by
  simp only [emsoftFit, List.zipIdx_cons, List.zipIdx_nil, List.map_cons, List.map_nil, List.sum_cons,
    List.sum_nil, fitEMsoft, ev]
  push_cast
  simp only [pow_zero, mul_one, add_zero, mul_zero]
  norm_num
  ring

theorem T_lo : posOn 0 2468 1000 (add (smul 1000 TN) [-(605 * F31)]) = true := by decide +kernel

set_option maxHeartbeats 3200000 in
/-- one Newton update for the equation `(3/4 (w - sin w))^(1/3) = h` -/
theorem newton_step {w w0 : ℝ} (h2 : 2e-3 ≤ w) (hπ : w ≤ π) (he : |w0 - w| ≤ 1.2e-8) :
    |newtonUpdate ((0.75 * (w - sin w)) ^ ((1 : ℝ) / 3)) w0 - w| ≤ 1e-11 := by
  obtain ⟨e, rfl⟩ : ∃ e, w0 = w + e := ⟨w0 - w, by ring⟩
  rw [show w + e - w = e by ring, abs_le] at he
  have hπ2 := pi_lt_d4
  -- the cube roots
  have hA0 : 0 ≤ (w + e) - sin (w + e) := by linarith [sin_le (x := w + e) (by linarith)]
  have hB0 : 0 ≤ w - sin w := by linarith [sin_le (x := w) (by linarith)]
  obtain ⟨a, ha⟩ : ∃ a, a = ((w + e) - sin (w + e)) ^ ((1 : ℝ) / 3) := ⟨_, rfl⟩
  obtain ⟨b, hb⟩ : ∃ b, b = (w - sin w) ^ ((1 : ℝ) / 3) := ⟨_, rfl⟩
  have ha0 : 0 ≤ a := by rw [ha]; exact rpow_nonneg hA0 _
  have hb0 : 0 ≤ b := by rw [hb]; exact rpow_nonneg hB0 _
  have ha3 : a ^ 3 = (w + e) - sin (w + e) := by rw [ha, ← rpow_natCast, ← rpow_mul hA0]; norm_num
  have hb3 : b ^ 3 = w - sin w := by rw [hb, ← rpow_natCast, ← rpow_mul hB0]; norm_num
  have ha2 : ((w + e) - sin (w + e)) ^ ((2 : ℝ) / 3) = a ^ 2 := by
    rw [ha, ← rpow_natCast, ← rpow_mul hA0]; norm_num
  have hk : (3 / 4 : ℝ) ^ ((1 : ℝ) / 3) * 6 ^ ((2 : ℝ) / 3) = 3 := by
    rw [show (6 : ℝ) ^ ((2 : ℝ) / 3) = 36 ^ ((1 : ℝ) / 3) by
      rw [show (36 : ℝ) = 6 ^ (2 : ℝ) by norm_num, ← rpow_mul (by norm_num)]; norm_num]
    rw [← mul_rpow (by norm_num) (by norm_num), show (3 / 4 * 36 : ℝ) = 3 ^ (3 : ℝ) by norm_num, ← rpow_mul (by norm_num)]
    norm_num
  have hu : newtonUpdate ((0.75 * (w - sin w)) ^ ((1 : ℝ) / 3)) (w + e)
      = w + e - 3 * a ^ 2 * (a - b) / (1 - cos (w + e)) := by
    unfold newtonUpdate
    rw [ha2, mul_rpow (by norm_num) hA0, mul_rpow (by norm_num) hB0, ← ha, ← hb, show (0.75 : ℝ) = 3 / 4 by norm_num,
      div_div_eq_mul_div]
    congr 1
    congr 1
    linear_combination (a - b) * a ^ 2 * hk
  rw [hu]
  -- the denominator
  have hv : 0.58 * ((w + e) / 2) ≤ sin ((w + e) / 2) := by
    have h3 := sin_gt_sub_cube (x := (w + e) / 2) (by linarith)
    have h4 : (w + e) / 2 ≤ 1.5709 := by linarith
    have h5 : 0 ≤ (w + e) / 2 := by linarith
    have h6 : ((w + e) / 2) ^ 2 ≤ 1.5709 ^ 2 := by gcongr
    nlinarith
  have hc1 : 0.168 * (w + e) ^ 2 ≤ 1 - cos (w + e) := by
    have h3 : 1 - cos (w + e) = 2 * sin ((w + e) / 2) ^ 2 := by
      rw [sin_sq_eq_half_sub]; ring_nf
    have h4 : (0.58 * ((w + e) / 2)) ^ 2 ≤ sin ((w + e) / 2) ^ 2 := by
      gcongr; linarith
    rw [h3]; nlinarith
  have hcp : 0 < 1 - cos (w + e) := lt_of_lt_of_le (by
    have : 0 < w + e := by linarith
    positivity) hc1
  -- numerator
  have key : w + e - 3 * a ^ 2 * (a - b) / (1 - cos (w + e)) - w
      = ((sin (w + e) - sin w - e * cos (w + e)) - (a - b) ^ 2 * (2 * a + b)) / (1 - cos (w + e)) := by
    rw [eq_div_iff hcp.ne']
    field_simp
    linear_combination -ha3 + hb3
  rw [key, abs_div, abs_of_pos hcp, div_le_iff₀ hcp]
  have e2 : 0 ≤ e ^ 2 := sq_nonneg e
  have he1 : |e| ≤ 1.2e-8 := abs_le.mpr he
  have he3 : |e| ^ 2 = e ^ 2 := sq_abs e
  have habs := abs_nonneg e
  -- first bracket
  have b1 : |sin (w + e) - sin w - e * cos (w + e)| ≤ (w + |e|) * (e ^ 2 / 2) + |e| ^ 3 / 6 := by
    have h3 : sin (w + e) - sin w - e * cos (w + e) = sin (w + e) * (1 - cos e) + cos (w + e) * (sin e - e) := by
      have : sin w = sin (w + e) * cos e - cos (w + e) * sin e := by rw [← sin_sub]; ring_nf
      rw [this]; ring
    rw [h3]
    refine (abs_add_le _ _).trans (add_le_add ?_ ?_)
    · rw [abs_mul]
      apply mul_le_mul _ _ (abs_nonneg _) (by linarith)
      · refine abs_sin_le_abs.trans ?_
        refine (abs_add_le _ _).trans ?_
        rw [abs_of_nonneg (by linarith : 0 ≤ w)]
      · rw [abs_of_nonneg (by linarith [cos_le_one e])]
        linarith [one_sub_sq_div_two_le_cos (x := e)]
    · rw [abs_mul]
      have h4 : |sin e - e| ≤ |e| ^ 3 / 6 := by
        rcases lt_trichotomy e 0 with hneg | hz | hpos
        · have h5 := sin_gt_sub_cube (x := -e) (by linarith)
          have h6 := sin_le (x := -e) (by linarith)
          rw [sin_neg] at h5 h6
          rw [abs_of_neg hneg, abs_le]
          constructor <;> linarith
        · simp [hz]
        · have h5 := sin_gt_sub_cube hpos
          have h6 := sin_le hpos.le
          rw [abs_of_pos hpos, abs_le]
          constructor <;> linarith
      calc |cos (w + e)| * |sin e - e| ≤ 1 * (|e| ^ 3 / 6) :=
            mul_le_mul (abs_cos_le_one _) h4 (abs_nonneg _) (by norm_num)
        _ = _ := one_mul _
  -- the difference of the cubes
  have hAB : |a ^ 3 - b ^ 3| ≤ 0.51 * w ^ 2 * |e| := by
    have h3 : a ^ 3 - b ^ 3 = 2 * (1 - cos (w + e / 2)) * sin (e / 2) + (e - 2 * sin (e / 2)) := by
      have h4 : sin (w + e) - sin w = 2 * sin (e / 2) * cos (w + e / 2) := by
        rw [sin_sub_sin]; ring_nf
      rw [ha3, hb3]; linear_combination -h4
    rw [h3]
    have h5 : |sin (e / 2)| ≤ |e| / 2 := by
      refine abs_sin_le_abs.trans ?_
      rw [abs_div]; norm_num
    have h6 : |e - 2 * sin (e / 2)| ≤ |e| ^ 3 / 24 := by
      rcases lt_trichotomy e 0 with hneg | hz | hpos
      · have h5 := sin_gt_sub_cube (x := -(e / 2)) (by linarith)
        have h6 := sin_le (x := -(e / 2)) (by linarith)
        rw [sin_neg] at h5 h6
        rw [abs_of_neg hneg, abs_le]
        constructor <;> linarith
      · simp [hz]
      · have h5 := sin_gt_sub_cube (x := e / 2) (by linarith)
        have h6 := sin_le (x := e / 2) (by linarith)
        rw [abs_of_pos hpos, abs_le]
        constructor <;> linarith
    have h7 : |2 * (1 - cos (w + e / 2))| ≤ (w + e / 2) ^ 2 := by
      rw [abs_of_nonneg (by linarith [cos_le_one (w + e / 2)])]
      linarith [one_sub_sq_div_two_le_cos (x := w + e / 2)]
    refine (abs_add_le _ _).trans ?_
    rw [abs_mul]
    have h8 := mul_le_mul h7 h5 (abs_nonneg _) (sq_nonneg _)
    have h9 : (w + e / 2) ^ 2 ≤ 1.01 * w ^ 2 := by nlinarith
    have h10 : (w + e / 2) ^ 2 * (|e| / 2) ≤ 1.01 * w ^ 2 * (|e| / 2) := by gcongr
    have h11 : |e| ^ 3 / 24 ≤ 0.005 * w ^ 2 * |e| := by
      have h12 : |e| ^ 2 ≤ (2e-3) ^ 2 * 0.1 := by
        calc |e| ^ 2 ≤ (1.2e-8) ^ 2 := by gcongr
          _ ≤ _ := by norm_num
      have h13 : (2e-3 : ℝ) ^ 2 ≤ w ^ 2 := by gcongr
      have h14 : |e| ^ 3 = |e| ^ 2 * |e| := by ring
      rw [h14]
      have h15 := mul_le_mul_of_nonneg_right h12 habs
      have h16 := mul_le_mul_of_nonneg_right h13 habs
      linarith
    linarith
  -- lower bound of `b`
  have hBlo : 0.1 * w ^ 3 ≤ b ^ 3 := by
    have hT := T_err (u := w / 2) (by linarith) (by linarith)
    have hlo := posOn_sound (x := (w / 2) ^ 2) T_lo (by norm_num) (by push_cast; simp; positivity)
      (by have := (sq_range (u := w / 2) (by linarith) (by linarith)).2; push_cast; norm_num at this ⊢; linarith)
    rw [ev_add, ev_smul] at hlo
    simp only [ev] at hlo
    push_cast at hlo
    have hF : (0 : ℝ) < (F31 : ℝ) := by norm_num [F31]
    have h3 : 0.605 ≤ ev TN ((w / 2) ^ 2) / F31 := by
      rw [le_div_iff₀ hF]; linarith
    rw [abs_le] at hT
    have h4 : 0.604 ≤ 0.75 * (2 * (w / 2) - sin (2 * (w / 2))) / (w / 2) ^ 3 := by linarith [hT.1]
    rw [le_div_iff₀ (by positivity), show 2 * (w / 2) = w by ring] at h4
    rw [hb3]
    linarith
  have hw3 : 0 < w ^ 3 := by positivity
  have hbpos : 0 < b := by
    rcases hb0.lt_or_eq with h | h
    · exact h
    · rw [← h] at hBlo; norm_num at hBlo; nlinarith
  -- second bracket
  have b2 : (a - b) ^ 2 * (2 * a + b) ≤ 2 * (a ^ 3 - b ^ 3) ^ 2 / b ^ 3 := by
    rw [le_div_iff₀ (by positivity)]
    have h3 : a ^ 3 - b ^ 3 = (a - b) * (a ^ 2 + a * b + b ^ 2) := by ring
    rw [h3, mul_pow]
    have h4 : (2 * a + b) * b ≤ 2 * (a ^ 2 + a * b + b ^ 2) := by linarith [sq_nonneg a, sq_nonneg b]
    have h5 : b ^ 2 ≤ a ^ 2 + a * b + b ^ 2 := by linarith [mul_nonneg ha0 hb0, sq_nonneg a]
    have h6 : (2 * a + b) * b * b ^ 2 ≤ 2 * (a ^ 2 + a * b + b ^ 2) * (a ^ 2 + a * b + b ^ 2) :=
      mul_le_mul h4 h5 (by positivity) (by positivity)
    have h7 := mul_le_mul_of_nonneg_left h6 (sq_nonneg (a - b))
    linarith
  have b2' : 0 ≤ (a - b) ^ 2 * (2 * a + b) := by positivity
  have b3 : 2 * (a ^ 3 - b ^ 3) ^ 2 / b ^ 3 ≤ 5.3 * w * e ^ 2 := by
    rw [div_le_iff₀ (by positivity)]
    have h3 : (a ^ 3 - b ^ 3) ^ 2 ≤ (0.51 * w ^ 2 * |e|) ^ 2 := by
      rw [← sq_abs]; gcongr
    have h4 : (0.51 * w ^ 2 * |e|) ^ 2 = 0.2601 * (w * w ^ 3) * e ^ 2 := by rw [mul_pow, he3]; ring
    rw [h4] at h3
    have h5 : 5.3 * w * e ^ 2 * (0.1 * w ^ 3) ≤ 5.3 * w * e ^ 2 * b ^ 3 := by
      gcongr
    have h6 : 0 ≤ w * w ^ 3 * e ^ 2 := by positivity
    linarith
  -- together
  have hfin : |sin (w + e) - sin w - e * cos (w + e) - (a - b) ^ 2 * (2 * a + b)| ≤ 6 * w * e ^ 2 := by
    have h3 : |e| ^ 3 = |e| * e ^ 2 := by rw [← he3]; ring
    have h4 : |e| * e ^ 2 ≤ 0.01 * w * e ^ 2 := by
      have : |e| ≤ 0.01 * w := by linarith
      exact mul_le_mul_of_nonneg_right this e2
    have h6 : 0 ≤ w * e ^ 2 := by positivity
    rw [abs_le] at b1 ⊢
    rw [h3] at b1
    constructor <;> linarith [b1.1, b1.2]
  refine hfin.trans ?_
  have h3 : e ^ 2 ≤ (1.2e-8) ^ 2 := by rw [← he3]; gcongr
  have h4 : 6 * w * e ^ 2 ≤ 6 * w * (1.2e-8) ^ 2 := by gcongr
  have h5 : 0.99 * w ^ 2 ≤ (w + e) ^ 2 := by nlinarith
  have h6 : 2e-3 * w ≤ w ^ 2 := by nlinarith
  linarith

end Verif.HoFit
