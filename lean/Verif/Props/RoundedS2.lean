import Verif.Model.RoundedS2
import Verif.Props.FloatBasics
import Verif.Props.RoundedFails
import Mathlib.Analysis.Real.Pi.Bounds
/-! C172: the zone test of the sphere in floating-point arithmetic. -/
namespace Verif.S2
open Verif Verif.Spec Real

/-! ### Specification -/

/-- Azimuths between which the sector of a Laue class lies (upper hemisphere, classes 2 to 9). -/
noncomputable def sectorOf : ℕ → ℝ × ℝ
  | 2 => (0, π)
  | 3 => (0, π / 2)
  | 4 => (0, π / 2)
  | 5 => (0, π / 4)
  | 6 => (-2 * π / 3, 0)
  | 7 => (-(π / 2), -(π / 6))
  | 8 => (0, π / 3)
  | 9 => (0, π / 6)
  | _ => (0, 0)

/-- Azimuth of a direction. -/
noncomputable def azimuth (p : V) : ℝ := Complex.arg ⟨p.x, p.y⟩

/-! ### Proof -/

theorem rS2_eq (fl : ℝ → ℝ) (eps : ℝ) {n : ℕ} (h2 : 2 ≤ n) (h9 : n ≤ 9) (p : V) :
    rS2InFz fl eps n p = some true ↔ rLune fl eps (sectorOf n).1 (sectorOf n).2 p := by
  unfold rS2InFz
  interval_cases n <;> norm_num [sectorOf]

theorem sector_bound {n : ℕ} (h2 : 2 ≤ n) (h9 : n ≤ 9) : |(sectorOf n).1| ≤ π ∧ |(sectorOf n).2| ≤ π := by
  have := pi_pos
  interval_cases n <;> simp only [sectorOf] <;> constructor <;> rw [abs_le] <;> constructor <;> linarith

theorem acosNan_some {x c : ℝ} : acosNan x = some c ↔ (-1 ≤ x ∧ x ≤ 1) ∧ c = arccos x := by
  unfold acosNan
  split_ifs with h
  · simp [h, eq_comm]
  · simp [h]

theorem rChi_some {fl : ℝ → ℝ} {p : V} {c : ℝ} : rChi fl p = some c ↔ (-1 ≤ p.z ∧ p.z ≤ 1) ∧ c = fl (arccos p.z) := by
  unfold rChi
  rw [Option.map_eq_some_iff]
  constructor
  · rintro ⟨a, ha, rfl⟩
    obtain ⟨h, rfl⟩ := acosNan_some.mp ha
    exact ⟨h, rfl⟩
  · rintro ⟨h, rfl⟩
    exact ⟨_, acosNan_some.mpr ⟨h, rfl⟩, rfl⟩

/-- **C172**, classes 2 to 9 (and 1, which is exact): rounding does not reject a direction of the sector whose third component is at most 1, and an accepted
direction is in the sector up to the tolerance of the code and eight units of rounding.  Missing: third components
above 1, for which the claim is false, see `C172_nan_fails`; cubic classes: `C172_cubic_partial`. -/
theorem C172_sector_partial {p : ℕ} (hp : 0 < p) {fl : ℝ → ℝ} (hfl : Nearest p fl) {eps : ℝ} (he : 0 ≤ eps) (he' : eps ≤ 1 / 2) (d : V) :
    (∀ b, rS2InFz fl eps 1 d = some b ↔ b = decide (0 ≤ d.z)) ∧
    ∀ n : ℕ, 2 ≤ n → n ≤ 9 →
      ((sectorOf n).1 ≤ azimuth d → azimuth d ≤ (sectorOf n).2 → 0 ≤ d.z → d.z ≤ 1 → rS2InFz fl eps n d = some true) ∧
      (rS2InFz fl eps n d = some true → (sectorOf n).1 - 8 * (2 ^ p)⁻¹ ≤ azimuth d ∧ azimuth d ≤ (sectorOf n).2 + eps + 8 * (2 ^ p)⁻¹ ∧
        d.z ≤ 1 ∧ arccos d.z ≤ π / 2 + eps + 8 * (2 ^ p)⁻¹) := by
  refine ⟨fun b => by simp [rS2InFz, eq_comm], fun n h2 h9 => ⟨fun a1 a2 z0 z1 => ?_, fun h => ?_⟩⟩
  · rw [rS2_eq fl eps h2 h9]
    have hc : rChi fl d = some (fl (arccos d.z)) := rChi_some.mpr ⟨⟨by linarith, z1⟩, rfl⟩
    refine ⟨hfl.mono a1, hfl.mono (a2.trans (by linarith)), ⟨_, hc, ?_⟩, _, hc, ?_⟩
    · have := hfl.mono (arccos_nonneg d.z)
      rwa [hfl.zero] at this
    · exact hfl.mono ((arccos_le_pi_div_two.mpr z0).trans (by linarith))
  · rw [rS2_eq fl eps h2 h9] at h
    obtain ⟨a1, a2, -, c, hc, a3⟩ := h
    obtain ⟨⟨z0, z1⟩, rfl⟩ := rChi_some.mp hc
    obtain ⟨s1, s2⟩ := sector_bound h2 h9
    have hu : (0 : ℝ) < (2 ^ p)⁻¹ := by positivity
    have e : ∀ x : ℝ, |x| ≤ 4 → |fl x - x| ≤ 4 * (2 ^ p)⁻¹ := fun x hx => by
      have := hfl.err hp x
      nlinarith
    have hπ := pi_lt_d2
    have hπ0 := pi_pos
    have haz : |azimuth d| ≤ 4 := (Complex.abs_arg_le_pi _).trans (by linarith)
    have e1 := abs_le.mp (e _ haz)
    have e2 := abs_le.mp (e _ (s1.trans (by linarith)))
    have e3 := abs_le.mp (e ((sectorOf n).2 + eps) (by rw [abs_le] at s2 ⊢; constructor <;> linarith [s2.1, s2.2]))
    have e4 := abs_le.mp (e (arccos d.z) (by rw [abs_of_nonneg (arccos_nonneg _)]; linarith [arccos_le_pi d.z]))
    have e5 := abs_le.mp (e (π / 2 + eps) (by rw [abs_of_nonneg (by positivity)]; linarith))
    change fl _ ≤ fl (azimuth d) at a1
    change fl (azimuth d) ≤ _ at a2
    refine ⟨by linarith [e1.2, e2.1], by linarith [e1.1, e3.2], z1, by linarith [e4.1, e5.2]⟩

/-- A third component above 1 is rejected by every class but the first. -/
theorem nan_rejected (fl : ℝ → ℝ) (eps : ℝ) (d : V) (hz : 1 < d.z) (n : ℕ) (h2 : 2 ≤ n) (h11 : n ≤ 11) : rS2InFz fl eps n d = some false := by
  have hc : ∀ c, rChi fl d ≠ some c := fun c h => by
    have := (rChi_some.mp h).1.2
    linarith
  unfold rS2InFz
  interval_cases n <;> norm_num [rLune, hc]

/-- The symmetry operation and the direction of the counterexample. -/
noncomputable def opT : Q := ⟨1 / 2, -(1 / 2), -(1 / 2), -(1 / 2)⟩
noncomputable def dirT : V := ⟨1, 21 / 33554432, 29 / 67108864⟩

theorem image_above {fl : ℝ → ℝ} (hfl : Nearest 24 fl) : (rApply fl opT dirT).z = 8388609 / 8388608 := by
  have f0 : fl (-(1 / 2) : ℝ) = (-(1 / 2) : ℝ) := hfl.of_rep ⟨-1, -1, by norm_num, by norm_num⟩
  have f1 : fl (-(21 / 67108864) : ℝ) = (-(21 / 67108864) : ℝ) := (hfl.eval (m := -11010048) (e := -45) (by norm_num) (by norm_num) (by norm_num [abs_lt])).trans (by norm_num)
  have f2 : fl (-(29 / 134217728) : ℝ) = (-(29 / 134217728) : ℝ) := (hfl.eval (m := -15204352) (e := -46) (by norm_num) (by norm_num) (by norm_num [abs_lt])).trans (by norm_num)
  have f3 : fl (1 : ℝ) = 1 := hfl.one (by norm_num)
  have f4 : fl (67108885 / 67108864 : ℝ) = (8388611 / 8388608 : ℝ) := (hfl.eval (m := 8388611) (e := -23) (by norm_num) (by norm_num) (by norm_num [abs_lt])).trans (by norm_num)
  have f5 : fl (134217805 / 134217728 : ℝ) = (8388613 / 8388608 : ℝ) := (hfl.eval (m := 8388613) (e := -23) (by norm_num) (by norm_num) (by norm_num [abs_lt])).trans (by norm_num)
  have f6 : fl (1 / 2 : ℝ) = (1 / 2 : ℝ) := hfl.of_rep ⟨1, -1, by norm_num, by norm_num⟩
  have fz : fl 0 = 0 := hfl.zero
  have f7 : fl (13 / 134217728 : ℝ) = (13 / 134217728 : ℝ) := (hfl.eval (m := 13631488) (e := -47) (by norm_num) (by norm_num) (by norm_num [abs_lt])).trans (by norm_num)
  have f8 : fl (21 / 67108864 : ℝ) = (21 / 67108864 : ℝ) := (hfl.eval (m := 11010048) (e := -45) (by norm_num) (by norm_num) (by norm_num [abs_lt])).trans (by norm_num)
  have f9 : fl (71 / 134217728 : ℝ) = (71 / 134217728 : ℝ) := (hfl.eval (m := 9306112) (e := -44) (by norm_num) (by norm_num) (by norm_num [abs_lt])).trans (by norm_num)
  have f10 : fl (-(67108793 / 134217728) : ℝ) = (-(8388599 / 16777216) : ℝ) := (hfl.eval (m := -16777198) (e := -25) (by norm_num) (by norm_num) (by norm_num [abs_lt])).trans (by norm_num)
  have f11 : fl (-(16777207 / 16777216) : ℝ) = (-(16777207 / 16777216) : ℝ) := (hfl.eval (m := -16777207) (e := -24) (by norm_num) (by norm_num) (by norm_num [abs_lt])).trans (by norm_num)
  have f12 : fl (29 / 134217728 : ℝ) = (29 / 134217728 : ℝ) := (hfl.eval (m := 15204352) (e := -46) (by norm_num) (by norm_num) (by norm_num [abs_lt])).trans (by norm_num)
  have f13 : fl (-(13 / 134217728) : ℝ) = (-(13 / 134217728) : ℝ) := (hfl.eval (m := -13631488) (e := -47) (by norm_num) (by norm_num) (by norm_num [abs_lt])).trans (by norm_num)
  have f14 : fl (67108851 / 134217728 : ℝ) = (16777213 / 33554432 : ℝ) := (hfl.eval (m := 16777213) (e := -25) (by norm_num) (by norm_num) (by norm_num [abs_lt])).trans (by norm_num)
  have f15 : fl (-(3 / 33554432) : ℝ) = (-(3 / 33554432) : ℝ) := (hfl.eval (m := -12582912) (e := -47) (by norm_num) (by norm_num) (by norm_num [abs_lt])).trans (by norm_num)
  have f16 : fl (8388613 / 16777216 : ℝ) = (8388613 / 16777216 : ℝ) := (hfl.eval (m := 8388613) (e := -24) (by norm_num) (by norm_num) (by norm_num [abs_lt])).trans (by norm_num)
  have f17 : fl (-(13 / 268435456) : ℝ) = (-(13 / 268435456) : ℝ) := (hfl.eval (m := -13631488) (e := -48) (by norm_num) (by norm_num) (by norm_num [abs_lt])).trans (by norm_num)
  have f18 : fl (16777207 / 33554432 : ℝ) = (16777207 / 33554432 : ℝ) := (hfl.eval (m := 16777207) (e := -25) (by norm_num) (by norm_num) (by norm_num [abs_lt])).trans (by norm_num)
  have f19 : fl (-(3 / 67108864) : ℝ) = (-(3 / 67108864) : ℝ) := (hfl.eval (m := -12582912) (e := -48) (by norm_num) (by norm_num) (by norm_num [abs_lt])).trans (by norm_num)
  have f20 : fl (134217821 / 268435456 : ℝ) = (4194307 / 8388608 : ℝ) := (hfl.eval (m := 8388614) (e := -24) (by norm_num) (by norm_num) (by norm_num [abs_lt])).trans (by norm_num)
  have f21 : fl (33554435 / 33554432 : ℝ) = (8388609 / 8388608 : ℝ) := (hfl.eval (m := 8388609) (e := -23) (by norm_num) (by norm_num) (by norm_num [abs_lt])).trans (by norm_num)
  have f22 : fl (67108869 / 67108864 : ℝ) = (8388609 / 8388608 : ℝ) := (hfl.eval (m := 8388609) (e := -23) (by norm_num) (by norm_num) (by norm_num [abs_lt])).trans (by norm_num)
  unfold rApply opT dirT rSum4
  dsimp only
  norm_num [fz, f0, f1, f2, f3, f4, f5, f6, f7, f8, f9, f10, f11, f12, f13, f14, f15, f16, f17, f18, f19, f20, f21, f22]

/-- C172 fails for the cubic classes 10 and 11 in single precision: the direction `(1, 21 / 2^25, 29 / 2^26)`, of length 1 up to `1e-12`, is equivalent
to `(21 / 2^25, 29 / 2^26, 1)`, which is inside the sector (near its corner, the pole); `qu_apply` makes the third component `1 + 2^-23`, the
arc cosine is NaN, and the image is rejected. -/
theorem C172_nan_fails {fl tab : ℝ → ℝ} (hfl : Nearest 24 fl) (ht : ∀ x : ℝ, (∃ k : ℤ, x = k / 2) → tab x = x) (eps : ℝ) (n : ℕ) (hn : n = 10 ∨ n = 11) :
    (∃ G, rLaueElements fl tab n = some G ∧ (⟨1 / 2, -(1 / 2), -(1 / 2), -(1 / 2)⟩ : Q) ∈ G) ∧
    |(1 : ℝ) ^ 2 + (21 / 2 ^ 25) ^ 2 + (29 / 2 ^ 26) ^ 2 - 1| < 1e-12 ∧
    quApply ⟨1 / 2, -(1 / 2), -(1 / 2), -(1 / 2)⟩ ⟨1, 21 / 2 ^ 25, 29 / 2 ^ 26⟩ = ⟨21 / 2 ^ 25, 29 / 2 ^ 26, 1⟩ ∧
    (rApply fl ⟨1 / 2, -(1 / 2), -(1 / 2), -(1 / 2)⟩ ⟨1, 21 / 2 ^ 25, 29 / 2 ^ 26⟩).z = 1 + (2 ^ 23)⁻¹ ∧
    rS2InFz fl eps n (rApply fl ⟨1 / 2, -(1 / 2), -(1 / 2), -(1 / 2)⟩ ⟨1, 21 / 2 ^ 25, 29 / 2 ^ 26⟩) = some false := by
  have e1 : (⟨1 / 2, -(1 / 2), -(1 / 2), -(1 / 2)⟩ : Q) = opT := rfl
  have e2 : (⟨1, 21 / 2 ^ 25, 29 / 2 ^ 26⟩ : V) = dirT := by unfold dirT; norm_num
  have hz := image_above hfl
  refine ⟨?_, by norm_num [abs_lt], ?_, ?_, ?_⟩
  · have h1 : tab (1 / 2) = 1 / 2 := ht _ ⟨1, by norm_num⟩
    have h2 : tab (-(1 / 2)) = -(1 / 2) := ht _ ⟨-1, by norm_num⟩
    have g1 : fl (1 / 2) = 1 / 2 := hfl.of_rep ⟨1, -1, by norm_num, by norm_num⟩
    have g2 : fl (-(1 / 2)) = -(1 / 2) := hfl.of_rep ⟨-1, -1, by norm_num, by norm_num⟩
    have hmem : ∃ G, laueElements n = some G ∧ (⟨1 / 2, -(1 / 2), -(1 / 2), -(1 / 2)⟩ : Q) ∈ G := by
      rcases hn with rfl | rfl
      · exact ⟨laueT, rfl, by simp [laueT]⟩
      · exact ⟨laueO, rfl, by simp [laueO]⟩
    obtain ⟨G, hG, hm⟩ := hmem
    refine ⟨_, by unfold rLaueElements; rw [hG]; rfl, List.mem_map.mpr ⟨_, hm, ?_⟩⟩
    dsimp only
    rw [h1, h2, g1, g2]
  · unfold quApply
    norm_num
  · rw [e1, e2, hz]; norm_num
  · rw [e1, e2]
    exact nan_rejected fl eps _ (by rw [hz]; norm_num) n (by omega) (by omega)

/-! ### The cubic classes -/

theorem tan_drop {t w : ℝ} (h0 : 0 ≤ w) (hw : w ≤ t) (ht : t ≤ π / 4) : tan t - 2 * (t - w) ≤ tan w := by
  have hπ := pi_pos
  have hc : √2 / 2 ≤ cos t := by
    rw [← cos_pi_div_four]
    exact cos_le_cos_of_nonneg_of_le_pi (h0.trans hw) (by linarith) ht
  have hc' : √2 / 2 ≤ cos w := by
    rw [← cos_pi_div_four]
    exact cos_le_cos_of_nonneg_of_le_pi h0 (by linarith) (hw.trans ht)
  have h2 : √2 / 2 * (√2 / 2) = 1 / 2 := by
    have := mul_self_sqrt (show (0 : ℝ) ≤ 2 by norm_num)
    linarith
  have hp : 0 < √2 / 2 := by positivity
  have hcc : 1 / 2 ≤ cos t * cos w := by
    rw [← h2]; exact mul_le_mul hc hc' hp.le (hp.le.trans hc)
  have ct : 0 < cos t := hp.trans_le hc
  have cw : 0 < cos w := hp.trans_le hc'
  have e : tan t - tan w = sin (t - w) / (cos t * cos w) := by
    rw [tan_eq_sin_div_cos, tan_eq_sin_div_cos, sin_sub]; field_simp
  have hs : sin (t - w) ≤ t - w := sin_le (by linarith)
  have : sin (t - w) / (cos t * cos w) ≤ 2 * (t - w) := by
    rw [div_le_iff₀ (by linarith)]
    nlinarith
  linarith

theorem acos_drop {g u w : ℝ} (g0 : 0 < g) (g1 : g ≤ 0.708) (hu : 0 < u) (hu' : u ≤ 1 / 2048) (hw : w ≤ g + 5 * u) : arccos g - 8 * u ≤ arccos w := by
  set θ := arccos g with hθ
  have cθ : cos θ = g := cos_arccos (by linarith) (by linarith)
  have sθ : 0.7 ≤ sin θ := by
    rw [hθ, sin_arccos]
    refine le_sqrt_of_sq_le ?_
    norm_num; nlinarith
  have θ0 : 0.7 ≤ θ := sθ.trans (sin_le (arccos_nonneg _))
  have θπ : θ ≤ π := arccos_le_pi _
  have h5 : u * u ≤ u * (1 / 2048) := mul_le_mul_of_nonneg_left hu' hu.le
  have h6 : u * u * u ≤ u * (1 / 2048) * (1 / 2048) := mul_le_mul h5 hu' hu.le (by positivity)
  have c1 : w ≤ cos (θ - 8 * u) := by
    rw [cos_sub, cθ]
    have h1 := one_sub_sq_div_two_le_cos (x := 8 * u)
    have h2 := sin_gt_sub_cube (x := 8 * u) (by linarith)
    have h3 : 0 ≤ (8 * u) ^ 3 := by positivity
    have k1 : g * (1 - (8 * u) ^ 2 / 2) ≤ g * cos (8 * u) := mul_le_mul_of_nonneg_left h1 g0.le
    have k2 : 0 ≤ 8 * u - (8 * u) ^ 3 / 4 := by
      have : (8 * u) ^ 3 = 512 * (u * u * u) := by ring
      rw [this]; linarith
    have k3 : 0.7 * (8 * u - (8 * u) ^ 3 / 4) ≤ sin θ * sin (8 * u) := mul_le_mul sθ (by linarith) k2 (by linarith)
    have k4 : g * (8 * u) ^ 2 ≤ 0.708 * (8 * u) ^ 2 := mul_le_mul_of_nonneg_right g1 (by positivity)
    have e2 : (8 * u) ^ 2 = 64 * (u * u) := by ring
    have e3 : (8 * u) ^ 3 = 512 * (u * u * u) := by ring
    rw [e2] at k1 k4
    rw [e3] at k3
    linarith
  have := arccos_le_arccos c1
  rwa [arccos_cos (by linarith) (by linarith)] at this

set_option maxHeartbeats 800000 in
theorem cub_bound {p : ℕ} (hp : 11 ≤ p) {fl : ℝ → ℝ} (hfl : Nearest p fl) {t t' z : ℝ} (h0 : 0 ≤ t) (ht : t ≤ π / 4)
    (h1 : t - 3 * (2 ^ p)⁻¹ ≤ t') (h2 : t' ≤ 1) (hz : 1 / √(2 + tan t ^ 2) ≤ z) : arccos z ≤ rCubBound fl t' + 10 * (2 ^ p)⁻¹ := by
  have hu : (0 : ℝ) < (2 ^ p)⁻¹ := by positivity
  have hu' : ((2 : ℝ) ^ p)⁻¹ ≤ 1 / 2048 := by
    have : (2048 : ℝ) ≤ 2 ^ p := by
      calc (2048 : ℝ) = 2 ^ 11 := by norm_num
        _ ≤ 2 ^ p := pow_le_pow_right₀ (by norm_num) hp
    rw [inv_eq_one_div]
    exact one_div_le_one_div_of_le (by norm_num) this
  have er : ∀ x : ℝ, 0 ≤ x → (1 - (2 ^ p)⁻¹) * x ≤ fl x ∧ fl x ≤ (1 + (2 ^ p)⁻¹) * x := fun x hx => by
    have := abs_le.mp (hfl.err (by omega) x)
    rw [abs_of_nonneg hx] at this
    constructor <;> linarith [this.1, this.2]
  generalize ((2 : ℝ) ^ p)⁻¹ = u at *
  have hπ := pi_gt_three
  set τ := tan t with hτ
  have τ0 : 0 ≤ τ := tan_nonneg_of_nonneg_of_le_pi_div_two h0 (by linarith)
  have τ1 : τ ≤ 1 := by
    rw [← tan_pi_div_four]
    exact strictMonoOn_tan.monotoneOn ⟨by linarith, by linarith⟩ ⟨by linarith, by linarith⟩ ht
  -- the square of the tangent
  have hT : τ ^ 2 - 14 * u * τ ≤ fl (tan t') ^ 2 := by
    rcases le_or_gt (t - 3 * u) 0 with h | h
    · have h6 := tan_drop le_rfl h0 ht
      rw [tan_zero] at h6
      have : τ ≤ 6 * u := by linarith
      have := sq_nonneg (fl (tan t'))
      nlinarith
    · have h6 := tan_drop h.le (by linarith) ht
      have h7 : tan (t - 3 * u) ≤ tan t' := strictMonoOn_tan.monotoneOn ⟨by linarith, by linarith⟩ ⟨by linarith, by linarith⟩ h1
      have h8 : 0 ≤ tan (t - 3 * u) := tan_nonneg_of_nonneg_of_le_pi_div_two h.le (by linarith)
      have h9 : τ - 6 * u ≤ tan (t - 3 * u) := by linarith
      have h10 := (er _ h8).1
      have h11 := hfl.mono h7
      have hle : tan (t - 3 * u) ≤ 1 := by
        have := strictMonoOn_tan.monotoneOn (a := t - 3 * u) (b := t) ⟨by linarith, by linarith⟩ ⟨by linarith, by linarith⟩ (by linarith)
        linarith
      have h12 : τ - 7 * u ≤ fl (tan t') := by nlinarith
      rcases le_or_gt τ (7 * u) with h13 | h13
      · have := sq_nonneg (fl (tan t'))
        nlinarith
      · have : (τ - 7 * u) ^ 2 ≤ fl (tan t') ^ 2 := pow_le_pow_left₀ (by linarith) h12 2
        nlinarith
  set s1 := fl (fl (tan t') ^ 2) with hs1
  have b1 : τ ^ 2 - 15 * u ≤ s1 := by
    have h := (er _ (sq_nonneg (fl (tan t')))).1
    rw [← hs1] at h
    have h' : (1 - u) * (τ ^ 2 - 14 * u * τ) ≤ (1 - u) * fl (tan t') ^ 2 := mul_le_mul_of_nonneg_left hT (by linarith)
    have k1 : 0 ≤ u * (1 - τ) := mul_nonneg hu.le (by linarith)
    have k2 : 0 ≤ u * (1 - τ ^ 2) := mul_nonneg hu.le (by nlinarith)
    have k3 : 0 ≤ u * u * τ := by positivity
    linarith
  have b1' : 0 ≤ s1 := (mul_nonneg (by linarith) (sq_nonneg _)).trans (er _ (sq_nonneg (fl (tan t')))).1
  set s2 := fl (2 + s1) with hs2
  set D := 2 + τ ^ 2 with hD
  have D2 : 2 ≤ D := by rw [hD]; nlinarith
  have D3 : D ≤ 3 := by rw [hD]; nlinarith
  have b2 : D - 18 * u ≤ s2 := by
    have h1 := (er (2 + (τ ^ 2 - 15 * u)) (by nlinarith)).1
    have h2 := hfl.mono (show 2 + (τ ^ 2 - 15 * u) ≤ 2 + s1 by linarith)
    rw [← hs2] at h2
    nlinarith
  have b2' : 0 < D - 18 * u := by linarith
  have b2p : 0 ≤ 1 / s2 := (one_div_pos.mpr (b2'.trans_le b2)).le
  set s3 := fl (1 / s2) with hs3
  have b3 : s3 ≤ (1 + u) * (1 / (D - 18 * u)) := by
    refine (er (1 / s2) b2p).2.trans (mul_le_mul_of_nonneg_left ?_ (by linarith))
    exact one_div_le_one_div_of_le b2' b2
  have b3' : 0 ≤ s3 := (mul_nonneg (by linarith) b2p).trans (er (1 / s2) b2p).1
  set s4 := fl √s3 with hs4
  have b4 : s4 ≤ (1 + u) * √s3 := (er _ (sqrt_nonneg _)).2
  have b4' : 0 ≤ s4 := (mul_nonneg (by linarith) (sqrt_nonneg _)).trans (er _ (sqrt_nonneg s3)).1
  set s := √D with hs
  have ss : s ^ 2 = D := sq_sqrt (by linarith)
  have s14 : 1.414 ≤ s := by rw [hs]; exact le_sqrt_of_sq_le (by norm_num; linarith)
  have sp : 0 < s := by linarith
  have key : s4 ≤ 1 / s + 5 * u := by
    refine (pow_le_pow_iff_left₀ b4' (by positivity) two_ne_zero).mp ?_
    have q1 : s4 ^ 2 ≤ (1 + u) ^ 2 * s3 := by
      calc s4 ^ 2 ≤ ((1 + u) * √s3) ^ 2 := pow_le_pow_left₀ b4' b4 2
        _ = (1 + u) ^ 2 * s3 := by rw [mul_pow, sq_sqrt b3']
    have q2 : (1 + u) ^ 2 * s3 ≤ (1 + u) ^ 3 * (1 / (D - 18 * u)) := by
      calc _ ≤ (1 + u) ^ 2 * ((1 + u) * (1 / (D - 18 * u))) := mul_le_mul_of_nonneg_left b3 (by positivity)
        _ = _ := by ring
    have q3 : (1 + u) ^ 3 ≤ 1 + 4 * u := by nlinarith [mul_pos hu hu]
    have q4 : (1 + u) ^ 3 * (1 / (D - 18 * u)) ≤ (1 + 4 * u) * (1 / (D - 18 * u)) := mul_le_mul_of_nonneg_right q3 (by positivity)
    have q5 : (1 + 4 * u) * (1 / (D - 18 * u)) ≤ 1 / D + 10 * u * (1 / s) := by
      have e : 1 / D + 10 * u * (1 / s) = (1 + 10 * u * s) / D := by rw [← ss]; field_simp
      rw [e, mul_one_div, div_le_div_iff₀ b2' (by linarith)]
      have q6 : 4 * D + 18 ≤ 10 * s * (D - 18 * u) := by nlinarith
      nlinarith [mul_le_mul_of_nonneg_left q6 hu.le]
    have q7 : 1 / D + 10 * u * (1 / s) ≤ (1 / s + 5 * u) ^ 2 := by
      have e : 1 / D = (1 / s) ^ 2 := by rw [← ss]; field_simp
      rw [e]; nlinarith [mul_pos hu hu]
    linarith
  -- the arc cosine
  have g1 : 1 / s ≤ 0.708 := by
    rw [div_le_iff₀ sp]; linarith
  have c2 := acos_drop (by positivity : 0 < 1 / s) g1 hu hu' key
  have c3 := (er (arccos s4) (arccos_nonneg _)).1
  have c4 : arccos s4 ≤ 2 := (arccos_le_pi_div_two.mpr b4').trans (by linarith [pi_lt_d2])
  have c5 : arccos z ≤ arccos (1 / s) := arccos_le_arccos hz
  change arccos z ≤ fl (arccos s4) + 10 * u
  have c6 : u * arccos s4 ≤ u * 2 := mul_le_mul_of_nonneg_left c4 hu.le
  linarith

theorem rS2_eq10 (fl : ℝ → ℝ) (eps : ℝ) (p : V) : rS2InFz fl eps 10 p = some true ↔
    (∃ c, rChi fl p = some c ∧ (if rEta fl p ≥ fl (π / 4) then c ≤ fl (rCubBound fl (fl (π / 2 - rEta fl p)) + eps)
      else c ≤ fl (rCubBound fl (rEta fl p) + eps))) ∧
    rEta fl p ≥ 0 ∧ rEta fl p ≤ fl (π / 2 + eps) ∧ ∃ c, rChi fl p = some c ∧ c ≥ 0 := by
  unfold rS2InFz
  rw [if_neg (by decide), if_neg (by decide), if_neg (by decide), if_neg (by decide), if_neg (by decide), if_neg (by decide), if_neg (by decide),
    if_neg (by decide), if_pos rfl, Option.some.injEq, decide_eq_true_eq]

theorem rS2_eq11 (fl : ℝ → ℝ) (eps : ℝ) (p : V) : rS2InFz fl eps 11 p = some true ↔
    (∃ c, rChi fl p = some c ∧ (if rEta fl p > fl (π / 4) then c < fl (rCubBound fl (fl (π / 2 - rEta fl p)) + eps)
      else c ≤ fl (rCubBound fl (rEta fl p) + eps))) ∧
    rEta fl p > 0 ∧ rEta fl p < fl (π / 4 + eps) ∧ ∃ c, rChi fl p = some c ∧ c > 0 := by
  unfold rS2InFz
  rw [if_neg (by decide), if_neg (by decide), if_neg (by decide), if_neg (by decide), if_neg (by decide), if_neg (by decide), if_neg (by decide),
    if_neg (by decide), if_neg (by decide), if_pos rfl, Option.some.injEq, decide_eq_true_eq]

/-- **C172**, cubic classes: rounding does not reject a direction of the sector, when the tolerance of the code is at least 16 units of rounding (single and
double precision: yes).  The sector is given by the azimuth and the third component; for a unit vector with components of one sign the
condition on the latter says that it is the largest component.  Converse: `C172_cubic_accepted_partial`.  Missing: third components above 1, see
`C172_nan_fails`. -/
theorem C172_cubic_partial {p : ℕ} (hp : 11 ≤ p) {fl : ℝ → ℝ} (hfl : Nearest p fl) {eps : ℝ} (he : 16 * (2 ^ p)⁻¹ ≤ eps) (d : V) :
    (0 ≤ azimuth d → azimuth d ≤ π / 2 → 1 / √(2 + tan (min (azimuth d) (π / 2 - azimuth d)) ^ 2) ≤ d.z → d.z ≤ 1 →
      rS2InFz fl eps 10 d = some true) ∧
    (0 < azimuth d → azimuth d ≤ π / 4 → 1 / √(2 + tan (azimuth d) ^ 2) ≤ d.z → d.z < 1 → rS2InFz fl eps 11 d = some true) := by
  have hcub := fun (t t' z : ℝ) => cub_bound hp hfl (t := t) (t' := t') (z := z)
  have hu : (0 : ℝ) < (2 ^ p)⁻¹ := by positivity
  have hu' : ((2 : ℝ) ^ p)⁻¹ ≤ 1 / 2048 := by
    have : (2048 : ℝ) ≤ 2 ^ p := by
      calc (2048 : ℝ) = 2 ^ 11 := by norm_num
        _ ≤ 2 ^ p := pow_le_pow_right₀ (by norm_num) hp
    rw [inv_eq_one_div]
    exact one_div_le_one_div_of_le (by norm_num) this
  have er : ∀ x : ℝ, |fl x - x| ≤ (2 ^ p)⁻¹ * |x| := fun x => hfl.err (by omega) x
  generalize ((2 : ℝ) ^ p)⁻¹ = u at *
  have hπ := pi_gt_three
  have hπ' := pi_lt_d2
  have er0 : ∀ x : ℝ, 0 ≤ x → (1 - u) * x ≤ fl x ∧ fl x ≤ (1 + u) * x := fun x hx => by
    have := abs_le.mp (er x)
    rw [abs_of_nonneg hx] at this
    constructor <;> linarith [this.1, this.2]
  have hm := hfl.mono
  have f4 := er0 (π / 4) (by linarith)
  have e0 : rEta fl d = fl (azimuth d) := rfl
  constructor
  · intro a0 a1 hz z1
    have hz0 : 0 ≤ d.z := le_trans (by positivity) hz
    have hc : rChi fl d = some (fl (arccos d.z)) := rChi_some.mpr ⟨⟨by linarith, z1⟩, rfl⟩
    have ea := er0 _ a0
    have g0 : 0 ≤ fl (azimuth d) := (mul_nonneg (by linarith) a0).trans ea.1
    have ua : u * azimuth d ≤ u * 1.6 := mul_le_mul_of_nonneg_left (by linarith) hu.le
    have u4 : u * (π / 4) ≤ u * 0.8 := mul_le_mul_of_nonneg_left (by linarith) hu.le
    have ht0 : 0 ≤ min (azimuth d) (π / 2 - azimuth d) := le_min a0 (by linarith)
    have ht1 : min (azimuth d) (π / 2 - azimuth d) ≤ π / 4 := by
      rcases le_total (azimuth d) (π / 4) with h | h
      · exact (min_le_left _ _).trans h
      · exact (min_le_right _ _).trans (by linarith)
    refine (rS2_eq10 fl eps d).mpr ?_
    rw [e0]
    refine ⟨⟨_, hc, ?_⟩, g0, hm (by linarith), _, hc, ?_⟩
    · split_ifs with h
      · refine hm ?_
        have e5 := abs_le.mp (er (π / 2 - fl (azimuth d)))
        have h5 : |π / 2 - fl (azimuth d)| ≤ 0.9 := by
          rw [abs_le]; constructor <;> linarith
        have h6 : u * |π / 2 - fl (azimuth d)| ≤ u * 0.9 := mul_le_mul_of_nonneg_left h5 hu.le
        have := hcub _ (fl (π / 2 - fl (azimuth d))) d.z ht0 ht1 ((sub_le_sub_right (min_le_right _ _) _).trans (by linarith)) (by linarith [(abs_le.mp h5).2]) hz
        linarith
      · refine hm ?_
        have := hcub _ (fl (azimuth d)) d.z ht0 ht1 ((sub_le_sub_right (min_le_left _ _) _).trans (by linarith)) (by linarith [not_le.mp h]) hz
        linarith
    · have := hm (arccos_nonneg d.z)
      rwa [hfl.zero] at this
  · intro a0 a1 hz z1
    have hz0 : 0 ≤ d.z := le_trans (by positivity) hz
    have hc : rChi fl d = some (fl (arccos d.z)) := rChi_some.mpr ⟨⟨by linarith, z1.le⟩, rfl⟩
    have ea := er0 _ a0.le
    have g0 : 0 < fl (azimuth d) := (mul_pos (by linarith) a0).trans_le ea.1
    have ua : u * azimuth d ≤ u * 0.8 := mul_le_mul_of_nonneg_left (by linarith) hu.le
    have u4 : u * (π / 4) ≤ u * 0.8 := mul_le_mul_of_nonneg_left (by linarith) hu.le
    have hle : fl (azimuth d) ≤ fl (π / 4) := hm a1
    have hc0 : 0 < arccos d.z := arccos_pos.mpr z1
    refine (rS2_eq11 fl eps d).mpr ?_
    rw [e0]
    refine ⟨⟨_, hc, ?_⟩, g0, ?_, _, hc, (mul_pos (by linarith) hc0).trans_le (er0 _ hc0.le).1⟩
    · rw [if_neg (not_lt.mpr hle)]
      refine hm ?_
      have := hcub _ (fl (azimuth d)) d.z a0.le a1 (by linarith) (by linarith) hz
      linarith
    · refine hle.trans_lt (f4.2.trans_lt (lt_of_lt_of_le ?_ (er0 (π / 4 + eps) (by linarith)).1))
      have : u * eps ≤ 1 / 2048 * eps := mul_le_mul_of_nonneg_right hu' (by linarith)
      linarith

/-! ### The converse for the cubic classes -/

theorem tan_near {t w : ℝ} (ht : |t| ≤ 0.79) (hw : |w| ≤ 0.8) : |tan w - tan t| ≤ 2.2 * |w - t| := by
  have hπ := pi_gt_three
  have hc : ∀ x : ℝ, |x| ≤ 0.8 → 0.68 ≤ cos x := fun x hx => by
    have := one_sub_sq_div_two_le_cos (x := x)
    have : x ^ 2 ≤ 0.8 ^ 2 := sq_le_sq' (by linarith [(abs_le.mp hx).1]) (abs_le.mp hx).2
    linarith
  have c1 := hc t (by linarith)
  have c2 := hc w hw
  have hcc : 0.46 ≤ cos w * cos t := by nlinarith
  have e : tan w - tan t = sin (w - t) / (cos w * cos t) := by
    have : cos t ≠ 0 := by linarith
    have : cos w ≠ 0 := by linarith
    rw [tan_eq_sin_div_cos, tan_eq_sin_div_cos, sin_sub]; field_simp
  rw [e, abs_div, abs_of_pos (show 0 < cos w * cos t by linarith), div_le_iff₀ (by linarith)]
  have hs : |sin (w - t)| ≤ |w - t| := abs_sin_le_abs
  have := mul_le_mul_of_nonneg_left hcc (abs_nonneg (w - t))
  linarith [abs_nonneg (w - t)]

theorem acos_rise {g u w : ℝ} (g0 : 0 < g) (g1 : g ≤ 0.708) (hu : 0 < u) (hu' : u ≤ 1 / 2048) (hw : g - 10 * u ≤ w) : arccos w ≤ arccos g + 15 * u := by
  set θ := arccos g with hθ
  have cθ : cos θ = g := cos_arccos (by linarith) (by linarith)
  have sθ : 0.7 ≤ sin θ := by
    rw [hθ, sin_arccos]
    refine le_sqrt_of_sq_le ?_
    norm_num; nlinarith
  have θ1 : θ ≤ π / 2 := arccos_le_pi_div_two.mpr g0.le
  have hπ := pi_gt_three
  have h5 : u * u ≤ u * (1 / 2048) := mul_le_mul_of_nonneg_left hu' hu.le
  have h6 : u * u * u ≤ u * (1 / 2048) * (1 / 2048) := mul_le_mul h5 hu' hu.le (by positivity)
  have c1 : cos (θ + 15 * u) ≤ w := by
    rw [cos_add, cθ]
    have h1 := cos_le_one (15 * u)
    have h2 := sin_gt_sub_cube (x := 15 * u) (by linarith)
    have e3 : (15 * u) ^ 3 = 3375 * (u * u * u) := by ring
    rw [e3] at h2
    have k1 : g * cos (15 * u) ≤ g * 1 := mul_le_mul_of_nonneg_left h1 g0.le
    have k2 : 0 ≤ 15 * u - 3375 * (u * u * u) / 6 := by linarith
    have k3 : 0.7 * (15 * u - 3375 * (u * u * u) / 6) ≤ sin θ * sin (15 * u) := mul_le_mul sθ (by linarith) k2 (by linarith)
    linarith
  have := arccos_le_arccos c1
  rwa [arccos_cos (by linarith [arccos_nonneg g]) (by linarith)] at this

set_option maxHeartbeats 800000 in
theorem cub_upper {p : ℕ} (hp : 11 ≤ p) {fl : ℝ → ℝ} (hfl : Nearest p fl) {t t' : ℝ} (ht : |t| ≤ π / 4)
    (h1 : |t' - t| ≤ 8 * (2 ^ p)⁻¹) : rCubBound fl t' ≤ arccos (1 / √(2 + tan t ^ 2)) + 17 * (2 ^ p)⁻¹ := by
  have hu : (0 : ℝ) < (2 ^ p)⁻¹ := by positivity
  have hu' : ((2 : ℝ) ^ p)⁻¹ ≤ 1 / 2048 := by
    have : (2048 : ℝ) ≤ 2 ^ p := by
      calc (2048 : ℝ) = 2 ^ 11 := by norm_num
        _ ≤ 2 ^ p := pow_le_pow_right₀ (by norm_num) hp
    rw [inv_eq_one_div]
    exact one_div_le_one_div_of_le (by norm_num) this
  have er' : ∀ x : ℝ, |fl x - x| ≤ (2 ^ p)⁻¹ * |x| := fun x => hfl.err (by omega) x
  generalize ((2 : ℝ) ^ p)⁻¹ = u at *
  have er : ∀ x : ℝ, 0 ≤ x → (1 - u) * x ≤ fl x ∧ fl x ≤ (1 + u) * x := fun x hx => by
    have := abs_le.mp (er' x)
    rw [abs_of_nonneg hx] at this
    constructor <;> linarith [this.1, this.2]
  have hπ := pi_gt_three
  have hπ' := pi_lt_d2
  have ht' : |t| ≤ 0.79 := by linarith
  have htw : |t'| ≤ 0.8 := by
    have := abs_add_le (t' - t) t
    rw [sub_add_cancel] at this
    linarith
  set τ := tan t with hτ
  have τ1 : |τ| ≤ 1 := by
    have h := abs_le.mp ht
    rw [abs_le, ← tan_pi_div_four, ← tan_neg]
    exact ⟨strictMonoOn_tan.monotoneOn ⟨by linarith, by linarith⟩ ⟨by linarith, by linarith⟩ h.1,
      strictMonoOn_tan.monotoneOn ⟨by linarith, by linarith⟩ ⟨by linarith, by linarith⟩ h.2⟩
  have hτ2 : τ ^ 2 ≤ 1 := by rw [← sq_abs]; exact pow_le_one₀ (abs_nonneg _) τ1
  have hd : |fl (tan t') - τ| ≤ 19 * u := by
    have k1 := tan_near ht' htw
    rw [← hτ] at k1
    have k2 := er' (tan t')
    have k3 : |tan t'| ≤ 1.1 := by
      have := abs_add_le (tan t' - τ) τ
      rw [sub_add_cancel] at this
      linarith
    have k4 : u * |tan t'| ≤ u * 1.1 := mul_le_mul_of_nonneg_left k3 hu.le
    have k5 := abs_add_le (fl (tan t') - tan t') (tan t' - τ)
    rw [sub_add_sub_cancel] at k5
    linarith
  have hT : fl (tan t') ^ 2 ≤ τ ^ 2 + 39 * u := by
    have k1 : |fl (tan t') + τ| ≤ 2.02 := by
      have := abs_add_le (fl (tan t') - τ) (2 * τ)
      rw [show fl (tan t') - τ + 2 * τ = fl (tan t') + τ by ring, abs_mul, abs_of_pos (two_pos : (0 : ℝ) < 2)] at this
      linarith
    have k2 : |(fl (tan t') - τ) * (fl (tan t') + τ)| ≤ 19 * u * 2.02 := by
      rw [abs_mul]; exact mul_le_mul hd k1 (abs_nonneg _) (by linarith)
    have := (abs_le.mp k2).2
    have e : (fl (tan t') - τ) * (fl (tan t') + τ) = fl (tan t') ^ 2 - τ ^ 2 := by ring
    rw [e] at this
    linarith
  set s1 := fl (fl (tan t') ^ 2) with hs1
  have huu : u * u ≤ u * (1 / 2048) := mul_le_mul_of_nonneg_left hu' hu.le
  have hu2 : u * τ ^ 2 ≤ u * 1 := mul_le_mul_of_nonneg_left hτ2 hu.le
  have b1 : s1 ≤ τ ^ 2 + 41 * u := by
    have h := (er _ (sq_nonneg (fl (tan t')))).2
    rw [← hs1] at h
    have h' : (1 + u) * fl (tan t') ^ 2 ≤ (1 + u) * (τ ^ 2 + 39 * u) := mul_le_mul_of_nonneg_left hT (by linarith)
    linarith
  have b1' : 0 ≤ s1 := (mul_nonneg (by linarith) (sq_nonneg _)).trans (er _ (sq_nonneg (fl (tan t')))).1
  set s2 := fl (2 + s1) with hs2
  set D := 2 + τ ^ 2 with hD
  have D2 : 2 ≤ D := by rw [hD]; linarith [sq_nonneg τ]
  have D3 : D ≤ 3 := by rw [hD]; linarith
  have b2 : s2 ≤ D + 45 * u := by
    have h1 := (er (2 + s1) (by linarith)).2
    rw [← hs2] at h1
    have h' : (1 + u) * (2 + s1) ≤ (1 + u) * (2 + (τ ^ 2 + 41 * u)) := mul_le_mul_of_nonneg_left (by linarith) (by linarith)
    linarith
  have b2' : 0 < s2 := (mul_pos (by linarith) (show 0 < 2 + s1 by linarith)).trans_le (er (2 + s1) (by linarith)).1
  set s3 := fl (1 / s2) with hs3
  have b3 : (1 - u) * (1 / (D + 45 * u)) ≤ s3 :=
    (mul_le_mul_of_nonneg_left (one_div_le_one_div_of_le b2' b2) (by linarith)).trans (er (1 / s2) (one_div_pos.mpr b2').le).1
  have b3' : 0 ≤ s3 := (mul_nonneg (by linarith) (by positivity)).trans b3
  set s4 := fl √s3 with hs4
  have b4 : (1 - u) * √s3 ≤ s4 := (er _ (sqrt_nonneg _)).1
  have b4' : 0 ≤ s4 := (mul_nonneg (by linarith) (sqrt_nonneg _)).trans b4
  set s := √D with hs
  have ss : s ^ 2 = D := sq_sqrt (by linarith)
  have s14 : 1.414 ≤ s := by rw [hs]; exact le_sqrt_of_sq_le (by norm_num; linarith)
  have s18 : s ≤ 1.8 := by rw [hs, sqrt_le_left (by norm_num)]; norm_num; linarith
  have sp : 0 < s := by linarith
  have g1 : 1 / s ≤ 0.708 := by rw [div_le_iff₀ sp]; linarith
  have g2 : 0.5 ≤ 1 / s := by rw [le_div_iff₀ sp]; linarith
  have key : 1 / s - 10 * u ≤ s4 := by
    refine (pow_le_pow_iff_left₀ (by linarith) b4' two_ne_zero).mp ?_
    have q1 : (1 - u) ^ 2 * s3 ≤ s4 ^ 2 := by
      calc (1 - u) ^ 2 * s3 = ((1 - u) * √s3) ^ 2 := by rw [mul_pow, sq_sqrt b3']
        _ ≤ s4 ^ 2 := pow_le_pow_left₀ (mul_nonneg (by linarith) (sqrt_nonneg _)) b4 2
    have q2 : (1 - u) ^ 3 * (1 / (D + 45 * u)) ≤ (1 - u) ^ 2 * s3 := by
      calc _ = (1 - u) ^ 2 * ((1 - u) * (1 / (D + 45 * u))) := by ring
        _ ≤ _ := mul_le_mul_of_nonneg_left b3 (by positivity)
    have q3 : 1 - 3 * u ≤ (1 - u) ^ 3 := by nlinarith [mul_pos hu hu]
    have q4 : (1 - 3 * u) * (1 / (D + 45 * u)) ≤ (1 - u) ^ 3 * (1 / (D + 45 * u)) := mul_le_mul_of_nonneg_right q3 (by positivity)
    have q5 : (1 / s - 10 * u) ^ 2 ≤ (1 - 3 * u) * (1 / (D + 45 * u)) := by
      set g := 1 / s with hg
      have gD : g ^ 2 * D = 1 := by rw [hg, ← ss]; field_simp
      have gg : g ^ 2 ≤ 0.5013 := by nlinarith
      have gs : g * D = s := by rw [hg, ← ss]; field_simp
      rw [mul_one_div, le_div_iff₀ (by linarith)]
      have e : (g - 10 * u) ^ 2 * (D + 45 * u) = g ^ 2 * D - 20 * u * (g * D) + 100 * (u * u) * D + 45 * u * g ^ 2 - 900 * (u * u) * g + 4500 * (u * u * u) := by ring
      rw [e, gD, gs]
      have r1 : u * 1.414 ≤ u * s := mul_le_mul_of_nonneg_left s14 hu.le
      have r2 : u * u * D ≤ u * u * 3 := mul_le_mul_of_nonneg_left D3 (by positivity)
      have r3 : u * g ^ 2 ≤ u * 0.5013 := mul_le_mul_of_nonneg_left gg hu.le
      have r4 : u * u * 0.5 ≤ u * u * g := mul_le_mul_of_nonneg_left g2 (by positivity)
      have r5 : u * u * u ≤ u * (1 / 2048) * (1 / 2048) := mul_le_mul huu hu' hu.le (by positivity)
      linarith
    linarith
  have c2 := acos_rise (by positivity : 0 < 1 / s) g1 hu hu' key
  have c3 := (er (arccos s4) (arccos_nonneg _)).2
  have c4 : arccos s4 ≤ 1.6 := (arccos_le_pi_div_two.mpr b4').trans (by linarith)
  change fl (arccos s4) ≤ arccos (1 / s) + 17 * u
  have c6 : u * arccos s4 ≤ u * 1.6 := mul_le_mul_of_nonneg_left c4 hu.le
  linarith

/-- **C172**, cubic classes, converse: an accepted direction is in the sector up to the tolerance of the code and 25 units of rounding.
Missing from C172: acceptance of computed images, see `C172_nan_fails`. -/
theorem C172_cubic_accepted_partial {p : ℕ} (hp : 11 ≤ p) {fl : ℝ → ℝ} (hfl : Nearest p fl) {eps : ℝ} (he : 0 ≤ eps) (he' : eps ≤ 1 / 100) (d : V) :
    (rS2InFz fl eps 10 d = some true →
      0 ≤ azimuth d ∧ azimuth d ≤ π / 2 + eps + 8 * (2 ^ p)⁻¹ ∧ d.z ≤ 1 ∧
      arccos d.z ≤ arccos (1 / √(2 + tan (min (azimuth d) (π / 2 - azimuth d)) ^ 2)) + eps + 25 * (2 ^ p)⁻¹) ∧
    (rS2InFz fl eps 11 d = some true →
      0 < azimuth d ∧ azimuth d ≤ π / 4 + eps + 8 * (2 ^ p)⁻¹ ∧ d.z ≤ 1 ∧
      arccos d.z ≤ arccos (1 / √(2 + tan (min (azimuth d) (π / 2 - azimuth d)) ^ 2)) + eps + 25 * (2 ^ p)⁻¹) := by
  have hcub := fun (t t' : ℝ) => cub_upper hp hfl (t := t) (t' := t')
  have hu : (0 : ℝ) < (2 ^ p)⁻¹ := by positivity
  have hu' : ((2 : ℝ) ^ p)⁻¹ ≤ 1 / 2048 := by
    have : (2048 : ℝ) ≤ 2 ^ p := by
      calc (2048 : ℝ) = 2 ^ 11 := by norm_num
        _ ≤ 2 ^ p := pow_le_pow_right₀ (by norm_num) hp
    rw [inv_eq_one_div]
    exact one_div_le_one_div_of_le (by norm_num) this
  have er : ∀ x : ℝ, |fl x - x| ≤ (2 ^ p)⁻¹ * |x| := fun x => hfl.err (by omega) x
  generalize ((2 : ℝ) ^ p)⁻¹ = u at *
  have hπ := pi_gt_three
  have hπ' := pi_lt_d2
  have er0 : ∀ x : ℝ, 0 ≤ x → (1 - u) * x ≤ fl x ∧ fl x ≤ (1 + u) * x := fun x hx => by
    have := abs_le.mp (er x)
    rw [abs_of_nonneg hx] at this
    constructor <;> linarith [this.1, this.2]
  have hm := hfl.mono
  have e0 : rEta fl d = fl (azimuth d) := rfl
  have f4 := er0 (π / 4) (by linarith)
  have u4 : u * (π / 4) ≤ u * 0.8 := mul_le_mul_of_nonneg_left (by linarith) hu.le
  have ue : u * eps ≤ u * 0.01 := mul_le_mul_of_nonneg_left (by linarith) hu.le
  have huu : u * u ≤ u * (1 / 2048) := mul_le_mul_of_nonneg_left hu' hu.le
  -- the sign of the azimuth
  have neg : azimuth d < 0 → fl (azimuth d) < 0 := fun h => by
    have := (abs_le.mp (er (azimuth d))).2
    rw [abs_of_neg h] at this
    nlinarith
  -- an upper bound of the azimuth
  have up : ∀ h : ℝ, 0 ≤ h → h ≤ 1.6 → 0 ≤ azimuth d → fl (azimuth d) ≤ fl (h + eps) → azimuth d ≤ h + eps + 8 * u := fun h h0 h1 a0 ha => by
    have k1 := (er0 _ a0).1
    have k2 := (er0 (h + eps) (by linarith)).2
    have k3 : azimuth d ≤ 4 := (Complex.arg_le_pi _).trans (by linarith)
    have k4 : u * azimuth d ≤ u * 4 := mul_le_mul_of_nonneg_left k3 hu.le
    have k5 : u * h ≤ u * 1.6 := mul_le_mul_of_nonneg_left h1 hu.le
    linarith
  -- the polar angle
  have pol : ∀ t' : ℝ, |min (azimuth d) (π / 2 - azimuth d)| ≤ π / 4 → |t' - min (azimuth d) (π / 2 - azimuth d)| ≤ 8 * u →
      fl (arccos d.z) ≤ fl (rCubBound fl t' + eps) →
      arccos d.z ≤ arccos (1 / √(2 + tan (min (azimuth d) (π / 2 - azimuth d)) ^ 2)) + eps + 25 * u := fun t' k1 k2 k3 => by
    have k4 := hcub _ t' k1 k2
    have k5 := hm (show rCubBound fl t' + eps ≤ arccos (1 / √(2 + tan (min (azimuth d) (π / 2 - azimuth d)) ^ 2)) + 17 * u + eps by linarith)
    set θ := arccos (1 / √(2 + tan (min (azimuth d) (π / 2 - azimuth d)) ^ 2)) with hθ
    have θ0 : 0 ≤ θ := arccos_nonneg _
    have θ1 : θ ≤ π / 2 := arccos_le_pi_div_two.mpr (by positivity)
    have k6 := (er0 (θ + 17 * u + eps) (by linarith)).2
    have k7 := (er0 _ (arccos_nonneg d.z)).1
    have k8 : u * arccos d.z ≤ u * 3.15 := mul_le_mul_of_nonneg_left ((arccos_le_pi _).trans (by linarith)) hu.le
    have k9 : u * θ ≤ u * 1.6 := mul_le_mul_of_nonneg_left (by linarith) hu.le
    linarith
  -- the two branches
  have br1 : 0 ≤ azimuth d → azimuth d ≤ π / 2 + 0.1 → azimuth d ≤ π / 4 + 3 * u → |fl (azimuth d) - min (azimuth d) (π / 2 - azimuth d)| ≤ 8 * u := fun a0 _ a1 => by
    have k1 := abs_le.mp (er (azimuth d))
    rw [abs_of_nonneg a0] at k1
    have k2 : u * azimuth d ≤ u * 1 := mul_le_mul_of_nonneg_left (by linarith) hu.le
    rcases le_total (azimuth d) (π / 2 - azimuth d) with h | h
    · rw [min_eq_left h, abs_le]; constructor <;> linarith [k1.1, k1.2]
    · rw [min_eq_right h, abs_le]; constructor <;> linarith [k1.1, k1.2]
  have br2 : azimuth d ≤ π / 2 + 0.1 → π / 4 - 2 * u ≤ azimuth d → |fl (π / 2 - fl (azimuth d)) - min (azimuth d) (π / 2 - azimuth d)| ≤ 8 * u := fun a0 a1 => by
    have k1 := abs_le.mp (er (azimuth d))
    rw [abs_of_nonneg (by linarith : 0 ≤ azimuth d)] at k1
    have k2 : u * azimuth d ≤ u * 1.7 := mul_le_mul_of_nonneg_left (by linarith) hu.le
    have k3 := abs_le.mp (er (π / 2 - fl (azimuth d)))
    have k4 : |π / 2 - fl (azimuth d)| ≤ 1 := by rw [abs_le]; constructor <;> linarith [k1.1, k1.2]
    have k5 : u * |π / 2 - fl (azimuth d)| ≤ u * 1 := mul_le_mul_of_nonneg_left k4 hu.le
    rcases le_total (azimuth d) (π / 2 - azimuth d) with h | h
    · rw [min_eq_left h, abs_le]; constructor <;> linarith [k1.1, k1.2, k3.1, k3.2]
    · rw [min_eq_right h, abs_le]; constructor <;> linarith [k1.1, k1.2, k3.1, k3.2]
  have mb : 0 ≤ azimuth d → azimuth d ≤ π / 2 + 0.1 → |min (azimuth d) (π / 2 - azimuth d)| ≤ π / 4 := fun a0 a1 => by
    rcases le_total (azimuth d) (π / 2 - azimuth d) with h | h
    · rw [min_eq_left h, abs_le]; constructor <;> linarith
    · rw [min_eq_right h, abs_le]; constructor <;> linarith
  constructor
  · intro h
    obtain ⟨⟨c, hc, hb⟩, g0, g1, -⟩ := (rS2_eq10 fl eps d).mp h
    rw [e0] at hb g0 g1
    obtain ⟨⟨-, z1⟩, rfl⟩ := rChi_some.mp hc
    have a0 : 0 ≤ azimuth d := not_lt.mp fun hn => absurd g0 (not_le.mpr (neg hn))
    have a1 := up (π / 2) (by linarith) (by linarith) a0 g1
    have a2 : azimuth d ≤ π / 2 + 0.1 := by linarith
    refine ⟨a0, a1, z1, ?_⟩
    split_ifs at hb with hif
    · refine pol _ (mb a0 a2) (br2 a2 ?_) hb
      have k1 := (er0 _ a0).2
      by_contra hcon
      push Not at hcon
      have k2 : u * azimuth d ≤ u * 0.8 := mul_le_mul_of_nonneg_left (by linarith) hu.le
      linarith [f4.1, show fl (π / 4) ≤ fl (azimuth d) from hif]
    · refine pol _ (mb a0 a2) (br1 a0 a2 ?_) hb
      have : azimuth d < π / 4 := not_le.mp fun hn => hif (hm hn)
      linarith
  · intro h
    obtain ⟨⟨c, hc, hb⟩, g0, g1, -⟩ := (rS2_eq11 fl eps d).mp h
    rw [e0] at hb g0 g1
    obtain ⟨⟨-, z1⟩, rfl⟩ := rChi_some.mp hc
    have a0 : 0 ≤ azimuth d := not_lt.mp fun hn => absurd g0 (not_lt.mpr (neg hn).le)
    have a0' : 0 < azimuth d := lt_of_le_of_ne a0 fun hn => by
      rw [← hn, hfl.zero] at g0
      exact absurd g0 (lt_irrefl _)
    have a1 := up (π / 4) (by linarith) (by linarith) a0 g1.le
    have a2 : azimuth d ≤ π / 2 + 0.1 := by linarith
    refine ⟨a0', a1, z1, ?_⟩
    split_ifs at hb with hif
    · refine pol _ (mb a0 a2) (br2 a2 ?_) hb.le
      have : π / 4 < azimuth d := not_le.mp fun hn => absurd hif (not_lt.mpr (hm hn))
      linarith
    · refine pol _ (mb a0 a2) (br1 a0 a2 ?_) hb
      have k1 := (er0 _ a0).1
      have k2 : u * azimuth d ≤ u * 0.9 := mul_le_mul_of_nonneg_left (by linarith) hu.le
      linarith [f4.2, not_lt.mp hif]

/-! ### Non-vacuity -/

example : rS2InFz (rnd 24) (s2Eps true) (9 : ℕ) ⟨1, 0, 0⟩ = some true := by
  refine ((C172_sector_partial (p := 24) (by norm_num) (rnd_nearest (by norm_num)) (eps := s2Eps true) (by norm_num [s2Eps]) (by norm_num [s2Eps]) ⟨1, 0, 0⟩).2 9
    (by norm_num) (by norm_num)).1 ?_ ?_ le_rfl zero_le_one
  · have : azimuth ⟨1, 0, 0⟩ = 0 := Complex.arg_one
    rw [this]; exact le_rfl
  · have : azimuth ⟨1, 0, 0⟩ = 0 := Complex.arg_one
    rw [this]
    have := pi_pos
    change 0 ≤ π / 6
    positivity

/-- Azimuth 45 degrees, third component 0.8, single precision. -/
theorem accepted_case : rS2InFz (rnd 24) (s2Eps true) 11 ⟨1, 1, 0.8⟩ = some true := by
  have ha : azimuth ⟨1, 1, 0.8⟩ = π / 4 := by
    have h := Complex.arg_mul_cos_add_sin_mul_I (r := √2) (by positivity) (θ := π / 4) ⟨by linarith [pi_pos], by linarith [pi_pos]⟩
    unfold azimuth
    rw [← h]
    congr 1
    have h2 : √2 * √2 = 2 := mul_self_sqrt (by norm_num)
    rw [← Complex.ofReal_cos, ← Complex.ofReal_sin, cos_pi_div_four, sin_pi_div_four]
    apply Complex.ext <;> simp <;> linarith
  refine (C172_cubic_partial (p := 24) (by norm_num) (rnd_nearest (by norm_num)) (eps := s2Eps true) (by norm_num [s2Eps]) _).2 ?_ ?_ ?_ ?_
  · rw [ha]; linarith [pi_pos]
  · rw [ha]
  · rw [ha, tan_pi_div_four, div_le_iff₀ (by positivity)]
    have : (1.7 : ℝ) ≤ √(2 + 1 ^ 2) := le_sqrt_of_sq_le (by norm_num)
    norm_num at this ⊢
    linarith
  · norm_num

example := (C172_cubic_accepted_partial (p := 24) (by norm_num) (rnd_nearest (by norm_num)) (eps := s2Eps true) (by norm_num [s2Eps])
  (by norm_num [s2Eps]) _).2 accepted_case

example := C172_nan_fails (rnd_nearest (p := 24) (by norm_num)) (tab := id) (fun _ _ => rfl) 1e-6 10 (Or.inl rfl)

end Verif.S2
