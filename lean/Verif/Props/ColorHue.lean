import Verif.Props.Color
/-!
C107: the colour of an orientation, in full.
-/
open Quaternion
namespace Verif.Color
open Spec Real Verif.S2

private lemma hsl_range (n h l : ℝ) (l0 : 1 / 2 ≤ l) (l1 : l ≤ 1) : 0 ≤ hslChannel n h 1 l ∧ hslChannel n h 1 l ≤ 1 := by
  unfold hslChannel
  dsimp only
  rw [min_eq_right (by linarith)]
  generalize 12 * Int.fract ((n + 12 * h) / 12) = k
  have a : -1 ≤ max (-1) (min (k - 3) (min (9 - k) 1)) := le_max_left _ _
  have b : max (-1) (min (k - 3) (min (9 - k) 1)) ≤ 1 :=
    max_le (by norm_num) ((min_le_right _ _).trans (min_le_right _ _))
  generalize max (-1) (min (k - 3) (min (9 - k) 1)) = m at *
  constructor <;> nlinarith

/-- C107, what holds: where the azimuth of the reduced direction lies between 1/2 and 1 rad, the colour of the orientation is the
HSL colour with hue `(2 theta + 1/2) / (2 pi)` modulo 1, full saturation and lightness `phi`, with `theta` and `phi` the polar
angle and azimuth of the reduced direction, each channel times 255 rounded down. -/
theorem C107_colour_partial (n : ℕ) (h1 : 1 ≤ n) (h2 : n ≤ 11) (single : Bool) (q : Q) (ref d r : V)
    (hq : Rotates (toH q) ref d) (hu : IsUnit3 d) (hd : DirEquiv n d r) (hi : Inside n (2 * s2Eps single) r)
    (θ φ : ℝ) (t0 : 0 < θ) (t1 : θ < π) (p0 : 1 / 2 ≤ φ) (p1 : φ ≤ 1)
    (hr : r = ⟨sin θ * cos φ, sin θ * sin φ, cos θ⟩) :
    let c := hslToRgb (Int.fract ((2 * θ + 1 / 2) / (2 * π))) 1 φ
    oriColor (s2Eps single) [q] ref n = some [(some ⌊255 * c.1⌋₊, some ⌊255 * c.2.1⌋₊, some ⌊255 * c.2.2⌋₊)] := by
  rw [rotates_iff] at hq
  subst hq
  have hs : 0 < sin θ := sin_pos_of_pos_of_lt_pi t0 t1
  have hpi := pi_gt_three
  have e1 : atan2 r.y r.x = φ := by
    rw [hr]; exact atan2_of_polar hs (by linarith) (by linarith)
  have e2 : atan2 (sqrt (r.x ^ 2 + r.y ^ 2)) r.z = θ := by
    rw [hr]
    dsimp only
    rw [show (sin θ * cos φ) ^ 2 + (sin θ * sin φ) ^ 2 = sin θ ^ 2 by
      rw [mul_pow, mul_pow, ← mul_add, cos_sq_add_sin_sq, mul_one], sqrt_sq hs.le]
    have := atan2_of_polar (r := 1) (t := θ) one_pos (by linarith) t1.le
    rwa [one_mul, one_mul] at this
  have key := C88_to_fz_partial n h1 h2 single [quApply q ref] [r] (List.Forall₂.cons ⟨hu, hd, hi⟩ List.Forall₂.nil)
  have hh : hueOf θ = Int.fract ((2 * θ + 1 / 2) / (2 * π)) := by
    unfold hueOf
    dsimp only
    rw [trunc_fract (by positivity)]
    congr 2
    norm_num
    ring
  have hc := C107_hsl_partial (Int.fract ((2 * θ + 1 / 2) / (2 * π))) φ (Int.fract_nonneg _) (Int.fract_lt_one _) p0 p1
  have byte : ∀ x : ℝ, 0 ≤ x ∧ x ≤ 1 → toByte (x * 255) = some ⌊255 * x⌋₊ := by
    rintro x ⟨x0, x1⟩
    unfold toByte
    rw [if_pos ⟨by linarith, by linarith⟩, mul_comm]
  unfold oriColor
  simp only [List.map_cons, List.map_nil, key, Option.map_some]
  congr 2
  unfold colorOf xyzToThetaPhi
  dsimp only
  rw [e1, e2, hh, hc]
  unfold hslToRgb
  dsimp only
  rw [byte _ (hsl_range _ _ _ p0 p1), byte _ (hsl_range _ _ _ p0 p1), byte _ (hsl_range _ _ _ p0 p1)]

/-- The hypotheses hold for the identity in class 5 with the reference direction `(7, 4, 4) / 9`. -/
example (single : Bool) : ∃ (r : V) (θ φ : ℝ), Rotates (toH ⟨1, 0, 0, 0⟩) ⟨7 / 9, 4 / 9, 4 / 9⟩ r ∧ IsUnit3 r ∧
    DirEquiv 5 r r ∧ Inside 5 (2 * s2Eps single) r ∧ 0 < θ ∧ θ < π ∧ 1 / 2 ≤ φ ∧ φ ≤ 1 ∧
    r = ⟨sin θ * cos φ, sin θ * sin φ, cos θ⟩ := by
  have hR : (0 : ℝ) < sqrt 65 / 9 := by positivity
  have h65 : sqrt 65 ^ 2 = 65 := sq_sqrt (by norm_num)
  have hs := atan2_sin (y := 4 / 9) (x := 7 / 9) hR (by linear_combination (-1 / 81) * h65)
  have hc := atan2_cos (y := 4 / 9) (x := 7 / 9) hR (by linear_combination (-1 / 81) * h65)
  have hct : cos (arccos (4 / 9)) = 4 / 9 := cos_arccos (by norm_num) (by norm_num)
  have hst : sin (arccos (4 / 9)) = sqrt 65 / 9 := by
    rw [sin_arccos, show (1 : ℝ) - (4 / 9) ^ 2 = 65 / 9 ^ 2 by norm_num, sqrt_div (by norm_num), sqrt_sq (by norm_num)]
  refine ⟨⟨7 / 9, 4 / 9, 4 / 9⟩, arccos (4 / 9), atan2 (4 / 9) (7 / 9), ?_, by norm_num [IsUnit3], dirEquiv_refl 5 _,
    inside5 _ _ (by norm_num) (by norm_num) (by norm_num), arccos_pos.mpr (by norm_num), ?_, phi_hi.1, phi_hi.2, ?_⟩
  · rw [rotates_iff]
    simp [quApply]
  · rw [← arccos_neg_one]
    exact arccos_lt_arccos (by norm_num) (by norm_num) (by norm_num)
  · rw [hs, hc, hst, hct]
    congr 1 <;> field_simp

end Verif.Color
