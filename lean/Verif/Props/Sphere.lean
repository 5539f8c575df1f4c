import Verif.Lemmas.Sphere
import Verif.Lemmas.Quat
/-!
C20 (square Lambert projection), C21 (side-by-side projection), C22 (spherical coordinates).
-/
namespace Verif
open Spec

/-! ### C20 -/

theorem unit3_z {v : V} (h : IsUnit3 v) : |v.z| ≤ 1 := by
  unfold IsUnit3 at h
  rw [abs_le_one_iff_mul_self_le_one]
  nlinarith [sq_nonneg v.x, sq_nonneg v.y]

/-- Components of the projection: the larger one has magnitude `√(1-|z|)`. -/
theorem rosca_bounds (v : V) : |(roscaLambert v).1| ≤ Real.sqrt (max (1 - |v.z|) 0) ∧
    |(roscaLambert v).2| ≤ Real.sqrt (max (1 - |v.z|) 0) := by
  rw [rosca_eq]
  have hF := Real.sqrt_nonneg (max (1 - |v.z|) 0)
  generalize Real.sqrt (max (1 - |v.z|) 0) = F at *
  have hpi := Real.pi_pos
  have k : ∀ big sml : ℝ, |sml| ≤ |big| → |negOne big * F * (4 / Real.pi * rlAngle big sml)| ≤ F := by
    intro big sml h
    rw [abs_mul, abs_mul, negOne_abs, one_mul, abs_of_nonneg hF]
    have h1 : |4 / Real.pi * rlAngle big sml| ≤ 1 := by
      by_cases h0 : big = 0
      · subst h0
        have : sml = 0 := by simpa using h
        subst this
        simp [rlAngle, atan2]
        rw [show ({ re := 0, im := 0 } : ℂ) = 0 from rfl]; simp
      · have := (rl_range h h0).1
        rw [abs_mul, abs_of_pos (by positivity)]
        calc 4 / Real.pi * |rlAngle big sml| ≤ 4 / Real.pi * (Real.pi / 4) := by gcongr
          _ = 1 := by field_simp
    calc F * |4 / Real.pi * rlAngle big sml| ≤ F * 1 := by gcongr
      _ = F := mul_one F
  have k' : ∀ big : ℝ, |negOne big * F| ≤ F := by
    intro big; rw [abs_mul, negOne_abs, one_mul, abs_of_nonneg hF]
  by_cases h : |v.y| ≤ |v.x|
  · rw [if_pos h]; exact ⟨k' _, k _ _ h⟩
  · rw [if_neg h]; exact ⟨k _ _ (le_of_lt (not_le.mp h)), k' _⟩

/-- C20: the projection lands in `[-1, 1]²`. -/
theorem C20_range (v : V) : |(roscaLambert v).1| ≤ 1 ∧ |(roscaLambert v).2| ≤ 1 := by
  have h := rosca_bounds v
  have : Real.sqrt (max (1 - |v.z|) 0) ≤ 1 := by
    rw [Real.sqrt_le_iff, one_pow]
    refine ⟨by norm_num, ?_⟩
    exact max_le (by linarith [abs_nonneg v.z]) (by norm_num)
  exact ⟨h.1.trans this, h.2.trans this⟩

/-- One case of the inverse: recovers magnitudes. -/
theorem invCore_rosca {big sml z : ℝ} (hu : big ^ 2 + sml ^ 2 + z ^ 2 = 1) (hb : |sml| ≤ |big|) (h0 : big ≠ 0) :
    |(invCore (negOne big * Real.sqrt (max (1 - |z|) 0))
      (negOne big * Real.sqrt (max (1 - |z|) 0) * (4 / Real.pi * rlAngle big sml))).1| = |big| ∧
    |(invCore (negOne big * Real.sqrt (max (1 - |z|) 0))
      (negOne big * Real.sqrt (max (1 - |z|) 0) * (4 / Real.pi * rlAngle big sml))).2| = |sml| := by
  have hpi := Real.pi_pos
  have hbp := sq_pos_of_ne_zero h0
  have hz1 : |z| < 1 := by
    rw [← sq_lt_one_iff_abs_lt_one]; nlinarith [sq_nonneg sml]
  have hz0 := abs_nonneg z
  have hm : max (1 - |z|) 0 = 1 - |z| := max_eq_left (by linarith)
  rw [hm]
  have hF0 : 0 < 1 - |z| := by linarith
  have hF := Real.sqrt_pos.mpr hF0
  have hF2 := Real.sq_sqrt hF0.le
  obtain ⟨r, hr, hr2⟩ : ∃ r : ℝ, 0 < r ∧ r ^ 2 = 1 - z ^ 2 := by
    have : 0 < 1 - z ^ 2 := by nlinarith [sq_nonneg sml]
    exact ⟨_, Real.sqrt_pos.mpr this, Real.sq_sqrt this.le⟩
  have hpol := rl_polar (big := big) (sml := sml) hr (by linarith)
  have hA : |negOne big * Real.sqrt (1 - |z|)| = Real.sqrt (1 - |z|) := by
    rw [abs_mul, negOne_abs, one_mul, abs_of_pos hF]
  have hA2 : (negOne big * Real.sqrt (1 - |z|)) ^ 2 = 1 - |z| := by
    rw [mul_pow, pow_two (negOne big), negOne_sq, one_mul, hF2]
  have hrad : Real.sqrt (1 - |z|) * Real.sqrt (2 - (1 - |z|)) = r := by
    rw [← Real.sqrt_mul hF0.le, show (1 - |z|) * (2 - (1 - |z|)) = 1 - |z| ^ 2 by ring, sq_abs, ← hr2,
      Real.sqrt_sq hr.le]
  have harg : Real.pi / 4 * (|negOne big * Real.sqrt (1 - |z|) * (4 / Real.pi * rlAngle big sml)| /
      |negOne big * Real.sqrt (1 - |z|)|) = |rlAngle big sml| := by
    rw [abs_mul, hA, mul_div_assoc, mul_comm (Real.sqrt _), div_mul_cancel₀ _ hF.ne', abs_mul,
      abs_of_pos (by positivity : (0:ℝ) < 4 / Real.pi)]
    field_simp
  simp only [invCore, harg]
  simp only [hA, hA2, hrad]
  rw [Real.cos_abs, hpol.1]
  constructor
  · rw [mul_div_cancel₀ _ hr.ne', abs_abs]
  · have : abs (Real.sin (abs (rlAngle big sml))) = abs (Real.sin (rlAngle big sml)) := by
      rcases abs_cases (rlAngle big sml) with h | h <;> rw [h.1]
      rw [Real.sin_neg, abs_neg]
    rw [abs_mul, this, hpol.2, abs_of_pos hr, abs_div, abs_mul, negOne_abs, abs_of_pos hr, mul_one,
      mul_div_cancel₀ _ hr.ne']

theorem copysign_signed {a b s : ℝ} (h : |a| = |b|) (hs : (s < 0 ↔ b < 0) ∨ b = 0) : copysign a s = b := by
  unfold copysign
  rw [h]
  rcases hs with hs | hs
  · by_cases hb : b < 0
    · rw [if_pos (hs.mpr hb), abs_of_neg hb]; ring
    · rw [if_neg (fun h => hb (hs.mp h)), abs_of_nonneg (not_lt.mp hb)]
  · subst hs; simp

/-- sign of the large and of the small output component -/
theorem sign_large {big F : ℝ} (hF : 0 < F) : negOne big * F < 0 ↔ big < 0 := by
  unfold negOne
  split
  · rename_i h; constructor <;> intro <;> [exact h; linarith]
  · rename_i h; constructor <;> intro <;> linarith

theorem sign_small {big sml F : ℝ} (hF : 0 < F) (h0 : big ≠ 0) (hb : |sml| ≤ |big|) :
    negOne big * F * (4 / Real.pi * rlAngle big sml) < 0 ↔ sml < 0 := by
  have hpi := Real.pi_pos
  have hr : 0 < Real.sqrt (big ^ 2 + sml ^ 2) :=
    Real.sqrt_pos.mpr (by have := sq_pos_of_ne_zero h0; positivity)
  have hs := (rl_polar (big := big) (sml := sml) hr (by rw [Real.sq_sqrt (by positivity)])).2
  have hrg := abs_le.mp (rl_range hb h0).1
  have key : 0 < Real.sin (rlAngle big sml) ↔ 0 < rlAngle big sml := by
    constructor
    · intro h
      by_contra hc
      have := Real.sin_nonpos_of_nonpos_of_neg_pi_le (not_lt.mp hc) (by linarith)
      linarith
    · intro h; exact Real.sin_pos_of_pos_of_lt_pi h (by linarith)
  have key2 : Real.sin (rlAngle big sml) < 0 ↔ rlAngle big sml < 0 := by
    constructor
    · intro h
      by_contra hc
      have := Real.sin_nonneg_of_nonneg_of_le_pi (not_lt.mp hc) (by linarith)
      linarith
    · intro h; exact Real.sin_neg_of_neg_of_neg_pi_lt h (by linarith)
  have hf : 0 < F * (4 / Real.pi) := by positivity
  unfold negOne at *
  by_cases hbn : big < 0
  · simp only [if_pos hbn] at *
    have e : -1 * F * (4 / Real.pi * rlAngle big sml) = -(F * (4 / Real.pi) * rlAngle big sml) := by ring
    rw [e, neg_lt_zero, mul_pos_iff_of_pos_left hf, ← key, hs, div_pos_iff_of_pos_right hr]
    constructor <;> intro <;> linarith
  · simp only [if_neg hbn] at *
    have e : 1 * F * (4 / Real.pi * rlAngle big sml) = (F * (4 / Real.pi) * rlAngle big sml) := by ring
    have hm : F * (4 / Real.pi) * rlAngle big sml < 0 ↔ rlAngle big sml < 0 := by
      constructor
      · intro h; by_contra hc; have := mul_nonneg hf.le (not_lt.mp hc); linarith
      · intro h; exact mul_neg_of_pos_of_neg hf h
    rw [e, hm, ← key2, hs, mul_one]
    constructor
    · intro h; by_contra hc; have := div_nonneg (not_lt.mp hc) hr.le; linarith
    · intro h; exact div_neg_of_neg_of_pos h hr

theorem strict_small {big sml F : ℝ} (hF : 0 < F) (h0 : big ≠ 0) (hb : |sml| < |big|) :
    |negOne big * F * (4 / Real.pi * rlAngle big sml)| < |negOne big * F| := by
  have hpi := Real.pi_pos
  rw [abs_mul, abs_mul (4 / Real.pi)]
  have h1 := (rl_range hb.le h0).2 hb
  have : |4 / Real.pi| * |rlAngle big sml| < 1 := by
    rw [abs_of_pos (by positivity)]
    calc 4 / Real.pi * |rlAngle big sml| < 4 / Real.pi * (Real.pi / 4) := by gcongr
      _ = 1 := by field_simp
  have hA : 0 < |negOne big * F| := by rw [abs_mul, negOne_abs, one_mul, abs_of_pos hF]; exact hF
  calc _ < |negOne big * F| * 1 := by gcongr
    _ = _ := mul_one _

theorem small_le {big sml F : ℝ} (h0 : big ≠ 0) (hb : |sml| ≤ |big|) :
    |negOne big * F * (4 / Real.pi * rlAngle big sml)| ≤ |negOne big * F| := by
  have hpi := Real.pi_pos
  rw [abs_mul, abs_mul (4 / Real.pi)]
  have h1 := (rl_range hb h0).1
  have : |4 / Real.pi| * |rlAngle big sml| ≤ 1 := by
    rw [abs_of_pos (by positivity)]
    calc 4 / Real.pi * |rlAngle big sml| ≤ 4 / Real.pi * (Real.pi / 4) := by gcongr
      _ = 1 := by field_simp
  calc _ ≤ |negOne big * F| * 1 := by gcongr
    _ = _ := mul_one _

/-- C20: `inv_rosca_lambert ∘ rosca_lambert` reflects every unit vector that is not a pole into the upper
hemisphere. -/
theorem C20_roundtrip_reflect (v : V) (h : IsUnit3 v) (hp : v.x ≠ 0 ∨ v.y ≠ 0) :
    invRoscaLambert (roscaLambert v) = some ⟨v.x, v.y, |v.z|⟩ := by
  obtain ⟨x, y, z⟩ := v
  unfold IsUnit3 at h
  simp only at h hp ⊢
  have hxy : 0 < x ^ 2 + y ^ 2 := by
    rcases hp with hp | hp
    · have := sq_pos_of_ne_zero hp; positivity
    · have := sq_pos_of_ne_zero hp; positivity
  have hz1 : |z| < 1 := by rw [← sq_lt_one_iff_abs_lt_one]; linarith
  have hF0 : 0 < max (1 - |z|) 0 := lt_max_of_lt_left (by linarith)
  have hF := Real.sqrt_pos.mpr hF0
  have hF2 : Real.sqrt (max (1 - |z|) 0) ^ 2 = 1 - |z| := by
    rw [Real.sq_sqrt hF0.le, max_eq_left (by linarith)]
  have hsq : ∀ b : ℝ, 1 - (negOne b * Real.sqrt (max (1 - |z|) 0)) ^ 2 = |z| := by
    intro b; rw [mul_pow, pow_two (negOne b), negOne_sq, one_mul, hF2]; ring
  have hne : ∀ b : ℝ, negOne b * Real.sqrt (max (1 - |z|) 0) ≠ 0 := by
    intro b
    apply mul_ne_zero _ hF.ne'
    unfold negOne; split <;> norm_num
  rw [rosca_eq]
  simp only
  by_cases hc : |y| ≤ |x|
  · have hx0 : x ≠ 0 := by
      rintro rfl
      have : y = 0 := by simpa using hc
      subst this; simp at hxy
    rw [if_pos hc, inv_eq _ _ (Or.inl (hne x)), if_pos (small_le hx0 hc), hsq]
    obtain ⟨m1, m2⟩ := invCore_rosca (big := x) (sml := y) (z := z) (by linarith) hc hx0
    rw [copysign_signed m1 (Or.inl (sign_large hF)), copysign_signed m2 (Or.inl (sign_small hF hx0 hc))]
  · have hc' : |x| < |y| := not_le.mp hc
    have hy0 : y ≠ 0 := by
      rintro rfl; simp at hc
    rw [if_neg hc, inv_eq _ _ (Or.inr (hne y)), if_neg (not_le.mpr (strict_small hF hy0 hc')), hsq]
    obtain ⟨m1, m2⟩ := invCore_rosca (big := y) (sml := x) (z := z) (by linarith) hc'.le hy0
    rw [copysign_signed m1 (Or.inl (sign_large hF)), copysign_signed m2 (Or.inl (sign_small hF hy0 hc'.le))]

/-- C20: on the upper hemisphere without the pole the projection is inverted exactly. -/
theorem C20_roundtrip (v : V) (h : IsUnit3 v) (hz : 0 ≤ v.z) (hz1 : v.z ≠ 1) :
    invRoscaLambert (roscaLambert v) = some v := by
  have hp : v.x ≠ 0 ∨ v.y ≠ 0 := by
    by_contra hc
    push Not at hc
    unfold IsUnit3 at h
    rw [hc.1, hc.2] at h
    have : (v.z - 1) * (v.z + 1) = 0 := by linarith
    rcases mul_eq_zero.mp this with h | h
    · exact hz1 (by linarith)
    · linarith
  rw [C20_roundtrip_reflect v h hp, abs_of_nonneg hz]

/-- C20: at the pole itself the round trip yields a NaN row (the `0/0` of the inverse). -/
theorem C20_pole : invRoscaLambert (roscaLambert ⟨0, 0, 1⟩) = none := by
  have : roscaLambert ⟨0, 0, 1⟩ = (0, 0) := by rw [rosca_eq]; simp
  rw [this]
  simp [invRoscaLambert]

example : IsUnit3 ⟨-2/3, 1/3, 2/3⟩ ∧ (0:ℝ) ≤ 2/3 ∧ (2/3 : ℝ) ≠ 1 := by norm_num [IsUnit3]

/-! ### C21 -/

/-- C21: points with `z ≥ 0` go to the left half `[-1,0] × [-1,1]`, points with `z < 0` of the sphere to
the *open* right half `(0,1) × [-1,1]`, so no two points of different hemispheres share an image. -/
theorem C21_halves (v : V) (h : IsUnit3 v) :
    (|(roscaLambertSideBySide v).2| ≤ 1) ∧
    (0 ≤ v.z → -1 ≤ (roscaLambertSideBySide v).1 ∧ (roscaLambertSideBySide v).1 ≤ 0) ∧
    (v.z < 0 → 0 < (roscaLambertSideBySide v).1 ∧ (roscaLambertSideBySide v).1 < 1) := by
  have hr := C20_range v
  have hb := rosca_bounds v
  unfold roscaLambertSideBySide
  simp only
  refine ⟨hr.2, fun hz => ?_, fun hz => ?_⟩
  · rw [if_neg (by linarith)]
    have := abs_le.mp hr.1
    constructor <;> linarith
  · rw [if_pos hz]
    have hz1 := unit3_z h
    have : Real.sqrt (max (1 - |v.z|) 0) < 1 := by
      rw [Real.sqrt_lt' one_pos, max_lt_iff]
      have : 0 < |v.z| := abs_pos.mpr hz.ne
      constructor <;> linarith
    have := abs_lt.mp (lt_of_le_of_lt hb.1 this)
    constructor <;> linarith

/-- C21: the side-by-side map is injective on the unit sphere minus the poles. -/
theorem C21_injective (u v : V) (hu : IsUnit3 u) (hv : IsUnit3 v) (hpu : u.x ≠ 0 ∨ u.y ≠ 0)
    (hpv : v.x ≠ 0 ∨ v.y ≠ 0) (h : roscaLambertSideBySide u = roscaLambertSideBySide v) : u = v := by
  have h1 := C21_halves u hu
  have h2 := C21_halves v hv
  have hz : u.z < 0 ↔ v.z < 0 := by
    constructor
    · intro hc
      by_contra hn
      have a := (h1.2.2 hc).1
      have b := (h2.2.1 (not_lt.mp hn)).2
      rw [h] at a; linarith
    · intro hc
      by_contra hn
      have a := (h2.2.2 hc).1
      have b := (h1.2.1 (not_lt.mp hn)).2
      rw [← h] at a; linarith
  have he : roscaLambert u = roscaLambert v := by
    unfold roscaLambertSideBySide at h
    simp only [Prod.mk.injEq] at h
    have hif : (if u.z < 0 then (1:ℝ) else 0) = if v.z < 0 then 1 else 0 := by simp only [hz]
    rw [hif] at h
    exact Prod.ext (by linarith [h.1]) h.2
  have r1 := C20_roundtrip_reflect u hu hpu
  have r2 := C20_roundtrip_reflect v hv hpv
  rw [he, r2] at r1
  simp only [Option.some.injEq, V.mk.injEq] at r1
  have hzz : u.z = v.z := by
    by_cases hc : u.z < 0
    · have := hz.mp hc
      rw [abs_of_neg hc, abs_of_neg this] at r1; linarith [r1.2.2]
    · have hn : ¬ v.z < 0 := fun h => hc (hz.mpr h)
      rw [abs_of_nonneg (not_lt.mp hc), abs_of_nonneg (not_lt.mp hn)] at r1; exact r1.2.2.symm
  ext
  · exact r1.1.symm
  · exact r1.2.1.symm
  · exact hzz

example : IsUnit3 ⟨-2/3, 1/3, -2/3⟩ ∧ (-2/3 : ℝ) < 0 := by norm_num [IsUnit3]

/-! ### C22 -/

/-- C22: `theta_phi_to_xyz` always returns a unit vector. -/
theorem C22_unit (theta phi : ℝ) : IsUnit3 (thetaPhiToXyz theta phi) := by
  have h1 := Real.sin_sq_add_cos_sq theta
  have h2 := Real.sin_sq_add_cos_sq phi
  simp only [IsUnit3, thetaPhiToXyz]
  linear_combination Real.sin phi ^ 2 * h1 + h2

/-- C22, partial: on the principal domain `xyz_to_theta_phi` recovers both angles, but in the opposite
order: the first column is the second argument of `theta_phi_to_xyz`.  Missing: the round trip proper,
which is false (`C22_order_fails`). -/
theorem C22_roundtrip_partial (theta phi : ℝ) (h1 : -Real.pi < theta) (h2 : theta ≤ Real.pi)
    (h3 : 0 < phi) (h4 : phi < Real.pi) :
    xyzToThetaPhi (thetaPhiToXyz theta phi) = (phi, theta) := by
  have hs : 0 < Real.sin phi := Real.sin_pos_of_pos_of_lt_pi h3 h4
  unfold xyzToThetaPhi thetaPhiToXyz
  simp only
  have e : (Real.cos theta * Real.sin phi) ^ 2 + (Real.sin theta * Real.sin phi) ^ 2 = Real.sin phi ^ 2 := by
    have := Real.sin_sq_add_cos_sq theta
    linear_combination Real.sin phi ^ 2 * this
  rw [e, Real.sqrt_sq hs.le]
  have a := atan2_of_polar (r := 1) one_pos (t := phi) (by linarith) h4.le
  have b := atan2_of_polar (r := Real.sin phi) hs h1 h2
  rw [one_mul, one_mul] at a
  rw [mul_comm (Real.sin theta), mul_comm (Real.cos theta), a, b]

/-- C22 is false as a round trip: the columns come back swapped. -/
theorem C22_order_fails : ∃ theta phi : ℝ, 0 < theta ∧ theta < Real.pi ∧ 0 < phi ∧ phi < Real.pi ∧
    xyzToThetaPhi (thetaPhiToXyz theta phi) ≠ (theta, phi) := by
  have hpi := Real.pi_pos
  refine ⟨Real.pi / 2, Real.pi / 3, by linarith, by linarith, by linarith, by linarith, ?_⟩
  rw [C22_roundtrip_partial _ _ (by linarith) (by linarith) (by linarith) (by linarith)]
  intro h
  have := congrArg Prod.fst h
  simp only at this
  linarith

/-- C22: conversely the angles of any unit vector describe it, once the two columns are swapped. -/
theorem C22_recover (v : V) (h : IsUnit3 v) :
    thetaPhiToXyz (xyzToThetaPhi v).2 (xyzToThetaPhi v).1 = v := by
  unfold IsUnit3 at h
  unfold xyzToThetaPhi thetaPhiToXyz
  simp only
  have hn : v.z ^ 2 + (Real.sqrt (v.x ^ 2 + v.y ^ 2)) ^ 2 = 1 ^ 2 := by
    rw [Real.sq_sqrt (by positivity)]; linarith
  rw [atan2_cos one_pos hn, atan2_sin one_pos hn]
  rcases (show (0:ℝ) ≤ v.x ^ 2 + v.y ^ 2 by positivity).lt_or_eq with hp | hp
  · have hr := Real.sqrt_pos.mpr hp
    have hr2 := Real.sq_sqrt hp.le
    rw [atan2_cos hr hr2.symm, atan2_sin hr hr2.symm]
    ext <;> simp only <;> field_simp
  · have hx : v.x = 0 := by nlinarith [sq_nonneg v.x, sq_nonneg v.y]
    have hy : v.y = 0 := by nlinarith [sq_nonneg v.x, sq_nonneg v.y]
    rw [← hp]
    ext <;> simp [hx, hy]

example : -Real.pi < (-1:ℝ) ∧ (-1:ℝ) ≤ Real.pi ∧ (0:ℝ) < 1 ∧ (1:ℝ) < Real.pi := by
  have := Real.two_le_pi
  refine ⟨by linarith, by linarith, by norm_num, by linarith⟩

end Verif
