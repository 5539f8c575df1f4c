import Verif.Props.Rounded
/-! C139: rotating points in floating-point arithmetic. -/
open Quaternion
namespace Verif
open Spec

theorem err_self {u : ℝ} (hu : 0 ≤ u) (x : ℝ) : |x - x * 1| ≤ u * |x * 1| := by
  rw [mul_one, sub_self, abs_zero]; positivity

theorem comp_le_norm (h : ℍ[ℝ]) : |h.imI| ≤ ‖h‖ ∧ |h.imJ| ≤ ‖h‖ ∧ |h.imK| ≤ ‖h‖ ∧ |h.re| ≤ ‖h‖ := by
  have e : ‖h‖ ^ 2 = h.re ^ 2 + h.imI ^ 2 + h.imJ ^ 2 + h.imK ^ 2 := by
    rw [pow_two, ← Quaternion.normSq_eq_norm_mul_self, Quaternion.normSq_def']
  have h1 := sq_nonneg h.re
  have h2 := sq_nonneg h.imI
  have h3 := sq_nonneg h.imJ
  have h4 := sq_nonneg h.imK
  have hn := norm_nonneg h
  refine ⟨?_, ?_, ?_, ?_⟩ <;> (apply abs_le_of_sq_le_sq _ hn; rw [e]; linarith)

theorem one_add_vec (p : V) : (1 : ℍ[ℝ]) + vecH p = toH ⟨1, p.x, p.y, p.z⟩ := by
  ext
  · rw [Quaternion.re_add, Quaternion.re_one]; simp [toH, vecH]
  · rw [Quaternion.imI_add, Quaternion.imI_one]; simp [toH, vecH]
  · rw [Quaternion.imJ_add, Quaternion.imJ_one]; simp [toH, vecH]
  · rw [Quaternion.imK_add, Quaternion.imK_one]; simp [toH, vecH]

/-- the four intermediate values of `qu_apply` as a quaternion -/
def midQ (fl : ℝ → ℝ) (q : Q) (p : V) : Q :=
  ⟨rSum4 fl q.w (-fl (q.x * p.x)) (-fl (q.y * p.y)) (-fl (q.z * p.z)),
   rSum4 fl (fl (q.w * p.x)) q.x (fl (q.y * p.z)) (-fl (q.z * p.y)),
   rSum4 fl (fl (q.w * p.y)) (-fl (q.x * p.z)) q.y (fl (q.z * p.x)),
   rSum4 fl (fl (q.w * p.z)) (fl (q.x * p.y)) (-fl (q.y * p.x)) q.z⟩

theorem mid_err {u : ℝ} {fl : ℝ → ℝ} (hu : 0 ≤ u) (h : Err u fl) (q : Q) (p : V) :
    ‖toH (midQ fl q p) - toH q * (1 + vecH p)‖ ≤ 2 * ((1 + u) ^ 4 - 1) * (‖toH q‖ * ‖1 + vecH p‖) := by
  have hg : 0 ≤ (1 + u) ^ 4 - 1 := by
    have : 1 ≤ (1 + u) ^ 4 := one_le_pow₀ (by linarith)
    linarith
  have eB : (1 : ℍ[ℝ]) + vecH p = toH ⟨1, p.x, p.y, p.z⟩ := one_add_vec p
  rw [eB, mul_assoc]
  have hA := (norm_toH q).symm
  have hB := norm_toH ⟨1, p.x, p.y, p.z⟩
  dsimp only at hB
  apply norm_le_of_comp (by positivity)
  · have := comp_err hu h (err_self hu q.w) (neg_prod h q.x p.x) (neg_prod h q.y p.y) (neg_prod h q.z p.z) hA
      (B := ‖toH ⟨1, p.x, p.y, p.z⟩‖) (by rw [hB]; congr 1; ring)
    rw [Quaternion.re_sub, show (toH q * toH ⟨1, p.x, p.y, p.z⟩).re = q.w * 1 + q.x * -p.x + q.y * -p.y + q.z * -p.z by
      rw [Quaternion.re_mul]; simp only [toH]; ring]
    exact this
  · have := comp_err hu h (h (q.w * p.x)) (err_self hu q.x) (h (q.y * p.z)) (neg_prod h q.z p.y) hA
      (B := ‖toH ⟨1, p.x, p.y, p.z⟩‖) (by rw [hB]; congr 1; ring)
    rw [Quaternion.imI_sub, show (toH q * toH ⟨1, p.x, p.y, p.z⟩).imI = q.w * p.x + q.x * 1 + q.y * p.z + q.z * -p.y by
      rw [Quaternion.imI_mul]; simp only [toH]; ring]
    exact this
  · have := comp_err hu h (h (q.w * p.y)) (neg_prod h q.x p.z) (err_self hu q.y) (h (q.z * p.x)) hA
      (B := ‖toH ⟨1, p.x, p.y, p.z⟩‖) (by rw [hB]; congr 1; ring)
    rw [Quaternion.imJ_sub, show (toH q * toH ⟨1, p.x, p.y, p.z⟩).imJ = q.w * p.y + q.x * -p.z + q.y * 1 + q.z * p.x by
      rw [Quaternion.imJ_mul]; simp only [toH]; ring]
    exact this
  · have := comp_err hu h (h (q.w * p.z)) (h (q.x * p.y)) (neg_prod h q.y p.x) (err_self hu q.z) hA
      (B := ‖toH ⟨1, p.x, p.y, p.z⟩‖) (by rw [hB]; congr 1; ring)
    rw [Quaternion.imK_sub, show (toH q * toH ⟨1, p.x, p.y, p.z⟩).imK = q.w * p.z + q.x * p.y + q.y * -p.x + q.z * 1 by
      rw [Quaternion.imK_mul]; simp only [toH]; ring]
    exact this

/-- C139: `qu_apply` in floating-point arithmetic (any precision `p ≥ 8`, any nearest rounding): every coordinate is that of the rotated
point `q v q*` up to `13 * 2^-p |q|² √(1 + |v|²)`. -/
theorem C139_apply {p : ℕ} (hp : 8 ≤ p) {fl : ℝ → ℝ} (hfl : Nearest p fl) (q : Q) (v : V) :
    let r := rApply fl q v
    let e := toH q * vecH v * star (toH q)
    let B := 13 * (2 ^ p)⁻¹ * (‖toH q‖ ^ 2 * √(1 + ‖vecH v‖ ^ 2))
    |r.x - e.imI| ≤ B ∧ |r.y - e.imJ| ≤ B ∧ |r.z - e.imK| ≤ B := by
  intro r e B
  have hE : Err (2 ^ p)⁻¹ fl := hfl.err (by omega)
  have hu : (0 : ℝ) ≤ (2 ^ p)⁻¹ := by positivity
  have hs := small_u hp
  simp only [B]
  generalize ((2 : ℝ) ^ p)⁻¹ = u at hE hu hs ⊢
  have hmid := mid_err hu hE q v
  have hN : ‖1 + vecH v‖ = √(1 + ‖vecH v‖ ^ 2) := by
    have h1 : ‖vecH v‖ ^ 2 = v.x ^ 2 + v.y ^ 2 + v.z ^ 2 := by
      rw [pow_two, ← Quaternion.normSq_eq_norm_mul_self, Quaternion.normSq_def']
      simp [vecH]
    rw [one_add_vec, norm_toH, h1]
    congr 1; ring
  rw [hN] at hmid
  have hM : 0 ≤ √(1 + ‖vecH v‖ ^ 2) := Real.sqrt_nonneg _
  generalize √(1 + ‖vecH v‖ ^ 2) = M at hmid hM hN ⊢
  have hg := gamma_le hu hs
  have hg0 : 0 ≤ (1 + u) ^ 4 - 1 := by
    have : 1 ≤ (1 + u) ^ 4 := one_le_pow₀ (by linarith)
    linarith
  have hr : r = ⟨rSum4 fl (fl (-(midQ fl q v).w * q.x)) (fl ((midQ fl q v).x * q.w)) (-fl ((midQ fl q v).y * q.z)) (fl ((midQ fl q v).z * q.y)),
      rSum4 fl (fl (-(midQ fl q v).w * q.y)) (fl ((midQ fl q v).x * q.z)) (fl ((midQ fl q v).y * q.w)) (-fl ((midQ fl q v).z * q.x)),
      rSum4 fl (fl (-(midQ fl q v).w * q.z)) (-fl ((midQ fl q v).x * q.y)) (fl ((midQ fl q v).y * q.x)) (fl ((midQ fl q v).z * q.w))⟩ := rfl
  generalize midQ fl q v = m at hmid hr
  -- the exact value: imaginary part of `q (1 + v) q*`
  have he : ∀ i : ℍ[ℝ], i = (toH q * (1 + vecH v)) * star (toH q) → i.imI = e.imI ∧ i.imJ = e.imJ ∧ i.imK = e.imK := by
    rintro i rfl
    have : (toH q * (1 + vecH v)) * star (toH q) = ((Quaternion.normSq (toH q) : ℝ) : ℍ[ℝ]) + e := by
      simp only [e]
      rw [mul_add, mul_one, add_mul, Quaternion.self_mul_star]
    rw [this]
    simp
  obtain ⟨eI, eJ, eK⟩ := he _ rfl
  have hdiff : ‖toH m * star (toH q) - toH q * (1 + vecH v) * star (toH q)‖ ≤ 8.06 * u * (‖toH q‖ ^ 2 * M) := by
    rw [← sub_mul, norm_mul, Quaternion.norm_star]
    have hq0 := norm_nonneg (toH q)
    have h1 := mul_le_mul_of_nonneg_right hmid hq0
    have hqm : 0 ≤ ‖toH q‖ * M := by positivity
    have h2 : 2 * ((1 + u) ^ 4 - 1) * (‖toH q‖ * M) ≤ 2 * (4.03 * u) * (‖toH q‖ * M) :=
      mul_le_mul_of_nonneg_right (by linarith) hqm
    have h3 := mul_le_mul_of_nonneg_right h2 hq0
    have : 8.06 * u * (‖toH q‖ ^ 2 * M) = 2 * (4.03 * u) * (‖toH q‖ * M) * ‖toH q‖ := by norm_num; ring
    linarith
  have hmn : ‖toH m‖ ≤ 1.04 * (‖toH q‖ * M) := by
    have h1 := norm_le_norm_add_norm_sub (toH q * (1 + vecH v)) (toH m)
    rw [norm_mul, hN, norm_sub_rev] at h1
    have h2 : 0 ≤ ‖toH q‖ * M := by positivity
    have h3 : 2 * ((1 + u) ^ 4 - 1) * (‖toH q‖ * M) ≤ 0.04 * (‖toH q‖ * M) := by
      apply mul_le_mul_of_nonneg_right _ h2
      norm_num at hg hs ⊢; linarith
    norm_num at h1 h3 ⊢
    linarith
  have fin : ∀ (c d E : ℝ), |c - d| ≤ ((1 + u) ^ 4 - 1) * (‖toH m‖ * ‖toH q‖) → |d - E| ≤ 8.06 * u * (‖toH q‖ ^ 2 * M) →
      |c - E| ≤ 13 * u * (‖toH q‖ ^ 2 * M) := by
    intro c d E h1 h2
    have h3 : ((1 + u) ^ 4 - 1) * (‖toH m‖ * ‖toH q‖) ≤ 4.03 * u * (1.04 * (‖toH q‖ * M) * ‖toH q‖) :=
      mul_le_mul hg (mul_le_mul_of_nonneg_right hmn (norm_nonneg _)) (by positivity) (by positivity)
    have h4 := abs_sub_le c d E
    have h5 : 0 ≤ u * (‖toH q‖ ^ 2 * M) := by positivity
    have e1 : 4.03 * u * (1.04 * (‖toH q‖ * M) * ‖toH q‖) = 4.1912 * (u * (‖toH q‖ ^ 2 * M)) := by norm_num; ring
    norm_num at h1 h2 h3 h4 h5 e1 ⊢
    linarith
  have hA := (norm_toH m).symm
  have hb := comp_le_norm (toH m * star (toH q) - toH q * (1 + vecH v) * star (toH q))
  rw [Quaternion.imI_sub, Quaternion.imJ_sub, Quaternion.imK_sub, eI, eJ, eK] at hb
  have np : ∀ a b : ℝ, |fl (-a * b) - a * -b| ≤ u * |a * -b| := by
    intro a b
    have := hE (-a * b)
    rwa [neg_mul, ← mul_neg] at this ⊢
  rw [hr]
  refine ⟨fin _ _ _ ?_ (hb.1.trans hdiff), fin _ _ _ ?_ (hb.2.1.trans hdiff), fin _ _ _ ?_ (hb.2.2.1.trans hdiff)⟩
  · have := comp_err hu hE (np m.w q.x) (hE (m.x * q.w)) (neg_prod hE m.y q.z) (hE (m.z * q.y)) hA
      (B := ‖toH q‖) (by rw [norm_toH]; congr 1; ring)
    rw [show (toH m * star (toH q)).imI = m.w * -q.x + m.x * q.w + m.y * -q.z + m.z * q.y by
      rw [Quaternion.imI_mul, Quaternion.re_star, Quaternion.imI_star, Quaternion.imJ_star, Quaternion.imK_star]; simp only [toH]; ring]
    exact this
  · have := comp_err hu hE (np m.w q.y) (hE (m.x * q.z)) (hE (m.y * q.w)) (neg_prod hE m.z q.x) hA
      (B := ‖toH q‖) (by rw [norm_toH]; congr 1; ring)
    rw [show (toH m * star (toH q)).imJ = m.w * -q.y + m.x * q.z + m.y * q.w + m.z * -q.x by
      rw [Quaternion.imJ_mul, Quaternion.re_star, Quaternion.imI_star, Quaternion.imJ_star, Quaternion.imK_star]; simp only [toH]; ring]
    exact this
  · have := comp_err hu hE (np m.w q.z) (neg_prod hE m.x q.y) (hE (m.y * q.x)) (hE (m.z * q.w)) hA
      (B := ‖toH q‖) (by rw [norm_toH]; congr 1; ring)
    rw [show (toH m * star (toH q)).imK = m.w * -q.z + m.x * -q.y + m.y * q.x + m.z * q.w by
      rw [Quaternion.imK_mul, Quaternion.re_star, Quaternion.imI_star, Quaternion.imJ_star, Quaternion.imK_star]; simp only [toH]; ring]
    exact this

/-- C139 (partial): for points at least as long as 1 the error is relative to the length of the point.  Missing: short points, see
`C139_short_fails`. -/
theorem C139_relative_partial {p : ℕ} (hp : 8 ≤ p) {fl : ℝ → ℝ} (hfl : Nearest p fl) (q : Q) (v : V) (hv : 1 ≤ ‖vecH v‖) :
    let r := rApply fl q v
    let e := toH q * vecH v * star (toH q)
    let B := 19 * (2 ^ p)⁻¹ * (‖toH q‖ ^ 2 * ‖vecH v‖)
    |r.x - e.imI| ≤ B ∧ |r.y - e.imJ| ≤ B ∧ |r.z - e.imK| ≤ B := by
  have h := C139_apply hp hfl q v
  have hle : 13 * (2 ^ p)⁻¹ * (‖toH q‖ ^ 2 * √(1 + ‖vecH v‖ ^ 2)) ≤ 19 * (2 ^ p)⁻¹ * (‖toH q‖ ^ 2 * ‖vecH v‖) := by
    have h1 : √(1 + ‖vecH v‖ ^ 2) ≤ 19 / 13 * ‖vecH v‖ := by
      apply Real.sqrt_le_iff.mpr ⟨by positivity, ?_⟩
      nlinarith
    have h2 : 13 * (2 ^ p)⁻¹ * (‖toH q‖ ^ 2 * √(1 + ‖vecH v‖ ^ 2)) ≤ 13 * (2 ^ p)⁻¹ * (‖toH q‖ ^ 2 * (19 / 13 * ‖vecH v‖)) := by gcongr
    linarith
  exact ⟨h.1.trans hle, h.2.1.trans hle, h.2.2.trans hle⟩

theorem absorb {p : ℕ} {fl : ℝ → ℝ} (hfl : Nearest p fl) {t : ℝ} (ht : |t| < (2 : ℝ) ^ (-(p : ℤ) - 2)) (hp : 2 ≤ p) : fl (1 / 2 + t) = 1 / 2 := by
  have hrep : Rep p (1 / 2 : ℝ) := ⟨1, -1, by
    have : (2 : ℤ) ^ 1 ≤ 2 ^ p := pow_le_pow_right₀ (by norm_num) (by omega)
    rw [abs_one]; linarith, by norm_num⟩
  have hn := hfl.near (1 / 2 + t) _ hrep
  have e : |(1 / 2 : ℝ) - (1 / 2 + t)| = |t| := by rw [show (1 / 2 : ℝ) - (1 / 2 + t) = -t by ring, abs_neg]
  rw [e] at hn
  have hd : |fl (1 / 2 + t) - 1 / 2| < (2 : ℝ) ^ (-(p : ℤ) - 1) := by
    have h1 := abs_sub_le (fl (1 / 2 + t)) (1 / 2 + t) (1 / 2)
    rw [show (1 / 2 + t - 1 / 2 : ℝ) = t by ring] at h1
    have : (2 : ℝ) ^ (-(p : ℤ) - 1) = 2 * 2 ^ (-(p : ℤ) - 2) := by
      rw [show (-(p : ℤ) - 1) = 1 + (-(p : ℤ) - 2) by ring, zpow_add₀ (by norm_num), zpow_one]
    linarith
  have hsm : (2 : ℝ) ^ (-(p : ℤ) - 1) ≤ 1 / 4 := by
    calc (2 : ℝ) ^ (-(p : ℤ) - 1) ≤ 2 ^ (-2 : ℤ) := zpow_le_zpow_right₀ (by norm_num) (by omega)
      _ = 1 / 4 := by norm_num
  obtain ⟨n, hn'⟩ := multiple_of_large (k := -(p : ℤ) - 1) (hfl.rep (1 / 2 + t)) (by
    rw [show (2 : ℝ) ^ (-(p : ℤ) - 1 - 1) * 2 ^ p = 1 / 4 by
      rw [← zpow_natCast, ← zpow_add₀ (by norm_num), show (-(p : ℤ) - 1 - 1 + p) = -2 by ring]; norm_num]
    have := (abs_lt.mp hd).1
    rw [abs_of_pos (by linarith)]
    linarith)
  have hp0 : (0 : ℝ) < 2 ^ (-(p : ℤ) - 1) := zpow_pos (by norm_num) _
  have e2 : (1 / 2 : ℝ) = ((2 ^ p : ℤ) : ℝ) * 2 ^ (-(p : ℤ) - 1) := by
    push_cast
    rw [← zpow_natCast, ← zpow_add₀ (by norm_num), show ((p : ℤ) + (-(p : ℤ) - 1)) = -1 by ring]; norm_num
  rw [hn', e2, ← sub_mul, abs_mul, abs_of_pos hp0] at hd
  have h6 : |(n : ℝ) - ((2 ^ p : ℤ) : ℝ)| < 1 := by
    by_contra hc
    push Not at hc
    nlinarith
  have h7 : |n - 2 ^ p| < 1 := by exact_mod_cast h6
  have : n = 2 ^ p := by rw [Int.abs_lt_one_iff] at h7; omega
  rw [hn', e2, this]

/-- C139 fails for short points: the exact unit quaternion of a rotation by 120 degrees takes every point with coordinates below
`2^-(p+3)` (single precision: 7e-9) to the origin, whatever the nearest rounding. -/
theorem C139_short_fails {p : ℕ} (hp : 8 ≤ p) {fl : ℝ → ℝ} (hfl : Nearest p fl) (v : V) (hx : |v.x| ≤ (2 : ℝ) ^ (-(p : ℤ) - 3))
    (hy : |v.y| ≤ (2 : ℝ) ^ (-(p : ℤ) - 3)) (hz : |v.z| ≤ (2 : ℝ) ^ (-(p : ℤ) - 3)) :
    ‖toH ⟨1 / 2, 1 / 2, 1 / 2, 1 / 2⟩‖ = 1 ∧ rApply fl ⟨1 / 2, 1 / 2, 1 / 2, 1 / 2⟩ v = ⟨0, 0, 0⟩ := by
  refine ⟨by rw [norm_toH]; norm_num, ?_⟩
  have hE : Err (2 ^ p)⁻¹ fl := hfl.err (by omega)
  have hs := small_u hp
  have hd0 : (0 : ℝ) < 2 ^ (-(p : ℤ) - 3) := zpow_pos (by norm_num) _
  have hd2 : (2 : ℝ) ^ (-(p : ℤ) - 2) = 2 * 2 ^ (-(p : ℤ) - 3) := by
    rw [show (-(p : ℤ) - 2) = 1 + (-(p : ℤ) - 3) by ring, zpow_add₀ (by norm_num), zpow_one]
  have ab : ∀ t : ℝ, |t| < 2 * 2 ^ (-(p : ℤ) - 3) → fl (1 / 2 + t) = 1 / 2 := fun t ht => absorb hfl (by rw [hd2]; exact ht) (by omega)
  generalize (2 : ℝ) ^ (-(p : ℤ) - 3) = d at *
  have gr : ∀ x : ℝ, |fl x| ≤ 1.01 * |x| := by
    intro x
    have h1 := hE.grow x
    have h2 : (1 + (2 ^ p)⁻¹) * |x| ≤ 1.01 * |x| := by
      apply mul_le_mul_of_nonneg_right _ (abs_nonneg x)
      norm_num at hs ⊢; linarith
    linarith
  have half : ∀ x : ℝ, |x| ≤ d → |fl (1 / 2 * x)| ≤ 0.51 * d := by
    intro x hx
    have := gr (1 / 2 * x)
    rw [abs_mul, abs_of_pos (by norm_num : (0 : ℝ) < 1 / 2)] at this
    norm_num at this ⊢; linarith
  have ab' : ∀ t : ℝ, |t| < 2 * d → fl (t + 1 / 2) = 1 / 2 := fun t ht => by rw [add_comm]; exact ab t ht
  have h1 := half v.x hx
  have h2 := half v.y hy
  have h3 := half v.z hz
  have two : ∀ s t : ℝ, |s| ≤ 0.51 * d → |t| ≤ 0.51 * d → |fl (s + t)| ≤ 1.04 * d := by
    intro s t hs ht
    have := gr (s + t)
    have := abs_add_le s t
    norm_num at *; linarith
  have mid : midQ fl ⟨1 / 2, 1 / 2, 1 / 2, 1 / 2⟩ v = ⟨1 / 2, 1 / 2, 1 / 2, 1 / 2⟩ := by
    unfold midQ rSum4
    dsimp only
    generalize fl (1 / 2 * v.x) = a at *
    generalize fl (1 / 2 * v.y) = b at *
    generalize fl (1 / 2 * v.z) = c at *
    have n1 : |(-a)| ≤ 0.51 * d := by rwa [abs_neg]
    have n2 : |(-b)| ≤ 0.51 * d := by rwa [abs_neg]
    have n3 : |(-c)| ≤ 0.51 * d := by rwa [abs_neg]
    have lt : ∀ t : ℝ, |t| ≤ 0.51 * d → |t| < 2 * d := fun t h => by norm_num at h ⊢; linarith
    have lt2 : ∀ t : ℝ, |t| ≤ 1.04 * d → |t| < 2 * d := fun t h => by norm_num at h ⊢; linarith
    congr 1
    · rw [ab _ (lt _ n1), ab _ (lt _ n2), ab _ (lt _ n3)]
    · rw [ab' _ (lt _ h1), ab _ (lt _ h3), ab _ (lt _ n2)]
    · rw [ab' _ (lt2 _ (two _ _ h2 n3)), ab _ (lt _ h1)]
    · apply ab'
      have h4 := two _ _ h3 h2
      have h5 := gr (fl (c + b) + -a)
      have h6 := abs_add_le (fl (c + b)) (-a)
      norm_num at h4 h5 h6 n1 ⊢
      linarith
  have e : ∀ q : Q, rApply fl q v =
      ⟨rSum4 fl (fl (-(midQ fl q v).w * q.x)) (fl ((midQ fl q v).x * q.w)) (-fl ((midQ fl q v).y * q.z)) (fl ((midQ fl q v).z * q.y)),
      rSum4 fl (fl (-(midQ fl q v).w * q.y)) (fl ((midQ fl q v).x * q.z)) (fl ((midQ fl q v).y * q.w)) (-fl ((midQ fl q v).z * q.x)),
      rSum4 fl (fl (-(midQ fl q v).w * q.z)) (-fl ((midQ fl q v).x * q.y)) (fl ((midQ fl q v).y * q.x)) (fl ((midQ fl q v).z * q.w))⟩ :=
    fun _ => rfl
  rw [e, mid]
  have hr : ∀ k : ℤ, |k| ≤ 2 → fl (k * (2 : ℝ) ^ (-2 : ℤ)) = k / 4 := by
    intro k hk
    rw [hfl.of_rep ⟨k, -2, by
      have : (2 : ℤ) ^ 2 ≤ 2 ^ p := pow_le_pow_right₀ (by norm_num) (by omega)
      linarith, rfl⟩]
    norm_num; ring
  have q1 : fl (1 / 4) = 1 / 4 := by have := hr 1 (by norm_num); norm_num at this ⊢; exact this
  have q2 : fl (-(1 / 4)) = -(1 / 4) := by have := hr (-1) (by norm_num); norm_num at this ⊢; exact this
  have q3 : fl (-(1 / 2)) = -(1 / 2) := by have := hr (-2) (by norm_num); norm_num at this ⊢; exact this
  have q0 := hfl.zero
  have m1 : (1 / 2 * (1 / 2) : ℝ) = 1 / 4 := by norm_num
  have m2 : (-(1 / 2) * (1 / 2) : ℝ) = -(1 / 4) := by norm_num
  simp only [rSum4, m1, m2, q1, q2]
  have a1 : (-(1 / 4) + 1 / 4 : ℝ) = 0 := by norm_num
  have a2 : (0 + -(1 / 4) : ℝ) = -(1 / 4) := by norm_num
  have a3 : (0 + 1 / 4 : ℝ) = 1 / 4 := by norm_num
  have a4 : (1 / 4 + -(1 / 4) : ℝ) = 0 := by norm_num
  have a5 : (-(1 / 4) + -(1 / 4) : ℝ) = -(1 / 2) := by norm_num
  have a6 : (-(1 / 2) + 1 / 4 : ℝ) = -(1 / 4) := by norm_num
  simp only [a1, a2, a3, a4, a5, a6, q0, q1, q2, q3]

/-- single precision: the hypotheses are met by a rounding that exists, and by a point of length 7e-9 -/
example : Nearest 24 (rnd 24) ∧ rApply (rnd 24) ⟨1 / 2, 1 / 2, 1 / 2, 1 / 2⟩ ⟨(2 : ℝ) ^ (-27 : ℤ), 0, 0⟩ = ⟨0, 0, 0⟩ := by
  have h := rnd_nearest (p := 24) (by norm_num)
  refine ⟨h, (C139_short_fails (by norm_num) h _ ?_ ?_ ?_).2⟩ <;> norm_num

/-- while the exact image has the length of the point -/
example : 1 ≤ ‖vecH ⟨1, 2, 3⟩‖ := by
  have := (comp_le_norm (vecH ⟨1, 2, 3⟩)).1
  simpa [vecH] using this

end Verif
