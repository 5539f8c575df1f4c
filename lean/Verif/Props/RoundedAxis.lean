import Verif.Props.RoundedOrient
import Verif.Props.AxisAngle
import Mathlib.Analysis.SpecialFunctions.Trigonometric.Bounds
/-! C150: axis and angle through a quaternion in floating-point arithmetic. -/
open Quaternion
namespace Verif
open Spec

/-- cosines of two angles of the first quadrant: the angles differ by at most `π² / (2 α)` times the difference of the cosines -/
lemma cos_sep {α β : ℝ} (h0 : 0 < α) (h1 : α ≤ Real.pi / 2) (b0 : 0 ≤ β) (b1 : β ≤ Real.pi / 2) :
    2 * α * |α - β| ≤ Real.pi ^ 2 * |Real.cos α - Real.cos β| := by
  have hpi := Real.pi_pos
  have e : Real.cos α - Real.cos β = -2 * Real.sin ((α + β) / 2) * Real.sin ((α - β) / 2) := Real.cos_sub_cos α β
  have j1 : 2 / Real.pi * ((α + β) / 2) ≤ Real.sin ((α + β) / 2) := Real.mul_le_sin (by linarith) (by linarith)
  have j2 : 2 / Real.pi * (|α - β| / 2) ≤ |Real.sin ((α - β) / 2)| := by
    have h2 : |α - β| ≤ Real.pi / 2 := by rw [abs_le]; constructor <;> linarith
    have h3 := Real.mul_le_sin (x := |α - β| / 2) (by positivity) (by linarith)
    rcases abs_cases (α - β) with ⟨a, _⟩ | ⟨a, _⟩
    · rw [a] at h3 ⊢; exact h3.trans (le_abs_self _)
    · rw [a] at h3 ⊢
      rw [show -(α - β) / 2 = -((α - β) / 2) by ring, Real.sin_neg] at h3
      rw [show -(α - β) / 2 = -((α - β) / 2) by ring]
      exact h3.trans (neg_le_abs _)
  have s0 : 0 ≤ Real.sin ((α + β) / 2) := le_trans (by positivity) j1
  rw [e, abs_mul, abs_mul, abs_neg, abs_two, abs_of_nonneg s0]
  have j3 : 2 / Real.pi * (α / 2) ≤ Real.sin ((α + β) / 2) := le_trans (by gcongr; linarith) j1
  have j4 : (2 / Real.pi * (α / 2)) * (2 / Real.pi * (|α - β| / 2)) ≤ Real.sin ((α + β) / 2) * |Real.sin ((α - β) / 2)| := by
    gcongr
  have e2 : (2 / Real.pi * (α / 2)) * (2 / Real.pi * (|α - β| / 2)) = α * |α - β| / Real.pi ^ 2 := by field_simp
  rw [e2, div_le_iff₀ (by positivity)] at j4
  linarith

lemma sqrt_rel {V s u : ℝ} (hu : 0 ≤ u) (hs : u ≤ 1 / 2048) (hs0 : 0 < s) (h1 : (1 - 6.1 * u) * s ^ 2 ≤ V) (h2 : V ≤ (1 + 6.1 * u) * s ^ 2) :
    (1 - 3.2 * u) * s ≤ √V ∧ √V ≤ (1 + 3.2 * u) * s := by
  have hb : 0 ≤ 1 - 3.2 * u := by norm_num at *; linarith
  have hs2 : 0 < s ^ 2 := by positivity
  constructor
  · apply Real.le_sqrt_of_sq_le
    rw [mul_pow]
    refine le_trans ?_ h1
    gcongr
    nlinarith
  · rw [Real.sqrt_le_iff]
    refine ⟨by positivity, h2.trans ?_⟩
    rw [mul_pow]
    gcongr
    nlinarith

/-- the square of a number with relative error `u` -/
theorem sq_rel {u : ℝ} (hu : 0 ≤ u) (hs : u ≤ 1 / 2048) {a b s : ℝ} (hab : |a - b * s| ≤ u * |b * s|) :
    (1 - 2 * u) * (b ^ 2 * s ^ 2) ≤ a ^ 2 ∧ a ^ 2 ≤ (1 + 2.01 * u) * (b ^ 2 * s ^ 2) := by
  rw [← mul_pow]
  have hb := abs_nonneg (b * s)
  have l1 : (1 - u) * |b * s| ≤ |a| := by
    have := abs_sub_abs_le_abs_sub (b * s) a
    rw [abs_sub_comm] at this
    linarith
  have l2 : |a| ≤ (1 + u) * |b * s| := by
    have := abs_sub_abs_le_abs_sub a (b * s)
    linarith
  have q0 := sq_nonneg (b * s)
  have hu1 : 0 ≤ 1 - u := by linarith
  have m1 : ((1 - u) * |b * s|) ^ 2 ≤ |a| ^ 2 := by gcongr
  have m2 : |a| ^ 2 ≤ ((1 + u) * |b * s|) ^ 2 := by gcongr
  rw [mul_pow, sq_abs, sq_abs] at m1 m2
  constructor
  · refine le_trans ?_ m1
    gcongr
    nlinarith
  · refine m2.trans ?_
    gcongr
    nlinarith

/-- the squared length of a vector with relative component errors -/
theorem len_rel {u m s V : ℝ} (hu : 0 ≤ u) (hs : u ≤ 1 / 2048) (hs2 : 0 < s ^ 2) (hn : -(4 * u) ≤ m - 1 ∧ m - 1 ≤ 4 * u)
    (l : (1 - 2 * u) * m * s ^ 2 ≤ V) (r : V ≤ (1 + 2.01 * u) * m * s ^ 2) :
    (1 - 6.1 * u) * s ^ 2 ≤ V ∧ V ≤ (1 + 6.1 * u) * s ^ 2 := by
  constructor
  · have : (1 - 6.1 * u) * s ^ 2 ≤ ((1 - 2 * u) * (1 - 4 * u)) * s ^ 2 := by
      apply mul_le_mul_of_nonneg_right _ hs2.le
      nlinarith
    have h5 : ((1 - 2 * u) * (1 - 4 * u)) * s ^ 2 ≤ ((1 - 2 * u) * (m)) * s ^ 2 := by
      apply mul_le_mul_of_nonneg_right _ hs2.le
      apply mul_le_mul_of_nonneg_left <;> linarith
    linarith
  · have : ((1 + 2.01 * u) * (1 + 4 * u)) * s ^ 2 ≤ (1 + 6.1 * u) * s ^ 2 := by
      apply mul_le_mul_of_nonneg_right _ hs2.le
      nlinarith
    have h5 : ((1 + 2.01 * u) * (m)) * s ^ 2 ≤ ((1 + 2.01 * u) * (1 + 4 * u)) * s ^ 2 := by
      apply mul_le_mul_of_nonneg_right _ hs2.le
      apply mul_le_mul_of_nonneg_left
      · linarith
      · positivity
    linarith

set_option maxHeartbeats 1600000 in
/-- C150, partial: in binary floating-point arithmetic with `p ≥ 11` bits and correctly rounded elementary functions, the round trip of an axis (unit up to 4
units of rounding in the squared length) and a floating-point angle `0 < θ < π` through the quaternion returns the angle up to `20/θ + 7` units of rounding,
and, unless it returns the angle 0, every component of the axis up to 12 units of rounding.  Missing: small angles, see `C150_small_fails`. -/
theorem C150_roundtrip_partial {p : ℕ} (hp : 11 ≤ p) {fl : ℝ → ℝ} (hfl : Nearest p fl) (n : V) (θ : ℝ) (hn : |n.x ^ 2 + n.y ^ 2 + n.z ^ 2 - 1| ≤ 4 * (2 ^ p)⁻¹)
    (hθ : Rep p θ) (h0 : 0 < θ) (h1 : θ < Real.pi) :
    let r := rQu2ax fl (rAx2qu fl ⟨n, θ⟩)
    |r.ang - θ| ≤ (20 / θ + 7) * (2 ^ p)⁻¹ ∧
    (r.ang ≠ 0 → |r.n.x - n.x| ≤ 12 * (2 ^ p)⁻¹ ∧ |r.n.y - n.y| ≤ 12 * (2 ^ p)⁻¹ ∧ |r.n.z - n.z| ≤ 12 * (2 ^ p)⁻¹) := by
  intro r
  have hE : Err (2 ^ p)⁻¹ fl := hfl.err (by omega)
  have hu : (0 : ℝ) ≤ (2 ^ p)⁻¹ := by positivity
  have hs := small11 hp
  have hmono := hfl.mono
  have hz := hfl.zero
  have hone := hfl.one (by omega)
  have hidem : ∀ x, fl (fl x) = fl x := fun x => hfl.of_rep (hfl.rep x)
  have hhalf : fl (θ / 2) = θ / 2 := by
    apply hfl.of_rep
    obtain ⟨m, e, hm, rfl⟩ := hθ
    exact ⟨m, e - 1, hm, by rw [zpow_sub₀ (by norm_num), zpow_one]; ring⟩
  generalize ((2 : ℝ) ^ p)⁻¹ = u at *
  have hpi := Real.pi_gt_three
  have hpi' := Real.pi_lt_d2
  have hα0 : 0 < θ / 2 := by linarith
  have hα1 : θ / 2 < Real.pi / 2 := by linarith
  have hc0 : 0 < Real.cos (θ / 2) := Real.cos_pos_of_mem_Ioo ⟨by linarith, hα1⟩
  have hc1 : Real.cos (θ / 2) ≤ 1 := Real.cos_le_one _
  have hs0 : 0 < Real.sin (θ / 2) := Real.sin_pos_of_pos_of_lt_pi hα0 (by linarith)
  have hs1 : Real.sin (θ / 2) ≤ 1 := Real.sin_le_one _
  -- the scalar part
  have ec := hE (Real.cos (θ / 2))
  rw [abs_of_pos hc0] at ec
  have hy1 : fl (Real.cos (θ / 2)) ≤ 1 := by have := hmono hc1; rwa [hone] at this
  have hy0 : 0 < fl (Real.cos (θ / 2)) := by
    rw [abs_le] at ec
    have : u * Real.cos (θ / 2) ≤ 1 / 2048 * Real.cos (θ / 2) := by gcongr
    linarith
  have ec' : |Real.cos (θ / 2) - fl (Real.cos (θ / 2))| ≤ u := by
    rw [abs_sub_comm]
    refine ec.trans ?_
    calc u * Real.cos (θ / 2) ≤ u * 1 := by gcongr
      _ = u := mul_one u
  have hr : r = rQu2ax fl ⟨fl (Real.cos (θ / 2)), fl (n.x * fl (Real.sin (θ / 2))), fl (n.y * fl (Real.sin (θ / 2))), fl (n.z * fl (Real.sin (θ / 2)))⟩ := by
    simp only [r, rAx2qu, hhalf]
  rw [hr]
  clear_value r
  generalize hyd : fl (Real.cos (θ / 2)) = y at *
  have hcl : clamp1 y = y := clamp1_of_mem (by linarith) hy1
  have hacos : Real.cos (Real.arccos y) = y := Real.cos_arccos (by linarith) hy1
  have hβ0 := Real.arccos_nonneg y
  have hβ1 : Real.arccos y ≤ Real.pi / 2 := Real.arccos_le_pi_div_two.mpr hy0.le
  have hsep := cos_sep hα0 hα1.le hβ0 hβ1
  rw [hacos] at hsep
  have eb := hE (Real.arccos y)
  rw [abs_of_nonneg hβ0] at eb
  simp only [rQu2ax, hcl]
  generalize Real.arccos y = β at *
  have hd : |θ / 2 - β| ≤ 9.9 * u / θ := by
    rw [le_div_iff₀ h0]
    have h3 : Real.pi ^ 2 * |Real.cos (θ / 2) - y| ≤ 9.9 * u := by
      have : Real.pi ^ 2 ≤ 9.9 := by
        have : Real.pi ^ 2 ≤ 3.1416 ^ 2 := by
          have := Real.pi_lt_d4
          gcongr
        norm_num at *; linarith
      gcongr
    linarith
  have hub : u * β ≤ u * 1.58 := by
    apply mul_le_mul_of_nonneg_left _ hu
    norm_num at *; linarith
  rw [abs_le] at eb
  have hfb0 : fl β ≤ 1.6 := by norm_num at *; linarith
  have hfb1 : 0 ≤ fl β := by have := hmono hβ0; rwa [hz] at this
  have e2 := flb hu hE (x := 2 * fl β) (B := 3.2) (by rw [abs_of_nonneg (by positivity)]; norm_num at *; linarith)
  rw [abs_le] at e2
  have hang : |fl (2 * fl β) - θ| ≤ (20 / θ + 7) * u := by
    rw [abs_le] at hd
    have e3 : (20 / θ + 7) * u = 2 * (9.9 * u / θ) + 0.2 * u / θ + 7 * u := by field_simp; norm_num; ring
    have e4 : 0 ≤ 0.2 * u / θ := by positivity
    rw [e3]
    generalize 9.9 * u / θ = X at *
    generalize 0.2 * u / θ = Y at *
    rw [abs_le]
    norm_num at *
    constructor <;> linarith
  by_cases ha : fl (2 * fl β) = 0
  · rw [if_pos ha]
    rw [ha] at hang
    exact ⟨hang, fun h => absurd rfl h⟩
  rw [if_neg ha]
  refine ⟨hang, fun _ => ?_⟩
  dsimp only
  rw [if_pos hy0.ne', sgn, if_pos hy0]
  -- the vector part
  have es := hE (Real.sin (θ / 2))
  rw [abs_of_pos hs0] at es
  generalize Real.sin (θ / 2) = s0 at *
  have hsp : 0 < fl s0 := by
    rw [abs_le] at es
    have : u * s0 ≤ 1 / 2048 * s0 := by gcongr
    linarith
  generalize fl s0 = s at *
  have v1 := hE (n.x * s)
  have v2 := hE (n.y * s)
  have v3 := hE (n.z * s)
  have w1 := sq_rel hu hs v1
  have w2 := sq_rel hu hs v2
  have w3 := sq_rel hu hs v3
  have hs2 : 0 < s ^ 2 := by positivity
  rw [abs_le] at hn
  have hV : (1 - 6.1 * u) * s ^ 2 ≤ fl (n.x * s) ^ 2 + fl (n.y * s) ^ 2 + fl (n.z * s) ^ 2 ∧
      fl (n.x * s) ^ 2 + fl (n.y * s) ^ 2 + fl (n.z * s) ^ 2 ≤ (1 + 6.1 * u) * s ^ 2 :=
    len_rel hu hs hs2 hn (by linarith [w1.1, w2.1, w3.1]) (by linarith [w1.2, w2.2, w3.2])
  have hnr : ‖toH ⟨0, fl (n.x * s), fl (n.y * s), fl (n.z * s)⟩‖ = √(fl (n.x * s) ^ 2 + fl (n.y * s) ^ 2 + fl (n.z * s) ^ 2) := by
    rw [norm_toH]; congr 1; ring
  obtain ⟨k1, k2⟩ := sqrt_rel hu hs hsp hV.1 hV.2
  have hs256 : u ≤ 1 / 256 := by linarith
  have hVp : 0 < ‖toH ⟨0, fl (n.x * s), fl (n.y * s), fl (n.z * s)⟩‖ := by
    rw [hnr]
    refine lt_of_lt_of_le ?_ k1
    apply mul_pos _ hsp
    norm_num at *; linarith
  have hN := norm_err hu hs256 hE _ hVp
  rw [hnr] at hN hVp
  generalize rNormVal fl ⟨0, fl (n.x * s), fl (n.y * s), fl (n.z * s)⟩ = N at *
  generalize √(fl (n.x * s) ^ 2 + fl (n.y * s) ^ 2 + fl (n.z * s) ^ 2) = W at *
  have hus : 0 ≤ u * s := by positivity
  have hWs : W ≤ 1.01 * s := by
    have : u * s ≤ 1 / 2048 * s := by gcongr
    norm_num at *; linarith
  have hNs : |N - s| ≤ 6.5 * (u * s) := by
    have h3 : 3.1 * u * W ≤ 3.1 * u * (1.01 * s) := by gcongr
    rw [abs_le] at hN ⊢
    norm_num at *
    constructor <;> linarith
  have hNp : 0.99 * s ≤ N := by
    have : u * s ≤ 1 / 2048 * s := by gcongr
    rw [abs_le] at hNs
    norm_num at *; linarith
  have hN0 : 0 < N := lt_of_lt_of_le (by positivity) hNp
  -- the reciprocal times s
  have hk := hE (1 / N)
  have hkp : 0 < 1 / N := by positivity
  rw [abs_of_pos hkp] at hk
  have hK : |fl (1 / N) * s - 1| ≤ 8 * u := by
    have hsN : |1 / N * s - 1| ≤ 6.6 * u := by
      have e : 1 / N * s - 1 = (s - N) / N := by field_simp
      rw [e, abs_div, abs_of_pos hN0, div_le_iff₀ hN0, abs_sub_comm]
      have : 6.6 * u * (0.99 * s) ≤ 6.6 * u * N := by gcongr
      norm_num at *; linarith
    have h7 : |fl (1 / N) * s - 1 / N * s| ≤ 1.1 * u := by
      rw [← sub_mul, abs_mul, abs_of_pos hsp]
      have h8 : |fl (1 / N) - 1 / N| * s ≤ u * (1 / N) * s := by gcongr
      have h9 : 1 / N * s ≤ 1.1 := by
        have := (abs_le.mp hsN).2
        norm_num at *; linarith
      have h10 : u * (1 / N * s) ≤ u * 1.1 := by gcongr
      linarith
    rw [abs_le] at hsN h7 ⊢
    norm_num at *
    constructor <;> linarith
  have hKs : |fl (1 / N) * s| ≤ 1.01 := by
    rw [abs_le] at hK ⊢
    norm_num at *
    constructor <;> linarith
  have fin : ∀ a : ℝ, a ^ 2 ≤ 1.01 → |fl (fl (a * s) * fl (1 / N)) - a| ≤ 12 * u := by
    intro a ha2
    have hab : |a| ≤ 1.01 := by
      by_contra hn'
      push Not at hn'
      have : (1.01 : ℝ) ^ 2 < |a| ^ 2 := by gcongr
      rw [sq_abs] at this
      norm_num at *; linarith
    have g1 := hE (a * s)
    have g2 : |fl (a * s) * fl (1 / N) - a| ≤ 9.5 * u := by
      have e : fl (a * s) * fl (1 / N) - a = (fl (a * s) - a * s) * fl (1 / N) + a * (fl (1 / N) * s - 1) := by ring
      rw [e]
      refine (abs_add_le _ _).trans ?_
      rw [abs_mul, abs_mul a]
      have b1 : |fl (a * s) - a * s| * |fl (1 / N)| ≤ u * |a * s| * |fl (1 / N)| := by gcongr
      have b2 : u * |a * s| * |fl (1 / N)| = u * (|a| * |fl (1 / N) * s|) := by rw [abs_mul, abs_mul]; ring
      have b3 : u * (|a| * |fl (1 / N) * s|) ≤ u * (1.01 * 1.01) := by gcongr
      have b4 : |a| * |fl (1 / N) * s - 1| ≤ 1.01 * (8 * u) := by gcongr
      norm_num at *; linarith
    have g3 : |fl (a * s) * fl (1 / N)| ≤ 1.05 := by
      have := abs_sub_abs_le_abs_sub (fl (a * s) * fl (1 / N)) a
      norm_num at *; linarith
    have g4 := flb hu hE g3
    rw [abs_le] at g2 g4 ⊢
    norm_num at *
    constructor <;> linarith
  have px := sq_nonneg n.x
  have py := sq_nonneg n.y
  have pz := sq_nonneg n.z
  exact ⟨fin _ (by norm_num at *; linarith), fin _ (by norm_num at *; linarith), fin _ (by norm_num at *; linarith)⟩

/-- **C150 fails** for small angles: for every precision and every rotation by an angle `θ` with `0 < θ` and `θ² ≤ 2^-p` (single precision: 2.4e-4, double
precision: 1e-8), about any axis, the round trip through the quaternion returns the angle 0 and the z axis: the rotation is lost. -/
theorem C150_small_fails {p : ℕ} (hp : 11 ≤ p) {fl : ℝ → ℝ} (hfl : Nearest p fl) (n : V) (θ : ℝ) (hθ : Rep p θ) (h0 : 0 < θ) (h1 : θ ^ 2 ≤ (2 ^ p)⁻¹) :
    rQu2ax fl (rAx2qu fl ⟨n, θ⟩) = ⟨⟨0, 0, 1⟩, 0⟩ := by
  have hhalf : fl (θ / 2) = θ / 2 := by
    apply hfl.of_rep
    obtain ⟨m, e, hm, rfl⟩ := hθ
    exact ⟨m, e - 1, hm, by rw [zpow_sub₀ (by norm_num), zpow_one]; ring⟩
  have hc : fl (Real.cos (θ / 2)) = 1 := by
    have hcos1 : 1 - (θ / 2) ^ 2 / 2 < Real.cos (θ / 2) := Real.one_sub_sq_div_two_lt_cos (by positivity)
    have hcos2 := Real.cos_le_one (θ / 2)
    have := absorb_rep hfl (c := 1) (t := Real.cos (θ / 2) - 1) (Rep.one (by omega)) (by norm_num) (by
      rw [abs_of_nonpos (by linarith), zpow_sub₀ (by norm_num), zpow_neg, zpow_natCast]
      norm_num
      linarith) (by omega)
    rwa [show 1 + (Real.cos (θ / 2) - 1) = Real.cos (θ / 2) by ring] at this
  simp only [rAx2qu, hhalf, hc, rQu2ax]
  have : clamp1 1 = 1 := clamp1_of_mem (by norm_num) le_rfl
  rw [this, Real.arccos_one, hfl.zero, mul_zero, hfl.zero, if_pos rfl]

/-- non-vacuity: single precision, one radian about the x axis -/
example : ∃ fl, Nearest 24 fl ∧ |(1 : ℝ) ^ 2 + 0 ^ 2 + 0 ^ 2 - 1| ≤ 4 * (2 ^ 24)⁻¹ ∧ Rep 24 1 ∧ (1 : ℝ) < Real.pi :=
  ⟨rnd 24, rnd_nearest (by norm_num), by norm_num, Rep.one (by norm_num), by linarith [Real.pi_gt_three]⟩

/-- non-vacuity: single precision, an angle of `2^-12` -/
example : ∃ fl, Nearest 24 fl ∧ ∃ θ : ℝ, Rep 24 θ ∧ 0 < θ ∧ θ ^ 2 ≤ (2 ^ 24)⁻¹ :=
  ⟨rnd 24, rnd_nearest (by norm_num), (2 : ℝ) ^ (-12 : ℤ), ⟨1, -12, by norm_num, by norm_num⟩, by positivity, by norm_num⟩

end Verif
