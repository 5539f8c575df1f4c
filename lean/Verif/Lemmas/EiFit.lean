import Verif.Lemmas.EiData
import Verif.Lemmas.EiGamma
import Verif.Lemmas.EiTrunc
import Verif.Model.Scatter
import Mathlib.Analysis.Calculus.MeanValue
import Mathlib.Analysis.Calculus.Deriv.MeanValue
import Mathlib.Analysis.Calculus.Deriv.Inv
/-!
Accuracy of the rational approximations of the exponential integral, from the certificates of `EiData`.
-/
namespace Verif.EiFit
open Real Verif.Scat Verif.PolyCert Verif.Spec.Scatter Verif.Ei Filter Set
open scoped Topology

local notation "γ" => eulerMascheroniConstant

lemma ev_horner {S : ℝ} {p : List ℤ} {c : List ℝ} (h : List.Forall₂ (fun (z : ℤ) (r : ℝ) => (z : ℝ) = S * r) p c) (w : ℝ) :
    ev p w = S * horner c w := by
  induction h with
  | nil => simp [ev, horner]
  | cons h _ ih =>
    simp only [horner, List.foldr_cons, ev] at *
    rw [h, ih]; ring

/-! ### Below -1 -/

lemma cQ_pos {w : ℝ} (h0 : 0 ≤ w) (h1 : w ≤ 1) : 0 < ev cQ w := by
  have h := RE.nonneg cQpos_ok0 (by norm_num) (x := w) (by push_cast; linarith) (by push_cast; linarith)
  simp only [cQpos, RE.eval, one, ev] at h
  push_cast at h
  linarith

lemma c_bound {w : ℝ} (h0 : 0 ≤ w) (h1 : w ≤ 1) :
    abs (w * ev cQ w ^ 2 - (ev cN w * ev cQ w + w ^ 2 * (ev cN1 w * ev cQ w - ev cN w * ev cQ1 w)))
      ≤ 1 / 10 ^ 15 * ev cQ w ^ 2 := by
  have hp : 0 ≤ cFitp.eval w := by
    rcases lt_or_ge w (1 / 4) with h | h
    · exact RE.nonneg cFitp_ok0 (by norm_num) (by push_cast; linarith) (by push_cast; linarith)
    rcases lt_or_ge w (1 / 2) with h' | h'
    · exact RE.nonneg cFitp_ok1 (by norm_num) (by push_cast; linarith) (by push_cast; linarith)
    · exact RE.nonneg cFitp_ok2 (by norm_num) (by push_cast; linarith) (by push_cast; linarith)
  have hm : 0 ≤ cFitm.eval w := by
    rcases lt_or_ge w (1 / 4) with h | h
    · exact RE.nonneg cFitm_ok0 (by norm_num) (by push_cast; linarith) (by push_cast; linarith)
    rcases lt_or_ge w (1 / 2) with h' | h'
    · exact RE.nonneg cFitm_ok1 (by norm_num) (by push_cast; linarith) (by push_cast; linarith)
    · exact RE.nonneg cFitm_ok2 (by norm_num) (by push_cast; linarith) (by push_cast; linarith)
  have hv : ev var w = w := by simp only [var, ev]; push_cast; ring
  simp only [cFitp, cFitm, RE.eval, hv] at hp hm
  push_cast at hp hm
  rw [abs_le]
  constructor <;> linarith

lemma cN1_eq : dv cN = cN1 := by decide +kernel
lemma cQ1_eq : dv cQ = cQ1 := by decide +kernel

/-- the factor of `exp (-y)` in the approximation of the integral below -1 -/
noncomputable def cR (w : ℝ) : ℝ := ev cN w / ev cQ w

lemma cR_deriv {w : ℝ} (h0 : 0 ≤ w) (h1 : w ≤ 1) :
    HasDerivAt cR ((ev cN1 w * ev cQ w - ev cN w * ev cQ1 w) / ev cQ w ^ 2) w := by
  have h := (hasDerivAt_ev cN w).div (hasDerivAt_ev cQ w) (cQ_pos h0 h1).ne'
  rw [cN1_eq, cQ1_eq] at h
  exact h

/-- the error below -1 -/
noncomputable def cD (y : ℝ) : ℝ := -(cR y⁻¹ * exp (-y)) - eiWith γ (-y)

lemma cD_deriv {y : ℝ} (hy : 1 ≤ y) : ∃ d : ℝ, HasDerivAt cD (d * exp (-y)) y ∧ |d| ≤ 1 / 10 ^ 15 := by
  have hy0 : 0 < y := by linarith
  have hw0 : 0 ≤ y⁻¹ := by positivity
  have hw1 : y⁻¹ ≤ 1 := inv_le_one_of_one_le₀ hy
  have h1 := (cR_deriv hw0 hw1).comp y (hasDerivAt_inv hy0.ne')
  have h2 : HasDerivAt (fun y : ℝ => exp (-y)) (exp (-y) * -1) y := (hasDerivAt_neg y).exp
  have h3 := (hasDerivAt_eiWith γ (x := -y) (by linarith)).comp y (hasDerivAt_neg y)
  have h4 := (h1.mul h2).neg.sub h3
  have hQ := cQ_pos hw0 hw1
  have hb := c_bound hw0 hw1
  refine ⟨-(y⁻¹ * ev cQ y⁻¹ ^ 2 - (ev cN y⁻¹ * ev cQ y⁻¹ + y⁻¹ ^ 2 * (ev cN1 y⁻¹ * ev cQ y⁻¹ - ev cN y⁻¹ * ev cQ1 y⁻¹)))
    / ev cQ y⁻¹ ^ 2, ?_, ?_⟩
  · refine h4.congr_deriv ?_
    simp only [Function.comp_apply, cR]
    rw [show (y ^ 2)⁻¹ = y⁻¹ ^ 2 by rw [inv_pow], show exp (-y) / -y = -(y⁻¹ * exp (-y)) by field_simp]
    generalize y⁻¹ = w at *
    field_simp
    ring
  · rw [abs_div, abs_neg, abs_of_pos (pow_pos hQ 2), div_le_iff₀ (pow_pos hQ 2)]
    exact hb

lemma cD_tendsto : Tendsto cD atTop (𝓝 0) := by
  have h1 : Tendsto (fun y : ℝ => cR y⁻¹) atTop (𝓝 (cR 0)) :=
    ((cR_deriv le_rfl zero_le_one).continuousAt.tendsto).comp tendsto_inv_atTop_zero
  have h2 : Tendsto (fun y : ℝ => exp (-y)) atTop (𝓝 0) := tendsto_exp_neg_atTop_nhds_zero
  have h3 := ((h1.mul h2).neg).sub tendsto_eiWith_neg
  rw [mul_zero, neg_zero, sub_zero] at h3
  exact h3

lemma neg_exp_deriv (y : ℝ) : HasDerivAt (fun y : ℝ => exp (-y)) (-exp (-y)) y := by
  have := (hasDerivAt_neg y).exp
  rw [mul_neg, mul_one] at this
  exact this

lemma antitone_bound {f f' : ℝ → ℝ} {a : ℝ} (hd : ∀ y, a ≤ y → HasDerivAt f (f' y) y) (hn : ∀ y, a ≤ y → f' y ≤ 0)
    (ht : Tendsto f atTop (𝓝 0)) {y : ℝ} (hy : a ≤ y) : 0 ≤ f y := by
  have hanti : AntitoneOn f (Ici a) := by
    apply antitoneOn_of_deriv_nonpos (convex_Ici a)
    · intro x hx; exact (hd x hx).continuousAt.continuousWithinAt
    · intro x hx; rw [interior_Ici] at hx; exact (hd x (le_of_lt hx)).differentiableAt.differentiableWithinAt
    · intro x hx; rw [interior_Ici] at hx; rw [(hd x (le_of_lt hx)).deriv]; exact hn x (le_of_lt hx)
  apply le_of_tendsto ht
  filter_upwards [eventually_ge_atTop y] with z hz
  exact hanti hy (hy.trans hz) hz

/-- Below -1 the error is at most `1e-15 exp (-y)`. -/
theorem cD_bound {y : ℝ} (hy : 1 ≤ y) : |cD y| ≤ 1 / 10 ^ 15 * exp (-y) := by
  have hlim : Tendsto (fun y : ℝ => 1 / 10 ^ 15 * exp (-y)) atTop (𝓝 0) := by
    have := tendsto_exp_neg_atTop_nhds_zero.const_mul (1 / 10 ^ 15 : ℝ)
    rw [mul_zero] at this; exact this
  have key : ∀ σ : ℝ, |σ| = 1 → 0 ≤ 1 / 10 ^ 15 * exp (-y) + σ * cD y := by
    intro σ hσ
    choose! d hd hb using fun y (hy : (1 : ℝ) ≤ y) => cD_deriv hy
    have h1 : ∀ y, 1 ≤ y → HasDerivAt (fun y => 1 / 10 ^ 15 * exp (-y) + σ * cD y)
        (1 / 10 ^ 15 * -exp (-y) + σ * (d y * exp (-y))) y := fun y hy =>
      ((neg_exp_deriv y).const_mul _).add ((hd y hy).const_mul _)
    refine antitone_bound h1 (fun y hy => ?_) ?_ hy
    · have h2 : σ * d y ≤ 1 / 10 ^ 15 := (le_abs_self _).trans (by rw [abs_mul, hσ, one_mul]; exact hb y hy)
      have h3 := mul_le_mul_of_nonneg_right h2 (exp_pos (-y)).le
      linarith
    · have := hlim.add (cD_tendsto.const_mul σ)
      rw [mul_zero, add_zero] at this; exact this
  rw [abs_le]
  have h1 := key 1 (by norm_num)
  have h2 := key (-1) (by norm_num)
  constructor <;> linarith

lemma cQ_horner (w : ℝ) : ev cQ w = 500000000000000000000000000000000000000 * horner e1Q2 w :=
  ev_horner (by unfold cQ e1Q2; repeat' constructor
                all_goals norm_num) w

lemma cP_horner (w : ℝ) : ev cP w = 500000000000000000000000000000000000000 * horner e1P2 w :=
  ev_horner (by unfold cP e1P2; repeat' constructor
                all_goals norm_num) w

lemma cN_split : cN = 0 :: add cP cQ := by decide +kernel

lemma e1Q2_ne {w : ℝ} (h0 : 0 ≤ w) (h1 : w ≤ 1) : horner e1Q2 w ≠ 0 := by
  have h := cQ_pos h0 h1
  rw [cQ_horner] at h
  intro h'; rw [h'] at h; norm_num at h

lemma cN_horner {w : ℝ} (h0 : 0 ≤ w) (h1 : w ≤ 1) : (1 + horner e1P2 w / horner e1Q2 w) * w = cR w := by
  have h := e1Q2_ne h0 h1
  rw [cR, cN_split, ev, ev_add, cP_horner, cQ_horner, ← mul_add, Int.cast_zero, zero_add, mul_left_comm,
    mul_div_mul_left _ _ (by norm_num)]
  field_simp
  ring

/-- `expi` below -1. -/
theorem expi_below {x : ℝ} (hx : x < -1) : |expi x - eiWith γ x| ≤ 1 / 10 ^ 15 * exp x := by
  have h := cD_bound (y := -x) (by linarith)
  have e : expi x = -(cR (-x)⁻¹ * exp x) := by
    rw [expi, if_pos (by linarith), exp1, if_neg (by linarith)]
    have hw0 : 0 ≤ 1 / -x := by apply div_nonneg zero_le_one; linarith
    have hw1 : 1 / -x ≤ 1 := by rw [div_le_one (by linarith)]; linarith
    rw [neg_neg, mul_right_comm, cN_horner hw0 hw1, one_div]
  rw [cD, neg_neg] at h
  rw [e]
  exact h

end Verif.EiFit
