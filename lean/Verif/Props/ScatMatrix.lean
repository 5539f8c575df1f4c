import Verif.Model.ScatMatrix
import Verif.Props.StructMatrix
/-! C127: the coefficients of the scattering-matrix formalism. -/
namespace Verif.Diff
open Cryst Matrix
open SG (Err)

lemma polar (z : ℂ) : (‖z‖ : ℂ) * (⟨Real.cos (atan2 z.im z.re), Real.sin (atan2 z.im z.re)⟩ : ℂ) = z := by
  have h : atan2 z.im z.re = Complex.arg z := rfl
  rw [h]
  conv_rhs => rw [← Complex.norm_mul_exp_arg_mul_I z, Complex.exp_mul_I]
  congr 1
  apply Complex.ext <;> simp [← Complex.ofReal_cos, ← Complex.ofReal_sin]

lemma unit_phase (t : ℝ) : ‖(⟨Real.cos t, Real.sin t⟩ : ℂ)‖ = 1 := by
  have : (⟨Real.cos t, Real.sin t⟩ : ℂ) = Complex.exp (t * Complex.I) := by
    rw [Complex.exp_mul_I]
    apply Complex.ext <;> simp [← Complex.ofReal_cos, ← Complex.ofReal_sin]
  rw [this, Complex.norm_exp_ofReal_mul_I]

lemma mlambda_pos (sf : ScatterFactor) (c : Crystal) (hc : 0 < c.l.dmt.det) (kV : ℝ) (hk : 0 < kV) : 0 < mlambda sf c kV := by
  have hv := vol_pos hc
  unfold mlambda pref
  positivity

lemma coeff_pos (c : Crystal) (hc : 0 < c.l.dmt.det) : 0 < pref c * preg := by
  have hv := vol_pos hc
  unfold pref preg
  positivity

/-- one of the two terms: inverse extinction length times phase factor -/
lemma term_eq {k lam : ℝ} (hk : 0 < k) (hl : 0 < lam) (z : ℂ) :
    ‖((1 / extinction (k * ‖z‖) lam : ℝ) : ℂ) * (⟨Real.cos (atan2 z.im z.re), Real.sin (atan2 z.im z.re)⟩ : ℂ) - (lam * k : ℝ) * z‖ ≤ 1.0e-8 ∧
    (z ≠ 0 → ((1 / extinction (k * ‖z‖) lam : ℝ) : ℂ) * (⟨Real.cos (atan2 z.im z.re), Real.sin (atan2 z.im z.re)⟩ : ℂ) =
      (lam * k : ℝ) * z) := by
  have h2 : z ≠ 0 → ((1 / extinction (k * ‖z‖) lam : ℝ) : ℂ) * (⟨Real.cos (atan2 z.im z.re), Real.sin (atan2 z.im z.re)⟩ : ℂ) =
      (lam * k : ℝ) * z := by
    intro hz
    have hn : 0 < ‖z‖ := norm_pos_iff.mpr hz
    have hp : 0 < k * ‖z‖ := mul_pos hk hn
    have e : 1 / extinction (k * ‖z‖) lam = lam * k * ‖z‖ := by
      unfold extinction
      rw [if_pos (abs_pos.mpr hp.ne'), abs_of_pos hp]
      field_simp
    rw [e]
    conv_rhs => rw [← polar z]
    push_cast
    ring
  refine ⟨?_, h2⟩
  by_cases hz : z = 0
  · subst hz
    have e : extinction (k * ‖(0 : ℂ)‖) lam = 1.0e8 := by
      unfold extinction
      rw [norm_zero, mul_zero, abs_zero, if_neg (lt_irrefl _)]
    rw [e, mul_zero, sub_zero, norm_mul, unit_phase, mul_one, Complex.norm_real]
    norm_num
  · rw [h2 hz, sub_self, norm_zero]
    norm_num

lemma qg_shift_eq (sf : ScatterFactor) (c : Crystal) (kV : ℝ) (g : Hkl) :
    qg sf c kV true true g =
      ((1 / extinction (umod sf c kV g) (mlambda sf c kV) : ℝ) : ℂ) *
        (⟨Real.cos (atan2 (ff sf c kV g).im (ff sf c kV g).re), Real.sin (atan2 (ff sf c kV g).im (ff sf c kV g).re)⟩ : ℂ) +
      ((1 / extinction (upmod sf c kV true g) (mlambda sf c kV) : ℝ) : ℂ) *
        (⟨Real.cos (atan2 (gg sf c kV g).im (gg sf c kV g).re), Real.sin (atan2 (gg sf c kV g).im (gg sf c kV g).re)⟩ : ℂ) * Complex.I := by
  unfold qg
  simp only [if_true]
  apply Complex.ext
  · simp; ring
  · simp; ring

lemma qg_noshift_eq (sf : ScatterFactor) (c : Crystal) (kV : ℝ) (g : Hkl) :
    qg sf c kV true false g * (⟨Real.cos (atan2 (ff sf c kV g).im (ff sf c kV g).re), Real.sin (atan2 (ff sf c kV g).im (ff sf c kV g).re)⟩ : ℂ) =
      qg sf c kV true true g := by
  unfold qg
  simp only [if_true, Bool.false_eq_true, if_false]
  generalize atan2 (ff sf c kV g).im (ff sf c kV g).re = a
  generalize atan2 (gg sf c kV g).im (gg sf c kV g).re = b
  generalize extinction (umod sf c kV g) (mlambda sf c kV) = x
  generalize extinction (upmod sf c kV true g) (mlambda sf c kV) = y
  have h1 := Real.sin_sq_add_cos_sq a
  apply Complex.ext
  · simp only [Complex.mul_re, Real.sin_sub, Real.cos_sub]
    linear_combination (-(Real.sin b) / y) * h1
  · simp only [Complex.mul_im, Real.sin_sub, Real.cos_sub]
    linear_combination ((Real.cos b) / y) * h1

lemma total_eq (sf : ScatterFactor) (c : Crystal) (kV : ℝ) (g : Hkl) :
    structureFactor (factor sf c.l kV) c.sites g = ff sf c kV g + gg sf c kV g * Complex.I := by
  unfold ff gg structureFactor
  rw [← list_sum_mul, ← list_sum_add]
  congr 1
  apply List.map_congr_left
  intro s _
  rw [p1_eq]
  conv_lhs => rw [← Complex.re_add_im (factor sf c.l kV s g)]
  ring

/-- C127, partial: with absorption and the default phase convention every entry of the returned matrix is the wavelength times the
Fourier coefficient of the Bloch formalism (the structure factor of the complex atomic factors) for the difference `hkl[j] - hkl[i]`, up
to 2e-8 per nm, and exactly so if neither the elastic nor the absorptive structure factor vanishes; with `apply_qg_shift=False` the same
holds after multiplication by the phase factor of the elastic structure factor.  The wavelength is the one of the Bloch helper and the
absorption length of 000 is `1/(λ U'_0)`.  Missing: see `C127_extinct_fails` and `C127_phase_fails`. -/
theorem C127_coefficients_partial (mem : ℤ → ℂ) (sfs : String → ScatterFactor) (name : String) (c : Crystal) (h1 : 1 ≤ c.sg) (h2 : c.sg ≤ 230)
    (hc : 0 < c.l.dmt.det) (dmin kV : ℝ) (hk : 0 < kV) (shift : Bool) (s : ScatMat)
    (hs : scatMatrix mem sfs name c dmin kV true shift = .ok s) :
    beams c dmin = .ok s.gs ∧ s.lam = mlambda (sfs name) c kV ∧ 0 < s.lam ∧
    (gg (sfs name) c kV (0, 0, 0) ≠ 0 → s.xgp0 = 1 / (s.lam * (pref c * preg * ‖gg (sfs name) c kV (0, 0, 0)‖))) ∧
    ∀ i j, ∃ phase : ℂ, ‖phase‖ = 1 ∧ (shift = true → phase = 1) ∧
      ‖s.Q i j * phase - s.lam * (((pref c * preg : ℝ) : ℂ) *
        structureFactor (factor (sfs name) c.l kV) c.sites (sub (s.gs.get j) (s.gs.get i)))‖ ≤ 2e-8 ∧
      (ff (sfs name) c kV (sub (s.gs.get j) (s.gs.get i)) ≠ 0 → gg (sfs name) c kV (sub (s.gs.get j) (s.gs.get i)) ≠ 0 →
        s.Q i j * phase = s.lam * (((pref c * preg : ℝ) : ℂ) *
          structureFactor (factor (sfs name) c.l kV) c.sites (sub (s.gs.get j) (s.gs.get i)))) := by
  unfold scatMatrix at hs
  cases hd : diffs c dmin with
  | error e => rw [hd] at hs; cases hs
  | ok ds =>
    rw [hd] at hs
    simp only [Except.bind] at hs
    by_cases hn : name ≠ "WK" ∧ name ≠ "Hybrid"
    · rw [if_pos hn] at hs; cases hs
    rw [if_neg hn] at hs
    obtain ⟨gs, hg, rfl⟩ := except_map_ok hs
    obtain ⟨d1, d2⟩ := diffs_mem h1 h2 hg hd
    have hl := mlambda_pos (sfs name) c hc kV hk
    have hkp := coeff_pos c hc
    refine ⟨hg, rfl, hl, ?_, ?_⟩
    · intro hne
      have hn : 0 < ‖gg (sfs name) c kV (0, 0, 0)‖ := norm_pos_iff.mpr hne
      dsimp only
      unfold extinction upmod
      rw [if_pos rfl, show preg * pref c = pref c * preg by ring]
      have hp : 0 < pref c * preg * ‖gg (sfs name) c kV (0, 0, 0)‖ := mul_pos hkp hn
      rw [if_pos (abs_pos.mpr hp.ne'), abs_of_pos hp, div_div, mul_comm]
    · intro i j
      obtain ⟨q1, q2⟩ := d2 _ (List.get_mem gs j) _ (List.get_mem gs i)
      have hQ : table mem (hklLimits c.l dmin) ds (qg (sfs name) c kV true shift)
          (flatIndex (hklLimits c.l dmin) (sub (gs.get j) (gs.get i))) = qg (sfs name) c kV true shift (sub (gs.get j) (gs.get i)) := by
        rw [table_get d1 q2, if_pos q1]
      dsimp only
      rw [hQ, total_eq]
      generalize sub (gs.get j) (gs.get i) = g
      have base : ‖qg (sfs name) c kV true true g - mlambda (sfs name) c kV *
            (((pref c * preg : ℝ) : ℂ) * (ff (sfs name) c kV g + gg (sfs name) c kV g * Complex.I))‖ ≤ 2e-8 ∧
          (ff (sfs name) c kV g ≠ 0 → gg (sfs name) c kV g ≠ 0 → qg (sfs name) c kV true true g = mlambda (sfs name) c kV *
            (((pref c * preg : ℝ) : ℂ) * (ff (sfs name) c kV g + gg (sfs name) c kV g * Complex.I))) := by
        rw [qg_shift_eq]
        have e1 : umod (sfs name) c kV g = pref c * preg * ‖ff (sfs name) c kV g‖ := by unfold umod; ring
        have e2 : upmod (sfs name) c kV true g = pref c * preg * ‖gg (sfs name) c kV g‖ := by
          unfold upmod; rw [if_pos rfl]; ring
        rw [e1, e2]
        obtain ⟨a1, a2⟩ := term_eq hkp hl (ff (sfs name) c kV g)
        obtain ⟨b1, b2⟩ := term_eq hkp hl (gg (sfs name) c kV g)
        generalize ((1 / extinction (pref c * preg * ‖ff (sfs name) c kV g‖) (mlambda (sfs name) c kV) : ℝ) : ℂ) *
          (⟨Real.cos (atan2 (ff (sfs name) c kV g).im (ff (sfs name) c kV g).re),
            Real.sin (atan2 (ff (sfs name) c kV g).im (ff (sfs name) c kV g).re)⟩ : ℂ) = A at *
        generalize ((1 / extinction (pref c * preg * ‖gg (sfs name) c kV g‖) (mlambda (sfs name) c kV) : ℝ) : ℂ) *
          (⟨Real.cos (atan2 (gg (sfs name) c kV g).im (gg (sfs name) c kV g).re),
            Real.sin (atan2 (gg (sfs name) c kV g).im (gg (sfs name) c kV g).re)⟩ : ℂ) = B at *
        constructor
        · have e : A + B * Complex.I - mlambda (sfs name) c kV *
              (((pref c * preg : ℝ) : ℂ) * (ff (sfs name) c kV g + gg (sfs name) c kV g * Complex.I)) =
              (A - (mlambda (sfs name) c kV * (pref c * preg) : ℝ) * ff (sfs name) c kV g) +
              (B - (mlambda (sfs name) c kV * (pref c * preg) : ℝ) * gg (sfs name) c kV g) * Complex.I := by push_cast; ring
          rw [e]
          calc _ ≤ ‖A - (mlambda (sfs name) c kV * (pref c * preg) : ℝ) * ff (sfs name) c kV g‖ +
                ‖(B - (mlambda (sfs name) c kV * (pref c * preg) : ℝ) * gg (sfs name) c kV g) * Complex.I‖ := norm_add_le _ _
            _ ≤ 1.0e-8 + 1.0e-8 := by rw [norm_mul, Complex.norm_I, mul_one]; exact add_le_add a1 b1
            _ = 2e-8 := by norm_num
        · intro hf hg
          rw [a2 hf, b2 hg]
          push_cast; ring
      cases shift
      · refine ⟨_, unit_phase (atan2 (ff (sfs name) c kV g).im (ff (sfs name) c kV g).re), fun h => absurd h (by decide), ?_, ?_⟩
        · rw [qg_noshift_eq]; exact base.1
        · rw [qg_noshift_eq]; exact base.2
      · refine ⟨1, norm_one, fun _ => rfl, ?_, ?_⟩
        · rw [mul_one]; exact base.1
        · rw [mul_one]; exact base.2

/-- C127 fails for extinct reflections: a coefficient that vanishes is replaced by `1e-8 (1 + i)`. -/
theorem C127_extinct_fails (sf : ScatterFactor) (c : Crystal) (kV : ℝ) (g : Hkl) (hf : ff sf c kV g = 0) (hg : gg sf c kV g = 0) :
    ucg sf c kV true g = 0 ∧ qg sf c kV true true g = ⟨1e-8, 1e-8⟩ := by
  constructor
  · unfold ucg
    simp only [hf, hg, if_true]
    rw [show (⟨(0 : ℂ).re - (0 : ℂ).im, (0 : ℂ).im + (0 : ℂ).re⟩ : ℂ) = 0 by apply Complex.ext <;> simp, mul_zero]
  · unfold qg extinction umod upmod
    simp only [hf, hg, if_true, norm_zero, mul_zero, abs_zero, lt_irrefl, if_false, Complex.zero_im, Complex.zero_re]
    have : atan2 0 0 = 0 := by
      unfold atan2
      exact Complex.arg_zero
    rw [this]
    apply Complex.ext <;> norm_num

/-- C127 fails without absorption: the phase, and already the sign, of the coefficients is lost: whatever the structure factor, the
entry is its modulus.  For one atom at `(1/2, 0, 0)` the coefficient of 100 is negative and the entry positive. -/
theorem C127_phase_fails (sf : ScatterFactor) (c : Crystal) (hc : 0 < c.l.dmt.det) (kV : ℝ) (hk : 0 < kV) (shift : Bool) (g : Hkl)
    (hf : ff sf c kV g ≠ 0) :
    qg sf c kV false shift g = ((mlambda sf c kV * ‖ucg sf c kV false g‖ : ℝ) : ℂ) ∧
    (ucg (fun _ _ _ _ => 1) ⟨c.l, c.sg, [⟨28, 1, 0, [![1 / 2, 0, 0]]⟩]⟩ kV false (1, 0, 0)).re < 0 ∧
    0 < (qg (fun _ _ _ _ => 1) ⟨c.l, c.sg, [⟨28, 1, 0, [![1 / 2, 0, 0]]⟩]⟩ kV false shift (1, 0, 0)).re := by
  have hl := mlambda_pos sf c hc kV hk
  have hkp := coeff_pos c hc
  have gen : ∀ (sf : ScatterFactor) (c : Crystal), 0 < c.l.dmt.det → ff sf c kV g ≠ 0 →
      qg sf c kV false shift g = ((mlambda sf c kV * ‖ucg sf c kV false g‖ : ℝ) : ℂ) := by
    intro sf c hc hf
    have hl := mlambda_pos sf c hc kV hk
    have hkp := coeff_pos c hc
    have hn : 0 < ‖ff sf c kV g‖ := norm_pos_iff.mpr hf
    have hp : 0 < preg * (pref c * ‖ff sf c kV g‖) := by
      have := mul_pos hkp hn
      linarith
    unfold qg ucg extinction umod
    simp only [Bool.false_eq_true, if_false]
    rw [if_pos (abs_pos.mpr hp.ne'), abs_of_pos hp, norm_mul, Complex.norm_real, Real.norm_of_nonneg hkp.le]
    apply Complex.ext
    · simp only [Complex.ofReal_re]
      field_simp
    · simp
  have hf1 : ff (fun _ _ _ _ => 1) ⟨c.l, c.sg, [⟨28, 1, 0, [![1 / 2, 0, 0]]⟩]⟩ kV (1, 0, 0) = -1 := by
    unfold ff p1 factor hklDot
    simp
    rw [show -(2 * Complex.I * (Real.pi : ℂ) * 2⁻¹) = -(Real.pi * Complex.I) by ring, Complex.exp_neg, Complex.exp_pi_mul_I]
    norm_num
  refine ⟨gen sf c hc hf, ?_, ?_⟩
  · unfold ucg
    simp only [Bool.false_eq_true, if_false, hf1]
    have : 0 < pref (⟨c.l, c.sg, [⟨28, 1, 0, [![1 / 2, 0, 0]]⟩]⟩ : Crystal) * preg := hkp
    simp only [mul_neg, mul_one, Complex.neg_re, Complex.ofReal_re]
    linarith
  · have hl1 := mlambda_pos (fun _ _ _ _ => 1) ⟨c.l, c.sg, [⟨28, 1, 0, [![1 / 2, 0, 0]]⟩]⟩ hc kV hk
    have hp : 0 < preg * (pref (⟨c.l, c.sg, [⟨28, 1, 0, [![1 / 2, 0, 0]]⟩]⟩ : Crystal) * 1) := by
      have : 0 < pref (⟨c.l, c.sg, [⟨28, 1, 0, [![1 / 2, 0, 0]]⟩]⟩ : Crystal) * preg := hkp
      linarith
    unfold qg extinction umod
    simp only [Bool.false_eq_true, if_false, hf1, norm_neg, norm_one]
    rw [if_pos (abs_pos.mpr hp.ne')]
    positivity

/-- C127: any other name of the scattering factors is refused. -/
theorem C127_rejects (mem : ℤ → ℂ) (sfs : String → ScatterFactor) (name : String) (c : Crystal) (dmin kV : ℝ) (ab shift : Bool)
    (h : name ≠ "WK" ∧ name ≠ "Hybrid") : ∀ s, scatMatrix mem sfs name c dmin kV ab shift ≠ .ok s := by
  intro s hs
  unfold scatMatrix at hs
  cases hd : diffs c dmin with
  | error e => rw [hd] at hs; cases hs
  | ok ds =>
    rw [hd] at hs
    simp only [Except.bind] at hs
    rw [if_pos h] at hs; cases hs

/-- The hypotheses are met: on the concrete crystal the code returns a matrix, with elastic and absorptive factors that do not vanish. -/
example (mem : ℤ → ℂ) (shift : Bool) : ∃ s, scatMatrix mem (fun _ _ Z _ _ => ⟨Z, 1⟩) "WK" demo 0.4 20 true shift = .ok s ∧
    0 < demo.l.dmt.det ∧ ff (fun _ Z _ _ => ⟨Z, 1⟩) demo 20 (0, 0, 0) ≠ 0 ∧ gg (fun _ Z _ _ => ⟨Z, 1⟩) demo 20 (0, 0, 0) ≠ 0 := by
  obtain ⟨gs, ds, h1, h2⟩ := demo_tables
  have hs : ∃ s, scatMatrix mem (fun _ _ Z _ _ => ⟨Z, 1⟩) "WK" demo 0.4 20 true shift = .ok s := by
    unfold scatMatrix
    rw [h1, h2]
    exact ⟨_, rfl⟩
  obtain ⟨s, hs⟩ := hs
  refine ⟨s, hs, demo_det, ?_, ?_⟩
  · unfold ff p1 factor hklDot demo; simp; norm_num
  · unfold gg p1 factor hklDot demo; simp

/-- An extinct reflection: two equal atoms at the origin and at (1/2, 0, 0), reflection 100. -/
example (kV : ℝ) : ff (fun _ _ _ _ => ⟨1, 1⟩) ⟨cubicCell, 221, [⟨28, 1, 0, [![0, 0, 0], ![1 / 2, 0, 0]]⟩]⟩ kV (1, 0, 0) = 0 ∧
    gg (fun _ _ _ _ => ⟨1, 1⟩) ⟨cubicCell, 221, [⟨28, 1, 0, [![0, 0, 0], ![1 / 2, 0, 0]]⟩]⟩ kV (1, 0, 0) = 0 := by
  have e : Complex.exp (-(2 * Complex.I * (Real.pi : ℂ) * 2⁻¹)) = -1 := by
    rw [show -(2 * Complex.I * (Real.pi : ℂ) * 2⁻¹) = -(Real.pi * Complex.I) by ring, Complex.exp_neg, Complex.exp_pi_mul_I]
    norm_num
  constructor
  · unfold ff p1 factor hklDot; simp [e]
  · unfold gg p1 factor hklDot; simp [e]

end Verif.Diff
