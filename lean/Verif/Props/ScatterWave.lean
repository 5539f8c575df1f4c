import Mathlib.Analysis.Complex.Exponential
import Mathlib.Analysis.Complex.ExponentialBounds
import Verif.Spec.Codata
import Verif.Props.ScatterOptical
/-!
C143: the electron wavelength, wave number and mass ratio of the scattering factors; C142 for the hybrid factors.
-/
namespace Verif.Scat
open Real Spec Spec.Scatter

theorem exp_const : (12.26425845 : ℝ) ^ 2 ≤ exp (2 * 2.5066892156586356) ∧ exp (2 * 2.5066892156586356) ≤ 12.26425846 ^ 2 := by
  have h := Real.exp_bound (x := 0.62667230391465890) (by rw [abs_of_pos (by norm_num)]; norm_num) (n := 14) (by norm_num)
  rw [abs_of_pos (by norm_num : (0 : ℝ) < 0.62667230391465890)] at h
  simp only [Finset.sum_range_succ, Finset.sum_range_zero, Nat.factorial] at h
  have e : exp (2 * 2.5066892156586356) = exp 0.62667230391465890 ^ 8 := by
    rw [← exp_nat_mul]; congr 1; norm_num
  rw [e]
  obtain ⟨h1, h2⟩ := abs_le.mp h
  have l : (1.87137284625 : ℝ) ≤ exp 0.62667230391465890 := by
    norm_num at h1 ⊢; linarith
  have u : exp 0.62667230391465890 ≤ (1.87137284632 : ℝ) := by
    norm_num at h2 ⊢; linarith
  constructor
  · refine le_trans ?_ (pow_le_pow_left₀ (by norm_num) l 8)
    norm_num
  · refine le_trans (pow_le_pow_left₀ (exp_pos _).le u 8) ?_
    norm_num


theorem lam_sq {ψ : ℝ} (h : 0 < ψ) : (10 * Codata.wavelengthNm ψ) ^ 2 = (1e10 * Codata.h) ^ 2 / (2 * Codata.m * Codata.e) / ψ := by
  unfold Codata.wavelengthNm
  have : 0 < 2 * Codata.m * Codata.e := by unfold Codata.m Codata.e; norm_num
  rw [mul_pow, div_pow, Real.sq_sqrt (by positivity), ← div_div]
  ring

theorem lam_pos {ψ : ℝ} (h : 0 < ψ) : 0 < Codata.wavelengthNm ψ := by
  have : 0 < 2 * Codata.m * Codata.e := by unfold Codata.m Codata.e; norm_num
  have h1 : 0 < Codata.h := by unfold Codata.h; norm_num
  unfold Codata.wavelengthNm
  exact div_pos (by positivity) (Real.sqrt_pos.2 (by positivity))

theorem code_sq {E : ℝ} (hE : 0 < E) : wavelength E ^ 2 = exp (2 * 2.5066892156586356) / (E * (1 + E * 9.7847589066012e-07)) := by
  unfold wavelength
  have h1 : (0 : ℝ) < 1 + E * 9.7847589066012e-07 := by positivity
  rw [← exp_nat_mul]
  have e : ((2 : ℕ) : ℝ) * (2.5066892156586356 - 0.5 * log E - 0.5 * log (1 + E * 9.7847589066012e-07)) =
      2 * 2.5066892156586356 - log (E * (1 + E * 9.7847589066012e-07)) := by
    rw [log_mul hE.ne' h1.ne']; push_cast; ring
  rw [e, exp_sub, exp_log (by positivity)]

theorem pot_pos {E : ℝ} (hE : 0 < E) : 0 < Codata.potential E := by
  have : 0 < Codata.e / (2 * Codata.m * Codata.c ^ 2) := by unfold Codata.e Codata.m Codata.c; norm_num
  have h2 : Codata.e * E / (2 * Codata.m * Codata.c ^ 2) = Codata.e / (2 * Codata.m * Codata.c ^ 2) * E := by ring
  unfold Codata.potential
  rw [h2]; positivity

theorem pot_between {E : ℝ} (hE : 0 < E) : Codata.potential E ≤ E * (1 + E * 9.7847589066012e-07) ∧
    E * (1 + E * 9.7847589066012e-07) ≤ Codata.potential E * (1 + 3.06e-7) := by
  have hk : Codata.e / (2 * Codata.m * Codata.c ^ 2) ≤ 9.7847589066012e-07 ∧ 9.7847589066012e-07 ≤ Codata.e / (2 * Codata.m * Codata.c ^ 2) * (1 + 3.06e-7) := by
    unfold Codata.e Codata.m Codata.c; constructor <;> norm_num
  have h2 : Codata.e * E / (2 * Codata.m * Codata.c ^ 2) = Codata.e / (2 * Codata.m * Codata.c ^ 2) * E := by ring
  unfold Codata.potential
  rw [h2]
  generalize Codata.e / (2 * Codata.m * Codata.c ^ 2) = k at hk
  have hEE := mul_pos hE hE
  have p1 := mul_le_mul_of_nonneg_right hk.1 hEE.le
  have p2 := mul_le_mul_of_nonneg_right hk.2 hEE.le
  constructor <;> nlinarith

/-- C143: for every accelerating voltage the electron wavelength returned by `e_wavelength_eV_to_A` agrees with the relativistic de Broglie
wavelength computed from the CODATA 2018 constants to 3 parts in ten million (and is not larger). -/
theorem C143_wavelength (E : ℝ) (hE : 0 < E) :
    10 * Codata.wavelengthNm (Codata.potential E) * (1 - 3e-7) ≤ wavelength E ∧ wavelength E ≤ 10 * Codata.wavelengthNm (Codata.potential E) := by
  have hψ := pot_pos hE
  obtain ⟨b1, b2⟩ := pot_between hE
  have hl := lam_pos hψ
  have hsq := lam_sq hψ
  have hcs := code_sq hE
  have hw : 0 < wavelength E := exp_pos _
  obtain ⟨c1, c2⟩ := exp_const
  have hs : 0 < E * (1 + E * 9.7847589066012e-07) := by positivity
  generalize Codata.wavelengthNm (Codata.potential E) = lam at *
  generalize Codata.potential E = ψ at *
  generalize E * (1 + E * 9.7847589066012e-07) = s at *
  have hC : (12.26425846 : ℝ) ^ 2 ≤ (1e10 * Codata.h) ^ 2 / (2 * Codata.m * Codata.e) ∧
      (1e10 * Codata.h) ^ 2 / (2 * Codata.m * Codata.e) * ((1 - 3e-7) ^ 2 * (1 + 3.06e-7)) ≤ 12.26425845 ^ 2 := by
    unfold Codata.h Codata.m Codata.e; constructor <;> norm_num
  generalize (1e10 * Codata.h) ^ 2 / (2 * Codata.m * Codata.e) = C at *
  have hC0 : 0 < C := lt_of_lt_of_le (by norm_num) hC.1
  constructor
  · refine abs_le_of_sq_le_sq' ?_ hw.le |>.2
    rw [mul_pow, hsq, hcs, div_mul_eq_mul_div, div_le_div_iff₀ hψ hs]
    calc C * (1 - 3e-7) ^ 2 * s ≤ C * (1 - 3e-7) ^ 2 * (ψ * (1 + 3.06e-7)) := mul_le_mul_of_nonneg_left b2 (by positivity)
      _ = C * ((1 - 3e-7) ^ 2 * (1 + 3.06e-7)) * ψ := by ring
      _ ≤ 12.26425845 ^ 2 * ψ := mul_le_mul_of_nonneg_right hC.2 hψ.le
      _ ≤ _ := mul_le_mul_of_nonneg_right c1 hψ.le
  · refine abs_le_of_sq_le_sq' ?_ (by positivity) |>.2
    rw [hsq, hcs, div_le_div_iff₀ hs hψ]
    exact mul_le_mul (c2.trans hC.1) b1 hψ.le hC0.le

/-- the wave number of the code against the one of the CODATA wavelength -/
theorem wavenumber_between (V : ℝ) (hV : 0 < V) (hV' : V ≤ 3000) :
    let k := 2 * π / (10 * Codata.wavelengthNm (Codata.potential (1000 * V)))
    k * (1 + 4e-5) ≤ 0.5068 * sqrt (1022 * V + V * V) ∧ 0.5068 * sqrt (1022 * V + V * V) ≤ k * (1 + 7e-5) := by
  intro k
  have hψ := pot_pos (show 0 < 1000 * V by positivity)
  have hl := lam_pos hψ
  have hsq := lam_sq hψ
  have hk : 0 < k := by positivity
  have hk2 : k ^ 2 = 4 * π ^ 2 * Codata.potential (1000 * V) / ((1e10 * Codata.h) ^ 2 / (2 * Codata.m * Codata.e)) := by
    have : k ^ 2 = 4 * π ^ 2 / (10 * Codata.wavelengthNm (Codata.potential (1000 * V))) ^ 2 := by
      simp only [k]; rw [div_pow]; ring
    rw [this, hsq, div_div_eq_mul_div]
  have hc2 : (0.5068 * sqrt (1022 * V + V * V)) ^ 2 = 0.5068 ^ 2 * (1022 * V + V * V) := by
    rw [mul_pow, sq_sqrt (by positivity)]
  have e : Codata.potential (1000 * V) = 1000 * V + 1000000 * (Codata.e / (2 * Codata.m * Codata.c ^ 2)) * (V * V) := by
    unfold Codata.potential; ring
  have hkk : 9.78475591e-07 ≤ Codata.e / (2 * Codata.m * Codata.c ^ 2) ∧ Codata.e / (2 * Codata.m * Codata.c ^ 2) ≤ 9.78475592e-07 := by
    unfold Codata.e Codata.m Codata.c; constructor <;> norm_num
  have hC : 150.4120650 ≤ (1e10 * Codata.h) ^ 2 / (2 * Codata.m * Codata.e) ∧ (1e10 * Codata.h) ^ 2 / (2 * Codata.m * Codata.e) ≤ 150.4120651 := by
    unfold Codata.h Codata.m Codata.e; constructor <;> norm_num
  have hVV := mul_pos hV hV
  have hVV' : V * V ≤ 3000 * V := mul_le_mul_of_nonneg_right hV' hV.le
  have hp1 : (3.1415926 : ℝ) < π := lt_trans (by norm_num) Real.pi_gt_d20
  have hp2 : π < 3.1415927 := lt_trans Real.pi_lt_d20 (by norm_num)
  have hpi1 : (9.869604 : ℝ) ≤ π ^ 2 := le_trans (by norm_num) (pow_le_pow_left₀ (by norm_num) hp1.le 2)
  have hpi2 : π ^ 2 ≤ (9.869605 : ℝ) := (pow_le_pow_left₀ pi_pos.le hp2.le 2).trans (by norm_num)
  rw [e] at hk2
  generalize Codata.e / (2 * Codata.m * Codata.c ^ 2) = β at *
  generalize (1e10 * Codata.h) ^ 2 / (2 * Codata.m * Codata.e) = C at *
  have hC0 : 0 < C := lt_of_lt_of_le (by norm_num) hC.1
  have hψ1 : 1000 * V + 1000000 * β * (V * V) ≤ 1000 * V + 1000000 * 9.78475592e-07 * (V * V) := by
    have := mul_le_mul_of_nonneg_right hkk.2 hVV.le
    linarith
  have hψ2 : 1000 * V + 1000000 * 9.78475591e-07 * (V * V) ≤ 1000 * V + 1000000 * β * (V * V) := by
    have := mul_le_mul_of_nonneg_right hkk.1 hVV.le
    linarith
  have hψ0 : 0 < 1000 * V + 1000000 * 9.78475591e-07 * (V * V) := by positivity
  generalize 1000 * V + 1000000 * β * (V * V) = ψ at *
  have hψ' : 0 < ψ := lt_of_lt_of_le hψ0 hψ2
  constructor
  · refine abs_le_of_sq_le_sq' ?_ (by positivity) |>.2
    rw [hc2, mul_pow, hk2, div_mul_eq_mul_div, div_le_iff₀ hC0]
    have a1 : 4 * π ^ 2 * ψ ≤ 4 * 9.869605 * ψ := by
      have := mul_le_mul_of_nonneg_right hpi2 hψ'.le
      linarith
    have a2 : 0.5068 ^ 2 * (1022 * V + V * V) * 150.4120650 ≤ 0.5068 ^ 2 * (1022 * V + V * V) * C :=
      mul_le_mul_of_nonneg_left hC.1 (by positivity)
    have a3 := mul_le_mul_of_nonneg_right a1 (by norm_num : (0 : ℝ) ≤ (1 + 4e-5) ^ 2)
    norm_num at *
    nlinarith
  · refine abs_le_of_sq_le_sq' ?_ (by positivity) |>.2
    rw [hc2, mul_pow, hk2, div_mul_eq_mul_div, le_div_iff₀ hC0]
    have a1 : 4 * 9.869604 * ψ ≤ 4 * π ^ 2 * ψ := by
      have := mul_le_mul_of_nonneg_right hpi1 hψ'.le
      linarith
    have a2 : 0.5068 ^ 2 * (1022 * V + V * V) * C ≤ 0.5068 ^ 2 * (1022 * V + V * V) * 150.4120651 :=
      mul_le_mul_of_nonneg_left hC.2 (by positivity)
    have a3 := mul_le_mul_of_nonneg_right a1 (by norm_num : (0 : ℝ) ≤ (1 + 7e-5) ^ 2)
    norm_num at *
    nlinarith

/-- C143, the wave number in `scatter_factor_WK` (per angstrom, voltage in kV): the forward absorption it returns is the one of the optical
theorem at a wave number that exceeds the one of the CODATA wavelength by 4 to 7 parts in a hundred thousand, at every voltage up to 3000 kV. -/
theorem C143_wavenumber (Z : ℤ) (h1 : 1 ≤ Z) (h2 : Z ≤ 98) (σ V : ℝ) (hσ : σ ≠ 0) (hV : 0 < V) (hV' : V ≤ 3000) :
    let row := wkRow (Z - 1).toNat
    let k0 := 2 * π / (10 * Codata.wavelengthNm (Codata.potential (1000 * V)))
    ∃ out k, scatterWK wkRow false true "EMsoft" [0] [Z] [σ] [V] = some out ∧ k0 * (1 + 4e-5) ≤ k ∧ k ≤ k0 * (1 + 7e-5) ∧
      (out.at_ 0 0 0).im = some (opticalTheorem k (tdsCrossSection (fun q => wkExact row.A row.B (q / (4 * π))) σ (massRatio V) k)) := by
  intro row k0
  obtain ⟨out, h, hi⟩ := C142_optical Z h1 h2 σ V hσ hV
  obtain ⟨b1, b2⟩ := wavenumber_between V hV hV'
  have e : 1022 * V + V * V = V ^ 2 + 2 * 511 * V := by ring
  rw [e] at b1 b2
  exact ⟨out, _, h, b1, b2, hi⟩

/-- C142 for `scatter_factor_hybrid`: the forward imaginary part with the phonon channel alone is given by the optical theorem, at a wave number
that agrees with the one of the CODATA wavelength to 4 parts in ten million; the clamp at zero has no effect. -/
theorem C142_optical_hybrid (L : ℕ → Lob) (Z : ℤ) (h1 : 1 ≤ Z) (h2 : Z ≤ 98) (σ V : ℝ) (hσ : σ ≠ 0) (hV : 0 < V) :
    let row := wkRow (Z - 1).toNat
    let k0 := 2 * π / (10 * Codata.wavelengthNm (Codata.potential (1000 * V)))
    ∃ out k, scatterHybrid wkRow L false true "EMsoft" [0] [Z] [σ] [V] = some out ∧ k0 ≤ k ∧ k ≤ k0 * (1 + 4e-7) ∧
      (out.at_ 0 0 0).im = some (opticalTheorem k (tdsCrossSection (fun q => wkExact row.A row.B (q / (4 * π))) σ (massRatio V) k)) := by
  intro row k0
  have hB := wk_B_pos h1 h2
  have hany : ¬ ([Z].any fun z => (rowOf 98 z).isNone) = true := by simp [rowOf_valid h1 h2]
  have hE : 0 < 1000 * V := by positivity
  obtain ⟨w1, w2⟩ := C143_wavelength (1000 * V) hE
  have hlp := lam_pos (pot_pos hE)
  have hw : 0 < wavelength (1000 * V) := exp_pos _
  have hk : 0 < 2 * π / wavelength (1000 * V) := by positivity
  refine ⟨_, 2 * π / wavelength (1000 * V), by unfold scatterHybrid; rw [if_neg hany, if_neg (by simp), if_neg (by simp)], ?_, ?_, ?_⟩
  · exact div_le_div_of_nonneg_left (by positivity) hw w2
  · simp only [k0]
    rw [div_mul_eq_mul_div, div_le_div_iff₀ hw (by positivity), mul_assoc (2 * π) (1 + 4e-7)]
    apply mul_le_mul_of_nonneg_left _ (by positivity)
    generalize Codata.wavelengthNm (Codata.potential (1000 * V)) = l at *
    norm_num at *
    nlinarith
  have hr := rowOf_valid h1 h2
  have hM : (0 : ℝ) < 0.5 * σ ^ 2 := by positivity
  simp only [List.getD_cons_zero, hybridEntry, hr, Option.getD_some, if_true, zero_mul]
  generalize 2 * π / wavelength (1000 * V) = k at hk ⊢
  rw [cross_closed _ hB hσ]
  have hnn : 0 ≤ tdsCrossSection (fun q => wkExact row.A row.B (q / (4 * π))) σ (massRatio V) k := by
    unfold tdsCrossSection
    apply div_nonneg _ (sq_nonneg k)
    apply MeasureTheory.setIntegral_nonneg measurableSet_Ioi
    intro q hq
    have hq : 0 < q := hq
    have : debyeWaller σ q ^ 2 ≤ 1 := by
      apply pow_le_one₀ (exp_pos _).le
      exact exp_le_one_iff.mpr (by have : 0 ≤ σ ^ 2 * q ^ 2 / 2 := by positivity
                                   linarith)
    have := sub_nonneg.mpr this
    positivity
  rw [cross_closed _ hB hσ] at hnn
  unfold imagPart fPhon
  simp only [Bool.false_eq_true, if_false, if_true, Option.bind_some]
  rw [if_neg hσ, Option.map_some, Option.map_some, phon_sum expi _ hB hM]
  have e2 : 2 * (0.5 * σ ^ 2) = σ ^ 2 := by ring
  rw [e2]
  unfold opticalTheorem massRatio at *
  rw [zero_mul, zero_add]
  generalize (∑ i : Fin 4, ∑ j : Fin 4, _ : ℝ) = S at *
  congr 1
  have : (V + 511) / 511 = 1 + V / 511 := by ring
  rw [this]
  have e : S * (1 + V / 511) ^ 2 / (4 * π * k) = k * ((1 + V / 511) ^ 2 * S / k ^ 2) / (4 * π) := by field_simp
  rw [e, max_eq_left (by positivity)]

/-- silicon, displacement 0.08, 20 kV -/
example (L : ℕ → Lob) := C142_optical_hybrid L 14 (by norm_num) (by norm_num) 0.08 20 (by norm_num) (by norm_num)
example := C143_wavelength 20000 (by norm_num)
example := C143_wavenumber 14 (by norm_num) (by norm_num) 0.08 20 (by norm_num) (by norm_num) (by norm_num)

end Verif.Scat
