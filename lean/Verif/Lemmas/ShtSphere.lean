import Verif.Lemmas.ShtRows
import Verif.Lemmas.Fft
/-!
The Fourier part of the transforms, and the link with the spherical harmonics.
-/
namespace Verif.Sht
open Verif.Wigner Verif.Wigner.Rep Verif.Spec Verif.Fft Finset

/-! ### Spherical harmonics -/

theorem wignerD_legendre (l n : ℕ) (h : n ≤ l) (θ : ℝ) (hs : Real.sin θ ≠ 0) :
    wignerD l 0 n θ = Real.sqrt ((l - n).factorial / (l + n).factorial) * assocLegendre l n θ := by
  have h1 := rod_wigner' l (l + n) (by omega) θ
  rw [show ((l + n : ℕ) : ℤ) - l = n by push_cast; ring, pow_add, mul_assoc, mul_left_comm] at h1
  have hp : (Real.sin θ / 2) ^ l ≠ 0 := by positivity
  have h2 := mul_left_cancel₀ hp h1
  rw [h2]
  unfold rodA nrm assocLegendre
  rw [show 2 * l - (l + n) = l - n by omega, show 2 * l - l = l by omega]
  have e : Real.sqrt ((l.factorial : ℝ) * l.factorial / ((l + n).factorial * (l - n).factorial))
      = l.factorial / (l - n).factorial * Real.sqrt ((l - n).factorial / (l + n).factorial) := by
    have : ((l.factorial : ℝ) * l.factorial / ((l + n).factorial * (l - n).factorial))
        = ((l.factorial : ℝ) / (l - n).factorial) ^ 2 * ((l - n).factorial / (l + n).factorial) := by
      field_simp
    rw [this, Real.sqrt_mul (by positivity), Real.sqrt_sq (by positivity)]
  rw [e, div_pow, show (2 : ℝ) ^ l = 2 ^ (l - n) * 2 ^ n by rw [← pow_add]; congr 1; omega]
  field_simp

theorem zpow_sgn (m : ℤ) : (-1 : ℝ) ^ m = sgnPow m := by
  unfold sgnPow
  by_cases h : m % 2 = 0
  · rw [if_pos h, Even.neg_one_zpow (Int.even_iff.2 h)]
  · rw [if_neg h, Odd.neg_one_zpow (Int.odd_iff.2 (by omega))]

theorem pow_sgn (n : ℕ) : (-1 : ℝ) ^ n = sgnPow n := by
  rw [← zpow_sgn, zpow_natCast]

/-- The spherical harmonics through Wigner's matrices. -/
theorem sphY_wigner (l : ℕ) (m : ℤ) (hm : |m| ≤ l) (θ φ : ℝ) (hs : Real.sin θ ≠ 0) :
    sphY l m θ φ = ((sgnPow m * Real.sqrt ((2 * l + 1) / (4 * Real.pi)) * wignerD l 0 m θ : ℝ) : ℂ) * Complex.exp (m * φ * Complex.I) := by
  have pos : ∀ n : ℕ, n ≤ l → sphYpos l n θ φ = ((sgnPow n * Real.sqrt ((2 * l + 1) / (4 * Real.pi)) * wignerD l 0 n θ : ℝ) : ℂ)
      * Complex.exp (n * φ * Complex.I) := by
    intro n hn
    unfold sphYpos
    congr 2
    rw [wignerD_legendre l n hn θ hs, Real.sqrt_mul (by have := Real.pi_pos; positivity), pow_sgn]
    ring
  rw [Int.abs_eq_natAbs] at hm
  unfold sphY
  by_cases h : 0 ≤ m
  · rw [if_pos h, pos _ (by omega)]
    have e : ((m.toNat : ℕ) : ℤ) = m := by omega
    have e2 : ((m.toNat : ℕ) : ℂ) = (m : ℂ) := by rw [← Int.cast_natCast, e]
    rw [e, e2]
  · rw [if_neg h, pos _ (by omega)]
    have e : ((m.natAbs : ℕ) : ℤ) = -m := by omega
    have e2 : ((m.natAbs : ℕ) : ℂ) = -(m : ℂ) := by rw [← Int.cast_natCast, e, Int.cast_neg]
    have e3 : ((-1 : ℂ)) ^ m.natAbs = ((sgnPow m : ℝ) : ℂ) := by
      have : ((-1 : ℝ)) ^ m.natAbs = sgnPow m := by
        rw [pow_sgn, e, sgnPow_congr (b := m) (by omega)]
      rw [← this]; push_cast; rfl
    rw [map_mul, Complex.conj_ofReal, e, e2, e3, ← Complex.exp_conj, wignerD_row_neg, sgnPow_congr (a := -m) (b := m) (by omega)]
    have e4 : (starRingEnd ℂ) (-(m : ℂ) * φ * Complex.I) = m * φ * Complex.I := by
      simp
    rw [e4]
    have hq : ((sgnPow m : ℝ) : ℂ) * ((sgnPow m : ℝ) : ℂ) = 1 := by rw [← Complex.ofReal_mul, sgnPow_sq]; simp
    push_cast
    linear_combination (((Real.sqrt ((2 * l + 1) / (4 * Real.pi)) : ℝ) : ℂ) * ((sgnPow m : ℝ) : ℂ) * ((wignerD l 0 m θ : ℝ) : ℂ)
      * Complex.exp (m * φ * Complex.I)) * hq

theorem cis_phi (B j : ℕ) (hB : 0 < B) (m : ℤ) : cis ((m : ℝ) * j / (2 * B : ℕ)) = Complex.exp (m * ((gridDH B j 0).1 : ℝ) * Complex.I) := by
  unfold cis gridDH
  congr 2
  have : (B : ℂ) ≠ 0 := by exact_mod_cast hB.ne'
  push_cast
  field_simp

theorem gridDH_eq (B j k : ℕ) : gridDH B j k = ((gridDH B j 0).1, theta B k) := by
  unfold gridDH theta; rfl

/-- A spherical harmonic at a grid point. -/
theorem sphY_grid (L l j k : ℕ) (hl : l < L) (hk : k < 2 * L) (m : ℤ) (hm : |m| ≤ l) :
    sphY l m (gridDH L j k).2 (gridDH L j k).1 =
      ((sgnPow m * (1 / Real.sqrt (2 * Real.pi)) * pExact L l m k : ℝ) : ℂ) * cis ((m : ℝ) * j / (2 * L : ℕ)) := by
  rw [gridDH_eq]
  simp only
  rw [sphY_wigner l m hm _ _ (sin_theta_ne L k hk), cis_phi L j (by omega), pExact_eq L l hl m hm]
  congr 2
  have hpi := Real.pi_pos
  have : Real.sqrt ((2 * l + 1) / (4 * Real.pi)) = 1 / Real.sqrt (2 * Real.pi) * Real.sqrt ((2 * l + 1) / 2) := by
    rw [← Real.sqrt_one, ← Real.sqrt_div (by norm_num), ← Real.sqrt_mul (by positivity)]
    congr 1
    field_simp
    ring
  rw [this]; ring

/-! ### The Fourier part -/

theorem cis_period (N : ℕ) (hN : 0 < N) (j : ℕ) {a b : ℤ} (h : (N : ℤ) ∣ a - b) : cis ((a : ℝ) * j / N) = cis ((b : ℝ) * j / N) := by
  obtain ⟨q, hq⟩ := h
  have hN' : (N : ℝ) ≠ 0 := by positivity
  have e : (a : ℝ) * j / N = (b : ℝ) * j / N + ((q * j : ℤ) : ℝ) := by
    have : (a : ℝ) = b + N * q := by
      have : a = b + N * q := by linarith
      exact_mod_cast this
    rw [this]; push_cast; field_simp
  rw [e, cis_add, cis_eq_one.mpr ⟨_, rfl⟩, mul_one]

/-- Rolling by half the (even) size. -/
theorem sum_roll (L : ℕ) (f : ℕ → ℂ) : ∑ r ∈ range (2 * L), f ((r + L) % (2 * L)) = ∑ r ∈ range (2 * L), f r := by
  rw [two_mul, sum_range_add, sum_range_add]
  rw [add_comm]
  congr 1
  · apply sum_congr rfl; intro r hr
    rw [mem_range] at hr
    congr 1
    rw [show L + r + L = r + (L + L) by ring, Nat.add_mod_right, Nat.mod_eq_of_lt (by omega)]
  · apply sum_congr rfl; intro r hr
    rw [mem_range] at hr
    congr 1
    rw [Nat.mod_eq_of_lt (by omega), add_comm]

/-- The inverse transform in azimuth. -/
theorem ifft_part (L : ℕ) (hL : 0 < L) (p : ℕ → ℕ → ℂ) (j k : ℕ) :
    ifftRows (2 * L) (unshiftRows (2 * L) fun i k => if i = 0 then 0 else p (i - 1) k) j k =
      ∑ i ∈ range (2 * L - 1), p i k * cis ((((i : ℤ) - ((L - 1 : ℕ) : ℤ) : ℤ) : ℝ) * j / (2 * L : ℕ)) := by
  unfold ifftRows unshiftRows
  rw [show 2 * L / 2 = L by omega]
  have e : ∀ r ∈ range (2 * L), (if (r + L) % (2 * L) = 0 then 0 else p ((r + L) % (2 * L) - 1) k) * cis ((r : ℝ) * j / (2 * L : ℕ))
      = (fun s : ℕ => (if s = 0 then 0 else p (s - 1) k) * cis ((((s : ℤ) - L : ℤ) : ℝ) * j / (2 * L : ℕ))) ((r + L) % (2 * L)) := by
    intro r hr
    simp only
    congr 1
    have := cis_period (2 * L) (by omega) j (a := (r : ℤ)) (b := (((r + L) % (2 * L) : ℕ) : ℤ) - L) (by
      have : (((r + L) % (2 * L) : ℕ) : ℤ) = ((r + L : ℕ) : ℤ) % ((2 * L : ℕ) : ℤ) := by push_cast; rfl
      rw [this, show (r : ℤ) - (((r + L : ℕ) : ℤ) % ((2 * L : ℕ) : ℤ) - L) = ((r + L : ℕ) : ℤ) - ((r + L : ℕ) : ℤ) % ((2 * L : ℕ) : ℤ) by push_cast; ring]
      exact Int.dvd_self_sub_emod)
    rw [← this]; simp
  rw [sum_congr rfl e, sum_roll L (fun s => (if s = 0 then 0 else p (s - 1) k) * cis ((((s : ℤ) - L : ℤ) : ℝ) * j / (2 * L : ℕ)))]
  obtain ⟨N, hN⟩ : ∃ N, 2 * L = N + 1 := ⟨2 * L - 1, by omega⟩
  have hN' : 2 * L - 1 = N := by omega
  rw [hN']
  have : ∑ r ∈ range (2 * L), (fun s : ℕ => (if s = 0 then 0 else p (s - 1) k) * cis ((((s : ℤ) - L : ℤ) : ℝ) * j / (2 * L : ℕ))) r
    = ∑ r ∈ range (N + 1), (fun s : ℕ => (if s = 0 then 0 else p (s - 1) k) * cis ((((s : ℤ) - L : ℤ) : ℝ) * j / (2 * L : ℕ))) r := by rw [hN]
  rw [this, sum_range_succ']
  simp only [if_true, zero_mul, add_zero]
  apply sum_congr rfl
  intro i _
  rw [if_neg (by omega), Nat.add_sub_cancel]
  congr 5
  push_cast [Nat.cast_sub (show 1 ≤ L by omega)]
  ring

/-- The transform in azimuth of samples `q`. -/
theorem fft_part (L : ℕ) (hL : 0 < L) (q : ℕ → ℕ → ℂ) (i k : ℕ) :
    shiftRows (2 * L) (fftRows (2 * L) q) (i + 1) k =
      (∑ j ∈ range (2 * L), q j k * cis (-((((i : ℤ) - ((L - 1 : ℕ) : ℤ) : ℤ) : ℝ) * j / (2 * L : ℕ)))) / (2 * L : ℕ) := by
  unfold shiftRows fftRows
  rw [show 2 * L - 2 * L / 2 = L by omega]
  congr 1
  apply sum_congr rfl
  intro j _
  congr 1
  have := cis_period (2 * L) (by omega) j (a := (((i + 1 + L) % (2 * L) : ℕ) : ℤ)) (b := (i : ℤ) - ((L - 1 : ℕ) : ℤ)) (by
      have e : (((i + 1 + L) % (2 * L) : ℕ) : ℤ) = ((i + 1 + L : ℕ) : ℤ) % ((2 * L : ℕ) : ℤ) := by push_cast; rfl
      have e2 : (i : ℤ) - ((L - 1 : ℕ) : ℤ) = ((i + 1 + L : ℕ) : ℤ) - ((2 * L : ℕ) : ℤ) := by push_cast [Nat.cast_sub (show 1 ≤ L by omega)]; ring
      rw [e, e2, show ((i + 1 + L : ℕ) : ℤ) % ((2 * L : ℕ) : ℤ) - (((i + 1 + L : ℕ) : ℤ) - ((2 * L : ℕ) : ℤ))
        = ((2 * L : ℕ) : ℤ) - (((i + 1 + L : ℕ) : ℤ) - ((i + 1 + L : ℕ) : ℤ) % ((2 * L : ℕ) : ℤ)) by ring]
      exact dvd_sub (dvd_refl _) Int.dvd_self_sub_emod)
  rw [Int.cast_natCast] at this
  rw [← cis_conj, ← cis_conj, ← this]

/-- Fourier coefficients of a trigonometric sum. -/
theorem cis_coeff (N : ℕ) (hN : 0 < N) (a b : ℤ) :
    (∑ j ∈ range N, cis ((a : ℝ) * j / N) * cis (-((b : ℝ) * j / N))) / N = if (N : ℤ) ∣ a - b then 1 else 0 := by
  have e : ∀ j ∈ range N, cis ((a : ℝ) * j / N) * cis (-((b : ℝ) * j / N)) = cis ((j : ℝ) * ((a - b : ℤ) : ℝ) / N) := by
    intro j _
    rw [← cis_add]; congr 1; push_cast; ring
  rw [sum_congr rfl e, sum_cis N hN]
  have : (N : ℂ) ≠ 0 := by exact_mod_cast hN.ne'
  split_ifs
  · field_simp
  · simp

/-! ### Real and imaginary part together -/

theorem fdlt_complex {d : Dlt} {L off : ℕ} (hd : IsDlt d L off) (x : ℕ → ℕ → ℂ) (i l : ℕ) (hi : i < d.rows) (hl : l < L) :
    onParts (fdlt d) x i l = if |(i : ℤ) - off| ≤ l then
      (d.Cm i : ℂ) * ∑ k ∈ range (2 * L), ((dltWeightsDH L k * pKept L l ((i : ℤ) - off) k : ℝ) : ℂ) * x i k else 0 := by
  unfold onParts
  rw [fdlt_row hd _ i l hi hl, fdlt_row hd _ i l hi hl]
  split_ifs
  · apply Complex.ext
    · rw [Complex.re_ofReal_mul, Complex.re_sum]
      simp only [Complex.re_ofReal_mul]
      congr 1
      exact sum_congr rfl fun k _ => by ring
    · rw [Complex.im_ofReal_mul, Complex.im_sum]
      simp only [Complex.im_ofReal_mul]
      congr 1
      exact sum_congr rfl fun k _ => by ring
  · rfl

theorem idlt_complex {d : Dlt} {L off : ℕ} (hd : IsDlt d L off) (x : ℕ → ℕ → ℂ) (i k : ℕ) (hi : i < d.rows) (hk : k < 2 * L) :
    onParts (idlt d) x i k = (d.iCm i : ℂ) * ∑ l ∈ range L,
      if |(i : ℤ) - off| ≤ l then (pKept L l ((i : ℤ) - off) k : ℂ) * x i l else 0 := by
  unfold onParts
  rw [idlt_row hd _ i k hi hk, idlt_row hd _ i k hi hk]
  apply Complex.ext
  · rw [Complex.re_ofReal_mul, Complex.re_sum]
    simp only
    congr 1
    apply sum_congr rfl; intro l _
    split_ifs
    · rw [Complex.re_ofReal_mul, mul_comm]
    · rfl
  · rw [Complex.im_ofReal_mul, Complex.im_sum]
    simp only
    congr 1
    apply sum_congr rfl; intro l _
    split_ifs
    · rw [Complex.im_ofReal_mul, mul_comm]
    · rfl

theorem Cm_ne {d : Dlt} {L off : ℕ} (hd : IsDlt d L off) (i : ℕ) : d.Cm i ≠ 0 := by
  rw [hd.Cm]
  have := Real.pi_pos
  have : Real.sqrt (2 * Real.pi) ≠ 0 := by positivity
  exact mul_ne_zero (zpow_ne_zero _ (by norm_num)) this

theorem iCm_eq {d : Dlt} {L off : ℕ} (hd : IsDlt d L off) (i : ℕ) : d.iCm i = sgnPow ((i : ℤ) - off) * (1 / Real.sqrt (2 * Real.pi)) := by
  rw [hd.iCm, hd.Cm, zpow_sgn]
  unfold sgnPow
  split_ifs <;> ring

theorem iCm_abs {d : Dlt} {L off : ℕ} (hd : IsDlt d L off) (i : ℕ) : |d.iCm i| ≤ 1 := by
  rw [iCm_eq hd, abs_mul]
  have h1 : |sgnPow ((i : ℤ) - off)| = 1 := by unfold sgnPow; split_ifs <;> norm_num
  have h2 : 1 ≤ Real.sqrt (2 * Real.pi) := by
    rw [Real.one_le_sqrt]
    have := Real.pi_gt_three
    linarith
  rw [h1, one_mul, abs_of_nonneg (by positivity), div_le_one (by linarith)]
  exact h2

end Verif.Sht
