import Verif.Lemmas.ShtSphere
import Verif.Spec.SphereRotation
import Mathlib.MeasureTheory.Integral.IntervalIntegral.FundThmCalculus
/-!
The spherical harmonics are orthonormal on the sphere; the inner product of two band-limited functions is the sum over their
coefficients.
-/
namespace Verif.Sht.Rot
open Verif.Wigner Verif.Wigner.Rep Verif.Spec Verif.Sht Finset Polynomial

theorem row_int_nat (l l' m : ℕ) (hm : m ≤ l') (h : l' ≤ l) :
    ∫ θ in (0 : ℝ)..Real.pi, wignerD l 0 m θ * wignerD l' 0 m θ * Real.sin θ = if l = l' then (2 : ℝ) / (2 * l + 1) else 0 := by
  have e : ∀ θ : ℝ, wignerD l 0 m θ * wignerD l' 0 m θ * Real.sin θ
      = sgnPow m * (rodA l (l - m) * rodA l' (l' + m)) * ((rodrigues l (l - m) * rodrigues l' (l' + m)).eval (Real.cos θ) * Real.sin θ) := by
    intro θ
    by_cases hs : Real.sin θ = 0
    · rw [hs]; ring
    · rw [row_product l l' m (by omega) hm _ hs]; ring
  simp only [e]
  rw [intervalIntegral.integral_const_mul]
  have hi := integ_rod_rod l l' (l - m) (l' + m) (by omega) h (by omega)
  unfold integ at hi
  rw [hi]
  by_cases he : l = l'
  · subst he
    rw [if_pos rfl, if_pos rfl, rodA_mul l m hm]
    have hs : sgnPow (m : ℤ) * (-1) ^ (l - m + l) = 1 := by
      have : (-1 : ℝ) ^ (l - m + l) = sgnPow (((l - m + l : ℕ) : ℤ)) := by
        rw [← neg_one_pow_toNat (by omega)]; rfl
      rw [this, sgnPow_add, sgnPow_congr (b := 0) (by omega)]; simp [sgnPow]
    rw [show sgnPow (m : ℤ) * (1 / ((l.factorial : ℝ) ^ 2 * 2 ^ (2 * l))) * ((-1) ^ (l - m + l) * (2 ^ (2 * l + 1) * (l.factorial : ℝ) ^ 2 / (2 * l + 1)))
      = (sgnPow (m : ℤ) * (-1) ^ (l - m + l)) * (1 / ((l.factorial : ℝ) ^ 2 * 2 ^ (2 * l)) * (2 ^ (2 * l + 1) * (l.factorial : ℝ) ^ 2 / (2 * l + 1))) by ring,
      hs]
    field_simp
    ring
  · rw [if_neg he, if_neg he, mul_zero]

theorem row_int (l l' : ℕ) (m : ℤ) (hm : |m| ≤ l) (hm' : |m| ≤ l') :
    ∫ θ in (0 : ℝ)..Real.pi, wignerD l 0 m θ * wignerD l' 0 m θ * Real.sin θ = if l = l' then (2 : ℝ) / (2 * l + 1) else 0 := by
  have neg : ∀ (l l' : ℕ) (θ : ℝ), wignerD l 0 m θ * wignerD l' 0 m θ = wignerD l 0 m.natAbs θ * wignerD l' 0 m.natAbs θ := by
    intro l l' θ
    rcases Int.natAbs_eq m with h | h
    · rw [← h]
    · have e : (m.natAbs : ℤ) = -m := by omega
      rw [e, wignerD_row_neg, wignerD_row_neg]
      have := sgnPow_sq m
      linear_combination (-(wignerD l 0 m θ * wignerD l' 0 m θ)) * this
  rw [Int.abs_eq_natAbs] at hm hm'
  simp only [neg l l']
  rcases Nat.le_total l' l with h | h
  · exact row_int_nat l l' m.natAbs (by omega) h
  · have := row_int_nat l' l m.natAbs (by omega) h
    simp only [mul_comm (wignerD l' 0 _ _)] at this
    rw [this]
    by_cases he : l = l'
    · rw [if_pos he.symm, if_pos he, he]
    · rw [if_neg (Ne.symm he), if_neg he]

theorem int_exp (k : ℤ) : ∫ φ in (0 : ℝ)..(2 * Real.pi), Complex.exp (k * φ * Complex.I) = if k = 0 then ((2 * Real.pi : ℝ) : ℂ) else 0 := by
  by_cases h : k = 0
  · subst h
    simp
  · rw [if_neg h]
    have hk : ((k : ℂ) * Complex.I) ≠ 0 := mul_ne_zero (Int.cast_ne_zero.2 h) Complex.I_ne_zero
    have := integral_exp_mul_complex (a := 0) (b := 2 * Real.pi) hk
    have e : ∀ φ : ℝ, Complex.exp (k * φ * Complex.I) = Complex.exp (k * Complex.I * φ) := fun φ => by congr 1; ring
    simp only [e]
    rw [this]
    rw [show (k : ℂ) * Complex.I * ((2 * Real.pi : ℝ) : ℂ) = k * (2 * Real.pi * Complex.I) by push_cast; ring, Complex.exp_int_mul_two_pi_mul_I]
    simp

theorem sphY_pair (l l' : ℕ) (m m' : ℤ) (hm : |m| ≤ l) (hm' : |m'| ≤ l') (θ φ : ℝ) :
    sphY l m θ φ * (starRingEnd ℂ) (sphY l' m' θ φ) * Real.sin θ =
      ((sgnPow m * sgnPow m' * (Real.sqrt ((2 * l + 1) / (4 * Real.pi)) * Real.sqrt ((2 * l' + 1) / (4 * Real.pi))) *
        (wignerD l 0 m θ * wignerD l' 0 m' θ * Real.sin θ) : ℝ) : ℂ) * Complex.exp (((m - m' : ℤ) : ℂ) * φ * Complex.I) := by
  by_cases hs : Real.sin θ = 0
  · rw [hs]; simp
  · rw [sphY_wigner l m hm θ φ hs, sphY_wigner l' m' hm' θ φ hs, map_mul, Complex.conj_ofReal, ← Complex.exp_conj]
    simp only [map_mul, Complex.conj_ofReal, Complex.conj_I, map_intCast]
    have : Complex.exp (((m - m' : ℤ) : ℂ) * φ * Complex.I) = Complex.exp (m * φ * Complex.I) * Complex.exp (m' * φ * -Complex.I) := by
      rw [← Complex.exp_add]; congr 1; push_cast; ring
    rw [this]
    push_cast
    ring

/-- Orthonormality. -/
theorem sphY_orth (l l' : ℕ) (m m' : ℤ) (hm : |m| ≤ l) (hm' : |m'| ≤ l') :
    ∫ φ in (0 : ℝ)..(2 * Real.pi), ∫ θ in (0 : ℝ)..Real.pi, sphY l m θ φ * (starRingEnd ℂ) (sphY l' m' θ φ) * Real.sin θ =
      if l = l' ∧ m = m' then 1 else 0 := by
  simp only [sphY_pair l l' m m' hm hm', intervalIntegral.integral_mul_const, intervalIntegral.integral_const_mul, int_exp,
    intervalIntegral.integral_ofReal]
  by_cases h : m = m'
  · subst h
    rw [sub_self, if_pos rfl, row_int l l' m hm hm']
    by_cases hl : l = l'
    · subst hl
      rw [if_pos rfl, if_pos ⟨rfl, rfl⟩, sgnPow_sq, Real.mul_self_sqrt (by positivity), ← Complex.ofReal_mul]
      have := Real.pi_pos
      norm_cast
      field_simp
      norm_num
    · rw [if_neg hl, if_neg (fun h => hl h.1)]; simp
  · rw [if_neg (by omega), if_neg (fun h' => h h'.2)]; simp

theorem sphYpos_continuous (l m : ℕ) : Continuous fun p : ℝ × ℝ => sphYpos l m p.2 p.1 := by
  unfold sphYpos assocLegendre
  have h : Continuous fun p : ℝ × ℝ => (rodrigues l (l + m)).eval (Real.cos p.2) := (rodrigues l (l + m)).continuous.comp (Real.continuous_cos.comp continuous_snd)
  refine Continuous.mul ?_ ?_
  · refine Complex.continuous_ofReal.comp ?_
    refine Continuous.mul continuous_const (Continuous.mul ?_ h)
    fun_prop
  · fun_prop

theorem sphY_continuous (l : ℕ) (m : ℤ) : Continuous fun p : ℝ × ℝ => sphY l m p.2 p.1 := by
  unfold sphY
  by_cases h : 0 ≤ m
  · simp only [if_pos h]; exact sphYpos_continuous _ _
  · simp only [if_neg h]
    exact continuous_const.mul (Complex.continuous_conj.comp (sphYpos_continuous _ _))

theorem int_sum {ι : Type*} (S : Finset ι) (F : ι → ℝ → ℝ → ℂ) (hF : ∀ p, Continuous fun x : ℝ × ℝ => F p x.1 x.2) (a b c d : ℝ) :
    ∫ φ in a..b, ∫ θ in c..d, ∑ p ∈ S, F p φ θ = ∑ p ∈ S, ∫ φ in a..b, ∫ θ in c..d, F p φ θ := by
  have cθ : ∀ p φ, Continuous fun θ : ℝ => F p φ θ := fun p φ => (hF p).comp (continuous_const.prodMk continuous_id)
  have cφ : ∀ p, Continuous fun φ : ℝ => ∫ θ in c..d, F p φ θ := fun p =>
    intervalIntegral.continuous_parametric_intervalIntegral_of_continuous' (hF p) _ _
  have inner : ∀ φ : ℝ, ∫ θ in c..d, ∑ p ∈ S, F p φ θ = ∑ p ∈ S, ∫ θ in c..d, F p φ θ := by
    intro φ
    exact intervalIntegral.integral_finsetSum fun p _ => Continuous.intervalIntegrable (cθ p φ) _ _
  simp only [inner]
  exact intervalIntegral.integral_finsetSum fun p _ => Continuous.intervalIntegrable (cφ p) _ _

/-- **Parseval**: the inner product over the sphere is the sum over the coefficients. -/
theorem sphIntegral_eq (L : ℕ) (f h : ℕ → ℤ → ℂ) :
    sphIntegral (sphField L f) (sphField L h) = sphInner L f h := by
  unfold sphIntegral
  let S : Finset (ℕ × ℤ) := ((range L).sigma fun l => Icc (-(l : ℤ)) l).map ⟨fun p => (p.1, p.2), fun p q h => by
    rw [Prod.mk.injEq] at h; exact Sigma.ext h.1 (heq_of_eq h.2)⟩
  have hsum : ∀ u : ℕ → ℤ → ℂ, ∑ l ∈ range L, ∑ m ∈ Icc (-(l : ℤ)) l, u l m = ∑ p ∈ S, u p.1 p.2 := by
    intro u; rw [sum_map, sum_sigma]; rfl
  have hmem : ∀ p ∈ S, |p.2| ≤ (p.1 : ℤ) := by
    intro p hp
    simp only [S, mem_map, mem_sigma, mem_Icc] at hp
    obtain ⟨q, hq, rfl⟩ := hp
    rw [abs_le]; exact hq.2
  clear_value S
  have e : ∀ φ θ : ℝ, sphField L f θ φ * (starRingEnd ℂ) (sphField L h θ φ) * Real.sin θ =
      ∑ p ∈ S ×ˢ S, f p.1.1 p.1.2 * (starRingEnd ℂ) (h p.2.1 p.2.2) * (sphY p.1.1 p.1.2 θ φ * (starRingEnd ℂ) (sphY p.2.1 p.2.2 θ φ) * Real.sin θ) := by
    intro φ θ
    unfold sphField
    rw [hsum, hsum, map_sum, sum_mul_sum, sum_mul, sum_product]
    apply sum_congr rfl; intro p _
    rw [sum_mul]
    apply sum_congr rfl; intro q _
    rw [map_mul]; ring
  simp only [e]
  rw [int_sum (S ×ˢ S) (fun p φ θ => f p.1.1 p.1.2 * (starRingEnd ℂ) (h p.2.1 p.2.2) * (sphY p.1.1 p.1.2 θ φ * (starRingEnd ℂ) (sphY p.2.1 p.2.2 θ φ) * Real.sin θ))]
  · unfold sphInner
    rw [hsum, sum_product]
    apply sum_congr rfl; intro p hp
    simp only [intervalIntegral.integral_const_mul]
    rw [sum_congr rfl fun q hq => by rw [sphY_orth p.1 q.1 p.2 q.2 (hmem p hp) (hmem q hq)], sum_eq_single p]
    · rw [if_pos ⟨rfl, rfl⟩, mul_one]
    · intro q _ hq
      rw [if_neg, mul_zero]
      rintro ⟨h1, h2⟩
      exact hq (Prod.ext h1.symm h2.symm)
    · intro h; exact absurd hp h
  · intro p
    refine continuous_const.mul (Continuous.mul ((sphY_continuous _ _).mul (Complex.continuous_conj.comp (sphY_continuous _ _))) ?_)
    fun_prop

end Verif.Sht.Rot
