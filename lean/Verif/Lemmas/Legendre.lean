import Verif.Lemmas.WignerRep
import Verif.Spec.SphericalHarmonic
import Mathlib.Analysis.SpecialFunctions.Integrals.Basic
import Mathlib.Analysis.Calculus.Deriv.Polynomial
import Mathlib.Topology.Algebra.Polynomial
/-!
Rodrigues' formula for the zeroth row of Wigner's matrix, and its orthogonality under `sin θ dθ`.
-/
namespace Verif.Wigner.Rep
open Finset Verif.Spec Polynomial

/-- `∫_0^π P(cos t) sin t dt`. -/
noncomputable def integ (P : ℝ[X]) : ℝ := ∫ t in (0 : ℝ)..Real.pi, P.eval (Real.cos t) * Real.sin t

@[fun_prop] theorem eval_cos_continuous (P : ℝ[X]) : Continuous fun t : ℝ => P.eval (Real.cos t) :=
  P.continuous.comp Real.continuous_cos

theorem integ_derivative (P : ℝ[X]) : integ (derivative P) = P.eval 1 - P.eval (-1) := by
  unfold integ
  have h : ∀ t ∈ Set.uIcc (0 : ℝ) Real.pi, HasDerivAt (fun t => -P.eval (Real.cos t))
      ((derivative P).eval (Real.cos t) * Real.sin t) t := by
    intro t _
    have := ((P.hasDerivAt (Real.cos t)).comp t (Real.hasDerivAt_cos t)).neg
    refine this.congr_deriv ?_
    ring
  rw [intervalIntegral.integral_eq_sub_of_hasDerivAt h (Continuous.intervalIntegrable ((eval_cos_continuous _).mul Real.continuous_sin) _ _)]
  simp
  ring

theorem integ_add (P Q : ℝ[X]) : integ (P + Q) = integ P + integ Q := by
  unfold integ
  simp only [eval_add, add_mul]
  exact intervalIntegral.integral_add (Continuous.intervalIntegrable ((eval_cos_continuous _).mul Real.continuous_sin) _ _)
    (Continuous.intervalIntegrable ((eval_cos_continuous _).mul Real.continuous_sin) _ _)

theorem integ_C_mul (a : ℝ) (P : ℝ[X]) : integ (C a * P) = a * integ P := by
  unfold integ
  simp only [eval_mul, eval_C, mul_assoc]
  exact intervalIntegral.integral_const_mul _ _

theorem integ_parts (A B : ℝ[X]) (h1 : A.eval 1 = 0) (h2 : A.eval (-1) = 0) :
    integ (derivative A * B) = -integ (A * derivative B) := by
  have h := integ_derivative (A * B)
  rw [derivative_mul, integ_add, eval_mul, eval_mul, h1, h2] at h
  linarith

theorem rod_root {l k : ℕ} (h : k < l) (x : ℝ) (hx : x ^ 2 = 1) : (rodrigues l k).eval x = 0 := by
  unfold rodrigues
  obtain ⟨q, hq⟩ := pow_sub_dvd_iterate_derivative_pow (X ^ 2 - 1 : ℝ[X]) l k
  rw [hq, eval_mul, eval_pow]
  simp only [eval_sub, eval_pow, eval_X, eval_one, hx, sub_self]
  rw [zero_pow (by omega), zero_mul]

theorem rod_succ (l k : ℕ) : rodrigues l (k + 1) = derivative (rodrigues l k) := by
  unfold rodrigues; rw [Function.iterate_succ_apply']

theorem integ_rod (l : ℕ) : ∀ (k : ℕ) (Q : ℝ[X]), k ≤ l →
    integ (rodrigues l k * Q) = (-1) ^ k * integ ((X ^ 2 - 1) ^ l * derivative^[k] Q) := by
  intro k
  induction k with
  | zero => intro Q _; simp [rodrigues]
  | succ k ih =>
    intro Q hk
    rw [rod_succ, integ_parts _ _ (rod_root (by omega) 1 (by norm_num)) (rod_root (by omega) (-1) (by norm_num)),
      ih _ (by omega), Function.iterate_succ_apply, pow_succ]
    ring

theorem u_monic (l : ℕ) : ((X ^ 2 - 1 : ℝ[X]) ^ l).Monic := by
  apply Monic.pow
  simpa using monic_X_pow_sub_C (1 : ℝ) (n := 2) (by norm_num)

theorem u_natDegree (l : ℕ) : ((X ^ 2 - 1 : ℝ[X]) ^ l).natDegree = 2 * l := by
  rw [natDegree_pow]
  have : (X ^ 2 - 1 : ℝ[X]).natDegree = 2 := by simpa using natDegree_X_pow_sub_C (n := 2) (r := (1 : ℝ))
  rw [this]; ring

theorem rod_natDegree (l k : ℕ) : (rodrigues l k).natDegree ≤ 2 * l - k := by
  unfold rodrigues
  exact (natDegree_iterate_derivative _ _).trans (by rw [u_natDegree])

theorem rod_top (l : ℕ) : rodrigues l (2 * l) = C ((2 * l).factorial : ℝ) := by
  ext j
  unfold rodrigues
  rw [coeff_iterate_derivative, coeff_C]
  by_cases h : j = 0
  · subst h
    have := (u_monic l).coeff_natDegree
    rw [u_natDegree] at this
    rw [zero_add, this, if_pos rfl, Nat.descFactorial_self]; simp
  · rw [if_neg h, coeff_eq_zero_of_natDegree_lt (by rw [u_natDegree]; omega), smul_zero]

theorem rod_zero {l k : ℕ} (h : 2 * l < k) : rodrigues l k = 0 := by
  unfold rodrigues
  exact iterate_derivative_eq_zero (by rw [u_natDegree]; exact h)

theorem integ_u (l : ℕ) : integ ((X ^ 2 - 1) ^ l) = (-1) ^ l * (2 ^ (2 * l + 1) * (l.factorial : ℝ) ^ 2 / (2 * l + 1).factorial) := by
  unfold integ
  have e : ∀ t : ℝ, ((X ^ 2 - 1 : ℝ[X]) ^ l).eval (Real.cos t) * Real.sin t = (-1) ^ l * Real.sin t ^ (2 * l + 1) := by
    intro t
    simp only [eval_pow, eval_sub, eval_X, eval_one]
    rw [show Real.cos t ^ 2 - 1 = -1 * Real.sin t ^ 2 by linarith [Real.sin_sq_add_cos_sq t], mul_pow, ← pow_mul, pow_succ]
    ring
  simp only [e]
  rw [intervalIntegral.integral_const_mul, integral_sin_pow_odd]
  congr 1
  induction l with
  | zero => norm_num
  | succ l ih =>
    rw [prod_range_succ, ← mul_assoc, ih (by
      intro t
      simp only [eval_pow, eval_sub, eval_X, eval_one]
      rw [show Real.cos t ^ 2 - 1 = -1 * Real.sin t ^ 2 by linarith [Real.sin_sq_add_cos_sq t], mul_pow, ← pow_mul, pow_succ]
      ring), Nat.factorial_succ l,
      show 2 * (l + 1) + 1 = (2 * l + 1) + 1 + 1 by ring, Nat.factorial_succ (2 * l + 1 + 1), Nat.factorial_succ (2 * l + 1)]
    push_cast
    field_simp
    ring

/-- Orthogonality of the Rodrigues polynomials of complementary orders. -/
theorem integ_rod_rod (l l' k k' : ℕ) (hk : k ≤ l) (hl : l' ≤ l) (h : k + k' = l + l') :
    integ (rodrigues l k * rodrigues l' k') = if l = l' then
      (-1) ^ (k + l) * (2 ^ (2 * l + 1) * (l.factorial : ℝ) ^ 2 / (2 * l + 1)) else 0 := by
  rw [integ_rod l k _ hk]
  have e : derivative^[k] (rodrigues l' k') = rodrigues l' (l + l') := by
    unfold rodrigues; rw [← Function.iterate_add_apply, h]
  rw [e]
  by_cases he : l = l'
  · subst he
    rw [if_pos rfl, show l + l = 2 * l by ring, rod_top, mul_comm _ (C _), integ_C_mul, integ_u, Nat.factorial_succ]
    push_cast
    field_simp
    ring
  · rw [if_neg he, rod_zero (by omega), mul_zero]
    simp [integ]

/-- Rodrigues' formula for the zeroth row of Wigner's matrix. -/
theorem rod_wigner (l k : ℕ) (hk : k ≤ 2 * l) (θ : ℝ) :
    (Real.sin θ / 2) ^ k * (rodrigues l k).eval (Real.cos θ) * nrm l l k =
      (l.factorial : ℝ) ^ 2 / (2 * l - k).factorial * 2 ^ (2 * l - k) * ((Real.sin θ / 2) ^ l * wignerD l 0 ((k : ℤ) - l) θ) := by
  have hw := wignerD_T l k l hk (by omega) θ
  rw [sub_self] at hw
  rw [hw]
  set c := Real.cos (θ / 2) with hc
  set s := Real.sin (θ / 2) with hs
  have e1 : Real.sin θ / 2 = s * c := by
    have h := Real.sin_two_mul (θ / 2)
    rw [show 2 * (θ / 2) = θ by ring] at h
    rw [h]; ring
  have e2 : Real.cos θ - 1 = -2 * s ^ 2 := by
    have h1 := cos_half θ
    have h2 := Real.cos_sq_add_sin_sq (θ / 2)
    rw [h1]; linear_combination h2
  have e3 : Real.cos θ + 1 = 2 * c ^ 2 := by
    have h1 := cos_half θ
    have h2 := Real.cos_sq_add_sin_sq (θ / 2)
    rw [h1]; linear_combination -h2
  have eu : (rodrigues l k).eval (Real.cos θ) = ∑ i ∈ range (k + 1), (k.choose i : ℝ) *
      (l.descFactorial (k - i) * (2 * c ^ 2) ^ (l - (k - i)) * (l.descFactorial i * (-2 * s ^ 2) ^ (l - i))) := by
    unfold rodrigues
    rw [show (X ^ 2 - 1 : ℝ[X]) ^ l = (X + C 1) ^ l * (X - C 1) ^ l by rw [← mul_pow]; congr 1; simp; ring,
      iterate_derivative_mul, eval_finsetSum]
    apply sum_congr rfl
    intro i _
    rw [iterate_derivative_X_add_pow, iterate_derivative_X_sub_pow]
    simp only [eval_natCast, eval_mul, eval_pow, eval_add, eval_sub, eval_X, eval_C, nsmul_eq_mul, e2, e3]
  have core : (s * c) ^ k * (rodrigues l k).eval (Real.cos θ) =
      (l.factorial : ℝ) ^ 2 / (2 * l - k).factorial * 2 ^ (2 * l - k) * ((s * c) ^ l * T (2 * l) c s (-s) c k l) := by
    rw [eu, T_single, mul_sum, mul_sum, mul_sum, sum_filter]
    apply sum_congr rfl
    intro i hi
    rw [mem_range] at hi
    by_cases h : i ≤ l ∧ l - i ≤ 2 * l - k
    · rw [if_pos h]
      obtain ⟨t, rfl⟩ : ∃ t, k = i + t := ⟨k - i, by omega⟩
      obtain ⟨j, rfl⟩ : ∃ j, l = i + j := ⟨l - i, by omega⟩
      obtain ⟨q, hq⟩ : ∃ q, i + j = t + q := ⟨i + j - t, by omega⟩
      rw [show i + t - i = t by omega, show i + j - i = j by omega, show 2 * (i + j) - (i + t) = j + q by omega,
        show j + q - j = q by omega]
      have f1 : ((i + j).descFactorial i : ℝ) = (i + j).factorial / j.factorial := by
        rw [eq_div_iff (by positivity)]
        have := Nat.factorial_mul_descFactorial (n := i + j) (k := i) (by omega)
        rw [show i + j - i = j by omega] at this
        rw [mul_comm]; exact_mod_cast this
      have f2 : ((i + j).descFactorial t : ℝ) = (i + j).factorial / q.factorial := by
        rw [eq_div_iff (by positivity)]
        have := Nat.factorial_mul_descFactorial (n := i + j) (k := t) (by omega)
        rw [show i + j - t = q by omega] at this
        rw [mul_comm]; exact_mod_cast this
      have f3 : ((j + q).choose j : ℝ) = (j + q).factorial / (j.factorial * q.factorial) := Nat.cast_add_choose ℝ
      rw [f1, f2, f3, show i + j - t = q by omega]
      have p1 : (s * c) ^ (i + t) * ((2 * c ^ 2) ^ q * (-2 * s ^ 2) ^ j) =
          2 ^ (j + q) * ((s * c) ^ (i + j) * (c ^ i * s ^ t * ((-s) ^ j * c ^ q))) := by
        have q1 : c ^ (i + j) = c ^ t * c ^ q := by rw [hq, pow_add]
        rw [neg_mul, neg_pow (2 * s ^ 2), neg_pow s, mul_pow, mul_pow 2, mul_pow 2, mul_pow s c (i + j), q1,
          ← pow_mul, ← pow_mul, pow_add 2 j q, pow_add, pow_add, pow_add, mul_comm 2 q, mul_comm 2 j, pow_mul, pow_mul]
        ring
      have hf : ((j + q).factorial : ℝ) ≠ 0 := by positivity
      rw [show ((i + j).factorial : ℝ) ^ 2 / (j + q).factorial * 2 ^ (j + q) * ((s * c) ^ (i + j) *
          ((i + t).choose i * c ^ i * s ^ t * ((j + q).factorial / (j.factorial * q.factorial) * (-s) ^ j * c ^ q)))
        = ((i + t).choose i : ℝ) * ((i + j).factorial / j.factorial) * ((i + j).factorial / q.factorial)
          * (2 ^ (j + q) * ((s * c) ^ (i + j) * (c ^ i * s ^ t * ((-s) ^ j * c ^ q)))) by field_simp, ← p1]
      ring
    · rw [if_neg h]
      rcases Nat.lt_or_ge l i with h1 | h1
      · rw [Nat.descFactorial_of_lt h1]; simp
      · rw [Nat.descFactorial_of_lt (show l < k - i by omega)]; simp
  rw [e1, core]
  unfold nrm
  ring

end Verif.Wigner.Rep
