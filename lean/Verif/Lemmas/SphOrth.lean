import Verif.Lemmas.Legendre
import Verif.Props.Sht
/-!
Orthogonality of the rows on the Driscoll-Healy colatitudes.
-/
namespace Verif.Wigner.Rep
open Finset Verif.Spec Polynomial Verif.Sht

/-- The factor in Rodrigues' formula. -/
noncomputable def rodA (l k : ℕ) : ℝ := (2 * l - k).factorial / ((l.factorial : ℝ) ^ 2 * 2 ^ (2 * l - k)) * nrm l l k

theorem rod_wigner' (l k : ℕ) (hk : k ≤ 2 * l) (θ : ℝ) :
    (Real.sin θ / 2) ^ l * wignerD l 0 ((k : ℤ) - l) θ = rodA l k * ((Real.sin θ / 2) ^ k * (rodrigues l k).eval (Real.cos θ)) := by
  have h := rod_wigner l k hk θ
  have e : (Real.sin θ / 2) ^ l * wignerD l 0 ((k : ℤ) - l) θ = (2 * l - k).factorial / ((l.factorial : ℝ) ^ 2 * 2 ^ (2 * l - k))
      * ((l.factorial : ℝ) ^ 2 / (2 * l - k).factorial * 2 ^ (2 * l - k) * ((Real.sin θ / 2) ^ l * wignerD l 0 ((k : ℤ) - l) θ)) := by
    field_simp
  rw [e, ← h, rodA]
  ring

theorem wignerD_row_neg (l : ℕ) (m : ℤ) (θ : ℝ) : wignerD l 0 (-m) θ = sgnPow m * wignerD l 0 m θ := by
  have := wignerD_neg l 0 m θ
  rw [neg_zero] at this
  rw [this, wignerD_swap l 0 m, sgnPow_congr (a := 0 - m) (b := m) (by omega)]

theorem row_product (l l' m : ℕ) (hl : m ≤ l) (hl' : m ≤ l') (θ : ℝ) (hs : Real.sin θ ≠ 0) :
    wignerD l 0 m θ * wignerD l' 0 m θ =
      sgnPow m * (rodA l (l - m) * rodA l' (l' + m)) * (rodrigues l (l - m) * rodrigues l' (l' + m)).eval (Real.cos θ) := by
  have h1 := rod_wigner' l (l - m) (by omega) θ
  have h2 := rod_wigner' l' (l' + m) (by omega) θ
  rw [show ((l - m : ℕ) : ℤ) - l = -(m : ℤ) by omega, wignerD_row_neg] at h1
  rw [show ((l' + m : ℕ) : ℤ) - l' = (m : ℤ) by omega] at h2
  have hp : (Real.sin θ / 2) ^ l * (Real.sin θ / 2) ^ l' ≠ 0 := by positivity
  apply mul_left_cancel₀ hp
  have e : (Real.sin θ / 2) ^ (l - m) * (Real.sin θ / 2) ^ (l' + m) = (Real.sin θ / 2) ^ l * (Real.sin θ / 2) ^ l' := by
    rw [← pow_add, ← pow_add]; congr 1; omega
  rw [eval_mul]
  have hsq : (sgnPow (m : ℤ)) * sgnPow (m : ℤ) = 1 := sgnPow_sq _
  calc _ = sgnPow (m : ℤ) * (((Real.sin θ / 2) ^ l * (sgnPow (m : ℤ) * wignerD l 0 m θ)) * ((Real.sin θ / 2) ^ l' * wignerD l' 0 m θ)) := by
        linear_combination (-(Real.sin θ / 2) ^ l * (Real.sin θ / 2) ^ l' * wignerD l 0 m θ * wignerD l' 0 m θ) * hsq
    _ = _ := by rw [h1, h2, ← e]; ring

theorem rodA_mul (l m : ℕ) (h : m ≤ l) : rodA l (l - m) * rodA l (l + m) = 1 / ((l.factorial : ℝ) ^ 2 * 2 ^ (2 * l)) := by
  unfold rodA nrm
  rw [show 2 * l - (l - m) = l + m by omega, show 2 * l - (l + m) = l - m by omega, show 2 * l - l = l by omega]
  rw [mul_mul_mul_comm, ← Real.sqrt_mul (by positivity)]
  have e : ((l.factorial : ℝ) * l.factorial / ((l - m).factorial * (l + m).factorial)) *
      (l.factorial * l.factorial / ((l + m).factorial * (l - m).factorial))
      = (l.factorial * l.factorial / ((l - m).factorial * (l + m).factorial)) ^ 2 := by
    field_simp
  rw [e, Real.sqrt_sq (by positivity), show (2:ℝ) ^ (2 * l) = 2 ^ (l + m) * 2 ^ (l - m) by rw [← pow_add]; congr 1; omega]
  field_simp

theorem sin_theta_ne (B k : ℕ) (hk : k < 2 * B) : Real.sin (theta B k) ≠ 0 := by
  apply ne_of_gt
  apply Real.sin_pos_of_pos_of_lt_pi
  · unfold theta
    have : (0 : ℝ) < B := by exact_mod_cast (show 0 < B by omega)
    have := Real.pi_pos
    positivity
  · unfold theta
    have hB : (0 : ℝ) < B := by exact_mod_cast (show 0 < B by omega)
    rw [div_lt_iff₀ (by positivity)]
    have h2 : (k : ℝ) + 1 ≤ 2 * B := by exact_mod_cast (show k + 1 ≤ 2 * B by omega)
    have := Real.pi_pos
    nlinarith

/-- Discrete orthogonality of the rows, non-negative order, `l' ≤ l`. -/
theorem row_orth_nat (B l l' m : ℕ) (hl : l < B) (hm : m ≤ l') (h : l' ≤ l) :
    ∑ k ∈ range (2 * B), dltWeightsDH B k * (wignerD l 0 m (theta B k) * wignerD l' 0 m (theta B k))
      = if l = l' then (2 : ℝ) / (2 * l + 1) else 0 := by
  have e : ∀ k ∈ range (2 * B), dltWeightsDH B k * (wignerD l 0 m (theta B k) * wignerD l' 0 m (theta B k))
      = sgnPow m * (rodA l (l - m) * rodA l' (l' + m)) *
        (dltWeightsDH B k * (rodrigues l (l - m) * rodrigues l' (l' + m)).eval (Real.cos (theta B k))) := by
    intro k hk
    rw [row_product l l' m (by omega) hm _ (sin_theta_ne B k (mem_range.1 hk))]; ring
  rw [sum_congr rfl e, ← mul_sum, C83_quadrature]
  · have hi := integ_rod_rod l l' (l - m) (l' + m) (by omega) h (by omega)
    unfold integ at hi
    rw [hi]
    by_cases he : l = l'
    · subst he
      rw [if_pos rfl, if_pos rfl, rodA_mul l m hm]
      have hs : sgnPow (m : ℤ) * (-1) ^ (l - m + l) = 1 := by
        have : (-1 : ℝ) ^ (l - m + l) = sgnPow (((l - m + l : ℕ) : ℤ)) := by
          rw [← neg_one_pow_toNat (by omega)]; rfl
        rw [this, sgnPow_add, sgnPow_congr (b := 0) (by omega)]; simp [sgnPow]
      rw [show sgnPow (m : ℤ) * (1 / ((l.factorial : ℝ) ^ 2 * 2 ^ (2 * l))) * ((-1) ^ (l - m + l) * (2 ^ (2 * l + 1) * (l.factorial : ℝ) ^ 2 / (2 * l + 1)))
        = (sgnPow (m : ℤ) * (-1) ^ (l - m + l)) * (1 / ((l.factorial : ℝ) ^ 2 * 2 ^ (2 * l)) * (2 ^ (2 * l + 1) * (l.factorial : ℝ) ^ 2 / (2 * l + 1))) by ring,
        hs]
      field_simp
      ring
    · rw [if_neg he, if_neg he, mul_zero]
  · have h1 := rod_natDegree l (l - m)
    have h2 := rod_natDegree l' (l' + m)
    have := natDegree_mul_le (p := rodrigues l (l - m)) (q := rodrigues l' (l' + m))
    omega

/-- Discrete orthogonality of the rows of Wigner's matrices on the Driscoll-Healy colatitudes. -/
theorem row_orth (B l l' : ℕ) (m : ℤ) (hl : l < B) (hl' : l' < B) (hm : |m| ≤ l) (hm' : |m| ≤ l') :
    ∑ k ∈ range (2 * B), dltWeightsDH B k * (wignerD l 0 m (theta B k) * wignerD l' 0 m (theta B k))
      = if l = l' then (2 : ℝ) / (2 * l + 1) else 0 := by
  have neg : ∀ (l l' : ℕ) (θ : ℝ), wignerD l 0 m θ * wignerD l' 0 m θ = wignerD l 0 m.natAbs θ * wignerD l' 0 m.natAbs θ := by
    intro l l' θ
    rcases Int.natAbs_eq m with h | h
    · rw [← h]
    · have e : (m.natAbs : ℤ) = -m := by omega
      rw [e, wignerD_row_neg, wignerD_row_neg]
      have := sgnPow_sq m
      linear_combination (-(wignerD l 0 m θ * wignerD l' 0 m θ)) * this
  rw [Int.abs_eq_natAbs] at hm hm'
  simp only [neg l l']
  rcases Nat.le_total l' l with h | h
  · exact row_orth_nat B l l' m.natAbs hl (by omega) h
  · have := row_orth_nat B l' l m.natAbs hl' (by omega) h
    simp only [mul_comm (wignerD l' 0 _ _)] at this
    rw [this]
    by_cases he : l = l'
    · rw [if_pos he.symm, if_pos he, he]
    · rw [if_neg (Ne.symm he), if_neg he]

end Verif.Wigner.Rep
