import Mathlib.Analysis.Real.Sqrt
import Mathlib.Algebra.BigOperators.NatAntidiagonal
import Mathlib.Data.Nat.Factorial.Basic
import Mathlib.Tactic.Ring
import Mathlib.Tactic.FieldSimp
import Mathlib.Tactic.Linarith
import Mathlib.Tactic.Positivity
/-! The three-term recurrence of the Jacobi polynomials from their explicit sum. -/
namespace Verif.Wigner
open Finset

/-- `1 / (i! (i+b)!)`. -/
noncomputable def gj (b i : ℕ) : ℝ := 1 / (i.factorial * (i + b).factorial)

theorem gj_succ (b i : ℕ) : ((i:ℝ) + 1) * (i + 1 + b) * gj b (i + 1) = gj b i := by
  unfold gj
  rw [show i + 1 + b = (i + b) + 1 by omega, Nat.factorial_succ, Nat.factorial_succ]
  have h1 : (i.factorial : ℝ) ≠ 0 := by positivity
  have h2 : ((i + b).factorial : ℝ) ≠ 0 := by positivity
  have h3 : (i:ℝ) + 1 ≠ 0 := by positivity
  have h4 : (i:ℝ) + b + 1 ≠ 0 := by positivity
  push_cast
  field_simp
  ring

/-- Weighted homogeneous sum. -/
noncomputable def RJ (a b : ℕ) (C T : ℝ) (h : ℝ → ℝ → ℝ) (N : ℕ) : ℝ :=
  ∑ p ∈ antidiagonal N, h p.1 p.2 * (gj b p.1 * gj a p.2 * C ^ p.1 * T ^ p.2)

/-- The Jacobi polynomial up to normalisation. -/
noncomputable def QJ (a b : ℕ) (C T : ℝ) (N : ℕ) : ℝ := RJ a b C T (fun _ _ => 1) N

theorem RJ_C (a b : ℕ) (C T : ℝ) (h : ℝ → ℝ → ℝ) (N : ℕ) :
    RJ a b C T (fun i j => i * (i + b) * h (i - 1) j) (N + 1) = C * RJ a b C T h N := by
  unfold RJ
  rw [Finset.Nat.sum_antidiagonal_succ, Finset.mul_sum]
  simp only [Nat.cast_zero, zero_mul, zero_add]
  apply Finset.sum_congr rfl
  intro p _
  rw [← gj_succ b p.1]
  push_cast
  rw [show (p.1:ℝ) + 1 - 1 = p.1 by ring]
  ring

theorem RJ_T (a b : ℕ) (C T : ℝ) (h : ℝ → ℝ → ℝ) (N : ℕ) :
    RJ a b C T (fun i j => j * (j + a) * h i (j - 1)) (N + 1) = T * RJ a b C T h N := by
  unfold RJ
  rw [Finset.Nat.sum_antidiagonal_succ', Finset.mul_sum]
  simp only [Nat.cast_zero, zero_mul, zero_add]
  apply Finset.sum_congr rfl
  intro p _
  rw [← gj_succ a p.2]
  push_cast
  rw [show (p.2:ℝ) + 1 - 1 = p.2 by ring]
  ring

theorem QJ_C (a b : ℕ) (C T : ℝ) (N : ℕ) : C * QJ a b C T N = RJ a b C T (fun i _ => i * (i + b)) (N + 1) := by
  rw [QJ, ← RJ_C]; simp
theorem QJ_T (a b : ℕ) (C T : ℝ) (N : ℕ) : T * QJ a b C T N = RJ a b C T (fun _ j => j * (j + a)) (N + 1) := by
  rw [QJ, ← RJ_T]; simp
theorem QJ_CC (a b : ℕ) (C T : ℝ) (N : ℕ) :
    C * C * QJ a b C T N = RJ a b C T (fun i _ => i * (i + b) * ((i - 1) * (i - 1 + b))) (N + 2) := by
  rw [mul_assoc, QJ_C, ← RJ_C]
theorem QJ_TC (a b : ℕ) (C T : ℝ) (N : ℕ) :
    T * C * QJ a b C T N = RJ a b C T (fun i j => j * (j + a) * (i * (i + b))) (N + 2) := by
  rw [mul_assoc, QJ_C, ← RJ_T]
theorem QJ_TT (a b : ℕ) (C T : ℝ) (N : ℕ) :
    T * T * QJ a b C T N = RJ a b C T (fun _ j => j * (j + a) * ((j - 1) * (j - 1 + a))) (N + 2) := by
  rw [mul_assoc, QJ_T, ← RJ_T]

/-- The three-term recurrence, homogenised with `C - T` in place of one. -/
theorem QJ_rec (a b N : ℕ) (C T : ℝ) :
    2 * ((N:ℝ) + 2) * (N + 2 + a + b) * (2 * (N + 2) + a + b - 2) * (N + 2 + a) * (N + 2 + b) * QJ a b C T (N + 2) =
    (2 * ((N:ℝ) + 2) + a + b - 1) * ((2 * (N + 2) + a + b) * (2 * (N + 2) + a + b - 2) * (C + T)
      + ((a:ℝ) ^ 2 - b ^ 2) * (C - T)) * QJ a b C T (N + 1)
    - 2 * (2 * (N + 2) + a + b) * (C - T) ^ 2 * QJ a b C T N := by
  have e1 := QJ_C a b C T (N + 1)
  have e2 := QJ_T a b C T (N + 1)
  have e3 := QJ_CC a b C T N
  have e4 := QJ_TC a b C T N
  have e5 := QJ_TT a b C T N
  have key : (2 * ((N:ℝ) + 2) + a + b - 1) * ((2 * (N + 2) + a + b) * (2 * (N + 2) + a + b - 2) * (C + T)
      + ((a:ℝ) ^ 2 - b ^ 2) * (C - T)) * QJ a b C T (N + 1)
      - 2 * (2 * (N + 2) + a + b) * (C - T) ^ 2 * QJ a b C T N =
      (2 * ((N:ℝ) + 2) + a + b - 1) * ((2 * (N + 2) + a + b) * (2 * (N + 2) + a + b - 2)
        * (C * QJ a b C T (N + 1) + T * QJ a b C T (N + 1))
        + ((a:ℝ) ^ 2 - b ^ 2) * (C * QJ a b C T (N + 1) - T * QJ a b C T (N + 1)))
      - 2 * (2 * (N + 2) + a + b) * (C * C * QJ a b C T N - 2 * (T * C * QJ a b C T N) + T * T * QJ a b C T N) := by ring
  rw [key, e1, e2, e3, e4, e5]
  unfold QJ RJ
  simp only [Finset.mul_sum, ← Finset.sum_add_distrib, ← Finset.sum_sub_distrib]
  apply Finset.sum_congr rfl
  intro p hp
  rw [Finset.mem_antidiagonal] at hp
  have hN : (N:ℝ) + 2 = p.1 + p.2 := by exact_mod_cast hp.symm
  rw [hN]
  ring

theorem QJ_zero (a b : ℕ) (C T : ℝ) : QJ a b C T 0 = 1 / (a.factorial * b.factorial) := by
  simp [QJ, RJ, gj]

theorem QJ_one (a b : ℕ) (C T : ℝ) :
    (a + 1) * (b + 1) * QJ a b C T 1 = ((a + 1) * C + (b + 1) * T) * QJ a b C T 0 := by
  unfold QJ RJ
  rw [Finset.Nat.sum_antidiagonal_succ]
  simp [gj, Nat.factorial_succ, Nat.add_comm 1]
  field_simp
  ring

end Verif.Wigner
