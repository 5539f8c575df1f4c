import Verif.Lemmas.Ei
import Mathlib.Analysis.SpecificLimits.Basic
import Mathlib.Analysis.Complex.Exponential
import Mathlib.Analysis.Complex.ExponentialBounds
/-!
Truncation errors of the series of the exponential function and of the entire part of the exponential integral.
-/
namespace Verif.Ei
open Real Finset

lemma exp_trunc {x : ℝ} (n : ℕ) (hx : |x| ≤ (n + 1) / 2) :
    |exp x - ∑ m ∈ range n, x ^ m / m.factorial| ≤ |x| ^ n / n.factorial * 2 := by
  have h := Complex.exp_bound' (x := (x : ℂ)) (n := n) (by
    rw [Complex.norm_real, norm_eq_abs, Nat.cast_succ, div_le_iff₀ (by positivity)]; linarith)
  rw [Complex.norm_real, norm_eq_abs] at h
  have e : Complex.exp (x : ℂ) - ∑ m ∈ range n, (x : ℂ) ^ m / (m.factorial : ℂ)
      = ((exp x - ∑ m ∈ range n, x ^ m / m.factorial : ℝ) : ℂ) := by push_cast; rfl
  rw [e, Complex.norm_real, norm_eq_abs] at h
  exact h

private lemma term_tail {x : ℝ} (N : ℕ) (hx : |x| ≤ (N + 2) / 2) (j : ℕ) :
    |x| ^ (j + N + 1) / (((j + N : ℕ) + 1 : ℝ) * (j + N + 1).factorial)
      ≤ |x| ^ (N + 1) / ((N + 1 : ℝ) * (N + 1).factorial) / 2 ^ j := by
  induction j with
  | zero => simp
  | succ j ih =>
    have e : j + 1 + N = j + N + 1 := by omega
    rw [e]
    have hf : (0 : ℝ) < (j + N + 1).factorial := by exact_mod_cast Nat.factorial_pos _
    have hjN : (0 : ℝ) ≤ ((j + N : ℕ) : ℝ) := Nat.cast_nonneg _
    have hb : |x| / ((j + N : ℕ) + 2) ≤ 1 / 2 := by
      rw [div_le_iff₀ (by linarith)]
      push_cast
      have : (0 : ℝ) ≤ j := Nat.cast_nonneg _
      linarith
    rw [show j + N + 1 + 1 = (j + N + 1) + 1 from rfl, Nat.factorial_succ (j + N + 1), pow_succ, pow_succ (2 : ℝ)]
    push_cast at *
    generalize hA : (j : ℝ) + N = A at *
    have hA0 : 0 < A + 1 := by linarith
    generalize hF : ((j + N + 1).factorial : ℝ) = Fc at *
    generalize hp : |x| ^ (j + N + 1) = p at *
    have hp0 : 0 ≤ p := by rw [← hp]; positivity
    have h1 : p * |x| / ((A + 1 + 1) * ((A + 1 + 1) * Fc)) ≤ p / ((A + 1) * Fc) * (|x| / (A + 2)) := by
      rw [div_mul_div_comm]
      apply div_le_div_of_nonneg_left (by positivity) (by positivity)
      nlinarith
    refine h1.trans ?_
    have h2 : p / ((A + 1) * Fc) * (|x| / (A + 2)) ≤ p / ((A + 1) * Fc) * (1 / 2) :=
      mul_le_mul_of_nonneg_left hb (by positivity)
    refine h2.trans ?_
    generalize |x| ^ (N + 1) / ((N + 1 : ℝ) * (N + 1).factorial) = B at *
    rw [← div_div B]
    linarith

lemma ein_trunc {x : ℝ} (N : ℕ) (hx : |x| ≤ (N + 2) / 2) :
    |ein x - ∑ k ∈ range N, x ^ (k + 1) / ((k + 1 : ℝ) * (k + 1).factorial)|
      ≤ 2 * (|x| ^ (N + 1) / ((N + 1 : ℝ) * (N + 1).factorial)) := by
  have h := (summable_ein x).sum_add_tsum_nat_add N
  have e : ein x - ∑ k ∈ range N, x ^ (k + 1) / ((k + 1 : ℝ) * (k + 1).factorial)
      = ∑' j : ℕ, x ^ (j + N + 1) / (((j + N : ℕ) + 1 : ℝ) * (j + N + 1).factorial) := by
    unfold ein; rw [← h]; ring
  rw [e, ← norm_eq_abs]
  refine tsum_of_norm_bounded (hasSum_geometric_two' _) fun j => ?_
  refine le_trans (le_of_eq ?_) ((term_tail N hx j).trans (le_of_eq (by ring)))
  have hf : (0 : ℝ) < (j + N + 1).factorial := by exact_mod_cast Nat.factorial_pos _
  rw [norm_div, norm_pow, norm_eq_abs, norm_eq_abs, abs_of_pos (mul_pos (by positivity) hf)]

end Verif.Ei
