import Verif.Model.Orient
import Verif.Spec.Matrix
import Verif.Lemmas.Quat
import Mathlib.LinearAlgebra.Matrix.Determinant.Basic
import Mathlib.Tactic.FinCases
/-! Helper lemmas for orientation conversions. -/
namespace Verif
open Spec

theorem m3_ext {A B : M3} (h : ∀ i j, A i j = B i j) : A = B := by ext i j; exact h i j

theorem qu2om_mul (a b : Q) : qu2om a * qu2om b = qu2om (quProdRaw a b) := by
  ext i j
  fin_cases i <;> fin_cases j <;>
    simp [qu2om, quProdRaw, Matrix.mul_apply, Fin.sum_univ_three] <;> ring

theorem qu2om_transpose (a : Q) : (qu2om a).transpose = qu2om (quConj a) := by
  ext i j
  fin_cases i <;> fin_cases j <;> simp [qu2om, quConj] <;> ring

theorem qu2om_real (s : ℝ) : qu2om ⟨s, 0, 0, 0⟩ = (s ^ 2) • (1 : M3) := by
  ext i j
  fin_cases i <;> fin_cases j <;> simp [qu2om]

theorem prod_conj_unit {q : Q} (h : IsUnit4 q) : quProdRaw q (quConj q) = ⟨1, 0, 0, 0⟩ := by
  unfold IsUnit4 at h
  ext <;> simp [quProdRaw, quConj] <;> linarith

theorem qu2om_det (q : Q) : (qu2om q).det = (q.w ^ 2 + q.x ^ 2 + q.y ^ 2 + q.z ^ 2) ^ 3 := by
  rw [Matrix.det_fin_three]
  simp [qu2om]
  ring

theorem qu2om_isRotation {q : Q} (h : IsUnit4 q) : IsRotation (qu2om q) := by
  constructor
  · rw [qu2om_transpose, qu2om_mul, prod_conj_unit h, qu2om_real]; simp
  · rw [qu2om_det, h]; norm_num

theorem qu2om_neg (q : Q) : qu2om q.neg = qu2om q := by
  simp [qu2om, Q.neg]

theorem qu2om_apply (q : Q) (v : V) : (qu2om q).mulVec (col v) = col (quApply q v) := by
  ext i
  fin_cases i <;> simp [qu2om, col, quApply, Matrix.mulVec, dotProduct, Fin.sum_univ_three] <;> ring

/-! om2qu -/
theorem hrsqrt_sq4 {a : ℝ} (ha : 0 < a) : hrsqrt (4 * a ^ 2) = 1 / (4 * a) := by
  unfold hrsqrt
  rw [show (4 : ℝ) * a ^ 2 = (2 * a) ^ 2 by ring, Real.sqrt_sq (by positivity)]
  field_simp
  norm_num

theorem hrsqrt_sq4' {a : ℝ} (ha : a ≠ 0) : hrsqrt (4 * a ^ 2) = 1 / (4 * |a|) := by
  rw [← sq_abs, hrsqrt_sq4 (abs_pos.mpr ha)]

theorem copysign_eq {a b s : ℝ} (h : |a| = |b|) (hs : 0 < s * b ∨ b = 0) : copysign a s = b := by
  unfold copysign
  rcases hs with hs | hs
  · split
    · have : b < 0 := by nlinarith
      rw [h, abs_of_neg this]; ring
    · have : 0 < b := by
        by_contra hb
        nlinarith
      rw [h, abs_of_pos this]
  · subst hs
    have : a = 0 := by simpa using h
    simp [this]

end Verif
