import Verif.Model.Sht
import Mathlib.Analysis.SpecialFunctions.Integrals.Basic
import Mathlib.Algebra.Polynomial.Eval.Degree
import Mathlib.Algebra.Polynomial.Degree.Lemmas
import Mathlib.Tactic.FieldSimp
import Mathlib.Tactic.LinearCombination
import Mathlib.Tactic.Linarith
import Mathlib.Tactic.Positivity
/-!
C61: the discrete cosine and sine matrices are orthogonal.  C83: the Driscoll-Healy weights integrate every polynomial in
`cos θ` of degree below `2 B` exactly.
-/
namespace Verif.Sht
open Real

/-- `Σ_{k<N} cos(j π (k + 1/2) / N)` vanishes for `0 < j < 2N`. -/
lemma cos_sum {N : ℕ} (j : ℤ) (h0 : j ≠ 0) (h1 : |j| < 2 * N) :
    ∑ k ∈ Finset.range N, cos (π * j * (k + 0.5) / N) = 0 := by
  have hN : 0 < N := by rcases Nat.eq_zero_or_pos N with rfl | h <;> [(simp at h1; have := abs_nonneg j; omega); exact h]
  have hN' : (N : ℝ) ≠ 0 := by positivity
  set θ : ℝ := π * j / N with hθ
  have hs : sin (θ / 2) ≠ 0 := by
    intro h
    obtain ⟨n, hn⟩ := Real.sin_eq_zero_iff.1 h
    have e : (j : ℝ) = 2 * N * n := by
      rw [hθ] at hn
      have hp := Real.pi_ne_zero
      field_simp at hn
      linarith
    have e' : j = 2 * N * n := by exact_mod_cast e
    have hn0 : n ≠ 0 := by rintro rfl; simp at e'; exact h0 e'
    rw [e', abs_mul, abs_mul] at h1
    have : (1 : ℤ) ≤ |n| := Int.one_le_abs hn0
    rw [abs_of_nonneg (by norm_num : (0:ℤ) ≤ 2), abs_of_nonneg (by positivity : (0:ℤ) ≤ (N:ℤ))] at h1
    nlinarith
  have tele : ∀ M : ℕ, 2 * sin (θ / 2) * ∑ k ∈ Finset.range M, cos (π * j * (k + 0.5) / N) = sin (θ * M) := by
    intro M
    induction M with
    | zero => simp
    | succ M ih =>
      rw [Finset.sum_range_succ, mul_add, ih]
      have e : π * j * (M + 0.5) / N = θ * M + θ / 2 := by rw [hθ]; field_simp; ring
      rw [e]
      have e2 : θ * (M + 1 : ℕ) = (θ * M + θ / 2) + θ / 2 := by push_cast; ring
      have e3 : θ * M = (θ * M + θ / 2) - θ / 2 := by ring
      rw [e2, sin_add]
      conv_lhs => arg 1; rw [e3, sin_sub]
      ring
  have := tele N
  rw [show θ * N = j * π by rw [hθ]; field_simp, Real.sin_int_mul_pi] at this
  rcases mul_eq_zero.1 this with h | h
  · rcases mul_eq_zero.1 h with h | h
    · norm_num at h
    · exact absurd h hs
  · exact h

lemma cos_sum_zero {N : ℕ} : ∑ k ∈ Finset.range N, cos (π * (0 : ℤ) * ((k : ℝ) + 0.5) / N) = N := by simp

/-! ### C61 -/

lemma idct_gram {N : ℕ} (hN : 0 < N) : (idctMatrix N).transpose * idctMatrix N = 1 := by
  have hN' : (0 : ℝ) < N := by exact_mod_cast hN
  ext m n
  rw [Matrix.mul_apply, Matrix.one_apply]
  simp only [Matrix.transpose_apply, idctMatrix, Matrix.of_apply]
  set a : ℝ := if m.val = 0 then √(1 / N) else √(2 / N)
  set b : ℝ := if n.val = 0 then √(1 / N) else √(2 / N)
  have e : ∀ k : Fin N, cos (π * m.val * (k.val + 0.5) / N) * a * (cos (π * n.val * (k.val + 0.5) / N) * b)
      = a * b / 2 * (cos (π * ((m.val : ℤ) - n.val : ℤ) * (k.val + 0.5) / N)
          + cos (π * ((m.val : ℤ) + n.val : ℤ) * (k.val + 0.5) / N)) := by
    intro k
    have e1 : π * ((m.val : ℤ) - n.val : ℤ) * (k.val + 0.5) / N
        = π * m.val * (k.val + 0.5) / N - π * n.val * (k.val + 0.5) / N := by push_cast; ring
    have e2 : π * ((m.val : ℤ) + n.val : ℤ) * (k.val + 0.5) / N
        = π * m.val * (k.val + 0.5) / N + π * n.val * (k.val + 0.5) / N := by push_cast; ring
    rw [e1, e2, cos_sub, cos_add]
    ring
  rw [Finset.sum_congr rfl fun k _ => e k, ← Finset.mul_sum, Finset.sum_add_distrib,
    Fin.sum_univ_eq_sum_range (fun k : ℕ => cos (π * ((m.val : ℤ) - n.val : ℤ) * ((k : ℝ) + 0.5) / N)) N,
    Fin.sum_univ_eq_sum_range (fun k : ℕ => cos (π * ((m.val : ℤ) + n.val : ℤ) * ((k : ℝ) + 0.5) / N)) N]
  have hm := m.isLt
  have hn := n.isLt
  by_cases hmn : m = n
  · subst hmn
    rw [if_pos rfl, sub_self, cos_sum_zero]
    by_cases h0 : m.val = 0
    · have : a = √(1 / N) := if_pos h0
      have hb : b = √(1 / N) := if_pos h0
      rw [h0, this, hb]
      simp only [Nat.cast_zero, add_zero]
      rw [cos_sum_zero, Real.mul_self_sqrt (by positivity)]
      field_simp
      norm_num
    · have : a = √(2 / N) := if_neg h0
      have hb : b = √(2 / N) := if_neg h0
      rw [cos_sum _ (by omega) (by rw [abs_lt]; omega), this, hb, Real.mul_self_sqrt (by positivity)]
      field_simp
      norm_num
  · have hv : m.val ≠ n.val := fun h => hmn (Fin.ext h)
    rw [if_neg hmn, cos_sum _ (by omega) (by rw [abs_lt]; omega), cos_sum _ (by omega) (by rw [abs_lt]; omega)]
    ring

lemma idst_gram {N : ℕ} (hN : 0 < N) : (idstMatrix N).transpose * idstMatrix N = 1 := by
  have hN' : (0 : ℝ) < N := by exact_mod_cast hN
  ext m n
  rw [Matrix.mul_apply, Matrix.one_apply]
  simp only [Matrix.transpose_apply, idstMatrix, Matrix.of_apply]
  set a : ℝ := if m.val = N - 1 then √(1 / N) else √(2 / N)
  set b : ℝ := if n.val = N - 1 then √(1 / N) else √(2 / N)
  have e : ∀ k : Fin N, sin (π * (m.val + 1) * (k.val + 0.5) / N) * a * (sin (π * (n.val + 1) * (k.val + 0.5) / N) * b)
      = a * b / 2 * (cos (π * ((m.val : ℤ) - n.val : ℤ) * (k.val + 0.5) / N)
          - cos (π * ((m.val : ℤ) + n.val + 2 : ℤ) * (k.val + 0.5) / N)) := by
    intro k
    have e1 : π * ((m.val : ℤ) - n.val : ℤ) * (k.val + 0.5) / N
        = π * (m.val + 1) * (k.val + 0.5) / N - π * (n.val + 1) * (k.val + 0.5) / N := by push_cast; ring
    have e2 : π * ((m.val : ℤ) + n.val + 2 : ℤ) * (k.val + 0.5) / N
        = π * (m.val + 1) * (k.val + 0.5) / N + π * (n.val + 1) * (k.val + 0.5) / N := by push_cast; ring
    rw [e1, e2, cos_sub, cos_add]
    ring
  rw [Finset.sum_congr rfl fun k _ => e k, ← Finset.mul_sum, Finset.sum_sub_distrib,
    Fin.sum_univ_eq_sum_range (fun k : ℕ => cos (π * ((m.val : ℤ) - n.val : ℤ) * ((k : ℝ) + 0.5) / N)) N,
    Fin.sum_univ_eq_sum_range (fun k : ℕ => cos (π * ((m.val : ℤ) + n.val + 2 : ℤ) * ((k : ℝ) + 0.5) / N)) N]
  have hm := m.isLt
  have hn := n.isLt
  by_cases hmn : m = n
  · subst hmn
    rw [if_pos rfl, sub_self, cos_sum_zero]
    by_cases h0 : m.val = N - 1
    · have : a = √(1 / N) := if_pos h0
      have hb : b = √(1 / N) := if_pos h0
      have hall : ∀ k : ℕ, cos (π * ((m.val : ℤ) + m.val + 2 : ℤ) * ((k : ℝ) + 0.5) / N) = -1 := by
        intro k
        have ez : ((m.val : ℤ) + m.val + 2 : ℤ) = 2 * (N : ℤ) := by omega
        rw [ez]
        have : π * ((2 * (N : ℤ) : ℤ) : ℝ) * ((k : ℝ) + 0.5) / N = π + k * (2 * π) := by push_cast; field_simp; ring
        rw [this, Real.cos_add_nat_mul_two_pi, Real.cos_pi]
      rw [Finset.sum_congr rfl fun k _ => hall k, this, hb, Real.mul_self_sqrt (by positivity)]
      simp only [Finset.sum_const, Finset.card_range, nsmul_eq_mul, mul_neg, mul_one, sub_neg_eq_add]
      field_simp
      norm_num
    · have : a = √(2 / N) := if_neg h0
      have hb : b = √(2 / N) := if_neg h0
      rw [cos_sum _ (by omega) (by rw [abs_lt]; omega), this, hb, Real.mul_self_sqrt (by positivity)]
      field_simp
      norm_num
  · have hv : m.val ≠ n.val := fun h => hmn (Fin.ext h)
    rw [if_neg hmn, cos_sum _ (by omega) (by rw [abs_lt]; omega), cos_sum _ (by omega) (by rw [abs_lt]; omega)]
    ring

/-- **C61**.  For every `N ≥ 1` both matrices are orthogonal: transposition inverts them from both sides. -/
theorem C61_orthogonal (N : ℕ) (hN : 0 < N) :
    (idctMatrix N).transpose * idctMatrix N = 1 ∧ idctMatrix N * (idctMatrix N).transpose = 1 ∧
    (idstMatrix N).transpose * idstMatrix N = 1 ∧ idstMatrix N * (idstMatrix N).transpose = 1 :=
  ⟨idct_gram hN, mul_eq_one_comm.1 (idct_gram hN), idst_gram hN, mul_eq_one_comm.1 (idst_gram hN)⟩

example : (0 : ℕ) < 5 := by decide

/-- **C61**, for the layers: the weighted forward transform of the inverse transform is the quadrature-weighted Gram matrix, and
the inverse transform is inverted by the unweighted forward transform: `x = idctᵀ (idct x)` on values. -/
theorem C61_layers (L : ℕ) (hL : 0 < L) (x : Fin (2 * L) → ℝ) :
    Matrix.vecMul (dcst L .ic x) (idctMatrix (2 * L)) = x ∧ Matrix.vecMul (dcst L .is x) (idstMatrix (2 * L)) = x ∧
    dcst L .c x = Matrix.vecMul (fun k => dltWeightsDH L k.val * x k) (idctMatrix (2 * L)) ∧
    dcst L .ic (dcst L .c x) = (fun k => dltWeightsDH L k.val * x k) ∧
    dcst L .is (dcst L .s x) = (fun k => dltWeightsDH L k.val * x k) := by
  have h := C61_orthogonal (2 * L) (by omega)
  have hd : Matrix.vecMul x (Matrix.diagonal fun k : Fin (2 * L) => dltWeightsDH L k.val)
      = fun k => dltWeightsDH L k.val * x k := by
    funext k; rw [Matrix.vecMul_diagonal, mul_comm]
  refine ⟨?_, ?_, ?_, ?_, ?_⟩
  · simp only [dcst, dcstMatrix, Matrix.vecMul_vecMul, h.1, Matrix.vecMul_one]
  · simp only [dcst, dcstMatrix, Matrix.vecMul_vecMul, h.2.2.1, Matrix.vecMul_one]
  · simp only [dcst, dcstMatrix, ← Matrix.vecMul_vecMul, hd]
  · simp only [dcst, dcstMatrix, Matrix.vecMul_vecMul, Matrix.mul_assoc, h.2.1, Matrix.mul_one, hd]
  · simp only [dcst, dcstMatrix, Matrix.vecMul_vecMul, Matrix.mul_assoc, h.2.2.2, Matrix.mul_one, hd]

/-! ### C83 -/

/-- The colatitudes of the Driscoll-Healy grid. -/
noncomputable def theta (B k : ℕ) : ℝ := π * (2 * k + 1) / (4 * B)

lemma cos_sum_theta {B : ℕ} (j : ℤ) (h1 : |j| < 4 * B) :
    ∑ k ∈ Finset.range (2 * B), cos (j * theta B k) = if j = 0 then (2 * B : ℝ) else 0 := by
  by_cases h0 : j = 0
  · subst h0; simp
  · rw [if_neg h0]
    have hB : (B : ℝ) ≠ 0 := by
      have : B ≠ 0 := by rintro rfl; simp at h1; have := abs_nonneg j; omega
      exact_mod_cast this
    rw [← cos_sum (N := 2 * B) j h0 (by push_cast; omega)]
    apply Finset.sum_congr rfl
    intro k _
    congr 1
    unfold theta
    push_cast
    field_simp
    ring

/-- `Σ_k W_k cos(n θ_k)` for `n < 2B`. -/
lemma dh_cos {B : ℕ} (n : ℕ) (hn : n < 2 * B) :
    ∑ k ∈ Finset.range (2 * B), dltWeightsDH B k * cos (n * theta B k)
      = if n % 2 = 1 then 0 else 2 / (1 - (n : ℝ) ^ 2) := by
  have hB : (B : ℝ) ≠ 0 := by have : B ≠ 0 := by omega
                              exact_mod_cast this
  have e : ∀ k, dltWeightsDH B k * cos (n * theta B k) = ∑ p ∈ Finset.range B, (1 / (2 * B * (2 * (p : ℝ) + 1))) *
      (cos ((2 * p - n : ℤ) * theta B k) + cos ((2 * p + n : ℤ) * theta B k)
        - cos ((2 * p + 2 - n : ℤ) * theta B k) - cos ((2 * p + 2 + n : ℤ) * theta B k)) := by
    intro k
    unfold dltWeightsDH
    rw [Finset.mul_sum, Finset.sum_mul]
    apply Finset.sum_congr rfl
    intro p _
    have hp : (2 * (p : ℝ) + 1) ≠ 0 := by positivity
    have t1 : π * (2 * k + 1) / (4 * B) = theta B k := rfl
    have t2 : (2 * k + 1) * (2 * p + 1) * π / (4 * B) = (2 * p + 1) * theta B k := by unfold theta; ring
    rw [t1, t2]
    set θ := theta B k
    have c1 : ((2 * p - n : ℤ) : ℝ) * θ = ((2 * p + 1) * θ - θ) - n * θ := by push_cast; ring
    have c2 : ((2 * p + n : ℤ) : ℝ) * θ = ((2 * p + 1) * θ - θ) + n * θ := by push_cast; ring
    have c3 : ((2 * p + 2 - n : ℤ) : ℝ) * θ = ((2 * p + 1) * θ + θ) - n * θ := by push_cast; ring
    have c4 : ((2 * p + 2 + n : ℤ) : ℝ) * θ = ((2 * p + 1) * θ + θ) + n * θ := by push_cast; ring
    rw [c1, c2, c3, c4, cos_sub, cos_add, cos_sub (_ + θ), cos_add (_ + θ), cos_sub _ θ, cos_add _ θ]
    field_simp
    ring
  rw [Finset.sum_congr rfl fun k _ => e k, Finset.sum_comm]
  have e2 : ∀ p ∈ Finset.range B, ∑ k ∈ Finset.range (2 * B), (1 / (2 * B * (2 * (p : ℝ) + 1))) *
      (cos ((2 * p - n : ℤ) * theta B k) + cos ((2 * p + n : ℤ) * theta B k)
        - cos ((2 * p + 2 - n : ℤ) * theta B k) - cos ((2 * p + 2 + n : ℤ) * theta B k))
      = (1 / (2 * (p : ℝ) + 1)) * ((if 2 * p = n then 1 else 0) + (if p = 0 ∧ n = 0 then 1 else 0)
          - (if 2 * p + 2 = n then 1 else 0)) := by
    intro p hp
    have hp := Finset.mem_range.1 hp
    rw [← Finset.mul_sum, Finset.sum_sub_distrib, Finset.sum_sub_distrib, Finset.sum_add_distrib,
      cos_sum_theta _ (by rw [abs_lt]; omega), cos_sum_theta _ (by rw [abs_lt]; omega),
      cos_sum_theta _ (by rw [abs_lt]; omega), cos_sum_theta _ (by rw [abs_lt]; omega)]
    have i1 : ((2 * p - n : ℤ) = 0) ↔ 2 * p = n := by omega
    have i2 : ((2 * p + n : ℤ) = 0) ↔ (p = 0 ∧ n = 0) := by omega
    have i3 : ((2 * p + 2 - n : ℤ) = 0) ↔ 2 * p + 2 = n := by omega
    have i4 : ((2 * p + 2 + n : ℤ) = 0) ↔ False := ⟨fun h => by omega, False.elim⟩
    simp only [i1, i2, i3, i4, if_false]
    have hp0 : (2 * (p : ℝ) + 1) ≠ 0 := by positivity
    split_ifs <;> field_simp <;> ring
  rw [Finset.sum_congr rfl e2]
  by_cases ho : n % 2 = 1
  · rw [if_pos ho]
    apply Finset.sum_eq_zero
    intro p _
    rw [if_neg (by omega), if_neg (by omega), if_neg (by omega)]
    ring
  · rw [if_neg ho]
    obtain ⟨q, rfl⟩ : ∃ q, n = 2 * q := ⟨n / 2, by omega⟩
    simp only [mul_sub, mul_add, Finset.sum_sub_distrib, Finset.sum_add_distrib, mul_ite, mul_one, mul_zero]
    have s1 : ∑ p ∈ Finset.range B, (if 2 * p = 2 * q then 1 / (2 * (p : ℝ) + 1) else 0) = 1 / (2 * (q : ℝ) + 1) := by
      rw [Finset.sum_eq_single q]
      · rw [if_pos rfl]
      · intro p _ hpq; rw [if_neg (by omega)]
      · intro h; exact absurd (Finset.mem_range.2 (by omega)) h
    rw [s1]
    rcases Nat.eq_zero_or_pos q with rfl | hq
    · have s2 : ∑ p ∈ Finset.range B, (if p = 0 ∧ 2 * 0 = 0 then 1 / (2 * (p : ℝ) + 1) else 0) = 1 := by
        rw [Finset.sum_eq_single 0]
        · simp
        · intro p _ hp; exact if_neg fun h => hp h.1
        · intro h; exact absurd (Finset.mem_range.2 (by omega)) h
      have s3 : ∑ p ∈ Finset.range B, (if 2 * p + 2 = 2 * 0 then 1 / (2 * (p : ℝ) + 1) else 0) = 0 :=
        Finset.sum_eq_zero fun p _ => if_neg (by omega)
      rw [s2, s3]; norm_num
    · have s2 : ∑ p ∈ Finset.range B, (if p = 0 ∧ 2 * q = 0 then 1 / (2 * (p : ℝ) + 1) else 0) = 0 :=
        Finset.sum_eq_zero fun p _ => if_neg (by omega)
      have s3 : ∑ p ∈ Finset.range B, (if 2 * p + 2 = 2 * q then 1 / (2 * (p : ℝ) + 1) else 0)
          = 1 / (2 * (q : ℝ) - 1) := by
        rw [Finset.sum_eq_single (q - 1)]
        · rw [if_pos (by omega), Nat.cast_sub hq]; push_cast; congr 1; ring
        · intro p _ hpq; rw [if_neg (by omega)]
        · intro h; exact absurd (Finset.mem_range.2 (by omega)) h
      rw [s2, s3]
      have hq' : (1 : ℝ) ≤ q := by exact_mod_cast hq
      have n1 : 2 * (q : ℝ) - 1 ≠ 0 := by linarith |> fun h : 2 * (q : ℝ) - 1 > 0 => h.ne'
      have n2 : 2 * (q : ℝ) + 1 ≠ 0 := by positivity
      have n3 : 1 - ((2 * q : ℕ) : ℝ) ^ 2 = -((2 * q - 1) * (2 * q + 1)) := by push_cast; ring
      rw [n3]
      field_simp
      ring

/-- `∫_0^π cos(nθ) sin θ dθ`. -/
lemma integral_cos_sin (n : ℕ) : ∫ t in (0 : ℝ)..π, cos (n * t) * sin t
    = if n % 2 = 1 then 0 else 2 / (1 - (n : ℝ) ^ 2) := by
  have e : ∀ t : ℝ, cos (n * t) * sin t = (sin (((n : ℝ) + 1) * t) - sin (((n : ℝ) - 1) * t)) / 2 := by
    intro t
    rw [show ((n : ℝ) + 1) * t = n * t + t by ring, show ((n : ℝ) - 1) * t = n * t - t by ring, sin_add, sin_sub]; ring
  simp only [e]
  rw [intervalIntegral.integral_div, intervalIntegral.integral_sub
    (Continuous.intervalIntegrable (by fun_prop) _ _) (Continuous.intervalIntegrable (by fun_prop) _ _)]
  have key : ∀ c : ℝ, c ≠ 0 → ∫ t in (0 : ℝ)..π, sin (c * t) = (1 - cos (c * π)) / c := by
    intro c hc
    rw [intervalIntegral.integral_comp_mul_left (fun t => sin t) hc, integral_sin, mul_zero, cos_zero, smul_eq_mul]
    field_simp
  have hn1 : (n : ℝ) + 1 ≠ 0 := by positivity
  rw [key _ hn1, show ((n : ℝ) + 1) * π = n * π + π by ring, cos_add_pi]
  by_cases h1 : n = 1
  · subst h1
    norm_num
  · have hn2 : (n : ℝ) - 1 ≠ 0 := by rw [sub_ne_zero]; exact_mod_cast h1
    rw [key _ hn2, show ((n : ℝ) - 1) * π = n * π - π by ring, cos_sub_pi]
    rw [show cos (n * π) = (-1) ^ n from Real.cos_nat_mul_pi n]
    by_cases ho : n % 2 = 1
    · rw [if_pos ho, Odd.neg_one_pow (Nat.odd_iff.2 ho)]
      norm_num
    · rw [if_neg ho, Even.neg_one_pow (Nat.even_iff.2 (by omega))]
      have n3 : 1 - (n : ℝ) ^ 2 = -((n + 1) * (n - 1)) := by ring
      rw [n3]
      field_simp
      ring

lemma dh_pow {B : ℕ} (j : ℕ) : ∀ n : ℕ, n + j < 2 * B →
    ∑ k ∈ Finset.range (2 * B), dltWeightsDH B k * (cos (theta B k) ^ j * cos (n * theta B k))
      = ∫ t in (0 : ℝ)..π, (cos t ^ j * cos (n * t)) * sin t := by
  induction j with
  | zero =>
    intro n hn
    simp only [pow_zero, one_mul]
    rw [dh_cos n (by omega), integral_cos_sin]
  | succ j ih =>
    intro n hn
    rcases Nat.eq_zero_or_pos n with rfl | hp
    · have := ih 1 (by omega)
      simp only [Nat.cast_one, one_mul] at this
      simp only [Nat.cast_zero, zero_mul, cos_zero, mul_one]
      simp only [pow_succ]
      exact this
    · obtain ⟨m, rfl⟩ : ∃ m, n = m + 1 := ⟨n - 1, by omega⟩
      have e : ∀ t : ℝ, cos t ^ (j + 1) * cos ((m + 1 : ℕ) * t)
          = (cos t ^ j * cos ((m + 2 : ℕ) * t) + cos t ^ j * cos ((m : ℕ) * t)) / 2 := by
        intro t
        have a1 : ((m + 2 : ℕ) : ℝ) * t = (m + 1 : ℕ) * t + t := by push_cast; ring
        have a2 : ((m : ℕ) : ℝ) * t = (m + 1 : ℕ) * t - t := by push_cast; ring
        rw [a1, a2, cos_add, cos_sub]; ring
      have h1 := ih (m + 2) (by omega)
      have h2 := ih m (by omega)
      have e3 : ∀ t : ℝ, (cos t ^ j * cos ((m + 2 : ℕ) * t) + cos t ^ j * cos ((m : ℕ) * t)) / 2 * sin t
          = (cos t ^ j * cos ((m + 2 : ℕ) * t) * sin t + cos t ^ j * cos ((m : ℕ) * t) * sin t) / 2 := by
        intro t; ring
      simp only [e, e3]
      rw [intervalIntegral.integral_div, intervalIntegral.integral_add
        (Continuous.intervalIntegrable (by fun_prop) _ _) (Continuous.intervalIntegrable (by fun_prop) _ _), ← h1, ← h2,
        ← Finset.sum_add_distrib, Finset.sum_div]
      apply Finset.sum_congr rfl
      intro k _
      ring

/-- **C83**.  The Driscoll-Healy rule is exact: for every `B ≥ 1` and every real polynomial `P` of degree below `2 B`,
`Σ_k W_k P(cos θ_k)` over the `2 B` colatitudes is `∫_0^π P(cos θ) sin θ dθ`. -/
theorem C83_quadrature (B : ℕ) (P : Polynomial ℝ) (hP : P.natDegree < 2 * B) :
    ∑ k ∈ Finset.range (2 * B), dltWeightsDH B k * P.eval (cos (theta B k))
      = ∫ t in (0 : ℝ)..π, P.eval (cos t) * sin t := by
  have hev : ∀ x : ℝ, P.eval x = ∑ j ∈ Finset.range (2 * B), P.coeff j * x ^ j :=
    fun x => Polynomial.eval_eq_sum_range' hP x
  simp only [hev]
  simp only [Finset.mul_sum, Finset.sum_mul]
  rw [intervalIntegral.integral_finsetSum fun j _ => Continuous.intervalIntegrable (by fun_prop) _ _, Finset.sum_comm]
  apply Finset.sum_congr rfl
  intro j hj
  have := dh_pow (B := B) j 0 (by have := Finset.mem_range.1 hj; omega)
  simp only [Nat.cast_zero, zero_mul, cos_zero, mul_one] at this
  simp only [mul_assoc]
  rw [intervalIntegral.integral_const_mul, ← this, Finset.mul_sum]
  apply Finset.sum_congr rfl
  intro k _
  ring

example : (Polynomial.X ^ 2 : Polynomial ℝ).natDegree < 2 * 2 := by simp

/-- The weights sum to two, the integral of `sin`. -/
theorem C83_total (B : ℕ) (hB : 0 < B) : ∑ k ∈ Finset.range (2 * B), dltWeightsDH B k = 2 := by
  have := dh_cos (B := B) 0 (by omega)
  simpa using this

end Verif.Sht
