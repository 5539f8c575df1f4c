import Mathlib.Analysis.Quaternion
import Mathlib.Analysis.SpecialFunctions.Exp
import Verif.Props.FloatBasics
import Verif.Model.Rounded
import Verif.Spec.Rotation
/-! C138: composition of rotations in floating-point arithmetic. -/
open Quaternion
namespace Verif
open Spec

/-- relative rounding error -/
def Err (u : ℝ) (fl : ℝ → ℝ) : Prop := ∀ x, |fl x - x| ≤ u * |x|

theorem Err.grow {u : ℝ} {fl : ℝ → ℝ} (h : Err u fl) (x : ℝ) : |fl x| ≤ (1 + u) * |x| := by
  have := abs_sub_abs_le_abs_sub (fl x) x
  have := h x
  linarith

theorem step {u : ℝ} {fl : ℝ → ℝ} (hu : 0 ≤ u) (h : Err u fl) (k : ℕ) {x' x X t q : ℝ} (hx : |x' - x| ≤ ((1 + u) ^ (k + 1) - 1) * X)
    (hX : |x| ≤ X) (ht : |t - q| ≤ u * |q|) : |fl (x' + t) - (x + q)| ≤ ((1 + u) ^ (k + 2) - 1) * (X + |q|) := by
  have h1 := h (x' + t)
  have hx' : |x'| ≤ (1 + u) ^ (k + 1) * X := by
    have := abs_sub_abs_le_abs_sub x' x
    linarith
  have ht' : |t| ≤ (1 + u) * |q| := by
    have := abs_sub_abs_le_abs_sub t q
    linarith
  have h2 : |x' + t| ≤ (1 + u) ^ (k + 1) * X + (1 + u) * |q| := (abs_add_le _ _).trans (by linarith)
  have h3 : |fl (x' + t) - (x + q)| ≤ |fl (x' + t) - (x' + t)| + (|x' - x| + |t - q|) := by
    have e : fl (x' + t) - (x + q) = (fl (x' + t) - (x' + t)) + ((x' - x) + (t - q)) := by ring
    rw [e]
    exact (abs_add_le _ _).trans (by linarith [abs_add_le (x' - x) (t - q)])
  have h4 : u * |x' + t| ≤ u * ((1 + u) ^ (k + 1) * X + (1 + u) * |q|) := mul_le_mul_of_nonneg_left h2 hu
  have h5 : (1 + u) ^ 2 * |q| ≤ (1 + u) ^ (k + 2) * |q| :=
    mul_le_mul_of_nonneg_right (pow_le_pow_right₀ (by linarith) (by omega)) (abs_nonneg q)
  have e2 : (1 + u) ^ (k + 2) = (1 + u) ^ (k + 1) * (1 + u) := pow_succ _ _
  rw [e2] at h5 ⊢
  nlinarith

theorem sum4_err {u : ℝ} {fl : ℝ → ℝ} (hu : 0 ≤ u) (h : Err u fl) {t1 t2 t3 t4 q1 q2 q3 q4 : ℝ} (h1 : |t1 - q1| ≤ u * |q1|)
    (h2 : |t2 - q2| ≤ u * |q2|) (h3 : |t3 - q3| ≤ u * |q3|) (h4 : |t4 - q4| ≤ u * |q4|) :
    |rSum4 fl t1 t2 t3 t4 - (q1 + q2 + q3 + q4)| ≤ ((1 + u) ^ 4 - 1) * (|q1| + |q2| + |q3| + |q4|) := by
  have s1 := step hu h 0 (x' := t1) (x := q1) (X := |q1|) (by simpa using h1) le_rfl h2
  have s2 := step hu h 1 s1 (abs_add_le _ _) h3
  exact step hu h 2 s2 ((abs_add_le _ _).trans (by linarith [abs_add_le q1 q2])) h4

theorem Err.neg {u : ℝ} {fl : ℝ → ℝ} (h : Err u fl) (x : ℝ) : |-fl x - -x| ≤ u * |(-x)| := by
  have e : -fl x - -x = -(fl x - x) := by ring
  rw [e, abs_neg, abs_neg]; exact h x

theorem norm_toH (q : Q) : ‖toH q‖ = √(q.w ^ 2 + q.x ^ 2 + q.y ^ 2 + q.z ^ 2) := by
  rw [eq_comm, Real.sqrt_eq_iff_mul_self_eq (by positivity) (norm_nonneg _), ← Quaternion.normSq_eq_norm_mul_self, Quaternion.normSq_def']
  rfl

theorem sq_norm_toH (q : Q) : ‖toH q‖ ^ 2 = q.w ^ 2 + q.x ^ 2 + q.y ^ 2 + q.z ^ 2 := by
  rw [norm_toH, Real.sq_sqrt (by positivity)]

theorem cs4 (a1 a2 a3 a4 b1 b2 b3 b4 : ℝ) : |a1 * b1| + |a2 * b2| + |a3 * b3| + |a4 * b4| ≤
    √(a1 ^ 2 + a2 ^ 2 + a3 ^ 2 + a4 ^ 2) * √(b1 ^ 2 + b2 ^ 2 + b3 ^ 2 + b4 ^ 2) := by
  rw [← Real.sqrt_mul (by positivity)]
  apply Real.le_sqrt_of_sq_le
  simp only [abs_mul]
  rw [← sq_abs a1, ← sq_abs a2, ← sq_abs a3, ← sq_abs a4, ← sq_abs b1, ← sq_abs b2, ← sq_abs b3, ← sq_abs b4]
  generalize |a1| = a1, |a2| = a2, |a3| = a3, |a4| = a4, |b1| = b1, |b2| = b2, |b3| = b3, |b4| = b4
  have := sq_nonneg (a1 * b2 - a2 * b1)
  have := sq_nonneg (a1 * b3 - a3 * b1)
  have := sq_nonneg (a1 * b4 - a4 * b1)
  have := sq_nonneg (a2 * b3 - a3 * b2)
  have := sq_nonneg (a2 * b4 - a4 * b2)
  have := sq_nonneg (a3 * b4 - a4 * b3)
  linarith

theorem norm_le_of_comp {q : ℍ[ℝ]} {B : ℝ} (hB : 0 ≤ B) (h1 : |q.re| ≤ B) (h2 : |q.imI| ≤ B) (h3 : |q.imJ| ≤ B) (h4 : |q.imK| ≤ B) :
    ‖q‖ ≤ 2 * B := by
  have e : ‖q‖ ^ 2 = q.re ^ 2 + q.imI ^ 2 + q.imJ ^ 2 + q.imK ^ 2 := by
    rw [pow_two, ← Quaternion.normSq_eq_norm_mul_self, Quaternion.normSq_def']
  apply abs_le_of_sq_le_sq' _ (by linarith) |>.2
  rw [e]
  have := sq_le_sq' (neg_le_of_abs_le h1) (le_of_abs_le h1)
  have := sq_le_sq' (neg_le_of_abs_le h2) (le_of_abs_le h2)
  have := sq_le_sq' (neg_le_of_abs_le h3) (le_of_abs_le h3)
  have := sq_le_sq' (neg_le_of_abs_le h4) (le_of_abs_le h4)
  linarith

theorem comp_err {u : ℝ} {fl : ℝ → ℝ} (hu : 0 ≤ u) (h : Err u fl) {t1 t2 t3 t4 a1 a2 a3 a4 b1 b2 b3 b4 A B : ℝ}
    (h1 : |t1 - a1 * b1| ≤ u * |a1 * b1|) (h2 : |t2 - a2 * b2| ≤ u * |a2 * b2|)
    (h3 : |t3 - a3 * b3| ≤ u * |a3 * b3|) (h4 : |t4 - a4 * b4| ≤ u * |a4 * b4|)
    (hA : √(a1 ^ 2 + a2 ^ 2 + a3 ^ 2 + a4 ^ 2) = A) (hB : √(b1 ^ 2 + b2 ^ 2 + b3 ^ 2 + b4 ^ 2) = B) :
    |rSum4 fl t1 t2 t3 t4 - (a1 * b1 + a2 * b2 + a3 * b3 + a4 * b4)| ≤ ((1 + u) ^ 4 - 1) * (A * B) := by
  have hc := cs4 a1 a2 a3 a4 b1 b2 b3 b4
  rw [hA, hB] at hc
  have hg : 0 ≤ (1 + u) ^ 4 - 1 := by
    have : 1 ≤ (1 + u) ^ 4 := one_le_pow₀ (by linarith)
    linarith
  exact (sum4_err hu h h1 h2 h3 h4).trans (mul_le_mul_of_nonneg_left hc hg)

theorem neg_prod {u : ℝ} {fl : ℝ → ℝ} (h : Err u fl) (a b : ℝ) : |-fl (a * b) - a * (-b)| ≤ u * |a * (-b)| := by
  have := h.neg (a * b)
  rwa [← mul_neg] at this

theorem prod_w_err {u : ℝ} {fl : ℝ → ℝ} (hu : 0 ≤ u) (h : Err u fl) (a b : Q) :
    |(rProdRaw fl a b).w - (toH a * toH b).re| ≤ ((1 + u) ^ 4 - 1) * (‖toH a‖ * ‖toH b‖) := by
  have := comp_err hu h (h (a.w * b.w)) (neg_prod h a.x b.x) (neg_prod h a.y b.y) (neg_prod h a.z b.z) (norm_toH a).symm
    (B := ‖toH b‖) (by rw [norm_toH]; congr 1; ring)
  have e : (toH a * toH b).re = a.w * b.w + a.x * -b.x + a.y * -b.y + a.z * -b.z := by
    rw [Quaternion.re_mul]; simp only [toH]; ring
  rw [e]; exact this

/-- One multiplication: the rounded product is off by at most `2 ((1 + u)^4 - 1)` of the product of the norms. -/
theorem prod_err {u : ℝ} {fl : ℝ → ℝ} (hu : 0 ≤ u) (h : Err u fl) (a b : Q) :
    ‖toH (rProdRaw fl a b) - toH a * toH b‖ ≤ 2 * ((1 + u) ^ 4 - 1) * (‖toH a‖ * ‖toH b‖) := by
  have hg : 0 ≤ (1 + u) ^ 4 - 1 := by
    have : 1 ≤ (1 + u) ^ 4 := one_le_pow₀ (by linarith)
    linarith
  rw [mul_assoc]
  have hA := (norm_toH a).symm
  apply norm_le_of_comp (by positivity)
  · rw [Quaternion.re_sub]
    exact prod_w_err hu h a b
  · have := comp_err hu h (h (a.w * b.x)) (h (a.x * b.w)) (h (a.y * b.z)) (neg_prod h a.z b.y) hA
      (B := ‖toH b‖) (by rw [norm_toH]; congr 1; ring)
    have e : (toH a * toH b).imI = a.w * b.x + a.x * b.w + a.y * b.z + a.z * -b.y := by
      rw [Quaternion.imI_mul]; simp only [toH]; ring
    rw [Quaternion.imI_sub, e]; exact this
  · have := comp_err hu h (h (a.w * b.y)) (neg_prod h a.x b.z) (h (a.y * b.w)) (h (a.z * b.x)) hA
      (B := ‖toH b‖) (by rw [norm_toH]; congr 1; ring)
    have e : (toH a * toH b).imJ = a.w * b.y + a.x * -b.z + a.y * b.w + a.z * b.x := by
      rw [Quaternion.imJ_mul]; simp only [toH]; ring
    rw [Quaternion.imJ_sub, e]; exact this
  · have := comp_err hu h (h (a.w * b.z)) (h (a.x * b.y)) (neg_prod h a.y b.x) (h (a.z * b.w)) hA
      (B := ‖toH b‖) (by rw [norm_toH]; congr 1; ring)
    have e : (toH a * toH b).imK = a.w * b.z + a.x * b.y + a.y * -b.x + a.z * b.w := by
      rw [Quaternion.imK_mul]; simp only [toH]; ring
    rw [Quaternion.imK_sub, e]; exact this

theorem std_sign (q : Q) : ∃ s : ℝ, (s = 1 ∨ s = -1) ∧ toH (quStd q) = s • toH q := by
  unfold quStd
  by_cases h : 0 ≤ q.w
  · rw [if_pos h]; exact ⟨1, Or.inl rfl, by rw [one_smul]⟩
  · rw [if_neg h]
    refine ⟨-1, Or.inr rfl, ?_⟩
    rw [neg_smul, one_smul]
    ext <;> rfl

theorem sign_norm {s : ℝ} (hs : s = 1 ∨ s = -1) : ‖s‖ = 1 := by rcases hs with rfl | rfl <;> simp

/-- the exact product of a sequence of quaternions -/
noncomputable def exactProd (q0 : Q) (qs : List Q) : ℍ[ℝ] := qs.foldl (fun h q => h * toH q) (toH q0)

/-- C138: composing any number of rotations with `qu_prod` in floating-point arithmetic (any precision `p`, any nearest rounding): up to
sign the result is the exact product up to a relative error of `(1 + 2 ((1 + 2^-p)^4 - 1))^n - 1` for `n` multiplications. -/
theorem C138_chain {p : ℕ} (hp : 0 < p) {fl : ℝ → ℝ} (hfl : Nearest p fl) (q0 : Q) (qs : List Q) :
    ∃ s : ℝ, (s = 1 ∨ s = -1) ∧ ‖toH (qs.foldl (rProd fl) q0) - s • exactProd q0 qs‖ ≤
      ((1 + 2 * ((1 + (2 ^ p)⁻¹) ^ 4 - 1)) ^ qs.length - 1) * ‖exactProd q0 qs‖ := by
  have hE : Err (2 ^ p)⁻¹ fl := hfl.err hp
  have hu : (0 : ℝ) ≤ (2 ^ p)⁻¹ := by positivity
  generalize ((2 : ℝ) ^ p)⁻¹ = u at hE hu ⊢
  have hg : 0 ≤ 2 * ((1 + u) ^ 4 - 1) := by
    have : 1 ≤ (1 + u) ^ 4 := one_le_pow₀ (by linarith)
    linarith
  induction qs using List.reverseRecOn with
  | nil => exact ⟨1, Or.inl rfl, by simp [exactProd]⟩
  | append_singleton l q ih =>
    obtain ⟨s, hs, ih⟩ := ih
    rw [List.foldl_append, List.length_append]
    unfold exactProd at ih ⊢
    rw [List.foldl_append]
    simp only [List.foldl_cons, List.foldl_nil, List.length_cons, List.length_nil]
    generalize l.foldl (rProd fl) q0 = P at ih
    generalize l.foldl (fun h q => h * toH q) (toH q0) = E at ih
    obtain ⟨s', hs', e'⟩ := std_sign (rProdRaw fl P q)
    refine ⟨s' * s, by rcases hs with rfl | rfl <;> rcases hs' with rfl | rfl <;> simp, ?_⟩
    unfold rProd
    rw [e', mul_smul, ← smul_sub, norm_smul, sign_norm hs', one_mul, norm_mul]
    have h1 := prod_err hu hE P q
    have h2 : ‖toH P‖ ≤ (1 + 2 * ((1 + u) ^ 4 - 1)) ^ l.length * ‖E‖ := by
      have := norm_le_norm_add_norm_sub (s • E) (toH P)
      rw [norm_smul, sign_norm hs, one_mul, norm_sub_rev] at this
      linarith
    have h3 : ‖toH P * toH q - s • (E * toH q)‖ ≤ ((1 + 2 * ((1 + u) ^ 4 - 1)) ^ l.length - 1) * ‖E‖ * ‖toH q‖ := by
      rw [← smul_mul_assoc, ← sub_mul, norm_mul]
      exact mul_le_mul_of_nonneg_right ih (norm_nonneg _)
    have h4 := norm_sub_le_norm_sub_add_norm_sub (toH (rProdRaw fl P q)) (toH P * toH q) (s • (E * toH q))
    have h5 : 2 * ((1 + u) ^ 4 - 1) * (‖toH P‖ * ‖toH q‖) ≤
        2 * ((1 + u) ^ 4 - 1) * ((1 + 2 * ((1 + u) ^ 4 - 1)) ^ l.length * ‖E‖ * ‖toH q‖) :=
      mul_le_mul_of_nonneg_left (mul_le_mul_of_nonneg_right h2 (norm_nonneg _)) hg
    rw [zero_add, pow_succ]
    linarith

theorem small_u {p : ℕ} (hp : 8 ≤ p) : ((2 : ℝ) ^ p)⁻¹ ≤ 1 / 256 := by
  rw [one_div]
  apply inv_anti₀ (by norm_num)
  calc (256 : ℝ) = 2 ^ 8 := by norm_num
    _ ≤ 2 ^ p := pow_le_pow_right₀ (by norm_num) hp

theorem gamma_le {u : ℝ} (hu : 0 ≤ u) (h : u ≤ 1 / 256) : (1 + u) ^ 4 - 1 ≤ 4.03 * u := by
  have h2 : u ^ 2 ≤ u * (1 / 256) := by rw [pow_two]; exact mul_le_mul_of_nonneg_left h hu
  have h3 : u ^ 3 ≤ u * (1 / 256) := by
    have : u ^ 3 = u ^ 2 * u := by ring
    have : u ^ 2 * u ≤ u ^ 2 * 1 := mul_le_mul_of_nonneg_left (by linarith) (sq_nonneg u)
    linarith
  have h4 : u ^ 4 ≤ u ^ 3 * (1 / 256) := by
    have : u ^ 4 = u ^ 3 * u := by ring
    rw [this]; exact mul_le_mul_of_nonneg_left h (by positivity)
  have e : (1 + u) ^ 4 - 1 = 4 * u + 6 * u ^ 2 + 4 * u ^ 3 + u ^ 4 := by ring
  have h5 : u ^ 3 ≤ u ^ 2 * (1 / 256) := by
    have : u ^ 3 = u ^ 2 * u := by ring
    rw [this]; exact mul_le_mul_of_nonneg_left h (by positivity)
  rw [e]
  norm_num at *
  linarith

/-- the norm computed by `qu_norm` -/
theorem norm_err {u : ℝ} {fl : ℝ → ℝ} (hu : 0 ≤ u) (hs : u ≤ 1 / 256) (h : Err u fl) (q : Q) (hq : 0 < ‖toH q‖) :
    |rNormVal fl q - ‖toH q‖| ≤ 3.1 * u * ‖toH q‖ := by
  unfold rNormVal
  have h1 := sum4_err hu h (h (q.w * q.w)) (h (q.x * q.x)) (h (q.y * q.y)) (h (q.z * q.z))
  have e1 := sq_norm_toH q
  simp only [abs_mul_self] at h1
  have e2 : q.w * q.w + q.x * q.x + q.y * q.y + q.z * q.z = ‖toH q‖ ^ 2 := by rw [e1]; ring
  rw [e2] at h1
  generalize rSum4 fl (fl (q.w * q.w)) (fl (q.x * q.x)) (fl (q.y * q.y)) (fl (q.z * q.z)) = S at h1 ⊢
  generalize ‖toH q‖ = N at h1 hq ⊢
  have hN2 : 0 < N ^ 2 := by positivity
  have hg := gamma_le hu hs
  have hg0 : 0 ≤ (1 + u) ^ 4 - 1 := by
    have : 1 ≤ (1 + u) ^ 4 := one_le_pow₀ (by linarith)
    linarith
  have h2 : |S - N ^ 2| ≤ 4.03 * u * N ^ 2 := h1.trans (mul_le_mul_of_nonneg_right hg hN2.le)
  have hS : (1 - 4.03 * u) * N ^ 2 ≤ S := by
    have := (abs_le.mp h2).1; linarith
  have hb : 0.98 ≤ 1 - 4.03 * u := by norm_num at hs ⊢; linarith
  have hr : 0.98 * N ≤ √S := by
    apply Real.le_sqrt_of_sq_le
    have : 0.98 * N ^ 2 ≤ (1 - 4.03 * u) * N ^ 2 := mul_le_mul_of_nonneg_right hb hN2.le
    rw [mul_pow]; norm_num at this ⊢; linarith
  have hS0 : 0 ≤ S := by
    have : 0 ≤ (1 - 4.03 * u) * N ^ 2 := by norm_num at hb ⊢; apply mul_nonneg <;> linarith
    linarith
  have h3 : |√S - N| ≤ 2.04 * u * N := by
    have e : (√S - N) * (√S + N) = S - N ^ 2 := by
      have := Real.sq_sqrt hS0
      linear_combination this
    have hsum : 1.98 * N ≤ √S + N := by norm_num at hr ⊢; linarith
    have hpos : 0 < √S + N := by have := Real.sqrt_nonneg S; linarith
    rw [← e, abs_mul, abs_of_pos hpos] at h2
    have h5 : |√S - N| * (1.98 * N) ≤ |√S - N| * (√S + N) := mul_le_mul_of_nonneg_left hsum (abs_nonneg _)
    have h6 : |√S - N| * 1.98 ≤ 4.03 * u * N := by
      have : |√S - N| * 1.98 * N ≤ 4.03 * u * N * N := by
        have e : 4.03 * u * N ^ 2 = 4.03 * u * N * N := by ring
        rw [e] at h2; linarith
      exact le_of_mul_le_mul_right this hq
    have : 0 ≤ u * N := by positivity
    norm_num at h6 ⊢
    linarith
  have h4 := h (√S)
  have h7 : |√S| ≤ (1 + 2.04 * u) * N := by
    have := abs_sub_abs_le_abs_sub (√S) N
    rw [abs_of_pos hq] at this
    linarith
  have h8 : u * |√S| ≤ u * ((1 + 2.04 * u) * N) := mul_le_mul_of_nonneg_left h7 hu
  have h9 := abs_sub_le (fl (√S)) (√S) N
  have h10 : u * u * N ≤ u * N * (1 / 256) := by
    have : 0 ≤ u * N := by positivity
    have := mul_le_mul_of_nonneg_left hs this
    linarith
  have : 0 ≤ u * N := by positivity
  norm_num at h3 h8 h9 h10 ⊢
  linarith

/-- C138: `qu_norm` in floating-point arithmetic: each quaternion is divided by its length, up to `4.2 * 2^-p`. -/
theorem C138_normalise {p : ℕ} (hp : 8 ≤ p) {fl : ℝ → ℝ} (hfl : Nearest p fl) (q : Q) (hq : toH q ≠ 0) :
    ‖toH (rNorm fl q) - ‖toH q‖⁻¹ • toH q‖ ≤ 4.2 * (2 ^ p)⁻¹ := by
  have hE : Err (2 ^ p)⁻¹ fl := hfl.err (by omega)
  have hu : (0 : ℝ) ≤ (2 ^ p)⁻¹ := by positivity
  have hs := small_u hp
  generalize ((2 : ℝ) ^ p)⁻¹ = u at hE hu hs ⊢
  have hN : 0 < ‖toH q‖ := norm_pos_iff.mpr hq
  have hn := norm_err hu hs hE q hN
  unfold rNorm
  dsimp only
  generalize rNormVal fl q = n at hn ⊢
  have hn1 : (1 - 3.1 * u) * ‖toH q‖ ≤ n := by
    have := (abs_le.mp hn).1; linarith
  have hb : 0.98 ≤ 1 - 3.1 * u := by norm_num at hs ⊢; linarith
  have hn0 : 0 < n := lt_of_lt_of_le (mul_pos (by norm_num at hb ⊢; linarith) hN) hn1
  have hc : ∀ c : ℝ, |fl (c / n) - ‖toH q‖⁻¹ * c| ≤ 4.2 * u * (‖toH q‖⁻¹ * |c|) := by
    intro c
    have h1 := hE (c / n)
    have e1 : c / n - ‖toH q‖⁻¹ * c = c / n * ((‖toH q‖ - n) / ‖toH q‖) := by field_simp
    have h2 : |c / n - ‖toH q‖⁻¹ * c| ≤ |c / n| * (3.1 * u) := by
      rw [e1, abs_mul]
      apply mul_le_mul_of_nonneg_left _ (abs_nonneg _)
      rw [abs_div, abs_of_pos hN, div_le_iff₀ hN, abs_sub_comm]
      exact hn
    have h3 := abs_sub_le (fl (c / n)) (c / n) (‖toH q‖⁻¹ * c)
    have h4 : |c / n| * (1 - 3.1 * u) ≤ ‖toH q‖⁻¹ * |c| := by
      rw [abs_div, abs_of_pos hn0, div_mul_eq_mul_div, div_le_iff₀ hn0, inv_mul_eq_div, div_mul_eq_mul_div, le_div_iff₀ hN]
      have := mul_le_mul_of_nonneg_left hn1 (abs_nonneg c)
      linarith
    have h5 : |c / n| * 4.1 ≤ 4.2 * (‖toH q‖⁻¹ * |c|) := by
      have h6 : |c / n| * 0.98 ≤ |c / n| * (1 - 3.1 * u) := mul_le_mul_of_nonneg_left hb (abs_nonneg _)
      have := abs_nonneg (c / n)
      norm_num at h6 h4 ⊢
      linarith
    have h7 : |c / n| * 4.1 * u ≤ 4.2 * (‖toH q‖⁻¹ * |c|) * u := mul_le_mul_of_nonneg_right h5 hu
    norm_num at h1 h2 h3 h7 ⊢
    linarith
  have e : ‖toH ⟨fl (q.w / n), fl (q.x / n), fl (q.y / n), fl (q.z / n)⟩ - ‖toH q‖⁻¹ • toH q‖ ^ 2 ≤ (4.2 * u) ^ 2 := by
    rw [pow_two, ← Quaternion.normSq_eq_norm_mul_self, Quaternion.normSq_def']
    simp only [Quaternion.re_sub, Quaternion.imI_sub, Quaternion.imJ_sub, Quaternion.imK_sub, Quaternion.re_smul, Quaternion.imI_smul,
      Quaternion.imJ_smul, Quaternion.imK_smul, smul_eq_mul]
    have sq : ∀ c : ℝ, (fl (c / n) - ‖toH q‖⁻¹ * c) ^ 2 ≤ (4.2 * u) ^ 2 * (‖toH q‖⁻¹ ^ 2 * c ^ 2) := by
      intro c
      have := pow_le_pow_left₀ (abs_nonneg _) (hc c) 2
      rw [sq_abs, mul_pow, mul_pow (‖toH q‖⁻¹), sq_abs] at this
      exact this
    have hsum : ‖toH q‖⁻¹ ^ 2 * (q.w ^ 2 + q.x ^ 2 + q.y ^ 2 + q.z ^ 2) = 1 := by
      rw [← sq_norm_toH]; field_simp
    have hw := sq q.w
    have hx := sq q.x
    have hy := sq q.y
    have hz := sq q.z
    have : (4.2 * u) ^ 2 = (4.2 * u) ^ 2 * (‖toH q‖⁻¹ ^ 2 * (q.w ^ 2 + q.x ^ 2 + q.y ^ 2 + q.z ^ 2)) := by rw [hsum, mul_one]
    rw [this]
    simp only [toH] at hw hx hy hz ⊢
    linarith
  exact (abs_le_of_sq_le_sq' e (by positivity)).2

theorem pow_bound {x : ℝ} (hx : 0 ≤ x) (n : ℕ) {y : ℝ} (hy : n * x = y) (h1 : y ≤ 1 / 7) : (1 + x) ^ n ≤ 1 + 8 / 7 * y := by
  have h0 : 0 ≤ y := by rw [← hy]; positivity
  have h2 : (1 + x) ^ n ≤ Real.exp y := by
    rw [← hy, Real.exp_nat_mul]
    exact pow_le_pow_left₀ (by linarith) (by linarith [Real.add_one_le_exp x]) n
  have h3 := Real.abs_exp_sub_one_sub_id_le (x := y) (by rw [abs_of_nonneg h0]; linarith)
  have := (abs_le.mp h3).2
  nlinarith

theorem exact_norm {d : ℝ} (hd : 0 ≤ d) (hd1 : d ≤ 1) (q0 : Q) (qs : List Q) (h0 : |‖toH q0‖ - 1| ≤ d) (hq : ∀ q ∈ qs, |‖toH q‖ - 1| ≤ d) :
    (1 - d) ^ (qs.length + 1) ≤ ‖exactProd q0 qs‖ ∧ ‖exactProd q0 qs‖ ≤ (1 + d) ^ (qs.length + 1) := by
  induction qs using List.reverseRecOn with
  | nil =>
    have := abs_le.mp h0
    simp only [exactProd, List.foldl_nil, List.length_nil, zero_add, pow_one]
    constructor <;> linarith
  | append_singleton l q ih =>
    obtain ⟨i1, i2⟩ := ih (fun x hx => hq x (by simp [hx]))
    have h := abs_le.mp (hq q (by simp))
    have e : exactProd q0 (l ++ [q]) = exactProd q0 l * toH q := by simp [exactProd, List.foldl_append]
    rw [e, norm_mul, List.length_append, List.length_singleton, pow_succ, pow_succ (1 + d)]
    constructor
    · exact mul_le_mul i1 (by linarith) (by linarith) (norm_nonneg _)
    · exact mul_le_mul i2 (by linarith) (norm_nonneg _) (by positivity)

/-- C138: after at most `2^(p-6)` compositions of quaternions of unit length up to `5 * 2^-p` (what `qu_norm` gives) the result is a
quaternion of unit length, and the exact product, up to a few roundings per composition. -/
theorem C138_unit {p : ℕ} (hp : 8 ≤ p) {fl : ℝ → ℝ} (hfl : Nearest p fl) (q0 : Q) (qs : List Q) (hn : 64 * qs.length ≤ 2 ^ p)
    (h0 : |‖toH q0‖ - 1| ≤ 5 * (2 ^ p)⁻¹) (hq : ∀ q ∈ qs, |‖toH q‖ - 1| ≤ 5 * (2 ^ p)⁻¹) :
    |‖toH (qs.foldl (rProd fl) q0)‖ - 1| ≤ 17 * (qs.length + 1) * (2 ^ p)⁻¹ ∧
    ∃ s : ℝ, (s = 1 ∨ s = -1) ∧ ‖toH (qs.foldl (rProd fl) q0) - s • exactProd q0 qs‖ ≤ 12 * qs.length * (2 ^ p)⁻¹ := by
  obtain ⟨s, hs, hc⟩ := C138_chain (by omega) hfl q0 qs
  have hu : (0 : ℝ) ≤ (2 ^ p)⁻¹ := by positivity
  have hsm := small_u hp
  have hnu : (qs.length : ℝ) * (2 ^ p)⁻¹ ≤ 1 / 64 := by
    rw [mul_inv_le_iff₀ (by positivity)]
    have : ((64 * qs.length : ℕ) : ℝ) ≤ ((2 ^ p : ℕ) : ℝ) := by exact_mod_cast hn
    push_cast at this
    linarith
  generalize ((2 : ℝ) ^ p)⁻¹ = u at *
  have hg := gamma_le hu hsm
  have hE := exact_norm (d := 5 * u) (by positivity) (by linarith) q0 qs h0 hq
  have hup := pow_bound (x := 5 * u) (by positivity) (qs.length + 1) (y := 5 * (qs.length * u + u)) (by push_cast; ring) (by linarith)
  have hlo : 1 - 5 * (qs.length * u + u) ≤ (1 - 5 * u) ^ (qs.length + 1) := by
    have := one_add_mul_le_pow (a := -(5 * u)) (by linarith) (qs.length + 1)
    push_cast at this
    rw [← sub_eq_add_neg] at this
    linarith
  have hG : (1 + 2 * ((1 + u) ^ 4 - 1)) ^ qs.length ≤ 1 + 8 / 7 * (qs.length * (8.06 * u)) := by
    refine (pow_le_pow_left₀ ?_ ?_ _).trans (pow_bound (x := 8.06 * u) (by positivity) qs.length rfl ?_)
    · have : 1 ≤ (1 + u) ^ 4 := one_le_pow₀ (by linarith)
      linarith
    · norm_num at hg ⊢; linarith
    · norm_num; linarith
  generalize (1 + 2 * ((1 + u) ^ 4 - 1)) ^ qs.length = G at *
  have hrev := abs_norm_sub_norm_le (toH (qs.foldl (rProd fl) q0)) (s • exactProd q0 qs)
  rw [norm_smul, sign_norm hs, one_mul] at hrev
  generalize ‖exactProd q0 qs‖ = N at *
  have hmain : (G - 1) * N ≤ 11 * (qs.length * u) := by
    have h1 : G - 1 ≤ 9.3 * (qs.length * u) := by
      have : 0 ≤ (qs.length : ℝ) * u := by positivity
      norm_num at hG ⊢; linarith
    have h2 : N ≤ 1.12 := by norm_num at hup ⊢; linarith [hE.2]
    have h3 : 0 ≤ N := by linarith [hE.1]
    have h4 : (G - 1) * N ≤ 9.3 * (qs.length * u) * N := mul_le_mul_of_nonneg_right h1 h3
    have h5 : 9.3 * (qs.length * u) * N ≤ 9.3 * (qs.length * u) * 1.12 := mul_le_mul_of_nonneg_left h2 (by positivity)
    have : 0 ≤ (qs.length : ℝ) * u := by positivity
    norm_num at h4 h5 ⊢
    linarith
  have hlen : (0 : ℝ) ≤ qs.length * u := by positivity
  refine ⟨?_, s, hs, hc.trans (by linarith)⟩
  have h6 := hc.trans hmain
  have h7 : |‖toH (qs.foldl (rProd fl) q0)‖ - N| ≤ 11 * (qs.length * u) := hrev.trans h6
  rw [abs_le] at h7 ⊢
  constructor <;> linarith [hE.1, hE.2, h7.1, h7.2]

end Verif
