import Verif.Lemmas.Orient
import Mathlib.LinearAlgebra.Matrix.Adjugate
/-! `om2qu` on rotation matrices. -/
namespace Verif
open Spec

/-- magnitude of a component computed from a branch with pivot `p`. -/
theorem branch_abs {p a N : ℝ} (hp : p ≠ 0) (h : |N| = 4 * |p| * |a|) :
    |N * hrsqrt (4 * p ^ 2)| = |a| := by
  rw [hrsqrt_sq4' hp, abs_mul, h, abs_div, abs_one, abs_mul, abs_abs]
  have := abs_pos.mpr hp
  rw [abs_of_pos (by norm_num : (0:ℝ) < 4)]
  field_simp

theorem om_abs4 (s p a : ℝ) (h : s = 4 * p * a ∨ s = -(4 * p * a)) : |s| = 4 * |p| * |a| := by
  rcases h with h | h <;> rw [h] <;> simp [abs_mul]

/-- the four magnitudes before the sign fix, and the sign sources. -/
theorem om2qu_qu2om (q : Q) (hq : IsUnit4 q) :
    om2qu (qu2om q) = ⟨|q.w|, copysign q.x (q.w * q.x), copysign q.y (q.w * q.y),
      copysign q.z (q.w * q.z)⟩ := by
  obtain ⟨w, x, y, z⟩ := q
  simp only [IsUnit4] at hq
  have key : ∀ (a b s t : ℝ), |a| = |b| → s = 4 * t → copysign a s = copysign b t := by
    intro a b s t h hs
    unfold copysign
    rw [h, hs]
    by_cases ht : t < 0
    · rw [if_pos ht, if_pos (by linarith)]
    · rw [if_neg ht, if_neg (by linarith)]
  have fin : ∀ p : Q, |p.w| = |w| → |p.x| = |x| → |p.y| = |y| → |p.z| = |z| →
      (⟨|p.w|, copysign p.x (qu2om ⟨w,x,y,z⟩ 2 1 - qu2om ⟨w,x,y,z⟩ 1 2),
        copysign p.y (qu2om ⟨w,x,y,z⟩ 0 2 - qu2om ⟨w,x,y,z⟩ 2 0),
        copysign p.z (qu2om ⟨w,x,y,z⟩ 1 0 - qu2om ⟨w,x,y,z⟩ 0 1)⟩ : Q) =
      ⟨|w|, copysign x (w * x), copysign y (w * y), copysign z (w * z)⟩ := by
    intro p h1 h2 h3 h4
    rw [h1, key _ x _ (w * x) h2 (by simp [qu2om]; ring), key _ y _ (w * y) h3 (by simp [qu2om]; ring),
      key _ z _ (w * z) h4 (by simp [qu2om]; ring)]
  unfold om2qu
  apply fin
  all_goals
    simp only [qu2om, Matrix.of_apply, Matrix.cons_val', Matrix.cons_val_zero, Matrix.cons_val_one,
      Matrix.cons_val, Matrix.cons_val_fin_one]
    have t1 : 1 + (w ^ 2 - (x ^ 2 + y ^ 2 + z ^ 2) + 2 * x ^ 2) - (w ^ 2 - (x ^ 2 + y ^ 2 + z ^ 2) + 2 * y ^ 2)
      - (w ^ 2 - (x ^ 2 + y ^ 2 + z ^ 2) + 2 * z ^ 2) = 4 * x ^ 2 := by linarith
    have t2 : 1 - (w ^ 2 - (x ^ 2 + y ^ 2 + z ^ 2) + 2 * x ^ 2) + (w ^ 2 - (x ^ 2 + y ^ 2 + z ^ 2) + 2 * y ^ 2)
      - (w ^ 2 - (x ^ 2 + y ^ 2 + z ^ 2) + 2 * z ^ 2) = 4 * y ^ 2 := by linarith
    have t3 : 1 - (w ^ 2 - (x ^ 2 + y ^ 2 + z ^ 2) + 2 * x ^ 2) - (w ^ 2 - (x ^ 2 + y ^ 2 + z ^ 2) + 2 * y ^ 2)
      + (w ^ 2 - (x ^ 2 + y ^ 2 + z ^ 2) + 2 * z ^ 2) = 4 * z ^ 2 := by linarith
    have t4 : 1 + (w ^ 2 - (x ^ 2 + y ^ 2 + z ^ 2) + 2 * x ^ 2) + (w ^ 2 - (x ^ 2 + y ^ 2 + z ^ 2) + 2 * y ^ 2)
      + (w ^ 2 - (x ^ 2 + y ^ 2 + z ^ 2) + 2 * z ^ 2) = 4 * w ^ 2 := by linarith
    rw [t1, t2, t3, t4]
    have hx2 := sq_nonneg x
    have hy2 := sq_nonneg y
    have hz2 := sq_nonneg z
    have hw2 := sq_nonneg w
    split_ifs with h1 h2 h2 <;> dsimp only
  all_goals
    first
    | (apply branch_abs
       · rintro rfl; nlinarith
       · apply om_abs4; first | (left; ring1) | (right; ring1))

/-- A rotation matrix equals its cofactor matrix. -/
theorem rot_cofactor {R : M3} (h : IsRotation R) : R.transpose = R.adjugate := by
  have h1 : R.adjugate * (R * R.transpose) = R.adjugate := by rw [h.1, Matrix.mul_one]
  rw [← Matrix.mul_assoc, Matrix.adjugate_mul, h.2, one_smul, Matrix.one_mul] at h1
  exact h1

theorem rot_transpose_mul {R : M3} (h : IsRotation R) : R.transpose * R = 1 := by
  rw [rot_cofactor h, Matrix.adjugate_mul, h.2, one_smul]

/-- Scalar consequences of orthogonality and unit determinant. -/
theorem rot_scalars {a b c d k l m n o : ℝ} (h : IsRotation !![a, b, c; d, k, l; m, n, o]) :
    (a^2 + b^2 + c^2 = 1 ∧ d^2 + k^2 + l^2 = 1 ∧ m^2 + n^2 + o^2 = 1 ∧
      a * d + b * k + c * l = 0 ∧ a * m + b * n + c * o = 0 ∧ d * m + k * n + l * o = 0) ∧
    (a^2 + d^2 + m^2 = 1 ∧ b^2 + k^2 + n^2 = 1 ∧ c^2 + l^2 + o^2 = 1 ∧
      a * b + d * k + m * n = 0 ∧ a * c + d * l + m * o = 0 ∧ b * c + k * l + n * o = 0) ∧
    (a = k * o - l * n ∧ b = l * m - d * o ∧ c = d * n - k * m ∧
     d = c * n - b * o ∧ k = a * o - c * m ∧ l = b * m - a * n ∧
     m = b * l - c * k ∧ n = c * d - a * l ∧ o = a * k - b * d) := by
  have e : ∀ i j, (!![a, b, c; d, k, l; m, n, o] * (!![a, b, c; d, k, l; m, n, o] : M3).transpose) i j
      = (1 : M3) i j := fun i j => by rw [h.1]
  have f : ∀ i j, ((!![a, b, c; d, k, l; m, n, o] : M3).transpose * !![a, b, c; d, k, l; m, n, o]) i j
      = (1 : M3) i j := fun i j => by rw [rot_transpose_mul h]
  have g : ∀ i j, (!![a, b, c; d, k, l; m, n, o] : M3).transpose i j
      = (!![a, b, c; d, k, l; m, n, o] : M3).adjugate i j := fun i j => by rw [rot_cofactor h]
  have e00 := e 0 0; have e01 := e 0 1; have e02 := e 0 2; have e11 := e 1 1; have e12 := e 1 2
  have e22 := e 2 2
  have f00 := f 0 0; have f01 := f 0 1; have f02 := f 0 2; have f11 := f 1 1; have f12 := f 1 2
  have f22 := f 2 2
  have g00 := g 0 0; have g01 := g 0 1; have g02 := g 0 2; have g10 := g 1 0; have g11 := g 1 1
  have g12 := g 1 2; have g20 := g 2 0; have g21 := g 2 1; have g22 := g 2 2
  clear e f g
  simp [Matrix.mul_apply, Fin.sum_univ_three] at e00 e01 e02 e11 e12 e22 f00 f01 f02 f11 f12 f22
  simp [Matrix.adjugate_fin_three] at g00 g01 g02 g10 g11 g12 g20 g21 g22
  refine ⟨⟨?_, ?_, ?_, ?_, ?_, ?_⟩, ⟨?_, ?_, ?_, ?_, ?_, ?_⟩, ?_, ?_, ?_, ?_, ?_, ?_, ?_, ?_, ?_⟩ <;> linarith

theorem rot_trace_pos {R : M3} (h : IsRotation R) (ht : 0 < 1 + R 0 0 + R 1 1 + R 2 2) :
    ∃ q : Q, IsUnit4 q ∧ R = qu2om q := by
  rw [Matrix.eta_fin_three R] at h ht ⊢
  simp only [Matrix.of_apply, Matrix.cons_val', Matrix.cons_val_zero, Matrix.cons_val_one,
      Matrix.cons_val, Matrix.cons_val_fin_one] at ht
  generalize R 0 0 = a at *
  generalize R 0 1 = b at *
  generalize R 0 2 = c at *
  generalize R 1 0 = d at *
  generalize R 1 1 = k at *
  generalize R 1 2 = l at *
  generalize R 2 0 = m at *
  generalize R 2 1 = n at *
  generalize R 2 2 = o at *
  obtain ⟨⟨r0, r1, r2, r01, r02, r12⟩, ⟨c0, c1, c2, c01, c02, c12⟩, ha, hb, hc, hd, hk, hl, hm, hn, ho⟩ :=
    rot_scalars h
  obtain ⟨s, hs0, hs⟩ : ∃ s : ℝ, 0 < s ∧ s ^ 2 = 1 + a + k + o :=
    ⟨Real.sqrt _, Real.sqrt_pos.mpr ht, Real.sq_sqrt ht.le⟩
  have x2 : (n - l) ^ 2 = s ^ 2 * (1 + a - k - o) := by
    rw [hs]; linear_combination r1 + r2 - c0 - 2 * ha
  have y2 : (c - m) ^ 2 = s ^ 2 * (1 - a + k - o) := by
    rw [hs]; linear_combination r0 + r2 - c1 - 2 * hk
  have z2 : (d - b) ^ 2 = s ^ 2 * (1 - a - k + o) := by
    rw [hs]; linear_combination r0 + r1 - c2 - 2 * ho
  have xy : (n - l) * (c - m) = s ^ 2 * (b + d) := by
    rw [hs]; linear_combination -hb - hd - c01 - r01
  have xz : (n - l) * (d - b) = s ^ 2 * (c + m) := by
    rw [hs]; linear_combination -hc - hm - c02 - r02
  have yz : (c - m) * (d - b) = s ^ 2 * (l + n) := by
    rw [hs]; linear_combination -hl - hn - c12 - r12
  have hs' : s ≠ 0 := hs0.ne'
  have X2 : ((n - l) / (2 * s)) ^ 2 = (1 + a - k - o) / 4 := by
    rw [div_pow, x2]; field_simp; try ring
  have Y2 : ((c - m) / (2 * s)) ^ 2 = (1 - a + k - o) / 4 := by
    rw [div_pow, y2]; field_simp; try ring
  have Z2 : ((d - b) / (2 * s)) ^ 2 = (1 - a - k + o) / 4 := by
    rw [div_pow, z2]; field_simp; try ring
  have W2 : (s / 2) ^ 2 = (1 + a + k + o) / 4 := by rw [div_pow, hs]; norm_num
  have XY : ((n - l) / (2 * s)) * ((c - m) / (2 * s)) = (b + d) / 4 := by
    rw [div_mul_div_comm, xy]; field_simp; try ring
  have XZ : ((n - l) / (2 * s)) * ((d - b) / (2 * s)) = (c + m) / 4 := by
    rw [div_mul_div_comm, xz]; field_simp; try ring
  have YZ : ((c - m) / (2 * s)) * ((d - b) / (2 * s)) = (l + n) / 4 := by
    rw [div_mul_div_comm, yz]; field_simp; try ring
  have WX : (s / 2) * ((n - l) / (2 * s)) = (n - l) / 4 := by field_simp; try ring
  have WY : (s / 2) * ((c - m) / (2 * s)) = (c - m) / 4 := by field_simp; try ring
  have WZ : (s / 2) * ((d - b) / (2 * s)) = (d - b) / 4 := by field_simp; try ring
  refine ⟨⟨s / 2, (n - l) / (2 * s), (c - m) / (2 * s), (d - b) / (2 * s)⟩, ?_, ?_⟩
  · unfold IsUnit4; linarith
  · generalize (n - l) / (2 * s) = x at *
    generalize (c - m) / (2 * s) = y at *
    generalize (d - b) / (2 * s) = z at *
    generalize s / 2 = w at *
    apply m3_ext
    intro i j
    fin_cases i <;> fin_cases j <;> simp [qu2om] <;> linarith

/-- Every rotation matrix is the matrix of a unit quaternion. -/
theorem rot_surj {R : M3} (h : IsRotation R) : ∃ q : Q, IsUnit4 q ∧ R = qu2om q := by
  have flip : ∀ p : Q, IsUnit4 p → (0 < 1 + (R * qu2om p) 0 0 + (R * qu2om p) 1 1 + (R * qu2om p) 2 2) →
      ∃ q : Q, IsUnit4 q ∧ R = qu2om q := by
    intro p hp ht
    have hr : IsRotation (R * qu2om p) := by
      constructor
      · rw [Matrix.transpose_mul, Matrix.mul_assoc, ← Matrix.mul_assoc (qu2om p), (qu2om_isRotation hp).1,
          Matrix.one_mul, h.1]
      · rw [Matrix.det_mul, h.2, (qu2om_isRotation hp).2, one_mul]
    obtain ⟨q, hq, hR⟩ := rot_trace_pos hr ht
    refine ⟨quProdRaw q (quConj p), unit_prodRaw hq (unit_conj.mpr hp), ?_⟩
    rw [← qu2om_mul, ← hR, ← qu2om_transpose, Matrix.mul_assoc, (qu2om_isRotation hp).1, Matrix.mul_one]
  by_cases h0 : 0 < 1 + R 0 0 + R 1 1 + R 2 2
  · exact rot_trace_pos h h0
  by_cases h1 : 0 < 1 + R 0 0 - R 1 1 - R 2 2
  · apply flip ⟨0, 1, 0, 0⟩ (by simp [IsUnit4])
    simp [qu2om, Matrix.mul_apply, Fin.sum_univ_three]; linarith
  by_cases h2 : 0 < 1 - R 0 0 + R 1 1 - R 2 2
  · apply flip ⟨0, 0, 1, 0⟩ (by simp [IsUnit4])
    simp [qu2om, Matrix.mul_apply, Fin.sum_univ_three]; linarith
  · apply flip ⟨0, 0, 0, 1⟩ (by simp [IsUnit4])
    simp [qu2om, Matrix.mul_apply, Fin.sum_univ_three]; linarith

end Verif
