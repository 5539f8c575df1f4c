import Verif.Model.Cubo
import Mathlib.Tactic.FieldSimp
import Mathlib.Tactic.Linarith
import Mathlib.Tactic.Positivity
import Mathlib.Tactic.FinCases
import Mathlib.Analysis.Real.Pi.Bounds
namespace Verif.Cubo
open Verif Real

/-- ratio of homochoric to cubochoric radius -/
noncomputable def K : ℝ := (6 / π) ^ ((1 : ℝ) / 3)

theorem K_pos : 0 < K := rpow_pos_of_pos (by positivity) _

theorem half_pow (x : ℝ) : x ^ (0.5 : ℝ) = √x := by
  rw [sqrt_eq_rpow]; norm_num

theorem half_neg_pow (x : ℝ) (hx : 0 ≤ x) : x ^ (-(0.5 : ℝ)) = 1 / √x := by
  rw [rpow_neg hx, half_pow]; simp

theorem root12 : ∃ a : ℝ, 0 < a ∧ (2:ℝ) ^ ((1:ℝ)/12) = a ∧ a ^ 6 = √2 ∧ (2:ℝ) ^ ((5:ℝ)/6) = a ^ 10 ∧
    (2:ℝ) ^ ((1:ℝ)/3) = a ^ 4 := by
  refine ⟨(2:ℝ) ^ ((1:ℝ)/12), by positivity, rfl, ?_, ?_, ?_⟩
  · rw [← rpow_natCast, ← rpow_mul (by norm_num), sqrt_eq_rpow]; norm_num
  · rw [← rpow_natCast, ← rpow_mul (by norm_num)]; norm_num
  · rw [← rpow_natCast, ← rpow_mul (by norm_num)]; norm_num

theorem K_eq : K = (2:ℝ) ^ ((1:ℝ)/3) * 3 ^ ((1:ℝ)/3) / π ^ ((1:ℝ)/3) := by
  unfold K
  rw [div_rpow (by norm_num) pi_pos.le, show (6:ℝ) = 2 * 3 by norm_num, mul_rpow (by norm_num) (by norm_num)]

theorem six_eq : (6:ℝ) ^ ((1:ℝ)/3) = (2:ℝ) ^ ((1:ℝ)/3) * 3 ^ ((1:ℝ)/3) := by
  rw [show (6:ℝ) = 2 * 3 by norm_num, mul_rpow (by norm_num) (by norm_num)]

theorem K_k : (π / 6) ^ (0.5 : ℝ) * K = (π / 6) ^ ((1 : ℝ) / 6) := by
  have h : K = (π / 6) ^ (-((1 : ℝ) / 3)) := by
    unfold K; rw [rpow_neg (by positivity), ← inv_rpow (by positivity), inv_div]
  rw [h, ← rpow_add (by positivity)]; norm_num

/-! ### Facts about the angle -/

theorem cos_pi12 : √2 * cos (π / 12) = (√3 + 1) / 2 := by
  have h : cos (π / 12) = cos (π / 3 - π / 4) := by congr 1; ring
  rw [h, cos_sub, cos_pi_div_three, cos_pi_div_four, sin_pi_div_three, sin_pi_div_four]
  have : √2 * √2 = 2 := mul_self_sqrt (by norm_num)
  linear_combination ((1 + √3) / 4) * this

theorem sqrt2_facts : (0:ℝ) < √2 ∧ √2 ^ 2 = 2 ∧ 1.414 < √2 ∧ √2 < 1.415 := by
  refine ⟨by positivity, sq_sqrt (by norm_num), ?_, ?_⟩
  · rw [lt_sqrt (by norm_num)]; norm_num
  · rw [sqrt_lt' (by norm_num)]; norm_num

/-- for an angle in `[0, π/12]`: sign of the quantities in the formulas -/
theorem angle_facts {θ : ℝ} (h0 : 0 ≤ θ) (h1 : θ ≤ π / 12) :
    0 ≤ sin θ ∧ 0 < √2 - cos θ ∧ 0 < √2 * cos θ - 1 ∧ 0 < 3 - 2 * √2 * cos θ ∧
    sin θ ≤ (√2 * cos θ - 1) / √2 ∧ (sin θ = (√2 * cos θ - 1) / √2 ↔ θ = π / 12) := by
  obtain ⟨r0, r2, r3, r4⟩ := sqrt2_facts
  have hp := pi_pos
  have hs : 0 ≤ sin θ := sin_nonneg_of_nonneg_of_le_pi h0 (by linarith)
  have hc1 := cos_le_one θ
  have hc : cos (π / 12) ≤ cos θ := cos_le_cos_of_nonneg_of_le_pi h0 (by linarith) h1
  have h3 : (1.73:ℝ) < √3 := by rw [lt_sqrt (by norm_num)]; norm_num
  have hc' : √2 * cos (π/12) ≤ √2 * cos θ := by gcongr
  rw [cos_pi12] at hc'
  have key : (√2 * cos θ - 1) / √2 - sin θ = √2 * (cos (θ + π / 4) - cos (π / 3)) := by
    rw [cos_add, cos_pi_div_four, sin_pi_div_four, cos_pi_div_three]
    have h : (√2 * cos θ - 1) / √2 = cos θ - √2 / 2 := by
      rw [div_eq_iff r0.ne']; linear_combination (1/2) * r2
    rw [h]; linear_combination (-(cos θ - sin θ) / 2) * r2
  refine ⟨hs, by linarith, by linarith, ?_, ?_, ?_⟩
  · nlinarith
  · have : cos (π / 3) ≤ cos (θ + π / 4) := cos_le_cos_of_nonneg_of_le_pi (by linarith) (by linarith) (by linarith)
    have : 0 ≤ √2 * (cos (θ + π / 4) - cos (π / 3)) := mul_nonneg r0.le (by linarith)
    linarith
  · constructor
    · intro h
      have hz : √2 * (cos (θ + π / 4) - cos (π / 3)) = 0 := by rw [← key, h, sub_self]
      have hz' : cos (θ + π / 4) = cos (π / 3) := by
        rcases mul_eq_zero.mp hz with h | h <;> linarith
      have := injOn_cos ⟨by linarith, by linarith⟩ ⟨by linarith, by linarith⟩ hz'
      linarith
    · intro h
      have : √2 * (cos (θ + π / 4) - cos (π / 3)) = 0 := by
        rw [h, show π / 12 + π / 4 = π / 3 by ring, sub_self, mul_zero]
      linarith

/-! ### The forward map on sorted non-negative components -/

theorem theta_range {s m : ℝ} (hs : 0 ≤ s) (hsm : s ≤ m) (hm : 0 < m) :
    0 ≤ s * π / (12 * m) ∧ s * π / (12 * m) ≤ π / 12 ∧ (s * π / (12 * m) = π / 12 ↔ s = m) := by
  have hp := pi_pos
  refine ⟨by positivity, ?_, ?_⟩
  · rw [div_le_div_iff₀ (by positivity) (by norm_num)]; nlinarith
  · rw [div_eq_div_iff (by positivity) (by norm_num)]
    constructor
    · intro h
      have : (s - m) * (12 * π) = 0 := by linear_combination h
      rcases mul_eq_zero.mp this with h | h
      · linarith
      · exact absurd h (by positivity)
    · rintro rfl; ring

/-- closed form of the sorted forward map -/
theorem fwd {s m b : ℝ} (hs : 0 ≤ s) (hsm : s ≤ m) (hm : 0 < m) (hmb : m ≤ b) :
    ∃ θ f u d c : ℝ, θ = s * π / (12 * m) ∧ c = cos θ ∧ d = √2 - c ∧
      u = m ^ 2 * (3 - 2 * √2 * c) / (√2 * b * d) ∧ 0 < f ∧ 0 < u ∧ u < b ∧
      f ^ 2 = K ^ 2 * m ^ 2 * (4 * b ^ 2 - 2 * b * u) / (√2 * b ^ 2 * d) ∧
      cu2hoSorted s m b 0 = f * sin θ ∧ cu2hoSorted s m b 1 = f * ((√2 * c - 1) / √2) ∧
      cu2hoSorted s m b 2 = K * (b - u) := by
  obtain ⟨t0, t1, -⟩ := theta_range hs hsm hm
  obtain ⟨a1, a2, a3, a4, a5, -⟩ := angle_facts t0 t1
  obtain ⟨r0, r2, r3, r4⟩ := sqrt2_facts
  have hb : 0 < b := hm.trans_le hmb
  set θ := s * π / (12 * m) with hθ
  set c := cos θ with hc
  obtain ⟨d, hd⟩ : ∃ d, d = √2 - c := ⟨_, rfl⟩
  have hd0 : 0 < d := by rw [hd]; exact a2
  obtain ⟨u, hu⟩ : ∃ u, u = m ^ 2 * (3 - 2 * √2 * c) / (√2 * b * d) := ⟨_, rfl⟩
  have hu0 : 0 < u := by rw [hu]; positivity
  have hub : u < b := by
    rw [hu, div_lt_iff₀ (by positivity)]
    have h1 : 3 - 2 * √2 * c < √2 * d := by rw [hd]; nlinarith
    calc m ^ 2 * (3 - 2 * √2 * c) ≤ b ^ 2 * (3 - 2 * √2 * c) := by gcongr
      _ < b ^ 2 * (√2 * d) := by gcongr
      _ = b * (√2 * b * d) := by ring
  obtain ⟨a, ha0, ha, ha6, ha10, ha4⟩ := root12
  set t := (3:ℝ) ^ ((1:ℝ)/3) with ht
  set p := π ^ ((1:ℝ)/3) with hp
  have ht0 : 0 < t := by positivity
  have hp0 : 0 < p := rpow_pos_of_pos pi_pos _
  have hK : K = a ^ 4 * t / p := by rw [K_eq, ha4]
  have hE : (4 * b ^ 2 * (c - √2) + √2 * m ^ 2 * (-2 * √2 * c + 3)) / (c - √2) = 4 * b ^ 2 - 2 * b * u := by
    have hne : c - √2 ≠ 0 := by rw [show c - √2 = -d by rw [hd]; ring]; exact neg_ne_zero.mpr hd0.ne'
    rw [div_eq_iff hne, show c - √2 = -d by rw [hd]; ring, hu]
    field_simp
    linear_combination (m ^ 2 * (3 - 2 * √2 * c)) * r2
  have hEpos : 0 < 4 * b ^ 2 - 2 * b * u := by nlinarith
  refine ⟨θ, a * t * m * √(4 * b ^ 2 - 2 * b * u) / (p * b * √d), u, d, c, rfl, rfl, hd, hu, by positivity,
    hu0, hub, ?_, ?_, ?_, ?_⟩
  · rw [div_pow, mul_pow _ (√(4 * b ^ 2 - 2 * b * u)), sq_sqrt hEpos.le, mul_pow _ (√d), sq_sqrt hd0.le, hK, ← ha6]
    field_simp
  · simp only [cu2hoSorted, Matrix.cons_val_zero, half_pow]
    rw [← hθ, ← hc, hE, ha, show -c + √2 = d by rw [hd]; ring]
  · simp only [cu2hoSorted, Matrix.cons_val_one, Matrix.cons_val_zero, half_pow,
      half_neg_pow 2 (by norm_num)]
    rw [← hθ, ← hc, hE, ha, show -c + √2 = d by rw [hd]; ring]
    ring
  · simp only [cu2hoSorted, Matrix.cons_val_two, half_pow, Matrix.tail_cons, Matrix.head_cons]
    rw [← hθ, ← hc, ← ht, ← hp, six_eq, ha4, ha10, ← ht, hK, hu, ← ha6, show c - a ^ 6 = -d by rw [hd, ha6]; ring]
    have : a ^ 12 = 2 := by rw [show a ^ 12 = (a ^ 6) ^ 2 by ring, ha6, r2]
    field_simp
    linear_combination (m ^ 2 * (2 * a ^ 6 * c - 3)) * this

/-- norm of the sorted forward image -/
theorem fwd_norm {s m b : ℝ} (hs : 0 ≤ s) (hsm : s ≤ m) (hm : 0 < m) (hmb : m ≤ b) :
    cu2hoSorted s m b 0 ^ 2 + cu2hoSorted s m b 1 ^ 2 + cu2hoSorted s m b 2 ^ 2 = (K * b) ^ 2 := by
  obtain ⟨θ, f, u, d, c, hθ, hc, hd, hu, hf, hu0, hub, hf2, e0, e1, e2⟩ := fwd hs hsm hm hmb
  obtain ⟨r0, r2, r3, r4⟩ := sqrt2_facts
  obtain ⟨t0, t1, -⟩ := theta_range hs hsm hm
  rw [← hθ] at t0 t1
  obtain ⟨a1, a2, a3, a4, a5, -⟩ := angle_facts t0 t1
  rw [← hc] at a2 a3 a4 a5
  rw [← hd] at a2
  have hb : 0 < b := hm.trans_le hmb
  rw [e0, e1, e2, mul_pow, mul_pow, hf2]
  have hsin : sin θ ^ 2 = 1 - c ^ 2 := by rw [hc]; linarith [sin_sq_add_cos_sq θ]
  have h2 : sin θ ^ 2 + ((√2 * c - 1) / √2) ^ 2 = (3 - 2 * √2 * c) / 2 := by
    rw [hsin, div_pow, r2]; linear_combination (c ^ 2 / 2) * r2
  have h3 : m ^ 2 * (3 - 2 * √2 * c) = u * (√2 * b * d) := by rw [hu]; field_simp
  calc _ = K ^ 2 * m ^ 2 * (4 * b ^ 2 - 2 * b * u) / (√2 * b ^ 2 * d) * (sin θ ^ 2 + ((√2 * c - 1) / √2) ^ 2)
        + (K * (b - u)) ^ 2 := by ring
    _ = K ^ 2 * (m ^ 2 * (3 - 2 * √2 * c)) * (4 * b ^ 2 - 2 * b * u) / (2 * √2 * b ^ 2 * d) + (K * (b - u)) ^ 2 := by
        rw [h2]; field_simp
    _ = _ := by rw [h3]; field_simp; ring

/-- order of the sorted forward image, with its equality cases -/
theorem fwd_order {s m b : ℝ} (hs : 0 ≤ s) (hsm : s ≤ m) (hm : 0 < m) (hmb : m ≤ b) :
    0 ≤ cu2hoSorted s m b 0 ∧ 0 < cu2hoSorted s m b 1 ∧ 0 < cu2hoSorted s m b 2 ∧
    (cu2hoSorted s m b 0 = 0 ↔ s = 0) ∧
    cu2hoSorted s m b 0 ≤ cu2hoSorted s m b 1 ∧ cu2hoSorted s m b 1 ≤ cu2hoSorted s m b 2 ∧
    (cu2hoSorted s m b 0 = cu2hoSorted s m b 1 ↔ s = m) ∧
    (cu2hoSorted s m b 1 = cu2hoSorted s m b 2 ↔ m = b) := by
  obtain ⟨θ, f, u, d, c, hθ, hc, hd, hu, hf, hu0, hub, hf2, e0, e1, e2⟩ := fwd hs hsm hm hmb
  obtain ⟨r0, r2, r3, r4⟩ := sqrt2_facts
  obtain ⟨t0, t1, t2⟩ := theta_range hs hsm hm
  rw [← hθ] at t0 t1 t2
  obtain ⟨a1, a2, a3, a4, a5, a6⟩ := angle_facts t0 t1
  rw [← hc] at a2 a3 a4 a5 a6
  rw [← hd] at a2
  have hb : 0 < b := hm.trans_le hmb
  have hK := K_pos
  have hp := pi_pos
  have y0 : 0 < f * ((√2 * c - 1) / √2) := by positivity
  have z0 : 0 < K * (b - u) := mul_pos hK (by linarith)
  rw [e0, e1, e2]
  -- the factorisation of `z² - y²`
  have h3 : m ^ 2 * (3 - 2 * √2 * c) = u * (√2 * b * d) := by rw [hu]; field_simp
  obtain ⟨w, hw⟩ : ∃ w, w = √2 * d := ⟨_, rfl⟩
  have hw0 : 0 < w := by rw [hw]; positivity
  have hN : 3 - 2 * √2 * c = 2 * w - 1 := by rw [hw, hd]; linear_combination (-2) * r2
  have hy : √2 * c - 1 = 1 - w := by rw [hw, hd]; linear_combination r2
  rw [hN] at h3 a4
  have hw1 : w < 1 := by rw [hy] at a3; linarith
  have h3' : b * u = m ^ 2 * (2 * w - 1) / w := by
    rw [eq_div_iff hw0.ne']; linear_combination -h3 + b * u * hw
  have hfac : (K * (b - u)) ^ 2 - (f * ((√2 * c - 1) / √2)) ^ 2 =
      K ^ 2 / b ^ 2 * ((b ^ 2 - m ^ 2) * (b ^ 2 - (2 * w - 1) * m ^ 2)) := by
    rw [mul_pow f, hf2, hy, div_pow, r2]
    have e1 : √2 * b ^ 2 * d = w * b ^ 2 := by rw [hw]; ring
    rw [e1]
    have e2 : (K * (b - u)) ^ 2 = K ^ 2 * (b ^ 2 - b * u) ^ 2 / b ^ 2 := by field_simp
    rw [e2, show 2 * b * u = 2 * (b * u) by ring, h3']
    field_simp
    ring
  have hpos : 0 < b ^ 2 - (2 * w - 1) * m ^ 2 := by
    have : m ^ 2 ≤ b ^ 2 := by gcongr
    have hm2 : 0 < m ^ 2 := by positivity
    nlinarith
  have hmb2 : 0 ≤ b ^ 2 - m ^ 2 := sub_nonneg.mpr (by gcongr)
  have hfac0 : 0 ≤ (K * (b - u)) ^ 2 - (f * ((√2 * c - 1) / √2)) ^ 2 := by
    rw [hfac]; positivity
  refine ⟨by positivity, y0, z0, ?_, by gcongr, ?_, ?_, ?_⟩
  · rw [mul_eq_zero, or_iff_right hf.ne']
    constructor
    · intro h
      have : θ = 0 := by
        rcases t0.lt_or_eq with h' | h'
        · exact absurd h (sin_pos_of_pos_of_lt_pi h' (by linarith)).ne'
        · exact h'.symm
      rw [hθ, div_eq_zero_iff] at this
      rcases this with h | h
      · rcases mul_eq_zero.mp h with h | h
        · exact h
        · exact absurd h hp.ne'
      · exact absurd h (by positivity)
    · intro h; rw [hθ, h]; simp
  · exact abs_le_of_sq_le_sq' (by linarith) z0.le |>.2
  · rw [mul_right_inj' hf.ne', a6, t2]
  · constructor
    · intro h
      rw [h, sub_self] at hfac
      have : b ^ 2 - m ^ 2 = 0 := by
        rcases mul_eq_zero.mp hfac.symm with h | h
        · exact absurd h (by positivity)
        · rcases mul_eq_zero.mp h with h | h
          · exact h
          · exact absurd h hpos.ne'
      exact (pow_left_inj₀ hm.le hb.le two_ne_zero).mp (by linarith)
    · intro h
      rw [h, sub_self, zero_mul, mul_zero] at hfac
      exact (pow_left_inj₀ y0.le z0.le two_ne_zero).mp (by linarith)

/-! ### The inverse map on sorted non-negative components -/

theorem k_pos : 0 < (π / 6) ^ ((1 : ℝ) / 6) := rpow_pos_of_pos (by positivity) _

theorem sgn_of_pos {x : ℝ} (h : 0 < x) : sgn x = 1 := by unfold sgn; rw [if_pos h]

theorem sgn_zero' : sgn 0 = 0 := by unfold sgn; simp

/-- inverse after forward -/
theorem bwd_fwd {s m b : ℝ} (hs : 0 ≤ s) (hsm : s ≤ m) (hm : 0 < m) (hmb : m ≤ b) :
    ho2cuSorted (K * b) (cu2hoSorted s m b 0) (cu2hoSorted s m b 1) (cu2hoSorted s m b 2) = ![s, m, b] := by
  have hord := fwd_order hs hsm hm hmb
  obtain ⟨θ, f, u, d, c, hθ, hc, hd, hu, hf, hu0, hub, hf2, e0, e1, e2⟩ := fwd hs hsm hm hmb
  obtain ⟨r0, r2, r3, r4⟩ := sqrt2_facts
  obtain ⟨t0, t1, t2⟩ := theta_range hs hsm hm
  rw [← hθ] at t0 t1 t2
  obtain ⟨a1, a2, a3, a4, a5, a6⟩ := angle_facts t0 t1
  rw [← hc] at a2 a3 a4 a5 a6
  rw [← hd] at a2
  have hb : 0 < b := hm.trans_le hmb
  have hK := K_pos
  have hp := pi_pos
  have hk := k_pos
  have hKk := K_k
  have h2bu : 0 < 2 * b - u := by linarith
  have hp2 : 2 * (K * b) / (K * b + K * (b - u)) = 2 * b / (2 * b - u) := by
    have h1 : K * b + K * (b - u) = K * (2 * b - u) := by ring
    rw [h1]; field_simp
  obtain ⟨p, hpd⟩ : ∃ p, p = √(2 * b / (2 * b - u)) := ⟨_, rfl⟩
  have hp0 : 0 < p := by rw [hpd]; positivity
  have hpsq : p ^ 2 = 2 * b / (2 * b - u) := by rw [hpd, sq_sqrt (by positivity)]
  obtain ⟨A, hA⟩ : ∃ A, A = f * p := ⟨_, rfl⟩
  have hA0 : 0 < A := by rw [hA]; positivity
  have hA2 : A ^ 2 * d = 2 * √2 * K ^ 2 * m ^ 2 := by
    rw [hA, mul_pow, hf2, hpsq]
    have : 4 * b ^ 2 - 2 * b * u = 2 * b * (2 * b - u) := by ring
    rw [this]; field_simp; rw [r2]
  have hx2 : f * sin θ * p = A * sin θ := by rw [hA]; ring
  have hy2 : f * ((√2 * c - 1) / √2) * p = A * ((√2 * c - 1) / √2) := by rw [hA]; ring
  have hy : (√2 * c - 1) / √2 = c - √2 / 2 := by
    rw [div_eq_iff r0.ne']; linear_combination (1 / 2) * r2
  have hy0 : 0 < c - √2 / 2 := by rw [← hy]; positivity
  have hsin : sin θ ^ 2 = 1 - c ^ 2 := by rw [hc]; linarith [sin_sq_add_cos_sq θ]
  have hD : √((A * sin θ) ^ 2 + 2 * (A * (c - √2 / 2)) ^ 2) = A * d := by
    rw [sqrt_eq_iff_mul_self_eq (by positivity) (by positivity), hd]
    rw [mul_pow, hsin]; linear_combination (-A ^ 2 / 2) * r2
  have hM : √((A * sin θ) ^ 2 + A * (c - √2 / 2) * (A * d + 2 * (A * (c - √2 / 2)))) = √2 * K * m := by
    rw [sqrt_eq_iff_mul_self_eq (by positivity) (by positivity)]
    rw [mul_pow, hsin]
    have : A ^ 2 * (1 - c ^ 2) + A * (c - √2 / 2) * (A * d + 2 * (A * (c - √2 / 2))) = A ^ 2 * d * (√2 / 2) := by
      rw [hd]; linear_combination (-A ^ 2 / 2) * r2
    rw [this, hA2]; linear_combination 0 * r2
  have hN : 0 < (A * sin θ) ^ 2 + (A * (c - √2 / 2)) ^ 2 := by positivity
  have hcos : ((A * sin θ) ^ 2 + A * (c - √2 / 2) * (A * d)) / (√2 * ((A * sin θ) ^ 2 + (A * (c - √2 / 2)) ^ 2)) = c := by
    rw [div_eq_iff (by positivity), mul_pow, hsin, hd]
    linear_combination (A ^ 2 * c ^ 2  - A ^ 2 / 2 - A ^ 2 * c * √2 / 4) * r2
  have hcl : clamp1 c = c := by
    unfold clamp1
    rw [min_eq_left (by rw [hc]; exact cos_le_one _), max_eq_right (by rw [hc]; exact neg_one_le_cos _)]
  have harc : arccos c = θ := by rw [hc, arccos_cos t0 (by linarith)]
  have hsy : sgn (A * (c - √2 / 2)) = 1 := sgn_of_pos (by positivity)
  unfold ho2cuSorted
  simp only [half_pow] at hKk ⊢
  rw [e0, e1, e2, hp2, ← hpd, hx2, hy2, hy, hD, hM, hcos, hcl, harc, hsy]
  have hmm : √(π / 6) * (√2 * K * m) / √2 = (π / 6) ^ ((1 : ℝ) / 6) * m := by
    rw [← hKk]; field_simp
  have hbb : √(π / 6) * (K * b) = (π / 6) ^ ((1 : ℝ) / 6) * b := by rw [← hKk]; ring
  rw [hmm, hbb]
  have hxx : (π / 6) ^ ((1 : ℝ) / 6) * m * 12 * sgn (A * sin θ) / π * θ / (π / 6) ^ ((1 : ℝ) / 6) = s := by
    rcases hs.lt_or_eq with h | h
    · have : 0 < sin θ := by
        refine sin_pos_of_pos_of_lt_pi ?_ (by linarith)
        rw [hθ]; positivity
      rw [sgn_of_pos (by positivity), hθ]; field_simp
    · rw [hθ, ← h]; simp
  rw [hxx]
  congr 1
  congr 1
  · field_simp
  · congr 1; field_simp

/-- degenerate case: at most one non-zero component -/
theorem bwd_fwd_zero {b : ℝ} (hb : 0 ≤ b) :
    cu2hoSorted 0 0 b = ![0, 0, K * b] ∧ ho2cuSorted (K * b) 0 0 (K * b) = ![0, 0, b] := by
  have hk := k_pos
  have hKk := K_k
  constructor
  · obtain ⟨r0, r2, r3, r4⟩ := sqrt2_facts
    have hne : (1:ℝ) - √2 ≠ 0 := by linarith |> fun h : √2 - 1 > 0 => by linarith |> fun h : 1 - √2 < 0 => h.ne
    rcases hb.lt_or_eq with h | h
    · have hp0 : 0 < π ^ ((1:ℝ)/3) := rpow_pos_of_pos pi_pos _
      unfold cu2hoSorted
      simp only [mul_zero, zero_mul, zero_div, cos_zero, half_pow]
      rw [K_eq, six_eq]
      congr 1; congr 1; congr 1
      field_simp
      ring
    · subst h; unfold cu2hoSorted; simp
  · unfold ho2cuSorted
    have hbb : √(π / 6) * (K * b) = (π / 6) ^ ((1 : ℝ) / 6) * b := by
      rw [← hKk, half_pow]; ring
    simp only [half_pow, zero_mul, hbb, sgn_zero']
    simp
    field_simp


set_option maxHeartbeats 1000000 in
/-- forward after inverse -/
theorem fwd_bwd {x y z r : ℝ} (hx : 0 ≤ x) (hxy : x ≤ y) (hy : 0 < y) (hyz : y ≤ z)
    (hr0 : 0 < r) (hr : r ^ 2 = x ^ 2 + y ^ 2 + z ^ 2) :
    ∃ s m b : ℝ, ho2cuSorted r x y z = ![s, m, b] ∧ 0 ≤ s ∧ s ≤ m ∧ 0 < m ∧ m ≤ b ∧ (0 < x → 0 < s) ∧
      cu2hoSorted s m b = ![x, y, z] := by
  obtain ⟨r0, r2, r3, r4⟩ := sqrt2_facts
  have hK := K_pos
  have hp := pi_pos
  have hk := k_pos
  have hKk := K_k
  have hz : 0 < z := hy.trans_le hyz
  have hzr : z < r := by nlinarith
  obtain ⟨p, hpd⟩ : ∃ p, p = √(2 * r / (r + z)) := ⟨_, rfl⟩
  have hp0 : 0 < p := by rw [hpd]; positivity
  have hpsq : p ^ 2 = 2 * r / (r + z) := by rw [hpd, sq_sqrt (by positivity)]
  have hpsq' : p ^ 2 * (r + z) = 2 * r := by rw [hpsq]; field_simp
  obtain ⟨X, hX⟩ : ∃ X, X = x * p := ⟨_, rfl⟩
  obtain ⟨Y, hY⟩ : ∃ Y, Y = y * p := ⟨_, rfl⟩
  have hX0 : 0 ≤ X := by rw [hX]; positivity
  have hY0 : 0 < Y := by rw [hY]; positivity
  have hXY : X ≤ Y := by rw [hX, hY]; gcongr
  obtain ⟨D, hD⟩ : ∃ D, D = √(X ^ 2 + 2 * Y ^ 2) := ⟨_, rfl⟩
  have hD0 : 0 < D := by rw [hD]; positivity
  have hD2 : D ^ 2 = X ^ 2 + 2 * Y ^ 2 := by rw [hD, sq_sqrt (by positivity)]
  have hDY : Y < D := by nlinarith
  -- `X² + Y² = 2 r (r - z)`
  have hXY2 : X ^ 2 + Y ^ 2 = 2 * r * (r - z) := by
    have h1 : (X ^ 2 + Y ^ 2) * (r + z) = 2 * r * (r - z) * (r + z) := by
      rw [hX, hY]; linear_combination (x ^ 2 + y ^ 2) * hpsq' - 2 * r * hr
    exact mul_right_cancel₀ (by positivity : r + z ≠ 0) h1
  -- the cosine
  obtain ⟨c, hc⟩ : ∃ c, c = (D + 2 * Y) / (√2 * (D + Y)) := ⟨_, rfl⟩
  have hcm : c * (√2 * (D + Y)) = D + 2 * Y := by rw [hc]; field_simp
  have hcc : (X ^ 2 + Y * D) / (√2 * (X ^ 2 + Y ^ 2)) = c := by
    rw [hc, div_eq_div_iff (by positivity) (by positivity)]
    have hX2 : X ^ 2 = D ^ 2 - 2 * Y ^ 2 := by linarith
    rw [hX2]; ring
  have hc0 : 0 < c := by rw [hc]; positivity
  have hsq : 1 - c ^ 2 = (X / (√2 * (D + Y))) ^ 2 := by
    rw [hc, div_pow, div_pow, mul_pow, r2]; field_simp; linear_combination hD2
  have hc1 : c ≤ 1 := by nlinarith [sq_nonneg (X / (√2 * (D + Y)))]
  have hcl : clamp1 c = c := by
    unfold clamp1; rw [min_eq_left hc1, max_eq_right (by linarith)]
  obtain ⟨θ, hθ⟩ : ∃ θ, θ = arccos c := ⟨_, rfl⟩
  have hcos : cos θ = c := by rw [hθ, cos_arccos (by linarith) hc1]
  have hθ0 : 0 ≤ θ := by rw [hθ]; exact arccos_nonneg c
  have hsin : sin θ = X / (√2 * (D + Y)) := by
    rw [hθ, sin_arccos, hsq, sqrt_sq (by positivity)]
  have hθ1 : θ ≤ π / 12 := by
    have h3 : √3 ^ 2 = 3 := sq_sqrt (by norm_num)
    have h30 : 0 < √3 := by positivity
    have hD3 : D ≤ √3 * Y := by
      apply abs_le_of_sq_le_sq' _ (by positivity) |>.2
      rw [hD2, mul_pow, h3]
      have : X ^ 2 ≤ Y ^ 2 := by gcongr
      linarith
    have hcc : cos (π / 12) ≤ c := by
      have h1 : √2 * cos (π / 12) ≤ √2 * c := by
        rw [cos_pi12, hc, ← mul_div_assoc, mul_div_mul_left _ _ r0.ne', div_le_div_iff₀ (by norm_num) (by positivity)]
        have h31 : 0 ≤ √3 - 1 := by
          have : (1:ℝ) < √3 := by rw [lt_sqrt (by norm_num)]; norm_num
          linarith
        have h5 := mul_le_mul_of_nonneg_left hD3 h31
        have h6 : (√3 - 1) * (√3 * Y) = (3 - √3) * Y := by linear_combination Y * h3
        linarith
      exact le_of_mul_le_mul_left h1 r0
    rw [hθ, ← arccos_cos (by positivity : 0 ≤ π / 12) (by linarith)]
    exact arccos_le_arccos hcc
  -- the three outputs
  obtain ⟨m, hm⟩ : ∃ m, m = √(D * (D + Y)) / (√2 * K) := ⟨_, rfl⟩
  obtain ⟨b, hb⟩ : ∃ b, b = r / K := ⟨_, rfl⟩
  have hm0 : 0 < m := by rw [hm]; positivity
  have hb0 : 0 < b := by rw [hb]; positivity
  have hKm : K ^ 2 * m ^ 2 = D * (D + Y) / 2 := by
    rw [hm, div_pow, mul_pow, r2, sq_sqrt (by positivity)]; field_simp
  have hKb : K * b = r := by rw [hb]; field_simp
  have hs1 : 12 * θ / π * m ≤ m := by
    have : 12 * θ / π ≤ 1 := by rw [div_le_one hp]; linarith
    nlinarith
  have hmb : m ≤ b := by
    have h1 : K ^ 2 * m ^ 2 ≤ K ^ 2 * b ^ 2 := by
      rw [hKm, show K ^ 2 * b ^ 2 = (K * b) ^ 2 by ring, hKb, div_le_iff₀ (by norm_num)]
      have hYz : Y ^ 2 ≤ 2 * r * z := by
        have : Y ^ 2 * (r + z) ≤ 2 * r * z * (r + z) := by
          rw [hY]
          have : (y * p) ^ 2 * (r + z) = 2 * r * y ^ 2 := by linear_combination y ^ 2 * hpsq'
          rw [this]
          have h2 : y ^ 2 ≤ z ^ 2 := by gcongr
          have h3 : r * y ^ 2 ≤ r * z ^ 2 := by gcongr
          have h5 := mul_pos (mul_pos hr0 hz) hr0
          linarith
        exact le_of_mul_le_mul_right this (by positivity)
      have hYz2 : Y ^ 2 * (r + z) ≤ 2 * r * z ^ 2 := by
        rw [hY]
        have : (y * p) ^ 2 * (r + z) = 2 * r * y ^ 2 := by linear_combination y ^ 2 * hpsq'
        rw [this]; gcongr
      have hDYb : D * Y ≤ 2 * r * z - Y ^ 2 := by
        apply abs_le_of_sq_le_sq' _ (by linarith) |>.2
        have hD2' : D ^ 2 = 2 * r * (r - z) + Y ^ 2 := by rw [hD2]; linarith
        rw [mul_pow, hD2']
        have := mul_le_mul_of_nonneg_left hYz2 (by positivity : 0 ≤ 2 * r)
        linarith
      have : D ^ 2 = 2 * r * (r - z) + Y ^ 2 := by rw [hD2]; linarith
      linarith
    have h2 : m ^ 2 ≤ b ^ 2 := le_of_mul_le_mul_left h1 (by positivity)
    exact abs_le_of_sq_le_sq' h2 hb0.le |>.2
  have hs0 : 0 ≤ 12 * θ / π * m := by positivity
  refine ⟨12 * θ / π * m, m, b, ?_, hs0, hs1, hm0, hmb, ?_, ?_⟩
  · unfold ho2cuSorted
    simp only [half_pow] at hKk ⊢
    have hM : X ^ 2 + Y * (D + 2 * Y) = D * (D + Y) := by linear_combination -hD2
    rw [← hpd, ← hX, ← hY, ← hD, hM, hcc, hcl, ← hθ, sgn_of_pos hY0]
    have hpre : √(π / 6) * √(D * (D + Y)) / √2 = (π / 6) ^ ((1 : ℝ) / 6) * m := by
      rw [← hKk, hm]; field_simp
    rw [hpre]
    have hxx : (π / 6) ^ ((1 : ℝ) / 6) * m * 12 * sgn X / π * θ / (π / 6) ^ ((1 : ℝ) / 6) = 12 * θ / π * m := by
      rcases hX0.lt_or_eq with h | h
      · rw [sgn_of_pos h]; field_simp
      · have : θ = 0 := by
          rw [hθ, arccos_eq_zero]
          rw [← h] at hsq
          have h1 : c ^ 2 = 1 := by
            have : (0 / (√2 * (D + Y))) ^ 2 = (0:ℝ) := by rw [zero_div]; norm_num
            linarith
          exact (one_le_sq_iff₀ hc0.le).mp h1.ge
        rw [this]; simp
    rw [hxx]
    congr 1
    congr 1
    · field_simp
    · congr 1; rw [hb, ← hKk]; field_simp
  · intro h
    have : 0 < sin θ := by
      rw [hsin, hX]; positivity
    have : 0 < θ := by
      rcases hθ0.lt_or_eq with h | h
      · exact h
      · rw [← h, sin_zero] at this; exact absurd this (lt_irrefl _)
    positivity
  · obtain ⟨θ', f, u, d, c', hθ', hc', hd, hu, hf, hu0, hub, hf2, e0, e1, e2⟩ := fwd hs0 hs1 hm0 hmb
    have ht : θ' = θ := by rw [hθ']; field_simp
    rw [ht] at hc' e0
    rw [hcos] at hc'
    subst hc'
    have hd' : d * (√2 * (D + Y)) = D := by rw [hd]; linear_combination (D + Y) * r2 - hcm
    have hd0 : 0 < d := by
      exact pos_of_mul_pos_left (by rw [hd']; exact hD0) (by positivity : 0 ≤ √2 * (D + Y))
    have hN : (3 - 2 * √2 * c') * (D + Y) = D - Y := by linear_combination (-2) * hcm
    have hy' : (√2 * c' - 1) * (D + Y) = Y := by linear_combination hcm
    have hku : K * u = r - z := by
      have h1 : u * (√2 * b * d) = m ^ 2 * (3 - 2 * √2 * c') := by rw [hu]; field_simp
      have h2 : K * u * (2 * r * D) = (r - z) * (2 * r * D) := by
        have h3 : K * u * (r * (√2 * (D + Y) * d)) * 2 = 2 * (K ^ 2 * m ^ 2) * ((3 - 2 * √2 * c') * (D + Y)) := by
          rw [← hKb]; linear_combination (2 * K ^ 2 * (D + Y)) * h1
        rw [hN, hKm, mul_comm (√2 * (D + Y)) d, hd'] at h3
        have h4 : D ^ 2 - Y ^ 2 = 2 * r * (r - z) := by rw [← hXY2]; linarith
        linear_combination h3 + D * h4
      exact mul_right_cancel₀ (by positivity : 2 * r * D ≠ 0) h2
    have hff : f * p = √2 * (D + Y) := by
      have h1 : f ^ 2 * (√2 * b ^ 2 * d) = K ^ 2 * m ^ 2 * (4 * b ^ 2 - 2 * b * u) := by rw [hf2]; field_simp
      have h2 : (f * p) ^ 2 = (√2 * (D + Y)) ^ 2 := by
        have h3 : f ^ 2 * (r ^ 2 * (d * (√2 * (D + Y)))) = D * (D + Y) ^ 2 / 2 * (4 * r ^ 2 - 2 * r * (r - z)) := by
          rw [← hku, ← hKb]
          linear_combination (K ^ 2 * (D + Y)) * h1 + (4 * b ^ 2 * K ^ 2 - 2 * b * u * K ^ 2) * (D + Y) * hKm
        rw [hd'] at h3
        have h4 : f ^ 2 * r = (D + Y) ^ 2 * (r + z) := by
          have : f ^ 2 * r * (r * D) = (D + Y) ^ 2 * (r + z) * (r * D) := by linear_combination h3
          exact mul_right_cancel₀ (by positivity : r * D ≠ 0) this
        have h5 : (f * p) ^ 2 * (r + z) = (√2 * (D + Y)) ^ 2 * (r + z) := by
          rw [mul_pow, mul_pow, r2]; linear_combination f ^ 2 * hpsq' + 2 * h4
        exact mul_right_cancel₀ (by positivity : r + z ≠ 0) h5
      exact (pow_left_inj₀ (by positivity) (by positivity) two_ne_zero).mp h2
    have hx' : f * sin θ = x := by
      have : f * sin θ * p = x * p := by
        rw [hsin, ← hX, mul_right_comm, hff]; field_simp
      exact mul_right_cancel₀ hp0.ne' this
    have hy'' : f * ((√2 * c' - 1) / √2) = y := by
      have : f * ((√2 * c' - 1) / √2) * p = y * p := by
        rw [mul_right_comm, hff, ← hY]; field_simp; linear_combination hy'
      exact mul_right_cancel₀ hp0.ne' this
    have hz' : K * (b - u) = z := by linear_combination hKb - hku
    funext i
    fin_cases i
    · simpa [hx'] using e0
    · simpa [hy''] using e1
    · simpa [hz'] using e2

end Verif.Cubo
