import Verif.Lemmas.ShtSphere
import Verif.Spec.SphereRotation
/-!
Rotating spherical harmonics: `Y_ln (R⁻¹ x) = Σ_m D^l_mn(R) Y_lm(x)`.
-/
namespace Verif.Sht.Rot
open Verif.Wigner Verif.Wigner.Rep Verif.Spec Finset

theorem wignerD_continuous (l : ℕ) (m n : ℤ) : Continuous fun θ : ℝ => wignerD l m n θ := by
  unfold wignerD
  fun_prop

theorem assocLegendre_continuous (l n : ℕ) : Continuous fun θ : ℝ => assocLegendre l n θ := by
  unfold assocLegendre
  have : Continuous fun θ : ℝ => (rodrigues l (l + n)).eval (Real.cos θ) := (rodrigues l (l + n)).continuous.comp Real.continuous_cos
  fun_prop

/-- `wignerD_legendre` at every colatitude. -/
theorem wignerD_legendre_all (l n : ℕ) (h : n ≤ l) (θ : ℝ) :
    wignerD l 0 n θ = Real.sqrt ((l - n).factorial / (l + n).factorial) * assocLegendre l n θ := by
  have c1 := wignerD_continuous l 0 n
  have c2 : Continuous fun θ : ℝ => Real.sqrt ((l - n).factorial / (l + n).factorial) * assocLegendre l n θ :=
    continuous_const.mul (assocLegendre_continuous l n)
  -- approach `θ` along `θ + 1/(k+1)`
  by_cases hs : Real.sin θ = 0
  · have hlim : Filter.Tendsto (fun k : ℕ => θ + 1 / ((k : ℝ) + 1)) Filter.atTop (nhds θ) := by
      have := (tendsto_one_div_add_atTop_nhds_zero_nat (𝕜 := ℝ)).const_add θ
      simpa using this
    have t1 := (c1.tendsto θ).comp hlim
    have t2 := (c2.tendsto θ).comp hlim
    refine tendsto_nhds_unique t1 (t2.congr fun k => ?_)
    simp only [Function.comp]
    rw [wignerD_legendre l n h]
    intro hz
    rw [Real.sin_add, hs, zero_mul, zero_add] at hz
    have hc : Real.cos θ ≠ 0 := by
      intro hc
      have := Real.sin_sq_add_cos_sq θ
      rw [hs, hc] at this
      norm_num at this
    have hk : (0 : ℝ) < 1 / ((k : ℝ) + 1) := by positivity
    have hk1 : 1 / ((k : ℝ) + 1) ≤ 1 := by
      rw [div_le_one (by positivity)]
      have : (0 : ℝ) ≤ k := by positivity
      linarith
    have := Real.sin_pos_of_pos_of_lt_pi hk (by have := Real.pi_gt_three; linarith)
    rcases mul_eq_zero.1 hz with h | h
    · exact hc h
    · linarith
  · exact wignerD_legendre l n h θ hs

/-- The spherical harmonics through Wigner's matrices, everywhere. -/
theorem sphY_col (l : ℕ) (m : ℤ) (hm : |m| ≤ l) (θ φ : ℝ) :
    sphY l m θ φ = ((Real.sqrt ((2 * l + 1) / (4 * Real.pi)) * wignerD l m 0 θ : ℝ) : ℂ) * Complex.exp (m * φ * Complex.I) := by
  have pos : ∀ n : ℕ, n ≤ l → sphYpos l n θ φ = ((Real.sqrt ((2 * l + 1) / (4 * Real.pi)) * wignerD l n 0 θ : ℝ) : ℂ)
      * Complex.exp (n * φ * Complex.I) := by
    intro n hn
    unfold sphYpos
    congr 2
    rw [wignerD_swap l 0 n, wignerD_legendre_all l n hn θ, Real.sqrt_mul (by have := Real.pi_pos; positivity), pow_sgn,
      sgnPow_congr (a := 0 - (n : ℤ)) (b := (n : ℤ)) (by omega)]
    ring
  rw [Int.abs_eq_natAbs] at hm
  unfold sphY
  by_cases h : 0 ≤ m
  · rw [if_pos h, pos _ (by omega)]
    have e : ((m.toNat : ℕ) : ℤ) = m := by omega
    have e2 : ((m.toNat : ℕ) : ℂ) = (m : ℂ) := by rw [← Int.cast_natCast, e]
    rw [e, e2]
  · rw [if_neg h, pos _ (by omega)]
    have e : ((m.natAbs : ℕ) : ℤ) = -m := by omega
    have e2 : ((m.natAbs : ℕ) : ℂ) = -(m : ℂ) := by rw [← Int.cast_natCast, e, Int.cast_neg]
    have e3 : ((-1 : ℂ)) ^ m.natAbs = ((sgnPow m : ℝ) : ℂ) := by
      have : ((-1 : ℝ)) ^ m.natAbs = sgnPow m := by
        rw [pow_sgn, e, sgnPow_congr (b := m) (by omega)]
      rw [← this]; push_cast; rfl
    have e5 : wignerD l (-m) 0 θ = sgnPow m * wignerD l m 0 θ := by
      rw [wignerD_swap l 0 (-m), wignerD_row_neg, wignerD_swap l 0 m, ← mul_assoc, ← mul_assoc, sgnPow_add, sgnPow_add]
      congr 1
      exact sgnPow_congr (by omega)
    rw [map_mul, Complex.conj_ofReal, e, e2, e3, ← Complex.exp_conj, e5]
    have e4 : (starRingEnd ℂ) (-(m : ℂ) * φ * Complex.I) = m * φ * Complex.I := by
      simp
    rw [e4]
    have hq : ((sgnPow m : ℝ) : ℂ) * ((sgnPow m : ℝ) : ℂ) = 1 := by rw [← Complex.ofReal_mul, sgnPow_sq]; simp
    push_cast
    linear_combination (((Real.sqrt ((2 * l + 1) / (4 * Real.pi)) : ℝ) : ℂ) * ((wignerD l m 0 θ : ℝ) : ℂ)
      * Complex.exp (m * φ * Complex.I)) * hq

/-! ### The quadratic form of a direction -/

open Polynomial in
/-- Coefficients of `(-(x+iy)/2 X² + z X + (x-iy)/2)^l`. -/
noncomputable def Q (l : ℕ) (x y z : ℝ) (r : ℕ) : ℂ :=
  ((C (-((x : ℂ) + y * Complex.I) / 2) * X ^ 2 + C (z : ℂ) * X + C (((x : ℂ) - y * Complex.I) / 2)) ^ l).coeff r

open Polynomial in
theorem T_poly {K : Type} [CommRing K] (N : ℕ) (a b c d : K) (p : ℕ) (hp : p ≤ N) :
    (C a * X + C b) ^ p * (C c * X + C d) ^ (N - p) = ∑ r ∈ range (N + 1), C (T N a b c d p r) * X ^ r := by
  have h := T_homog N (C a) (C b) (C c) (C d) X 1 p hp
  simp only [mul_one, one_pow] at h
  rw [h]
  apply sum_congr rfl
  intro r _
  rw [T_map C]

open Polynomial in
theorem coeff_sum_pow {K : Type} [CommRing K] (N s : ℕ) (hs : s ≤ N) (f : ℕ → K) : (∑ r ∈ range (N + 1), C (f r) * X ^ r).coeff s = f s := by
  rw [finsetSum_coeff]
  simp only [coeff_C_mul, coeff_X_pow]
  rw [sum_eq_single s]
  · simp
  · intro r _ hr; rw [if_neg (Ne.symm hr), mul_zero]
  · intro h; exact absurd (mem_range.2 (by omega)) h

open Polynomial in
/-- The middle row of `T`. -/
theorem T_mid {K : Type} [CommRing K] (l : ℕ) (a b c d : K) (r : ℕ) (hr : r ≤ 2 * l) :
    T (2 * l) a b c d l r = ((C (a * c) * X ^ 2 + C (a * d + b * c) * X + C (b * d)) ^ l).coeff r := by
  have h := T_poly (2 * l) a b c d l (by omega)
  rw [show 2 * l - l = l by omega, ← mul_pow] at h
  have e : (C a * X + C b) * (C c * X + C d) = C (a * c) * X ^ 2 + C (a * d + b * c) * X + C (b * d) := by
    simp only [map_mul, map_add]; ring
  rw [e] at h
  rw [h, coeff_sum_pow (2 * l) r hr]

/-- Direction with colatitude `θ`, azimuth `φ`. -/
theorem Q_angles (l : ℕ) (θ φ : ℝ) (r : ℕ) (hr : r ≤ 2 * l) :
    Q l (Real.sin θ * Real.cos φ) (Real.sin θ * Real.sin φ) (Real.cos θ) r =
      T (2 * l) (Real.cos (θ / 2) : ℂ) (Real.sin (θ / 2)) (-Real.sin (θ / 2)) (Real.cos (θ / 2)) l r * Complex.exp (((r : ℝ) - l) * φ * Complex.I) := by
  set E : ℂ := Complex.exp (φ / 2 * Complex.I) with hE
  set E' : ℂ := Complex.exp (-(φ / 2 * Complex.I)) with hE'
  have hEE : E * E' = 1 := by rw [hE, hE', ← Complex.exp_add, add_neg_cancel, Complex.exp_zero]
  have h1 := T_mul (2 * l) (Real.cos (θ / 2) : ℂ) (Real.sin (θ / 2)) (-Real.sin (θ / 2)) (Real.cos (θ / 2)) E 0 0 E' l r (by omega) hr
  rw [sum_eq_single r] at h1
  rotate_left
  · intro k _ hk; rw [T_diag, if_neg hk, mul_zero]
  · intro h; exact absurd (mem_range.2 (by omega)) h
  rw [T_diag, if_pos rfl] at h1
  rw [show E ^ r * E' ^ (2 * l - r) = Complex.exp (((r : ℝ) - l) * φ * Complex.I) by
      rw [hE, hE', ← Complex.exp_nat_mul, ← Complex.exp_nat_mul, ← Complex.exp_add]
      congr 1
      rw [Nat.cast_sub hr]
      push_cast
      ring] at h1
  rw [← h1, T_mid l _ _ _ _ r hr, Q]
  have s2 : (Real.sin θ : ℂ) = 2 * Real.sin (θ / 2) * Real.cos (θ / 2) := by
    have : Real.sin θ = 2 * Real.sin (θ / 2) * Real.cos (θ / 2) := by rw [← Real.sin_two_mul]; congr 1; ring
    rw [this]; push_cast; ring
  have c2 : (Real.cos θ : ℂ) = Real.cos (θ / 2) ^ 2 - Real.sin (θ / 2) ^ 2 := by
    have : Real.cos θ = Real.cos (θ / 2) ^ 2 - Real.sin (θ / 2) ^ 2 := by rw [← Real.cos_two_mul']; congr 1; ring
    rw [this]; push_cast; ring
  have ep : (Real.cos φ : ℂ) + Real.sin φ * Complex.I = E * E := by
    rw [hE, ← Complex.exp_add, ← add_mul, add_halves, Complex.exp_mul_I]; push_cast; ring
  have em : (Real.cos φ : ℂ) - Real.sin φ * Complex.I = E' * E' := by
    rw [hE', ← Complex.exp_add, ← neg_add, ← add_mul, add_halves, ← neg_mul, Complex.exp_mul_I, Complex.cos_neg, Complex.sin_neg]; push_cast; ring
  have q2 : -(((Real.sin θ * Real.cos φ : ℝ) : ℂ) + ((Real.sin θ * Real.sin φ : ℝ) : ℂ) * Complex.I) / 2 =
      ((Real.cos (θ / 2) : ℂ) * E + (Real.sin (θ / 2) : ℂ) * 0) * (-(Real.sin (θ / 2) : ℂ) * E + (Real.cos (θ / 2) : ℂ) * 0) := by
    push_cast at s2 ep ⊢
    linear_combination (-(1 / 2 : ℂ) * (Complex.cos φ + Complex.sin φ * Complex.I)) * s2
      - (Complex.sin (θ / 2) * Complex.cos (θ / 2)) * ep
  have q1 : ((Real.cos θ : ℝ) : ℂ) = ((Real.cos (θ / 2) : ℂ) * E + (Real.sin (θ / 2) : ℂ) * 0) * (-(Real.sin (θ / 2) : ℂ) * 0 + (Real.cos (θ / 2) : ℂ) * E')
      + ((Real.cos (θ / 2) : ℂ) * 0 + (Real.sin (θ / 2) : ℂ) * E') * (-(Real.sin (θ / 2) : ℂ) * E + (Real.cos (θ / 2) : ℂ) * 0) := by
    push_cast at c2 ⊢
    linear_combination c2 - (Complex.cos (θ / 2) ^ 2 - Complex.sin (θ / 2) ^ 2 : ℂ) * hEE
  have q0 : (((Real.sin θ * Real.cos φ : ℝ) : ℂ) - ((Real.sin θ * Real.sin φ : ℝ) : ℂ) * Complex.I) / 2 =
      ((Real.cos (θ / 2) : ℂ) * 0 + (Real.sin (θ / 2) : ℂ) * E') * (-(Real.sin (θ / 2) : ℂ) * 0 + (Real.cos (θ / 2) : ℂ) * E') := by
    push_cast at s2 em ⊢
    linear_combination ((1 / 2 : ℂ) * (Complex.cos φ - Complex.sin φ * Complex.I)) * s2
      + (Complex.sin (θ / 2) * Complex.cos (θ / 2)) * em
  rw [q2, q1, q0]

/-- A spherical harmonic is a multiple of a coefficient of the quadratic form. -/
theorem sphY_Q (l r : ℕ) (hr : r ≤ 2 * l) (θ φ : ℝ) :
    sphY l ((r : ℤ) - l) θ φ = ((Real.sqrt ((2 * l + 1) / (4 * Real.pi)) * nrm l r l : ℝ) : ℂ) *
      Q l (Real.sin θ * Real.cos φ) (Real.sin θ * Real.sin φ) (Real.cos θ) r := by
  rw [sphY_col l _ (by rw [abs_le]; omega), Q_angles l θ φ r hr]
  have h := wignerD_T l l r (by omega) hr θ
  rw [sub_self] at h
  rw [h]
  have := T_map Complex.ofRealHom (2 * l) (Real.cos (θ / 2)) (Real.sin (θ / 2)) (-Real.sin (θ / 2)) (Real.cos (θ / 2)) l r
  simp only [Complex.ofRealHom_eq_coe] at this
  unfold nrm
  push_cast at this ⊢
  rw [this]
  ring

open Polynomial in
/-- The form in two variables. -/
theorem Q_hom (l : ℕ) (x y z : ℝ) (U V : ℂ[X]) :
    (C (-((x : ℂ) + y * Complex.I) / 2) * U ^ 2 + C (z : ℂ) * (U * V) + C (((x : ℂ) - y * Complex.I) / 2) * V ^ 2) ^ l
      = ∑ p ∈ range (2 * l + 1), C (Q l x y z p) * (U ^ p * V ^ (2 * l - p)) := by
  unfold Q
  generalize -((x : ℂ) + y * Complex.I) / 2 = A
  generalize ((x : ℂ) - y * Complex.I) / 2 = B
  -- both sides are homogeneous of degree 2l; expand with the binomial theorem twice
  have hdeg : (C A * X ^ 2 + C (z : ℂ) * X + C B : ℂ[X]).natDegree ≤ 2 := by
    compute_degree
  have hd : ((C A * X ^ 2 + C (z : ℂ) * X + C B : ℂ[X]) ^ l).natDegree ≤ 2 * l := by
    refine natDegree_pow_le.trans ?_
    rw [mul_comm]; exact Nat.mul_le_mul_right _ hdeg
  -- homogenise: eval₂ of the polynomial over the fraction-free form
  have key : ∀ (n : ℕ) (P : ℂ[X]), P.natDegree ≤ n → ∀ (m : ℕ) (R : ℂ[X]), R.natDegree ≤ m →
      (∑ p ∈ range (n + 1), C (P.coeff p) * (U ^ p * V ^ (n - p))) * (∑ p ∈ range (m + 1), C (R.coeff p) * (U ^ p * V ^ (m - p)))
        = ∑ p ∈ range (n + m + 1), C ((P * R).coeff p) * (U ^ p * V ^ (n + m - p)) := by
    intro n P hP m R hR
    rw [sum_mul_sum]
    have e : ∀ p ∈ range (n + m + 1), C ((P * R).coeff p) * (U ^ p * V ^ (n + m - p)) =
        ∑ i ∈ range (n + 1), ∑ j ∈ range (m + 1), if i + j = p then C (P.coeff i) * C (R.coeff j) * (U ^ p * V ^ (n + m - p)) else 0 := by
      intro p hp
      rw [coeff_mul, map_sum, sum_mul]
      have : ∑ ij ∈ antidiagonal p, C (P.coeff ij.1 * R.coeff ij.2) * (U ^ p * V ^ (n + m - p)) =
          ∑ ij ∈ (range (n + 1) ×ˢ range (m + 1)).filter (fun ij => ij.1 + ij.2 = p), C (P.coeff ij.1 * R.coeff ij.2) * (U ^ p * V ^ (n + m - p)) := by
        symm
        apply sum_subset
        · intro ij hij
          rw [mem_filter] at hij
          rw [mem_antidiagonal]; exact hij.2
        · intro ij hij hn
          rw [mem_antidiagonal] at hij
          rw [mem_filter, mem_product, mem_range, mem_range] at hn
          have : n < ij.1 ∨ m < ij.2 := by
            by_contra hcon
            push Not at hcon
            exact hn ⟨⟨by omega, by omega⟩, hij⟩
          rcases this with h | h
          · rw [coeff_eq_zero_of_natDegree_lt (lt_of_le_of_lt hP h)]; simp
          · rw [coeff_eq_zero_of_natDegree_lt (lt_of_le_of_lt hR h)]; simp
      rw [this, sum_filter, sum_product]
      apply sum_congr rfl; intro i _
      apply sum_congr rfl; intro j _
      simp only
      split_ifs
      · rw [map_mul]
      · rfl
    rw [sum_congr rfl e, sum_comm (s := range (n + m + 1))]
    apply sum_congr rfl; intro i hi
    rw [sum_comm (s := range (n + m + 1))]
    apply sum_congr rfl; intro j hj
    rw [mem_range] at hi hj
    rw [sum_eq_single (i + j)]
    · rw [if_pos rfl, show n + m - (i + j) = (n - i) + (m - j) by omega, pow_add, pow_add]; ring
    · intro p _ hp; rw [if_neg (Ne.symm hp)]
    · intro h; exact absurd (mem_range.2 (by omega)) h
  have base : C A * U ^ 2 + C (z : ℂ) * (U * V) + C B * V ^ 2 = ∑ p ∈ range (2 + 1), C ((C A * X ^ 2 + C (z : ℂ) * X + C B : ℂ[X]).coeff p) * (U ^ p * V ^ (2 - p)) := by
    simp only [sum_range_succ, range_zero, sum_empty, coeff_add, coeff_C_mul, coeff_X_pow, coeff_X, coeff_C]
    norm_num
    ring
  have ind : ∀ l : ℕ, (C A * U ^ 2 + C (z : ℂ) * (U * V) + C B * V ^ 2) ^ l =
      ∑ p ∈ range (2 * l + 1), C (((C A * X ^ 2 + C (z : ℂ) * X + C B : ℂ[X]) ^ l).coeff p) * (U ^ p * V ^ (2 * l - p)) := by
    intro l
    induction l with
    | zero => simp
    | succ l ih =>
      have hd : ((C A * X ^ 2 + C (z : ℂ) * X + C B : ℂ[X]) ^ l).natDegree ≤ 2 * l := by
        refine natDegree_pow_le.trans ?_
        rw [mul_comm]; exact Nat.mul_le_mul_right _ hdeg
      rw [pow_succ, ih, base, key (2 * l) _ hd 2 _ hdeg, ← pow_succ]
      rfl
  exact ind l

open Polynomial in
/-- Substitution of linear forms. -/
theorem Q_subst (l : ℕ) (x y z x' y' z' : ℝ) (a b c d : ℂ) (r : ℕ) (hr : r ≤ 2 * l)
    (h2 : -((x' : ℂ) + y' * Complex.I) / 2 = -((x : ℂ) + y * Complex.I) / 2 * a ^ 2 + z * (a * c) + ((x : ℂ) - y * Complex.I) / 2 * c ^ 2)
    (h1 : (z' : ℂ) = 2 * (-((x : ℂ) + y * Complex.I) / 2) * (a * b) + z * (a * d + b * c) + 2 * (((x : ℂ) - y * Complex.I) / 2) * (c * d))
    (h0 : ((x' : ℂ) - y' * Complex.I) / 2 = -((x : ℂ) + y * Complex.I) / 2 * b ^ 2 + z * (b * d) + ((x : ℂ) - y * Complex.I) / 2 * d ^ 2) :
    Q l x' y' z' r = ∑ p ∈ range (2 * l + 1), Q l x y z p * T (2 * l) a b c d p r := by
  have h := Q_hom l x y z (C a * X + C b) (C c * X + C d)
  have e2 : C (-((x : ℂ) + y * Complex.I) / 2) * (C a * X + C b) ^ 2 + C (z : ℂ) * ((C a * X + C b) * (C c * X + C d))
      + C (((x : ℂ) - y * Complex.I) / 2) * (C c * X + C d) ^ 2 =
      C (-((x' : ℂ) + y' * Complex.I) / 2) * X ^ 2 + C (z' : ℂ) * X + C (((x' : ℂ) - y' * Complex.I) / 2) := by
    rw [h2, h1, h0]
    generalize -((x : ℂ) + y * Complex.I) / 2 = A
    generalize ((x : ℂ) - y * Complex.I) / 2 = B
    simp only [map_add, map_mul, map_pow]
    have : (C (2 : ℂ) : ℂ[X]) = 2 := map_ofNat C 2
    simp only [this]
    ring
  rw [e2] at h
  rw [Q, h, finsetSum_coeff]
  apply sum_congr rfl
  intro p hp
  rw [mem_range] at hp
  rw [coeff_C_mul, T_poly (2 * l) a b c d p (by omega), coeff_sum_pow (2 * l) r hr]

/-- Rotation of the quadratic form about `y`. -/
theorem Q_rotY (l : ℕ) (x y z β : ℝ) (r : ℕ) (hr : r ≤ 2 * l) :
    Q l (Real.cos β * x - Real.sin β * z) y (Real.sin β * x + Real.cos β * z) r = ∑ p ∈ range (2 * l + 1), Q l x y z p *
      T (2 * l) (Real.cos (β / 2) : ℂ) (-Real.sin (β / 2)) (Real.sin (β / 2)) (Real.cos (β / 2)) p r := by
  have s2 : (Real.sin β : ℂ) = 2 * Real.sin (β / 2) * Real.cos (β / 2) := by
    have : Real.sin β = 2 * Real.sin (β / 2) * Real.cos (β / 2) := by rw [← Real.sin_two_mul]; congr 1; ring
    rw [this]; push_cast; ring
  have c2 : (Real.cos β : ℂ) = Real.cos (β / 2) ^ 2 - Real.sin (β / 2) ^ 2 := by
    have : Real.cos β = Real.cos (β / 2) ^ 2 - Real.sin (β / 2) ^ 2 := by rw [← Real.cos_two_mul']; congr 1; ring
    rw [this]; push_cast; ring
  have u : (Real.cos (β / 2) : ℂ) ^ 2 + (Real.sin (β / 2) : ℂ) ^ 2 = 1 := by
    have := Real.cos_sq_add_sin_sq (β / 2)
    exact_mod_cast this
  apply Q_subst l _ _ _ _ _ _ _ _ _ _ r hr
  · push_cast at s2 c2 u ⊢
    linear_combination (-(x : ℂ) / 2) * c2 + ((z : ℂ) / 2) * s2 + (y * Complex.I / 2) * u
  · push_cast at s2 c2 u ⊢
    linear_combination (x : ℂ) * s2 + (z : ℂ) * c2
  · push_cast at s2 c2 u ⊢
    linear_combination ((x : ℂ) / 2) * c2 - ((z : ℂ) / 2) * s2 + (y * Complex.I / 2) * u

/-- Rotation of the quadratic form about `z`. -/
theorem Q_rotZ (l : ℕ) (x y z α : ℝ) (r : ℕ) (hr : r ≤ 2 * l) :
    Q l (Real.cos α * x + Real.sin α * y) (-Real.sin α * x + Real.cos α * y) z r = Complex.exp (-(((r : ℝ) - l) * α * Complex.I)) * Q l x y z r := by
  set E : ℂ := Complex.exp (-(α / 2 * Complex.I)) with hE
  set E' : ℂ := Complex.exp (α / 2 * Complex.I) with hE'
  have hEE : E * E' = 1 := by rw [hE, hE', ← Complex.exp_add, neg_add_cancel, Complex.exp_zero]
  have ep : (Real.cos α : ℂ) - Real.sin α * Complex.I = E ^ 2 := by
    rw [sq, hE, ← Complex.exp_add, ← neg_add, ← add_mul, add_halves, ← neg_mul, Complex.exp_mul_I, Complex.cos_neg, Complex.sin_neg]; push_cast; ring
  have em : (Real.cos α : ℂ) + Real.sin α * Complex.I = E' ^ 2 := by
    rw [sq, hE', ← Complex.exp_add, ← add_mul, add_halves, Complex.exp_mul_I]; push_cast; ring
  have h := Q_subst l x y z (Real.cos α * x + Real.sin α * y) (-Real.sin α * x + Real.cos α * y) z E 0 0 E' r hr (by
      push_cast at ep ⊢
      linear_combination (-(x + y * Complex.I : ℂ) / 2) * ep - (Complex.sin α * y / 2) * Complex.I_mul_I) (by
      linear_combination (-(z : ℂ)) * hEE) (by
      push_cast at em ⊢
      linear_combination ((x - y * Complex.I : ℂ) / 2) * em + (Complex.sin α * y / 2) * Complex.I_mul_I)
  rw [h, sum_eq_single r]
  rotate_left
  · intro k _ hk; rw [T_diag, if_neg hk, mul_zero]
  · intro h; exact absurd (mem_range.2 (by omega)) h
  rw [T_diag, if_pos rfl, mul_comm]
  congr 1
  rw [hE, hE', ← Complex.exp_nat_mul, ← Complex.exp_nat_mul, ← Complex.exp_add]
  congr 1
  rw [Nat.cast_sub hr]
  push_cast
  ring

/-! ### Rotated functions -/

theorem sum_Icc_range {M : Type*} [AddCommMonoid M] (l : ℕ) (f : ℤ → M) :
    ∑ m ∈ Icc (-(l : ℤ)) l, f m = ∑ r ∈ range (2 * l + 1), f ((r : ℤ) - l) := by
  symm
  refine sum_bij (fun r _ => (r : ℤ) - l) ?_ ?_ ?_ ?_
  · intro r hr; rw [mem_range] at hr; rw [mem_Icc]; omega
  · intro a _ b _ h; simpa using h
  · intro m hm; rw [mem_Icc] at hm; exact ⟨(m + l).toNat, by rw [mem_range]; omega, by omega⟩
  · intro r _; rfl

/-- The rotation theorem for spherical harmonics. -/
theorem sphY_rotate (l : ℕ) (n : ℤ) (hn : |n| ≤ l) (A B G θ φ θ' φ' : ℝ)
    (h : dir θ φ = (rotZ A * rotY B * rotZ G).mulVec (dir θ' φ')) :
    sphY l n θ' φ' = ∑ m ∈ Icc (-(l : ℤ)) l, wignerRot l m n A B G * sphY l m θ φ := by
  rw [abs_le] at hn
  obtain ⟨r, hr, rfl⟩ : ∃ r : ℕ, r ≤ 2 * l ∧ n = (r : ℤ) - l := ⟨(n + l).toNat, by omega, by omega⟩
  set v : Fin 3 → ℝ := dir θ φ with hv
  -- undo the rotation
  have hcsA := Real.cos_sq_add_sin_sq A
  have hcsB := Real.cos_sq_add_sin_sq B
  have hcsG := Real.cos_sq_add_sin_sq G
  set w := dir θ' φ' with hw
  have hz : ∀ a : ℝ, ∀ u u' : Fin 3 → ℝ, u = (rotZ a).mulVec u' → u' 0 = Real.cos a * u 0 + Real.sin a * u 1 ∧ u' 1 = -Real.sin a * u 0 + Real.cos a * u 1 ∧ u' 2 = u 2 := by
    intro a u u' e
    have hcs := Real.cos_sq_add_sin_sq a
    subst e
    simp [rotZ, Matrix.mulVec, dotProduct, Fin.sum_univ_three]
    constructor
    · linear_combination (-(u' 0)) * hcs
    · linear_combination (-(u' 1)) * hcs
  have hy : ∀ a : ℝ, ∀ u u' : Fin 3 → ℝ, u = (rotY a).mulVec u' → u' 0 = Real.cos a * u 0 - Real.sin a * u 2 ∧ u' 1 = u 1 ∧ u' 2 = Real.sin a * u 0 + Real.cos a * u 2 := by
    intro a u u' e
    have hcs := Real.cos_sq_add_sin_sq a
    subst e
    simp [rotY, Matrix.mulVec, dotProduct, Fin.sum_univ_three]
    constructor
    · linear_combination (-(u' 0)) * hcs
    · linear_combination (-(u' 2)) * hcs
  rw [← Matrix.mulVec_mulVec, ← Matrix.mulVec_mulVec] at h
  obtain ⟨a0, a1, a2⟩ := hz A _ _ h
  set w2 := (rotY B).mulVec ((rotZ G).mulVec w) with hw2
  obtain ⟨b0, b1, b2⟩ := hy B _ _ hw2
  set w1 := (rotZ G).mulVec w with hw1
  obtain ⟨g0, g1, g2⟩ := hz G _ _ hw1
  have d0 : ∀ θ φ : ℝ, dir θ φ 0 = Real.sin θ * Real.cos φ := fun _ _ => rfl
  have d1 : ∀ θ φ : ℝ, dir θ φ 1 = Real.sin θ * Real.sin φ := fun _ _ => rfl
  have d2 : ∀ θ φ : ℝ, dir θ φ 2 = Real.cos θ := fun _ _ => rfl
  have e1 : sphY l ((r : ℤ) - l) θ' φ' = ((Real.sqrt ((2 * l + 1) / (4 * Real.pi)) * nrm l r l : ℝ) : ℂ) * Q l (w 0) (w 1) (w 2) r := by
    rw [sphY_Q l r hr, hw, d0, d1, d2]
  have e2 : ∀ p ≤ 2 * l, sphY l ((p : ℤ) - l) θ φ = ((Real.sqrt ((2 * l + 1) / (4 * Real.pi)) * nrm l p l : ℝ) : ℂ) * Q l (v 0) (v 1) (v 2) p := by
    intro p hp
    rw [sphY_Q l p hp, hv, d0, d1, d2]
  rw [e1, g0, g1, g2, Q_rotZ l _ _ _ G r hr, b0, b1, b2, Q_rotY l _ _ _ B r hr, sum_Icc_range, mul_sum, mul_sum]
  apply sum_congr rfl
  intro p hp
  rw [mem_range] at hp
  rw [e2 p (by omega), a0, a1, a2, Q_rotZ l _ _ _ A p (by omega)]
  have hd : (wignerD l ((p : ℤ) - l) ((r : ℤ) - l) B : ℂ) = (nrm l r p : ℂ) *
      T (2 * l) (Real.cos (B / 2) : ℂ) (-Real.sin (B / 2)) (Real.sin (B / 2)) (Real.cos (B / 2)) p r := by
    rw [← wignerD_neg_angle, wignerD_T l p r (by omega) hr, Complex.ofReal_mul]
    have := T_map Complex.ofRealHom (2 * l) (Real.cos (-B / 2)) (Real.sin (-B / 2)) (-Real.sin (-B / 2)) (Real.cos (-B / 2)) p r
    simp only [Complex.ofRealHom_eq_coe] at this
    rw [this, neg_div, Real.cos_neg, Real.sin_neg, neg_neg, Complex.ofReal_neg]
    rfl
  unfold wignerRot
  rw [hd, nrm_mul l r p l]
  push_cast
  rw [show -(((p : ℂ) - l) * A) * Complex.I = -(((p : ℂ) - l) * A * Complex.I) by ring,
    show -(((r : ℂ) - l) * G) * Complex.I = -(((r : ℂ) - l) * G * Complex.I) by ring]
  ring

/-- The coefficients of a rotated function. -/
theorem field_rotate (L : ℕ) (g : ℕ → ℤ → ℂ) (A B G θ φ θ' φ' : ℝ) (h : dir θ φ = (rotZ A * rotY B * rotZ G).mulVec (dir θ' φ')) :
    sphField L (fun l m => ∑ n ∈ Icc (-(l : ℤ)) l, wignerRot l m n A B G * g l n) θ φ = sphField L g θ' φ' := by
  unfold sphField
  apply sum_congr rfl
  intro l _
  have e : ∀ n ∈ Icc (-(l : ℤ)) l, g l n * sphY l n θ' φ' = ∑ m ∈ Icc (-(l : ℤ)) l, wignerRot l m n A B G * g l n * sphY l m θ φ := by
    intro n hn
    rw [mem_Icc] at hn
    rw [sphY_rotate l n (by rw [abs_le]; omega) A B G θ φ θ' φ' h, mul_sum]
    exact sum_congr rfl fun m _ => by ring
  rw [sum_congr rfl e, sum_comm]
  exact sum_congr rfl fun m _ => by rw [sum_mul]

end Verif.Sht.Rot
