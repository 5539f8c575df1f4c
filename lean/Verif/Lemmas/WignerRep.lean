import Verif.Lemmas.WignerSum
import Verif.Spec.Wigner
import Mathlib.Data.Nat.Choose.Sum
import Mathlib.Algebra.Polynomial.Coeff
import Mathlib.Algebra.Polynomial.BigOperators
import Mathlib.Analysis.SpecialFunctions.Complex.Circle
/-!
The action of 2x2 matrices on homogeneous polynomials of degree `N`, its multiplicativity, and Wigner's small d as
its normalised matrix elements.
-/
namespace Verif.Wigner.Rep
open Finset

/-- Coefficient of `x^r y^(N-r)` in `(a x + b y)^p (c x + d y)^(N-p)`. -/
def T {K : Type} [CommRing K] (N : ℕ) (a b c d : K) (p r : ℕ) : K :=
  ∑ i ∈ range (p + 1), ∑ j ∈ range (N - p + 1),
    if i + j = r then (p.choose i : K) * a ^ i * b ^ (p - i) * (((N - p).choose j : K) * c ^ j * d ^ (N - p - j)) else 0

theorem T_homog {K : Type} [CommRing K] (N : ℕ) (a b c d x y : K) (p : ℕ) (hp : p ≤ N) :
    (a * x + b * y) ^ p * (c * x + d * y) ^ (N - p) = ∑ r ∈ range (N + 1), T N a b c d p r * (x ^ r * y ^ (N - r)) := by
  rw [add_pow, add_pow, sum_mul_sum]
  simp only [T, sum_mul]
  rw [sum_comm (s := range (N + 1))]
  apply sum_congr rfl
  intro i hi
  rw [sum_comm (s := range (N + 1))]
  apply sum_congr rfl
  intro j hj
  rw [mem_range] at hi hj
  rw [sum_eq_single (i + j)]
  · rw [if_pos rfl, mul_pow, mul_pow, mul_pow, mul_pow, show N - (i + j) = (p - i) + (N - p - j) by omega, pow_add, pow_add]
    ring
  · intro r _ hr
    rw [if_neg (Ne.symm hr), zero_mul]
  · intro h
    exact absurd (mem_range.2 (by omega)) h

theorem T_map {K K' : Type} [CommRing K] [CommRing K'] (f : K →+* K') (N : ℕ) (a b c d : K) (p r : ℕ) :
    f (T N a b c d p r) = T N (f a) (f b) (f c) (f d) p r := by
  unfold T
  simp only [map_sum, apply_ite f, map_mul, map_pow, map_natCast, map_zero]

theorem T_mul {K : Type} [CommRing K] (N : ℕ) (a b c d a' b' c' d' : K) (p s : ℕ) (hp : p ≤ N) (hs : s ≤ N) :
    T N (a * a' + b * c') (a * b' + b * d') (c * a' + d * c') (c * b' + d * d') p s
      = ∑ r ∈ range (N + 1), T N a b c d p r * T N a' b' c' d' r s := by
  open Polynomial in
  have key : ∀ (a b c d : K) (p : ℕ), p ≤ N →
      (C a * X + C b * 1) ^ p * (C c * X + C d * 1) ^ (N - p) = ∑ r ∈ range (N + 1), C (T N a b c d p r) * X ^ r := by
    intro a b c d p hp
    rw [T_homog N (C a) (C b) (C c) (C d) X 1 p hp]
    apply sum_congr rfl
    intro r _
    rw [T_map C, one_pow, mul_one]
  open Polynomial in
  have cf : ∀ (f : ℕ → K), (∑ r ∈ range (N + 1), C (f r) * X ^ r).coeff s = f s := by
    intro f
    rw [finsetSum_coeff]
    simp only [coeff_C_mul, coeff_X_pow]
    rw [sum_eq_single s]
    · simp
    · intro r _ hr; rw [if_neg (Ne.symm hr), mul_zero]
    · intro h; exact absurd (mem_range.2 (by omega)) h
  open Polynomial in
  have e := key (a * a' + b * c') (a * b' + b * d') (c * a' + d * c') (c * b' + d * d') p hp
  open Polynomial in
  have e2 : (C (a * a' + b * c') * X + C (a * b' + b * d') * 1) ^ p
      * (C (c * a' + d * c') * X + C (c * b' + d * d') * 1) ^ (N - p)
      = ∑ r ∈ range (N + 1), C (T N a b c d p r) * ∑ s ∈ range (N + 1), C (T N a' b' c' d' r s) * X ^ s := by
    have h := T_homog N (C a) (C b) (C c) (C d) (C a' * X + C b' * 1) (C c' * X + C d' * 1) p hp
    rw [show C (a * a' + b * c') * X + C (a * b' + b * d') * 1
        = C a * (C a' * X + C b' * 1) + C b * (C c' * X + C d' * 1) by simp only [map_add, map_mul]; ring,
      show C (c * a' + d * c') * X + C (c * b' + d * d') * 1
        = C c * (C a' * X + C b' * 1) + C d * (C c' * X + C d' * 1) by simp only [map_add, map_mul]; ring, h]
    apply sum_congr rfl
    intro r hr
    rw [key a' b' c' d' r (by rw [mem_range] at hr; omega), T_map C]
  have e3 := congrArg (fun q => Polynomial.coeff q s) (e.symm.trans e2)
  simp only [cf] at e3
  rw [e3, Polynomial.finsetSum_coeff]
  apply sum_congr rfl
  intro r _
  rw [Polynomial.coeff_C_mul, cf]

/-- Diagonal matrices act diagonally. -/
theorem T_diag {K : Type} [CommRing K] (N : ℕ) (a d : K) (p r : ℕ) :
    T N a 0 0 d p r = if p = r then a ^ p * d ^ (N - p) else 0 := by
  unfold T
  rw [sum_eq_single p]
  · rw [sum_eq_single 0]
    · simp
    · intro j _ hj; simp [hj]
    · intro h; exact absurd (mem_range.2 (by omega)) h
  · intro i hi hip
    apply sum_eq_zero
    intro j _
    have : p - i ≠ 0 := by rw [mem_range] at hi; omega
    simp [this]
  · intro h; exact absurd (mem_range.2 (by omega)) h

/-- The inner sum has at most one term. -/
theorem T_single {K : Type} [CommRing K] (N : ℕ) (a b c d : K) (p r : ℕ) :
    T N a b c d p r = ∑ i ∈ (range (p + 1)).filter (fun i => i ≤ r ∧ r - i ≤ N - p),
      (p.choose i : K) * a ^ i * b ^ (p - i) * (((N - p).choose (r - i) : K) * c ^ (r - i) * d ^ (N - p - (r - i))) := by
  unfold T
  rw [sum_filter]
  apply sum_congr rfl
  intro i _
  by_cases h : i ≤ r ∧ r - i ≤ N - p
  · rw [if_pos h, sum_eq_single (r - i)]
    · rw [if_pos (by omega)]
    · intro j _ hj; rw [if_neg (by omega)]
    · intro h'; exact absurd (mem_range.2 (by omega)) h'
  · rw [if_neg h]
    apply sum_eq_zero
    intro j hj
    rw [mem_range] at hj
    rw [if_neg (by omega)]

open Verif.Spec

/-- Wigner's formula is the normalised matrix element of the rotation by `β`. -/
theorem wignerD_T (l p r : ℕ) (hp : p ≤ 2 * l) (hr : r ≤ 2 * l) (β : ℝ) :
    wignerD l ((r : ℤ) - l) ((p : ℤ) - l) β =
      Real.sqrt ((r.factorial * (2 * l - r).factorial : ℝ) / (p.factorial * (2 * l - p).factorial)) *
        T (2 * l) (Real.cos (β / 2)) (Real.sin (β / 2)) (-Real.sin (β / 2)) (Real.cos (β / 2)) p r := by
  have e : Real.sqrt (zfact (l + ((r : ℤ) - l)) * zfact (l - ((r : ℤ) - l)) * zfact (l + ((p : ℤ) - l)) * zfact (l - ((p : ℤ) - l)))
      = Real.sqrt ((r.factorial * (2 * l - r).factorial : ℝ) / (p.factorial * (2 * l - p).factorial))
        * (p.factorial * (2 * l - p).factorial) := by
    unfold zfact
    rw [show ((l : ℤ) + ((r : ℤ) - l)).toNat = r by omega, show ((l : ℤ) - ((r : ℤ) - l)).toNat = 2 * l - r by omega,
      show ((l : ℤ) + ((p : ℤ) - l)).toNat = p by omega, show ((l : ℤ) - ((p : ℤ) - l)).toNat = 2 * l - p by omega]
    have h : (0 : ℝ) < p.factorial * (2 * l - p).factorial := by positivity
    rw [show ((r.factorial : ℝ) * (2 * l - r).factorial * p.factorial * (2 * l - p).factorial)
      = ((r.factorial * (2 * l - r).factorial : ℝ) / (p.factorial * (2 * l - p).factorial))
        * (p.factorial * (2 * l - p).factorial) ^ 2 by field_simp, Real.sqrt_mul' _ (by positivity), Real.sqrt_sq h.le]
  unfold wignerD
  rw [e, mul_assoc, T_single]
  congr 1
  rw [mul_sum]
  apply sum_nbij' (fun s : ℤ => (p - s).toNat) (fun i : ℕ => (p : ℤ) - i)
  · intro s hs
    rw [mem_Icc] at hs
    rw [mem_filter, mem_range]
    omega
  · intro i hi
    rw [mem_filter, mem_range] at hi
    rw [mem_Icc]
    omega
  · intro s hs; rw [mem_Icc] at hs; omega
  · intro s hs; rw [mem_filter, mem_range] at hs; omega
  · intro s hs
    rw [mem_Icc] at hs
    obtain ⟨t, rfl⟩ : ∃ t : ℕ, s = t := ⟨s.toNat, by omega⟩
    obtain ⟨i, rfl⟩ : ∃ i : ℕ, p = i + t := ⟨p - t, by omega⟩
    obtain ⟨j, rfl⟩ : ∃ j : ℕ, r = i + j := ⟨r - i, by omega⟩
    obtain ⟨q, hq⟩ : ∃ q : ℕ, 2 * l = i + t + j + q := ⟨2 * l - (i + t + j), by omega⟩
    have hl : (2 * (l : ℤ)) = i + t + j + q := by exact_mod_cast hq
    unfold zfact
    rw [show (((i + j : ℕ) : ℤ) - l - (((i + t : ℕ) : ℤ) - l) + t).toNat = j by omega,
      show (2 * (l : ℤ) + (((i + t : ℕ) : ℤ) - l) - (((i + j : ℕ) : ℤ) - l) - 2 * t).toNat = i + q by omega,
      show (((i + j : ℕ) : ℤ) - l - (((i + t : ℕ) : ℤ) - l) + 2 * t).toNat = t + j by omega,
      show ((l : ℤ) + (((i + t : ℕ) : ℤ) - l) - t).toNat = i by omega,
      show ((t : ℤ)).toNat = t by omega,
      show ((l : ℤ) - (((i + j : ℕ) : ℤ) - l) - t).toNat = q by omega,
      show (((i + t : ℕ) : ℤ) - (t : ℤ)).toNat = i by omega, show i + t - i = t by omega, show i + j - i = j by omega,
      hq, show i + t + j + q - (i + t) = j + q by omega, show j + q - j = q by omega]
    have c1 : ((i + t).choose i : ℝ) = (i + t).factorial / (i.factorial * t.factorial) := Nat.cast_add_choose ℝ
    have c2 : ((j + q).choose j : ℝ) = (j + q).factorial / (j.factorial * q.factorial) := Nat.cast_add_choose ℝ
    rw [c1, c2, neg_pow (Real.sin (β / 2)) j, pow_add, pow_add]
    field_simp


/-- The normalisation of `wignerD_T`. -/
noncomputable def nrm (l r p : ℕ) : ℝ :=
  Real.sqrt ((r.factorial * (2 * l - r).factorial : ℝ) / (p.factorial * (2 * l - p).factorial))

theorem nrm_mul (l s r p : ℕ) : nrm l s p = nrm l r p * nrm l s r := by
  unfold nrm
  rw [← Real.sqrt_mul (by positivity)]
  congr 1
  field_simp

theorem nrm_self (l p : ℕ) : nrm l p p = 1 := by
  unfold nrm
  rw [div_self (by positivity), Real.sqrt_one]

theorem wignerD_neg_angle (l : ℕ) (m' m : ℤ) (β : ℝ) : wignerD l m' m (-β) = wignerD l m m' β := by
  rw [wignerD_swap l m' m β]
  unfold wignerD
  rw [mul_left_comm]
  congr 1
  rw [mul_sum]
  apply sum_congr rfl
  intro s hs
  rw [mem_Icc] at hs
  rw [neg_div, Real.cos_neg, Real.sin_neg, neg_pow (Real.sin (β / 2)), neg_one_pow_toNat (k := m' - m + 2 * s) (by omega),
    sgnPow_congr (a := m' - m + 2 * s) (b := m' - m) (by omega)]
  ring

/-- Composition of two rotations about the same axis. -/
theorem wignerD_add (l s p : ℕ) (hs : s ≤ 2 * l) (hp : p ≤ 2 * l) (α β : ℝ) :
    wignerD l ((s : ℤ) - l) ((p : ℤ) - l) (α + β) = ∑ r ∈ range (2 * l + 1),
      wignerD l ((r : ℤ) - l) ((p : ℤ) - l) α * wignerD l ((s : ℤ) - l) ((r : ℤ) - l) β := by
  rw [wignerD_T l p s hp hs]
  have h := T_mul (2 * l) (Real.cos (α / 2)) (Real.sin (α / 2)) (-Real.sin (α / 2)) (Real.cos (α / 2))
    (Real.cos (β / 2)) (Real.sin (β / 2)) (-Real.sin (β / 2)) (Real.cos (β / 2)) p s hp hs
  rw [show Real.cos (α / 2) * Real.cos (β / 2) + Real.sin (α / 2) * -Real.sin (β / 2) = Real.cos ((α + β) / 2) by
      rw [add_div, Real.cos_add]; ring,
    show Real.cos (α / 2) * Real.sin (β / 2) + Real.sin (α / 2) * Real.cos (β / 2) = Real.sin ((α + β) / 2) by
      rw [add_div, Real.sin_add]; ring,
    show -Real.sin (α / 2) * Real.cos (β / 2) + Real.cos (α / 2) * -Real.sin (β / 2) = -Real.sin ((α + β) / 2) by
      rw [add_div, Real.sin_add]; ring,
    show -Real.sin (α / 2) * Real.sin (β / 2) + Real.cos (α / 2) * Real.cos (β / 2) = Real.cos ((α + β) / 2) by
      rw [add_div, Real.cos_add]; ring] at h
  rw [h, mul_sum]
  apply sum_congr rfl
  intro r hr
  rw [mem_range] at hr
  rw [wignerD_T l p r hp (by omega), wignerD_T l r s (by omega) hs]
  have e := nrm_mul l s r p
  unfold nrm at e
  rw [e]
  ring

/-- Wigner's matrix is orthogonal. -/
theorem wignerD_orthogonal (l s p : ℕ) (hs : s ≤ 2 * l) (hp : p ≤ 2 * l) (β : ℝ) :
    ∑ r ∈ range (2 * l + 1), wignerD l ((r : ℤ) - l) ((p : ℤ) - l) β * wignerD l ((r : ℤ) - l) ((s : ℤ) - l) β
      = if p = s then 1 else 0 := by
  have h := wignerD_add l s p hs hp β (-β)
  simp only [wignerD_neg_angle] at h
  rw [← h, add_neg_cancel, wignerD_T l p s hp hs, zero_div, Real.cos_zero, Real.sin_zero, neg_zero, T_diag]
  by_cases e : p = s
  · subst e
    have := nrm_self l p
    unfold nrm at this
    rw [if_pos rfl, if_pos rfl, this, one_pow, one_pow]; norm_num
  · rw [if_neg e, if_neg e, mul_zero]

/-- Its entries are at most one in absolute value. -/
theorem wignerD_abs_le (l : ℕ) (m' m : ℤ) (hm' : |m'| ≤ l) (hm : |m| ≤ l) (β : ℝ) : |wignerD l m' m β| ≤ 1 := by
  rw [abs_le] at hm hm'
  have h := wignerD_orthogonal l (m + l).toNat (m + l).toNat (by omega) (by omega) β
  rw [if_pos rfl] at h
  have h2 : wignerD l (((m' + l).toNat : ℤ) - l) (((m + l).toNat : ℤ) - l) β
      * wignerD l (((m' + l).toNat : ℤ) - l) (((m + l).toNat : ℤ) - l) β ≤ 1 := by
    rw [← h]
    exact single_le_sum (f := fun r : ℕ => wignerD l ((r : ℤ) - l) (((m + l).toNat : ℤ) - l) β
      * wignerD l ((r : ℤ) - l) (((m + l).toNat : ℤ) - l) β) (fun r _ => mul_self_nonneg _) (mem_range.2 (by omega))
  rw [show (((m' + l).toNat : ℤ) - l) = m' by omega, show (((m + l).toNat : ℤ) - l) = m by omega] at h2
  rw [abs_le]
  constructor <;> nlinarith

/-- **Edmonds' factorisation** of a rotation about `y` through rotations by `π/2` and a rotation about `z`. -/
theorem edmonds (l s p : ℕ) (hs : s ≤ 2 * l) (hp : p ≤ 2 * l) (θ : ℝ) :
    (wignerD l ((s : ℤ) - l) ((p : ℤ) - l) θ : ℂ) * Complex.I ^ s = Complex.I ^ p * ∑ r ∈ range (2 * l + 1),
      (wignerD l ((r : ℤ) - l) ((p : ℤ) - l) (Real.pi / 2) : ℂ) * wignerD l ((r : ℤ) - l) ((s : ℤ) - l) (Real.pi / 2)
        * Complex.exp (((r : ℝ) - l) * θ * Complex.I) := by
  -- `V D V⁻¹` with `V = P A P⁻¹`
  have hI : Complex.I * Complex.I = -1 := Complex.I_mul_I
  set c : ℂ := (Real.cos (Real.pi / 4) : ℂ) with hc
  set σ : ℂ := (Real.sin (Real.pi / 4) : ℂ) with hσ
  have hcs : c * c = 1 / 2 := by
    rw [hc, ← Complex.ofReal_mul, Real.cos_pi_div_four]
    rw [show √2 / 2 * (√2 / 2) = (1 / 2 : ℝ) by have := Real.mul_self_sqrt (show (0:ℝ) ≤ 2 by norm_num); linarith]
    norm_num
  have hσc : σ = c := by rw [hσ, hc, Real.cos_pi_div_four, Real.sin_pi_div_four]
  set E : ℂ := Complex.exp (θ / 2 * Complex.I) with hE
  set E' : ℂ := Complex.exp (-(θ / 2 * Complex.I)) with hE'
  have hsum : E + E' = 2 * Complex.cos (θ / 2) := by
    rw [Complex.cos, hE, hE', neg_mul]; ring
  have hdif : E - E' = 2 * Complex.sin (θ / 2) * Complex.I := by
    rw [Complex.sin, hE, hE', neg_mul]
    linear_combination ((Complex.exp (θ / 2 * Complex.I)) - Complex.exp (-(θ / 2 * Complex.I))) * Complex.I_mul_I
  have hIn : ∀ k, Complex.I ^ k * (-Complex.I) ^ k = 1 := by
    intro k; rw [← mul_pow, mul_neg, hI, neg_neg, one_pow]
  -- product of the five matrices, two at a time
  have step1 : ∀ r ≤ 2 * l, T (2 * l) (c * 1) (σ * Complex.I) (σ * Complex.I) (c * 1) p r
      = Complex.I ^ p * T (2 * l) c σ (-σ) c p r * (-Complex.I) ^ r := by
    intro r hr
    have h1 := T_mul (2 * l) Complex.I 0 0 1 c σ (-σ) c p r hp hr
    rw [sum_eq_single p] at h1
    rotate_left
    · intro k _ hk; rw [T_diag, if_neg (Ne.symm hk), zero_mul]
    · intro h; exact absurd (mem_range.2 (by omega)) h
    have h2 := T_mul (2 * l) (Complex.I * c + 0 * -σ) (Complex.I * σ + 0 * c) (0 * c + 1 * -σ) (0 * σ + 1 * c)
      (-Complex.I) 0 0 1 p r hp hr
    rw [sum_eq_single r] at h2
    rotate_left
    · intro k _ hk; rw [T_diag (r := r), if_neg hk, mul_zero]
    · intro h; exact absurd (mem_range.2 (by omega)) h
    rw [h1, T_diag, T_diag, if_pos rfl, if_pos rfl, one_pow, one_pow] at h2
    refine Eq.trans ?_ (h2.trans (by ring))
    congr 1
    · linear_combination c * hI
    · ring
    · ring
    · ring
  have step2 : ∀ r ≤ 2 * l, T (2 * l) (c * 1) (-(σ * Complex.I)) (-(σ * Complex.I)) (c * 1) r s
      = Complex.I ^ r * T (2 * l) c (-σ) σ c r s * (-Complex.I) ^ s := by
    intro r hr
    have h1 := T_mul (2 * l) Complex.I 0 0 1 c (-σ) σ c r s hr hs
    rw [sum_eq_single r] at h1
    rotate_left
    · intro k _ hk; rw [T_diag, if_neg (Ne.symm hk), zero_mul]
    · intro h; exact absurd (mem_range.2 (by omega)) h
    have h2 := T_mul (2 * l) (Complex.I * c + 0 * σ) (Complex.I * -σ + 0 * c) (0 * c + 1 * σ) (0 * -σ + 1 * c)
      (-Complex.I) 0 0 1 r s hr hs
    rw [sum_eq_single s] at h2
    rotate_left
    · intro k _ hk; rw [T_diag (r := s), if_neg hk, mul_zero]
    · intro h; exact absurd (mem_range.2 (by omega)) h
    rw [h1, T_diag, T_diag, if_pos rfl, if_pos rfl, one_pow, one_pow] at h2
    refine Eq.trans ?_ (h2.trans (by ring))
    congr 1
    · linear_combination c * hI
    · ring
    · ring
    · ring
  have step3 : ∀ r ≤ 2 * l, T (2 * l) (E * (c * 1)) (E * -(σ * Complex.I)) (E' * -(σ * Complex.I)) (E' * (c * 1)) r s
      = Complex.exp (((r : ℝ) - l) * θ * Complex.I) * T (2 * l) (c * 1) (-(σ * Complex.I)) (-(σ * Complex.I)) (c * 1) r s := by
    intro r hr
    have h1 := T_mul (2 * l) E 0 0 E' (c * 1) (-(σ * Complex.I)) (-(σ * Complex.I)) (c * 1) r s hr hs
    rw [sum_eq_single r] at h1
    rotate_left
    · intro k _ hk; rw [T_diag, if_neg (Ne.symm hk), zero_mul]
    · intro h; exact absurd (mem_range.2 (by omega)) h
    rw [T_diag, if_pos rfl] at h1
    rw [show E ^ r * E' ^ (2 * l - r) = Complex.exp (((r : ℝ) - l) * θ * Complex.I) by
      rw [hE, hE', ← Complex.exp_nat_mul, ← Complex.exp_nat_mul, ← Complex.exp_add]
      congr 1
      rw [Nat.cast_sub hr]
      push_cast
      ring] at h1
    rw [← h1]
    congr 1 <;> ring
  have main := T_mul (2 * l) (c * 1) (σ * Complex.I) (σ * Complex.I) (c * 1)
    (E * (c * 1)) (E * -(σ * Complex.I)) (E' * -(σ * Complex.I)) (E' * (c * 1)) p s hp hs
  rw [show (c * 1) * (E * (c * 1)) + (σ * Complex.I) * (E' * -(σ * Complex.I)) = Complex.cos (θ / 2) by
      rw [hσc]; linear_combination (E + E') * hcs + (1 / 2) * hsum - c * c * E' * hI,
    show (c * 1) * (E * -(σ * Complex.I)) + (σ * Complex.I) * (E' * (c * 1)) = Complex.sin (θ / 2) by
      rw [hσc]; linear_combination -(E - E') * Complex.I * hcs - (1 / 2) * Complex.I * hdif - Complex.sin (θ / 2) * hI,
    show (σ * Complex.I) * (E * (c * 1)) + (c * 1) * (E' * -(σ * Complex.I)) = -Complex.sin (θ / 2) by
      rw [hσc]; linear_combination (E - E') * Complex.I * hcs + (1 / 2) * Complex.I * hdif + Complex.sin (θ / 2) * hI,
    show (σ * Complex.I) * (E * -(σ * Complex.I)) + (c * 1) * (E' * (c * 1)) = Complex.cos (θ / 2) by
      rw [hσc]; linear_combination (E + E') * hcs + (1 / 2) * hsum - c * c * E * hI] at main
  have cast : ∀ (β : ℝ) (p r : ℕ), p ≤ 2 * l → r ≤ 2 * l → (wignerD l ((r : ℤ) - l) ((p : ℤ) - l) β : ℂ) =
      (nrm l r p : ℂ) * T (2 * l) (Complex.cos (β / 2)) (Complex.sin (β / 2)) (-Complex.sin (β / 2)) (Complex.cos (β / 2)) p r := by
    intro β p r hp hr
    rw [wignerD_T l p r hp hr, Complex.ofReal_mul]
    have := T_map Complex.ofRealHom (2 * l) (Real.cos (β / 2)) (Real.sin (β / 2)) (-Real.sin (β / 2)) (Real.cos (β / 2)) p r
    simp only [Complex.ofRealHom_eq_coe] at this
    rw [this]
    push_cast
    rfl
  rw [cast θ p s hp hs, main, mul_assoc, mul_comm _ (Complex.I ^ s), mul_left_comm, mul_sum, mul_sum, mul_sum]
  apply sum_congr rfl
  intro r hr
  rw [mem_range] at hr
  rw [step1 r (by omega), step3 r (by omega), step2 r (by omega), ← wignerD_neg_angle l ((s : ℤ) - l) ((r : ℤ) - l),
    cast (Real.pi / 2) p r hp (by omega), cast (-(Real.pi / 2)) r s (by omega) hs, nrm_mul l s r p]
  have q1 : Complex.cos (((Real.pi / 2 : ℝ) : ℂ) / 2) = c := by
    rw [hc, Complex.ofReal_cos]; congr 1; push_cast; ring
  have q2 : Complex.sin (((Real.pi / 2 : ℝ) : ℂ) / 2) = σ := by
    rw [hσ, Complex.ofReal_sin]; congr 1; push_cast; ring
  have q3 : Complex.cos (((-(Real.pi / 2) : ℝ) : ℂ) / 2) = c := by
    rw [← q1, ← Complex.cos_neg]; congr 1; push_cast; ring
  have q4 : Complex.sin (((-(Real.pi / 2) : ℝ) : ℂ) / 2) = -σ := by
    rw [← q2, ← Complex.sin_neg]; congr 1; push_cast; ring
  rw [q1, q2, q3, q4, neg_neg, Complex.ofReal_mul]
  linear_combination ((nrm l r p : ℂ) * (nrm l s r : ℂ) * Complex.I ^ p * T (2 * l) c σ (-σ) c p r
    * Complex.exp (((r : ℝ) - l) * θ * Complex.I) * T (2 * l) c (-σ) σ c r s) * (Complex.I ^ s * (-Complex.I) ^ s * hIn r + hIn s)


theorem sum_mirror {M : Type} [AddCommMonoid M] (l : ℕ) (f : ℕ → M) :
    ∑ r ∈ range (2 * l + 1), f r = f l + ∑ n ∈ range l, (f (l + (n + 1)) + f (l - (n + 1))) := by
  rw [show 2 * l + 1 = l + (l + 1) by omega, sum_range_add, sum_range_succ', add_zero, sum_add_distrib,
    ← sum_range_reflect]
  rw [show ∑ j ∈ range l, f (l - 1 - j) = ∑ n ∈ range l, f (l - (n + 1)) from sum_congr rfl fun j _ => by
    congr 1; omega]
  abel

theorem wignerD_half_neg_first (l : ℕ) (n m : ℤ) :
    wignerD l (-n) m (Real.pi / 2) = sgnPow (l + m) * wignerD l n m (Real.pi / 2) := by
  rw [wignerD_swap l m (-n), wignerD_half_neg, wignerD_swap l n m, ← mul_assoc, ← mul_assoc, sgnPow_add, sgnPow_add]
  congr 1
  exact sgnPow_congr (by omega)

theorem I_pow_congr {a b : ℕ} (h : a % 4 = b % 4) : Complex.I ^ a = Complex.I ^ b := by
  rw [Complex.I_pow_eq_pow_mod, Complex.I_pow_eq_pow_mod b, h]

/-- The zeroth row as a mirrored Fourier sum. -/
theorem row_fourier (l : ℕ) (m : ℤ) (hm : |m| ≤ l) (θ : ℝ) :
    (wignerD l 0 m θ : ℂ) * Complex.I ^ l = Complex.I ^ (l + m).toNat *
      ((wignerD l 0 m (Real.pi / 2) : ℂ) * wignerD l 0 0 (Real.pi / 2) + ∑ n ∈ range l,
        (wignerD l (n + 1) m (Real.pi / 2) : ℂ) * wignerD l (n + 1) 0 (Real.pi / 2) *
          (Complex.exp (((n + 1 : ℕ) : ℝ) * θ * Complex.I) + sgnPow m * Complex.exp (-(((n + 1 : ℕ) : ℝ) * θ * Complex.I)))) := by
  rw [abs_le] at hm
  have h := edmonds l l (l + m).toNat (by omega) (by omega) θ
  rw [show ((l : ℤ) - l) = 0 by ring, show (((l + m).toNat : ℤ) - l) = m by omega, sum_mirror] at h
  rw [h]
  congr 1
  congr 1
  · rw [sub_self, Complex.ofReal_natCast, sub_self, zero_mul, zero_mul, Complex.exp_zero, mul_one]
  · apply sum_congr rfl
    intro n hn
    rw [mem_range] at hn
    rw [show (((l - (n + 1) : ℕ) : ℤ) - l) = -((n : ℤ) + 1) by omega, wignerD_half_neg_first, wignerD_half_neg_first,
      show (((l + (n + 1) : ℕ) : ℤ) - l) = ((n : ℤ) + 1) by omega, Nat.cast_sub (show n + 1 ≤ l by omega)]
    have hs : (sgnPow (l + m) * sgnPow (l + 0) : ℝ) = sgnPow m := by
      rw [sgnPow_add]; exact sgnPow_congr (by omega)
    rw [← hs]
    push_cast
    rw [show ((l : ℂ) + (n + 1) - l) * θ * Complex.I = (n + 1) * θ * Complex.I by ring,
      show ((l : ℂ) - (n + 1) - l) * θ * Complex.I = -((n + 1) * θ * Complex.I) by ring]
    ring

/-- Even orders: a cosine series. -/
theorem row_even (l : ℕ) (m : ℤ) (hm : |m| ≤ l) (he : m % 2 = 0) (θ : ℝ) :
    wignerD l 0 m θ = (if m % 4 = 2 then -1 else 1) *
      (wignerD l 0 (-m) (Real.pi / 2) * wignerD l 0 0 (Real.pi / 2) + ∑ n ∈ range l,
        wignerD l (n + 1) (-m) (Real.pi / 2) * wignerD l (n + 1) 0 (Real.pi / 2) * (2 * Real.cos (((n + 1 : ℕ) : ℝ) * θ))) := by
  have h := row_fourier l (-m) (by rwa [abs_neg]) θ
  rw [abs_le] at hm
  rw [show sgnPow (-m) = 1 by unfold sgnPow; rw [if_pos (by omega)]] at h
  have e0 : wignerD l 0 m θ = wignerD l 0 (-m) θ := by
    have := wignerD_neg l 0 m θ
    rw [neg_zero] at this
    rw [this, wignerD_swap l 0 m, show sgnPow (0 - m) = 1 by unfold sgnPow; rw [if_pos (by omega)], one_mul]
  have hI : Complex.I ^ l ≠ 0 := pow_ne_zero _ Complex.I_ne_zero
  have e1 : Complex.I ^ (l + -m).toNat = (((if m % 4 = 2 then -1 else 1 : ℝ)) : ℂ) * Complex.I ^ l := by
    by_cases h4 : m % 4 = 2
    · rw [if_pos h4, I_pow_congr (b := l + 2) (by omega), pow_add, Complex.I_sq]; push_cast; ring
    · rw [if_neg h4, I_pow_congr (b := l) (by omega)]; push_cast; ring
  rw [e1] at h
  have e2 : ∀ x : ℝ, Complex.exp (x * θ * Complex.I) + ((1 : ℝ) : ℂ) * Complex.exp (-(x * θ * Complex.I))
      = ((2 * Real.cos (x * θ) : ℝ) : ℂ) := by
    intro x
    push_cast
    rw [Complex.cos, neg_mul]; ring
  simp only [e2] at h
  rw [e0]
  have h' : (wignerD l 0 (-m) θ : ℂ) = (((if m % 4 = 2 then -1 else 1 : ℝ)) : ℂ) *
      ((wignerD l 0 (-m) (Real.pi / 2) : ℂ) * wignerD l 0 0 (Real.pi / 2) + ∑ n ∈ range l,
        (wignerD l (n + 1) (-m) (Real.pi / 2) : ℂ) * wignerD l (n + 1) 0 (Real.pi / 2)
          * ((2 * Real.cos (((n + 1 : ℕ) : ℝ) * θ) : ℝ) : ℂ)) := by
    apply mul_right_cancel₀ hI
    rw [h]; ring
  exact_mod_cast h'

/-- Odd orders: a sine series. -/
theorem row_odd (l : ℕ) (m : ℤ) (hm : |m| ≤ l) (he : m % 2 = 1) (θ : ℝ) :
    wignerD l 0 m θ = (if m % 4 = 1 then -1 else 1) * ∑ n ∈ range l,
        wignerD l (n + 1) (-m) (Real.pi / 2) * wignerD l (n + 1) 0 (Real.pi / 2) * (2 * Real.sin (((n + 1 : ℕ) : ℝ) * θ)) := by
  have h := row_fourier l (-m) (by rwa [abs_neg]) θ
  rw [abs_le] at hm
  rw [show sgnPow (-m) = -1 by unfold sgnPow; rw [if_neg (by omega)]] at h
  have e0 : wignerD l 0 m θ = -wignerD l 0 (-m) θ := by
    have := wignerD_neg l 0 m θ
    rw [neg_zero] at this
    rw [this, wignerD_swap l 0 m, show sgnPow (0 - m) = -1 by unfold sgnPow; rw [if_neg (by omega)]]; ring
  have hI : Complex.I ^ l ≠ 0 := pow_ne_zero _ Complex.I_ne_zero
  have e1 : Complex.I ^ (l + -m).toNat = (((if m % 4 = 1 then -1 else 1 : ℝ)) : ℂ) * (Complex.I * Complex.I ^ l) := by
    by_cases h4 : m % 4 = 1
    · rw [if_pos h4, I_pow_congr (b := l + 3) (by omega), pow_add, Complex.I_pow_three]; push_cast; ring
    · rw [if_neg h4, I_pow_congr (b := l + 1) (by omega), pow_add]; push_cast; ring
  rw [e1] at h
  have e2 : ∀ x : ℝ, Complex.exp (x * θ * Complex.I) + ((-1 : ℝ) : ℂ) * Complex.exp (-(x * θ * Complex.I))
      = ((2 * Real.sin (x * θ) : ℝ) : ℂ) * Complex.I := by
    intro x
    push_cast
    rw [Complex.sin, show -((x : ℂ) * θ) * Complex.I = -(x * θ * Complex.I) by ring]
    linear_combination (Complex.exp (x * θ * Complex.I) - Complex.exp (-(x * θ * Complex.I))) * Complex.I_mul_I
  have e3 : wignerD l 0 (-m) (Real.pi / 2) * wignerD l 0 0 (Real.pi / 2) = 0 := by
    have a := wignerD_half_neg_first l 0 (-m)
    have b := wignerD_half_neg_first l 0 0
    rw [neg_zero] at a b
    have c : sgnPow (l + -m) * sgnPow (l + 0) = -1 := by
      rw [sgnPow_add]; unfold sgnPow; rw [if_neg (by omega)]
    have d : wignerD l 0 (-m) (Real.pi / 2) * wignerD l 0 0 (Real.pi / 2)
        = (sgnPow (l + -m) * sgnPow (l + 0)) * (wignerD l 0 (-m) (Real.pi / 2) * wignerD l 0 0 (Real.pi / 2)) := by
      conv_lhs => rw [a, b]
      ring
    rw [c] at d
    linarith
  simp only [e2] at h
  have e3' : (wignerD l 0 (-m) (Real.pi / 2) : ℂ) * wignerD l 0 0 (Real.pi / 2) = 0 := by exact_mod_cast e3
  rw [e3', zero_add] at h
  rw [e0]
  have h' : (-(wignerD l 0 (-m) θ) : ℂ) = (((if m % 4 = 1 then -1 else 1 : ℝ)) : ℂ) * ∑ n ∈ range l,
        (wignerD l (n + 1) (-m) (Real.pi / 2) : ℂ) * wignerD l (n + 1) 0 (Real.pi / 2)
          * ((2 * Real.sin (((n + 1 : ℕ) : ℝ) * θ) : ℝ) : ℂ) := by
    apply mul_right_cancel₀ hI
    rw [neg_mul, h]
    simp only [← mul_assoc, ← sum_mul]
    linear_combination -(((if m % 4 = 1 then -1 else 1 : ℝ)) : ℂ) * (Complex.I ^ l) * (∑ n ∈ range l,
        (wignerD l (n + 1) (-m) (Real.pi / 2) : ℂ) * wignerD l (n + 1) 0 (Real.pi / 2)
          * ((2 * Real.sin (((n + 1 : ℕ) : ℝ) * θ) : ℝ) : ℂ)) * Complex.I_mul_I
  exact_mod_cast h'

end Verif.Wigner.Rep
