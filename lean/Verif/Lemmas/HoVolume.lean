import Verif.Lemmas.CuboVolume
import Mathlib.Analysis.SpecialFunctions.Pow.Deriv
import Mathlib.Analysis.SpecialFunctions.Trigonometric.InverseDeriv
import Mathlib.Analysis.SpecialFunctions.Trigonometric.Bounds
/-! Jacobian of the homochoric map, as a map of four-dimensional space: radius and homochoric vector. -/
namespace Verif.Cubo
open Verif Real MeasureTheory

/-- gradient of a function of four variables -/
def D4 (g : (Fin 4 → ℝ) → ℝ) (a : Fin 4 → ℝ) (u : Fin 4 → ℝ) : Prop :=
  HasFDerivAt g (∑ j, a j • (ContinuousLinearMap.proj j : (Fin 4 → ℝ) →L[ℝ] ℝ)) u

theorem D4.congr {g : (Fin 4 → ℝ) → ℝ} {a b u : Fin 4 → ℝ} (h : D4 g a u) (e : ∀ j, a j = b j) : D4 g b u := by
  rw [← funext e]; exact h

theorem D4.coord (i : Fin 4) (u : Fin 4 → ℝ) : D4 (fun v => v i) (fun j => if j = i then 1 else 0) u := by
  refine (hasFDerivAt_apply (𝕜 := ℝ) i u).congr_fderiv ?_
  ext v
  simp

theorem D4.mul {f g : (Fin 4 → ℝ) → ℝ} {a b u : Fin 4 → ℝ} (hf : D4 f a u) (hg : D4 g b u) :
    D4 (fun v => f v * g v) (fun j => f u * b j + g u * a j) u := by
  refine (HasFDerivAt.mul hf hg).congr_fderiv ?_
  ext v
  simp [Fin.sum_univ_four]
  ring

theorem D4.add {f g : (Fin 4 → ℝ) → ℝ} {a b u : Fin 4 → ℝ} (hf : D4 f a u) (hg : D4 g b u) :
    D4 (fun v => f v + g v) (fun j => a j + b j) u := by
  refine (HasFDerivAt.add hf hg).congr_fderiv ?_
  ext v
  simp [Fin.sum_univ_four]
  ring

theorem D4.comp {φ : ℝ → ℝ} {φ' : ℝ} {g : (Fin 4 → ℝ) → ℝ} {a u : Fin 4 → ℝ} (hφ : HasDerivAt φ φ' (g u)) (hg : D4 g a u) :
    D4 (fun v => φ (g v)) (fun j => φ' * a j) u := by
  refine (hφ.comp_hasFDerivAt u hg).congr_fderiv ?_
  ext v
  simp [Fin.sum_univ_four]
  ring

theorem rows4_det (w a b c n2 β βw γ : ℝ) :
    (Matrix.of ![![n2 * w, n2 * a, n2 * b, n2 * c], ![a * βw, β + a * (γ * a), a * (γ * b), a * (γ * c)],
      ![b * βw, b * (γ * a), β + b * (γ * b), b * (γ * c)], ![c * βw, c * (γ * a), c * (γ * b), β + c * (γ * c)]]).det =
      n2 * β ^ 2 * (w * (β + (a ^ 2 + b ^ 2 + c ^ 2) * γ) - (a ^ 2 + b ^ 2 + c ^ 2) * βw) := by
  rw [Matrix.det_succ_row_zero]
  simp [Fin.sum_univ_succ, Matrix.det_fin_three, Matrix.submatrix, Fin.succAbove]
  ring

/-- homochoric radius from half the rotation angle -/
noncomputable def hoRadius (ψ : ℝ) : ℝ := (3 * (2 * ψ - sin (2 * ψ)) / 4) ^ ((1 : ℝ) / 3)

theorem hoArg_pos {ψ : ℝ} (h : 0 < ψ) : 0 < 3 * (2 * ψ - sin (2 * ψ)) / 4 := by
  have := sin_lt (show 0 < 2 * ψ by linarith)
  linarith

theorem hoRadius_pos {ψ : ℝ} (h : 0 < ψ) : 0 < hoRadius ψ := rpow_pos_of_pos (hoArg_pos h) _

theorem hoRadius_cube {ψ : ℝ} (h : 0 < ψ) : hoRadius ψ ^ 3 = 3 * (2 * ψ - sin (2 * ψ)) / 4 := by
  unfold hoRadius
  rw [← rpow_natCast, ← rpow_mul (hoArg_pos h).le]; norm_num

theorem hoRadius_deriv {ψ : ℝ} (h : 0 < ψ) : HasDerivAt hoRadius (sin ψ ^ 2 / hoRadius ψ ^ 2) ψ := by
  have hp := hoArg_pos h
  have hr := hoRadius_pos h
  have d1 : HasDerivAt (fun ψ : ℝ => 3 * (2 * ψ - sin (2 * ψ)) / 4) (3 * (2 - cos (2 * ψ) * 2) / 4) ψ := by
    have e : HasDerivAt (fun ψ : ℝ => 2 * ψ) 2 ψ := by simpa using (hasDerivAt_id ψ).const_mul 2
    exact ((e.sub e.sin).const_mul 3).div_const 4
  have d2 := d1.rpow_const (p := (1 : ℝ) / 3) (Or.inl hp.ne')
  refine HasDerivAt.congr_deriv d2 ?_
  have e1 : (3 * (2 * ψ - sin (2 * ψ)) / 4) ^ ((1 : ℝ) / 3 - 1) = 1 / hoRadius ψ ^ 2 := by
    rw [rpow_sub hp, rpow_one]
    change hoRadius ψ / _ = _
    rw [← hoRadius_cube h]
    field_simp
  rw [e1, cos_two_mul]
  have := sin_sq_add_cos_sq ψ
  have e2 : 3 * (2 - (2 * cos ψ ^ 2 - 1) * 2) / 4 = 3 * sin ψ ^ 2 := by linear_combination (-3) * this
  rw [e2]
  field_simp

theorem hoRadius_mono {a b : ℝ} (ha : 0 < a) (hab : a < b) : hoRadius a < hoRadius b := by
  unfold hoRadius
  apply rpow_lt_rpow (hoArg_pos ha).le _ (by norm_num)
  have e : sin (2 * b) - sin (2 * a) = 2 * sin (b - a) * cos (b + a) := by
    rw [sin_sub_sin]; congr 2 <;> ring_nf
  have h1 : sin (b - a) < b - a := sin_lt (by linarith)
  have h2 : -(b - a) < sin (b - a) := by
    by_cases h5 : b - a < π
    · linarith [sin_pos_of_pos_of_lt_pi (show 0 < b - a by linarith) h5]
    · have := neg_one_le_sin (b - a); have := pi_gt_three; linarith
  have h3 : sin (b - a) * cos (b + a) ≤ |sin (b - a)| := by
    calc _ ≤ |sin (b - a) * cos (b + a)| := le_abs_self _
      _ = |sin (b - a)| * |cos (b + a)| := abs_mul _ _
      _ ≤ |sin (b - a)| * 1 := by gcongr; exact abs_cos_le_one _
      _ = _ := mul_one _
  have h4 : |sin (b - a)| < b - a := abs_lt.mpr ⟨h2, h1⟩
  linarith

/-- radius coordinate and homochoric vector of a point of four-dimensional space -/
noncomputable def hoMap (x : Fin 4 → ℝ) : Fin 4 → ℝ :=
  let S := x 1 * x 1 + x 2 * x 2 + x 3 * x 3
  let β := hoRadius (arccos (x 0 * (√(x 0 * x 0 + S))⁻¹)) * (√S)⁻¹
  ![1 / 4 * ((x 0 * x 0 + S) * (x 0 * x 0 + S)), x 1 * β, x 2 * β, x 3 * β]

theorem hoMap_deriv (x : Fin 4 → ℝ) (hS : 0 < x 1 * x 1 + x 2 * x 2 + x 3 * x 3) :
    ∃ M : Matrix (Fin 4) (Fin 4) ℝ, (∀ i, D4 (fun v => hoMap v i) (M i) x) ∧ M.det = 1 := by
  have dS := (((D4.coord 1 x).mul (D4.coord 1 x)).add ((D4.coord 2 x).mul (D4.coord 2 x))).add ((D4.coord 3 x).mul (D4.coord 3 x))
  have dN := ((D4.coord 0 x).mul (D4.coord 0 x)).add dS
  set S := x 1 * x 1 + x 2 * x 2 + x 3 * x 3 with hSd
  have hN : 0 < x 0 * x 0 + S := by nlinarith [mul_self_nonneg (x 0)]
  obtain ⟨n, hn⟩ : ∃ n, n = √(x 0 * x 0 + S) := ⟨_, rfl⟩
  obtain ⟨s, hs⟩ : ∃ s, s = √S := ⟨_, rfl⟩
  have n0 : 0 < n := by rw [hn]; exact sqrt_pos.mpr hN
  have s0 : 0 < s := by rw [hs]; exact sqrt_pos.mpr hS
  have n2 : n ^ 2 = x 0 * x 0 + S := by rw [hn]; exact sq_sqrt hN.le
  have s2 : s ^ 2 = S := by rw [hs]; exact sq_sqrt hS.le
  have din : HasDerivAt (fun y => (√y)⁻¹) (-(1 / (2 * n)) / n ^ 2) (x 0 * x 0 + S) := by
    have := (hasDerivAt_sqrt hN.ne').fun_inv (by rw [← hn]; exact n0.ne')
    rw [← hn] at this; exact this
  have dis : HasDerivAt (fun y => (√y)⁻¹) (-(1 / (2 * s)) / s ^ 2) S := by
    have := (hasDerivAt_sqrt hS.ne').fun_inv (by rw [← hs]; exact s0.ne')
    rw [← hs] at this; exact this
  have dn := D4.comp (φ := fun y => (√y)⁻¹) din dN
  have dsq := D4.comp (φ := fun y => (√y)⁻¹) dis dS
  have dc := (D4.coord 0 x).mul dn
  have hc2 : 1 - (x 0 * n⁻¹) ^ 2 = (s / n) ^ 2 := by
    field_simp
    linear_combination n2 - s2
  have hlt : (x 0 * n⁻¹) ^ 2 < 1 := by
    have : 0 < (s / n) ^ 2 := by positivity
    linarith
  have hlt' := abs_lt.mp ((sq_lt_one_iff_abs_lt_one _).mp hlt)
  have da : HasDerivAt arccos (-(1 / (s / n))) (x 0 * n⁻¹) := by
    have := hasDerivAt_arccos hlt'.1.ne' hlt'.2.ne
    rw [hc2, sqrt_sq (by positivity)] at this
    exact this
  rw [hn] at da
  have dψ := D4.comp (φ := arccos) da dc
  rw [← hn] at dψ
  obtain ⟨ψ, hψ⟩ : ∃ ψ, ψ = arccos (x 0 * n⁻¹) := ⟨_, rfl⟩
  have ψ0 : 0 < ψ := by rw [hψ]; exact arccos_pos.mpr hlt'.2
  have hsin : sin ψ = s / n := by rw [hψ, sin_arccos, hc2, sqrt_sq (by positivity)]
  have dP := hoRadius_deriv ψ0
  have P0 := hoRadius_pos ψ0
  obtain ⟨P, hP⟩ : ∃ P, P = hoRadius ψ := ⟨_, rfl⟩
  rw [← hP] at P0
  rw [hsin, ← hP] at dP
  rw [hψ, hn] at dP
  have dR := D4.comp (φ := hoRadius) dP dψ
  have dβ := dR.mul dsq
  rw [← hn, ← hψ, ← hP, ← hs] at dβ
  have dβ' := dβ.congr (b := ![-s ^ 2 / (n ^ 4 * P ^ 2), (x 0 / (n ^ 4 * P ^ 2) - P / s ^ 3) * x 1, (x 0 / (n ^ 4 * P ^ 2) - P / s ^ 3) * x 2,
      (x 0 / (n ^ 4 * P ^ 2) - P / s ^ 3) * x 3]) (by
    intro j
    fin_cases j <;> simp
    · field_simp; linear_combination (-2 : ℝ) * n2 + 2 * s2
    · field_simp; ring
    · field_simp; ring
    · field_simp; ring)
  have r0 := D4.comp (φ := fun y => 1 / 4 * y) (φ' := 1 / 4 * 1) ((hasDerivAt_id ((x 0 * x 0 + S) * (x 0 * x 0 + S))).const_mul (1 / 4)) (dN.mul dN)
  have r1 := (D4.coord 1 x).mul dβ'
  have r2 := (D4.coord 2 x).mul dβ'
  have r3 := (D4.coord 3 x).mul dβ'
  rw [← hSd, ← hn, ← hψ, ← hP, ← hs] at r1 r2 r3
  refine ⟨_, ?_, (rows4_det (x 0) (x 1) (x 2) (x 3) (n ^ 2) (P * s⁻¹) (-s ^ 2 / (n ^ 4 * P ^ 2)) (x 0 / (n ^ 4 * P ^ 2) - P / s ^ 3)).trans ?_⟩
  · intro i
    fin_cases i
    · refine D4.congr (g := fun v => hoMap v 0) r0 fun j => ?_
      rw [n2, hSd]
      fin_cases j <;> simp <;> ring
    · refine D4.congr (g := fun v => hoMap v 1) r1 fun j => ?_
      fin_cases j <;> simp <;> ring
    · refine D4.congr (g := fun v => hoMap v 2) r2 fun j => ?_
      fin_cases j <;> simp <;> ring
    · refine D4.congr (g := fun v => hoMap v 3) r3 fun j => ?_
      fin_cases j <;> simp <;> ring
  · have e : x 1 ^ 2 + x 2 ^ 2 + x 3 ^ 2 = s ^ 2 := by rw [s2, hSd]; ring
    have e2 : x 0 ^ 2 = n ^ 2 - s ^ 2 := by linear_combination s2 - n2
    rw [e]
    field_simp
    linear_combination s ^ 3 * e2

end Verif.Cubo
