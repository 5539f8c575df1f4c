import Verif.Props.Excitation
import Verif.Props.StructMatrix
import Verif.Spec.Codata
/-!
C92, C93: the numerical constants and the units of the diffraction code.
-/
namespace Verif.Diff
open Cryst Spec

private lemma sq_mono {x y : ℝ} (hy : 0 ≤ y) (h : x ^ 2 ≤ y ^ 2) : x ≤ y := abs_le_of_sq_le_sq' h hy |>.2

private lemma lam_sq {ψ : ℝ} (h : 0 < ψ) : Codata.wavelengthNm ψ ^ 2 = (1e9 * Codata.h) ^ 2 / (2 * Codata.m * Codata.e) / ψ := by
  unfold Codata.wavelengthNm
  have : 0 < 2 * Codata.m * Codata.e := by unfold Codata.m Codata.e; norm_num
  rw [div_pow, Real.sq_sqrt (by positivity), div_div]

private lemma lam_pos {ψ : ℝ} (h : 0 < ψ) : 0 < Codata.wavelengthNm ψ := by
  have : 0 < 2 * Codata.m * Codata.e := by unfold Codata.m Codata.e; norm_num
  have h1 : 0 < Codata.h := by unfold Codata.h; norm_num
  unfold Codata.wavelengthNm
  exact div_pos (by positivity) (Real.sqrt_pos.2 (by positivity))

private lemma const_bound (ψ lam s : ℝ) (hs : 0 < s) (hψ : 0 < ψ) (h1 : s * (1 - 3e-8) ≤ ψ) (h2 : ψ ≤ s) (hl : 0 < lam)
    (h : lam ^ 2 * s = 1.22642584554 ^ 2) :
    Codata.wavelengthNm ψ * (1 - 1.5e-7) ≤ lam ∧ lam ≤ Codata.wavelengthNm ψ := by
  have hlam : lam ^ 2 = 1.22642584554 ^ 2 / s := by rw [← h]; field_simp
  have hp := lam_pos hψ
  constructor
  · refine sq_mono hl.le ?_
    rw [mul_pow, lam_sq hψ, hlam, div_mul_eq_mul_div, div_le_div_iff₀ hψ hs]
    have : (1e9 * Codata.h) ^ 2 / (2 * Codata.m * Codata.e) * (1 - 1.5e-7) ^ 2 ≤ 1.22642584554 ^ 2 * (1 - 3e-8) := by
      unfold Codata.h Codata.m Codata.e; norm_num
    calc _ ≤ 1.22642584554 ^ 2 * (1 - 3e-8) * s := mul_le_mul_of_nonneg_right this hs.le
      _ = 1.22642584554 ^ 2 * (s * (1 - 3e-8)) := by ring
      _ ≤ _ := mul_le_mul_of_nonneg_left h1 (by norm_num)
  · refine sq_mono hp.le ?_
    rw [lam_sq hψ, hlam, div_le_div_iff₀ hs hψ]
    have : (1.22642584554 : ℝ) ^ 2 ≤ (1e9 * Codata.h) ^ 2 / (2 * Codata.m * Codata.e) := by
      unfold Codata.h Codata.m Codata.e; norm_num
    exact mul_le_mul this h2 hψ.le (le_trans (by norm_num) this)

private lemma pot_bound (v : ℝ) (hv : 0 < v) :
    (calcLambda v).2.2 * (1 - 3e-8) ≤ Codata.potential (1000 * v) ∧ Codata.potential (1000 * v) ≤ (calcLambda v).2.2 ∧
    0 < Codata.potential (1000 * v) := by
  have hk : (0.0009784755 : ℝ) ≤ 1000 * Codata.e / (2 * Codata.m * Codata.c ^ 2) ∧
      1000 * Codata.e / (2 * Codata.m * Codata.c ^ 2) ≤ 0.00097847561649 ∧
      0.00097847561649 * (1 - 3e-8) ≤ 1000 * Codata.e / (2 * Codata.m * Codata.c ^ 2) := by
    unfold Codata.e Codata.m Codata.c; norm_num
  have e : Codata.potential (1000 * v) = v * (1 + 1000 * Codata.e / (2 * Codata.m * Codata.c ^ 2) * v) * 1000 := by
    unfold Codata.potential; ring
  rw [e]
  generalize 1000 * Codata.e / (2 * Codata.m * Codata.c ^ 2) = k at hk
  have hvv := mul_pos hv hv
  simp only [calcLambda]
  obtain ⟨k1, k2, k3⟩ := hk
  have p1 := mul_le_mul_of_nonneg_right k1 hvv.le
  have p2 := mul_le_mul_of_nonneg_right k2 hvv.le
  have p3 := mul_le_mul_of_nonneg_right k3 hvv.le
  refine ⟨?_, ?_, ?_⟩ <;> nlinarith

/-- **C92**.  For every positive accelerating voltage (kV) the wavelength (nm), the relativistic factor and the potential
(V) returned by `calc_lambda` agree with the CODATA values: the wavelength to `1.5e-7`, the other two to `3e-8`, relatively. -/
theorem C92_codata (v : ℝ) (hv : 0 < v) :
    Codata.wavelengthNm (Codata.potential (1000 * v)) * (1 - 1.5e-7) ≤ (calcLambda v).1 ∧
    (calcLambda v).1 ≤ Codata.wavelengthNm (Codata.potential (1000 * v)) ∧
    |(calcLambda v).2.1 - Codata.gamma (1000 * v)| ≤ 3e-8 * Codata.gamma (1000 * v) ∧
    |(calcLambda v).2.2 - Codata.potential (1000 * v)| ≤ 3.1e-8 * Codata.potential (1000 * v) := by
  obtain ⟨p1, p2, p3⟩ := pot_bound v hv
  obtain ⟨w0, w1, -, w2, -⟩ := C92_wavelength v hv
  have hψ : 0 < (calcLambda v).2.2 := lt_of_lt_of_le p3 p2
  obtain ⟨a, b⟩ := const_bound _ _ _ hψ p3 p1 p2 w0 w1
  refine ⟨a, b, ?_, ?_⟩
  · have hk : (0 : ℝ) ≤ 1000 * Codata.e / (2 * Codata.m * Codata.c ^ 2) ∧
        1000 * Codata.e / (2 * Codata.m * Codata.c ^ 2) ≤ 0.00097847561649 ∧
        0.00097847561649 - 2.9e-11 ≤ 1000 * Codata.e / (2 * Codata.m * Codata.c ^ 2) := by
      unfold Codata.e Codata.m Codata.c; norm_num
    have e : Codata.gamma (1000 * v) = 1 + 2 * (1000 * Codata.e / (2 * Codata.m * Codata.c ^ 2)) * v := by
      unfold Codata.gamma
      have : Codata.m ≠ 0 := by unfold Codata.m; norm_num
      have : Codata.c ≠ 0 := by unfold Codata.c; norm_num
      field_simp
    rw [e]
    generalize 1000 * Codata.e / (2 * Codata.m * Codata.c ^ 2) = k at hk
    simp only [calcLambda]
    obtain ⟨k1, k2, k3⟩ := hk
    rw [abs_le]
    have q2 := mul_le_mul_of_nonneg_right k2 hv.le
    have q3 := mul_le_mul_of_nonneg_right k3 hv.le
    constructor <;> nlinarith
  · rw [abs_le]
    constructor <;> linarith

/-- **C92**.  Inside the crystal the wavelength used for the master pattern is shortened by refraction at the mean inner
potential `V₀ = pref·|F(000)|` (V): it is the de Broglie wavelength for the potential `ψ + V₀`, to `1.5e-7`, and satisfies
`λ'² (ψ + V₀) = λ² ψ` exactly, with the wavelength and potential of `calc_lambda`. -/
theorem C92_refraction (sf : ScatterFactor) (c : Crystal) (v : ℝ) (hv : 0 < v) (hvol : 0 < c.l.vol) :
    let V0 := pref c * ‖ff sf c v (0, 0, 0)‖
    mlambda sf c v ^ 2 * ((calcLambda v).2.2 + V0) = (calcLambda v).1 ^ 2 * (calcLambda v).2.2 ∧
    mlambda sf c v ≤ (calcLambda v).1 ∧
    Codata.wavelengthNm (Codata.potential (1000 * v) + V0) * (1 - 1.5e-7) ≤ mlambda sf c v ∧
    mlambda sf c v ≤ Codata.wavelengthNm (Codata.potential (1000 * v) + V0) := by
  intro V0
  have hV : 0 ≤ V0 := mul_nonneg (div_nonneg (by norm_num) hvol.le) (norm_nonneg _)
  obtain ⟨p1, p2, p3⟩ := pot_bound v hv
  obtain ⟨w0, w1, -, w2, -⟩ := C92_wavelength v hv
  have hψ : 0 < (calcLambda v).2.2 := lt_of_lt_of_le p3 p2
  have hm : mlambda sf c v = 1.22642584554 / Real.sqrt (V0 + (calcLambda v).2.2) := rfl
  have hs : 0 < V0 + (calcLambda v).2.2 := by linarith
  have hm0 : 0 < mlambda sf c v := by rw [hm]; exact div_pos (by norm_num) (Real.sqrt_pos.2 hs)
  have hm2 : mlambda sf c v ^ 2 * (V0 + (calcLambda v).2.2) = 1.22642584554 ^ 2 := by
    rw [hm, div_pow, Real.sq_sqrt hs.le, div_mul_cancel₀ _ hs.ne']
  obtain ⟨a, b⟩ := const_bound (Codata.potential (1000 * v) + V0) _ _ hs (by linarith) (by linarith) (by linarith) hm0 hm2
  refine ⟨by rw [add_comm, hm2, w1], ?_, a, b⟩
  have : (calcLambda v).1 = 1.22642584554 / Real.sqrt (calcLambda v).2.2 := rfl
  rw [hm, this]
  exact div_le_div_of_nonneg_left (by norm_num) (Real.sqrt_pos.2 hψ) (Real.sqrt_le_sqrt (by linarith))

/-- non-vacuity: 20 kV. -/
example : (calcLambda 20).1 ≤ Codata.wavelengthNm (Codata.potential (1000 * 20)) := (C92_codata 20 (by norm_num)).2.1

/-- The same lattice with all edges expressed in Ångström instead of nm. -/
noncomputable def inAngstrom (l : Lattice) : Lattice := ⟨10 * l.a, 10 * l.b, 10 * l.c, l.α, l.β, l.γ⟩

/-- **C93**.  Units: the scattering factors are called in Ångström units.  For a cell given in nm (Debye–Waller factor `B` in
nm²) the thermal sigma is `√(B'/8π²)` with `B'` in Å² and the scattering variable is `2π|g|` with `|g|` the length of the
reciprocal vector in Å⁻¹, for the same cell in Å. -/
theorem C93_units (sf : ScatterFactor) (l : Lattice) (h : 0 < l.dmt.det) (kV : ℝ) (s : Site) (g : Hkl) :
    factor sf l kV s g =
      sf kV s.Z (Real.sqrt (100 * s.dw / (8 * Real.pi ^ 2))) (2 * Real.pi * calcLength (inAngstrom l) (hklVec g) .r) := by
  have hd : (inAngstrom l).dmt = (100 : ℝ) • l.dmt := by
    ext i j
    fin_cases i <;> fin_cases j <;> simp [Lattice.dmt, inAngstrom] <;> ring
  have hr : (inAngstrom l).rmt = (1 / 100 : ℝ) • l.rmt := by
    unfold Lattice.rmt
    rw [hd]
    refine Matrix.inv_eq_right_inv ?_
    rw [Matrix.smul_mul, Matrix.mul_smul, smul_smul, Matrix.mul_nonsing_inv _ (Ne.isUnit h.ne')]
    norm_num
  have hl : calcLength (inAngstrom l) (hklVec g) .r = 0.1 * calcLength l (hklVec g) .r := by
    unfold calcLength
    have : calcDot (inAngstrom l) (hklVec g) (hklVec g) .r = 0.1 ^ 2 * calcDot l (hklVec g) (hklVec g) .r := by
      simp only [calcDot, hr]
      simp only [Matrix.smul_apply, smul_eq_mul, Fin.sum_univ_three]
      ring
    rw [this, Real.sqrt_mul (by norm_num), Real.sqrt_sq (by norm_num)]
  have hq : Real.sqrt (100 * s.dw / (8 * Real.pi ^ 2)) = 10 * Real.sqrt (s.dw / (8 * Real.pi ^ 2)) := by
    rw [show 100 * s.dw / (8 * Real.pi ^ 2) = 10 ^ 2 * (s.dw / (8 * Real.pi ^ 2)) by ring, Real.sqrt_mul (by norm_num),
      Real.sqrt_sq (by norm_num)]
  unfold factor
  rw [hl, hq, show 2 * Real.pi * (0.1 * calcLength l (hklVec g) .r) = 0.1 * 2 * Real.pi * calcLength l (hklVec g) .r by ring]

/-- non-vacuity of `C92_refraction` and `C93_units`: the cubic demonstration crystal. -/
example (sf : ScatterFactor) : mlambda sf demo 20 ≤ (calcLambda 20).1 ∧
    factor sf demo.l 20 ⟨28, 1, 0.005, [![0, 0, 0]]⟩ (1, 1, 0) =
      sf 20 28 (Real.sqrt (100 * 0.005 / (8 * Real.pi ^ 2))) (2 * Real.pi * calcLength (inAngstrom demo.l) (hklVec (1, 1, 0)) .r) :=
  ⟨(C92_refraction sf demo 20 (by norm_num) (Real.sqrt_pos.2 demo_det)).2.1, C93_units sf demo.l demo_det 20 _ _⟩

end Verif.Diff
