import Verif.Spec.SphericalHarmonic
import Verif.Spec.Wigner
import Mathlib.LinearAlgebra.Matrix.Notation
import Mathlib.MeasureTheory.Integral.IntervalIntegral.Basic
/-!
Rotating functions on the sphere; the inner product over all rotations (spherical cross correlation).
-/
namespace Verif.Spec

/-- The direction with colatitude `θ` and azimuth `φ`. -/
noncomputable def dir (θ φ : ℝ) : Fin 3 → ℝ := ![Real.sin θ * Real.cos φ, Real.sin θ * Real.sin φ, Real.cos θ]

/-- Rotation about `z`. -/
noncomputable def rotZ (a : ℝ) : Matrix (Fin 3) (Fin 3) ℝ := !![Real.cos a, -Real.sin a, 0; Real.sin a, Real.cos a, 0; 0, 0, 1]

/-- Rotation about `y`. -/
noncomputable def rotY (b : ℝ) : Matrix (Fin 3) (Fin 3) ℝ := !![Real.cos b, 0, Real.sin b; 0, 1, 0; -Real.sin b, 0, Real.cos b]

/-- Wigner's `D^l_mn(α, β, γ) = e^{-imα} d^l_mn(β) e^{-inγ}`. -/
noncomputable def wignerRot (l : ℕ) (m n : ℤ) (A B G : ℝ) : ℂ :=
  Complex.exp (-(m * A) * Complex.I) * (wignerD l m n B : ℂ) * Complex.exp (-(n * G) * Complex.I)

/-- `h` are the coefficients of the band-limited function `g` turned by `R`: `h(R x) = g(x)` for all directions `x`. -/
def IsTurned (L : ℕ) (R : Matrix (Fin 3) (Fin 3) ℝ) (g h : ℕ → ℤ → ℂ) : Prop :=
  ∀ θ φ θ' φ' : ℝ, dir θ φ = R.mulVec (dir θ' φ') → sphField L h θ φ = sphField L g θ' φ'

/-- `∫ f conj(h) dΩ` over the sphere, `dΩ = sin θ dθ dφ`. -/
noncomputable def sphIntegral (f h : ℝ → ℝ → ℂ) : ℂ :=
  ∫ φ in (0 : ℝ)..(2 * Real.pi), ∫ θ in (0 : ℝ)..Real.pi, f θ φ * (starRingEnd ℂ) (h θ φ) * Real.sin θ

/-- Inner product of two band-limited functions (`Verif.Sht.Rot.sphIntegral_eq` shows that it is the integral above), from their coefficients in the orthonormal basis. -/
noncomputable def sphInner (L : ℕ) (f h : ℕ → ℤ → ℂ) : ℂ :=
  ∑ l ∈ Finset.range L, ∑ m ∈ Finset.Icc (-(l : ℤ)) l, f l m * (starRingEnd ℂ) (h l m)

end Verif.Spec
