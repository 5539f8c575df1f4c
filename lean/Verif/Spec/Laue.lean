import Verif.Spec.Rotation
import Mathlib.Algebra.Group.Submonoid.Basic
import Mathlib.Analysis.SpecialFunctions.Trigonometric.Basic
import Mathlib.Analysis.SpecialFunctions.Trigonometric.Inverse
/-!
Specification of the Laue rotation groups, independent of the tables: the group of Laue class `id`
is generated by the rotation of `2π/n` about z, and, where applicable, the two-fold rotation about x
and the three-fold rotation about [111] (as unit quaternions, i.e. with both signs).
-/
open Quaternion
namespace Verif.Spec

/-- rotation by `2π/n` about the z axis -/
noncomputable def zRot (n : ℕ) : ℍ[ℝ] := ⟨Real.cos (Real.pi / n), 0, 0, Real.sin (Real.pi / n)⟩
/-- two-fold rotation about the x axis -/
noncomputable def xTwo : ℍ[ℝ] := ⟨0, 1, 0, 0⟩
/-- three-fold rotation about [111] -/
noncomputable def diag3 : ℍ[ℝ] := ⟨1/2, 1/2, 1/2, 1/2⟩

/-- Generators of the rotation group of each Laue class:
1 `-1`, 2 `2/m`, 3 `mmm`, 4 `4/m`, 5 `4/mmm`, 6 `-3`, 7 `-3m`, 8 `6/m`, 9 `6/mmm`, 10 `m-3`, 11 `m-3m`. -/
noncomputable def laueGens : ℕ → Set ℍ[ℝ]
  | 1 => {zRot 1}
  | 2 => {zRot 2}
  | 3 => {zRot 2, xTwo}
  | 4 => {zRot 4}
  | 5 => {zRot 4, xTwo}
  | 6 => {zRot 3}
  | 7 => {zRot 3, xTwo}
  | 8 => {zRot 6}
  | 9 => {zRot 6, xTwo}
  | 10 => {zRot 2, xTwo, diag3}
  | 11 => {zRot 4, diag3}
  | _ => ∅

/-- All unit quaternions (both signs) of the rotations of Laue class `id`. -/
noncomputable def laueRotations (id : ℕ) : Submonoid ℍ[ℝ] := Submonoid.closure (laueGens id)

/-- Order of the Laue point group (with inversion), International Tables. -/
def laueOrder : ℕ → ℕ
  | 1 => 2 | 2 => 4 | 3 => 8 | 4 => 8 | 5 => 16 | 6 => 6 | 7 => 12 | 8 => 12 | 9 => 24 | 10 => 24
  | 11 => 48 | _ => 0

/-- `q` and `r` are the same orientation up to a crystal rotation of Laue class `id` acting on the
right and up to sign. -/
def SymEquiv (id : ℕ) (q r : Q) : Prop := ∃ h ∈ laueRotations id, toH r = toH q * h

/-- Rotation angle in `[0, π]` of a unit quaternion. -/
noncomputable def rotAngle (h : ℍ[ℝ]) : ℝ := 2 * Real.arccos |h.re|

/-- The orientation `h` has the smallest rotation angle among its symmetric equivalents `h * g`:
no equivalent has a scalar part of larger magnitude. -/
def InZone (id : ℕ) (h : ℍ[ℝ]) : Prop := ∀ g ∈ laueRotations id, |(h * g).re| ≤ |h.re|

end Verif.Spec
