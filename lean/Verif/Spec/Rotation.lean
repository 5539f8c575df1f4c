import Mathlib.Algebra.Quaternion
import Mathlib.Data.Real.Basic
import Mathlib.Data.Matrix.Mul
import Mathlib.LinearAlgebra.Matrix.Determinant.Basic
import Verif.Model.Quat
/-!
Specification side of the quaternion properties: Mathlib's Hamilton quaternions.
Nothing here mentions the product, conjugation or rotation routines of the model.
-/
open Quaternion
namespace Verif.Spec

/-- The Hamilton quaternion with the four components of `q`. -/
def toH (q : Q) : ℍ[ℝ] := ⟨q.w, q.x, q.y, q.z⟩

/-- The pure (imaginary) Hamilton quaternion of a vector. -/
def vecH (v : V) : ℍ[ℝ] := ⟨0, v.x, v.y, v.z⟩

/-- Unit quaternions. -/
def IsUnit4 (q : Q) : Prop := q.w ^ 2 + q.x ^ 2 + q.y ^ 2 + q.z ^ 2 = 1

/-- Unit vectors. -/
def IsUnit3 (v : V) : Prop := v.x ^ 2 + v.y ^ 2 + v.z ^ 2 = 1

/-- `r` is the image of `v` under the rotation `v ↦ h v h*` of the Hamilton quaternion `h`. -/
def Rotates (h : ℍ[ℝ]) (v r : V) : Prop := h * vecH v * star h = vecH r

/-- `a` and `b` are equal up to sign. -/
def SameUpToSign (a b : ℍ[ℝ]) : Prop := a = b ∨ a = -b

end Verif.Spec
