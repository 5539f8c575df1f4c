import Mathlib.LinearAlgebra.Matrix.Notation
import Mathlib.LinearAlgebra.Matrix.Determinant.Basic
import Mathlib.Analysis.SpecialFunctions.Trigonometric.Basic
import Verif.Model.Quat
/-! Specification: rotation matrices, and the textbook axis-angle rotation. -/
namespace Verif.Spec

/-- Proper rotation matrices: orthogonal with determinant one. -/
def IsRotation (R : Matrix (Fin 3) (Fin 3) ℝ) : Prop := R * R.transpose = 1 ∧ R.det = 1

/-- The column vector of a point. -/
def col (v : V) : Fin 3 → ℝ := ![v.x, v.y, v.z]

/-- Textbook rotation of `v` by the angle `t` about the unit axis `n`
(`v cos t + (n × v) sin t + n (n·v) (1 - cos t)`). -/
noncomputable def rotateAbout (n : V) (t : ℝ) (v : V) : V :=
  let d := n.x * v.x + n.y * v.y + n.z * v.z
  ⟨v.x * Real.cos t + (n.y * v.z - n.z * v.y) * Real.sin t + n.x * d * (1 - Real.cos t),
   v.y * Real.cos t + (n.z * v.x - n.x * v.z) * Real.sin t + n.y * d * (1 - Real.cos t),
   v.z * Real.cos t + (n.x * v.y - n.y * v.x) * Real.sin t + n.z * d * (1 - Real.cos t)⟩

end Verif.Spec
