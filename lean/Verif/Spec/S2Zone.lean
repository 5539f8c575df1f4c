import Verif.Spec.Laue
/-!
Specification of directions up to the symmetry of a Laue class, independent of laue_fz_s2.py.
-/
open Quaternion
namespace Verif.Spec

/-- `q` is the image of direction `p` under an operation of the Laue class: a rotation of the class,
possibly followed by inversion. -/
def DirEquiv (id : ℕ) (p q : V) : Prop :=
  ∃ h ∈ laueRotations id, ∃ r : V, Rotates h p r ∧ (q = r ∨ q = ⟨-r.x, -r.y, -r.z⟩)

/-- Inward unit normals of the planes that bound the standard stereographic triangle (or lune, or
hemisphere) of each Laue class, International Tables setting. -/
noncomputable def wallNormals : ℕ → List V
  | 1 => [⟨0, 0, 1⟩]
  | 2 => [⟨0, 1, 0⟩, ⟨0, 0, 1⟩]
  | 3 => [⟨1, 0, 0⟩, ⟨0, 1, 0⟩, ⟨0, 0, 1⟩]
  | 4 => [⟨1, 0, 0⟩, ⟨0, 1, 0⟩, ⟨0, 0, 1⟩]
  | 5 => [⟨0, 1, 0⟩, ⟨1 / Real.sqrt 2, -(1 / Real.sqrt 2), 0⟩, ⟨0, 0, 1⟩]
  | 6 => [⟨0, -1, 0⟩, ⟨Real.sqrt 3 / 2, -(1 / 2), 0⟩, ⟨0, 0, 1⟩]
  | 7 => [⟨1, 0, 0⟩, ⟨-(1 / 2), -(Real.sqrt 3 / 2), 0⟩, ⟨0, 0, 1⟩]
  | 8 => [⟨0, 1, 0⟩, ⟨Real.sqrt 3 / 2, -(1 / 2), 0⟩, ⟨0, 0, 1⟩]
  | 9 => [⟨0, 1, 0⟩, ⟨1 / 2, -(Real.sqrt 3 / 2), 0⟩, ⟨0, 0, 1⟩]
  | 10 => [⟨1, 0, 0⟩, ⟨0, 1, 0⟩, ⟨-(1 / Real.sqrt 2), 0, 1 / Real.sqrt 2⟩,
           ⟨0, -(1 / Real.sqrt 2), 1 / Real.sqrt 2⟩]
  | 11 => [⟨0, 1, 0⟩, ⟨1 / Real.sqrt 2, -(1 / Real.sqrt 2), 0⟩, ⟨-(1 / Real.sqrt 2), 0, 1 / Real.sqrt 2⟩]
  | _ => []

/-- `p` lies at height at least `d` above every wall. -/
def Above (id : ℕ) (d : ℝ) (p : V) : Prop :=
  ∀ n ∈ wallNormals id, d ≤ n.x * p.x + n.y * p.y + n.z * p.z

/-- `p` lies strictly more than `d` above every wall: the sector shrunk by a margin. -/
def Inside (id : ℕ) (d : ℝ) (p : V) : Prop :=
  ∀ n ∈ wallNormals id, d < n.x * p.x + n.y * p.y + n.z * p.z

end Verif.Spec
