import Verif.Spec.Crystal
import Verif.Spec.Rotation
import Mathlib.Logic.Relation
import Mathlib.Analysis.Real.Sqrt
/-!
Specification: the action of the crystallographic point groups on directions, in Cartesian coordinates with `z` along
`c`, `x` along `a` and the monoclinic two-fold axis along `y`.  Generators follow International Tables A.
-/
namespace Verif.Spec.Dir

/-- inversion -/
def inv (v : V) : V := ⟨-v.x, -v.y, -v.z⟩
/-- two-fold rotation about z -/
def z2 (v : V) : V := ⟨-v.x, -v.y, v.z⟩
/-- two-fold rotation about y -/
def y2 (v : V) : V := ⟨-v.x, v.y, -v.z⟩
/-- two-fold rotation about x -/
def x2 (v : V) : V := ⟨v.x, -v.y, -v.z⟩
/-- mirror normal to x, y, z -/
def mx (v : V) : V := ⟨-v.x, v.y, v.z⟩
def my (v : V) : V := ⟨v.x, -v.y, v.z⟩
def mz (v : V) : V := ⟨v.x, v.y, -v.z⟩
/-- four-fold rotation about z -/
def z4 (v : V) : V := ⟨-v.y, v.x, v.z⟩
/-- four-fold rotoinversion about z -/
def b4 (v : V) : V := ⟨v.y, -v.x, -v.z⟩
/-- three-fold rotation about z -/
noncomputable def z3 (v : V) : V := ⟨-(v.x / 2) - Real.sqrt 3 / 2 * v.y, Real.sqrt 3 / 2 * v.x - v.y / 2, v.z⟩
/-- three-fold rotation about [111] -/
def r3 (v : V) : V := ⟨v.z, v.x, v.y⟩
/-- two-fold rotation about [110] -/
def d2 (v : V) : V := ⟨v.y, v.x, -v.z⟩
/-- mirror exchanging x and y -/
def sw (v : V) : V := ⟨v.y, v.x, v.z⟩

/-- Generators of the point group of space group `sg`; the space group decides the setting of `-42m`, `32`, `3m`,
`-3m` and `-6m2`. -/
noncomputable def gens (sg : ℕ) : List (V → V) :=
  match pgOfSpaceGroup sg with
  | .p1 => [] | .b1 => [inv]
  | .p2 => [y2] | .m => [my] | .p2om => [y2, inv]
  | .p222 => [z2, y2] | .mm2 => [z2, my] | .mmm => [z2, y2, inv]
  | .p4 => [z2, z4] | .b4 => [z2, b4] | .p4om => [z2, z4, inv] | .p422 => [z2, z4, y2] | .p4mm => [z2, z4, my]
  | .b42m => if 115 ≤ sg ∧ sg ≤ 120 then [z2, b4, my] else [z2, b4, y2]
  | .p4ommm => [z2, z4, y2, inv]
  | .p3 => [z3] | .b3 => [z3, inv]
  | .p32 => if sg ∈ [149, 151, 153] then [z3, y2] else [z3, x2]
  | .p3m => if sg ∈ [157, 159] then [z3, my] else [z3, mx]
  | .b3m => if sg ∈ [162, 163] then [z3, y2, inv] else [z3, x2, inv]
  | .p6 => [z3, z2] | .b6 => [z3, mz] | .p6om => [z3, z2, inv] | .p622 => [z3, z2, x2] | .p6mm => [z3, z2, mx]
  | .b6m2 => if sg ∈ [187, 188] then [z3, mz, mx] else [z3, mz, my]
  | .p6ommm => [z3, z2, x2, inv]
  | .p23 => [z2, y2, r3] | .mb3 => [z2, y2, r3, inv] | .p432 => [z2, y2, r3, d2] | .b43m => [z2, y2, r3, sw]
  | .mb3m => [z2, y2, r3, d2, inv]

/-- Two directions are equivalent when a product of generators carries the first to the second.  (The groups are
finite, so this is the orbit relation.) -/
def Equiv (G : List (V → V)) (u v : V) : Prop := Relation.ReflTransGen (fun a b => ∃ g ∈ G, b = g a) u v

/-- A function constant on orbits. -/
theorem Equiv.invariant {G : List (V → V)} {u v : V} (h : Equiv G u v) (f : V → ℝ) (hf : ∀ g ∈ G, ∀ a, f (g a) = f a) :
    f v = f u := by
  induction h with
  | refl => rfl
  | tail _ hs ih => obtain ⟨g, hg, rfl⟩ := hs; rw [hf g hg, ih]

end Verif.Spec.Dir
