import Verif.Spec.SpaceGroup
import Mathlib.Algebra.Order.Floor.Ring
import Mathlib.Algebra.BigOperators.Fin
import Mathlib.Data.Real.Archimedean
/-!
Specification: crystallographic orbits of a point modulo lattice translations.
-/
namespace Verif.Spec

/-- Two points of the crystal that differ by a lattice translation. -/
def Congr (p q : Frac) : Prop := ∃ n : Fin 3 → ℤ, ∀ i, p i = q i + n i

/-- The representative of a point in the half-open unit cell. -/
noncomputable def inCell (p : Frac) : Frac := fun i => Int.fract (p i)

/-- Sum of the absolute coordinate differences. -/
noncomputable def dist1 (p q : Frac) : ℝ := ∑ i, |p i - q i|

/-- No coordinate of an image of `p` is within `1e-6` of an integer without being one. -/
def CoordsClear (ops : List SG.Op) (p : Frac) : Prop :=
  ∀ A ∈ ops, ∀ i, ∀ n : ℤ, seitz A p i = n ∨ 1e-6 ≤ |seitz A p i - n|

/-- Two images of `p` either coincide modulo the lattice or all their translates are at least `1e-4` apart. -/
def WellSeparated (ops : List SG.Op) (p : Frac) : Prop :=
  ∀ A ∈ ops, ∀ B ∈ ops, Congr (seitz A p) (seitz B p) ∨
    ∀ n : Fin 3 → ℤ, 1e-4 ≤ dist1 (seitz A p) (fun i => seitz B p i + n i)

end Verif.Spec
