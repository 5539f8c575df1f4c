import Mathlib.AlgebraicGeometry.EllipticCurve.Affine.Point
import Mathlib.Data.ZMod.Basic
/-!
Specification: the elliptic curve `y² = x³ + A x + B` modulo a prime, with Mathlib's group law.
-/
namespace Verif.Spec

/-- The curve `y² = x³ + A x + B` over the integers modulo `q`. -/
def shortCurve (q : ℕ) (A B : ℤ) : WeierstrassCurve.Affine (ZMod q) := ⟨0, 0, 0, (A : ZMod q), (B : ZMod q)⟩

/-- The integers `X`, `Y` are coordinates, modulo `q`, of the point `P` of the group (which is then not the point at infinity). -/
def Coordinates (q : ℕ) (A B X Y : ℤ) (P : (shortCurve q A B).Point) : Prop :=
  ∃ h : (shortCurve q A B).Nonsingular (X : ZMod q) (Y : ZMod q), P = .some (X : ZMod q) (Y : ZMod q) h

end Verif.Spec
