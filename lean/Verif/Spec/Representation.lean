import Verif.Spec.Rotation
import Verif.Spec.Matrix
import Verif.Model.Orient
/-!
Specification: which rotation, as a map of vectors, each representation names.  Only the data types of the model are used, none of
its conversions.
-/
namespace Verif.Spec
open Verif Real

/-- unit quaternion `q`: `v ↦ q v q*` -/
def QuNames (q : Q) (f : V → V) : Prop := IsUnit4 q ∧ ∀ v, Rotates (toH q) v (f v)

/-- unit axis and angle: the textbook rotation -/
def AxNames (a : AX) (f : V → V) : Prop := IsUnit3 a.n ∧ ∀ v, f v = rotateAbout a.n a.ang v

/-- rotation matrix: matrix times column vector -/
def OmNames (R : M3) (f : V → V) : Prop := IsRotation R ∧ ∀ v, R.mulVec (col v) = col (f v)

/-- Rodrigues-Frank vector: unit axis and `tan (w / 2)`; the entry `inf` stands for a half turn -/
def RoNames (r : RO) (f : V → V) : Prop :=
  IsUnit3 r.n ∧ ∃ w, ((r.mag = .inf ∧ w = π) ∨ (r.mag = .fin (tan (w / 2)) ∧ |w| < π)) ∧ ∀ v, f v = rotateAbout r.n w v

/-- Bunge angles (passive z-x-z convention): about `z` by `-φ1`, then about `x` by `-Φ`, then about `z` by `-φ2` -/
def BuNames (b : BU) (f : V → V) : Prop :=
  ∀ v, f v = rotateAbout ⟨0, 0, 1⟩ (-b.p2) (rotateAbout ⟨1, 0, 0⟩ (-b.P) (rotateAbout ⟨0, 0, 1⟩ (-b.p1) v))

/-- homochoric vector: `(3/4 (w - sin w))^(1/3)` times the unit axis, `0 ≤ w ≤ π` -/
def HoNames (h : V) (f : V → V) : Prop :=
  ∃ (n : V) (w : ℝ), IsUnit3 n ∧ 0 ≤ w ∧ w ≤ π ∧ (∀ v, f v = rotateAbout n w v) ∧
    h = ⟨(3 / 4 * (w - sin w)) ^ ((1 : ℝ) / 3) * n.x, (3 / 4 * (w - sin w)) ^ ((1 : ℝ) / 3) * n.y,
      (3 / 4 * (w - sin w)) ^ ((1 : ℝ) / 3) * n.z⟩

/-- `f` and `g` are rotations about one axis, by angles that differ by at most `δ` -/
def Near (δ : ℝ) (f g : V → V) : Prop :=
  ∃ (n : V) (w w' : ℝ), IsUnit3 n ∧ |w' - w| ≤ δ ∧ (∀ v, f v = rotateAbout n w v) ∧ ∀ v, g v = rotateAbout n w' v

/-- every entry of `R` is within `ε` of that of the matrix of `f` -/
def OmNear (ε : ℝ) (R : M3) (f : V → V) : Prop := ∃ S, OmNames S f ∧ ∀ i j, |R i j - S i j| ≤ ε

end Verif.Spec
