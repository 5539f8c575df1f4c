import Verif.Model.Groups
import Verif.Spec.Crystal
import Mathlib.Data.Real.Basic
import Mathlib.Data.Fin.VecNotation
/-!
Specification: space-group operators as maps of fractional coordinates, lattice translations, centring vectors and
the kinds of symmetry operations of the 32 point groups (International Tables A).
-/
namespace Verif.Spec

/-- Fractional coordinates. -/
abbrev Frac := Fin 3 → ℝ

/-- The map `p ↦ R p + t` of the top three rows of a Seitz matrix (translations are stored in 24ths). -/
noncomputable def seitz (o : SG.Op) (p : Frac) : Frac :=
  ![o.r.a00 * p 0 + o.r.a01 * p 1 + o.r.a02 * p 2 + o.x / 24,
    o.r.a10 * p 0 + o.r.a11 * p 1 + o.r.a12 * p 2 + o.y / 24,
    o.r.a20 * p 0 + o.r.a21 * p 1 + o.r.a22 * p 2 + o.z / 24]

/-- Two maps of fractional coordinates differ by a lattice translation. -/
def EqModLattice (f g : Frac → Frac) : Prop := ∃ n : Fin 3 → ℤ, ∀ p i, f p i = g p i + n i

/-- The operator is a pure translation. -/
def IsTranslation (o : SG.Op) : Prop := o.r = ⟨1, 0, 0, 0, 1, 0, 0, 0, 1⟩

/-- Centring vectors of the lattice letter in 24ths (International Tables; `R` is the obverse hexagonal setting,
whose vectors are `(2/3,1/3,1/3)` and `(1/3,2/3,2/3)`). -/
def centring : Char → List (ℤ × ℤ × ℤ)
  | 'P' => [(0, 0, 0)]
  | 'A' => [(0, 0, 0), (0, 12, 12)]
  | 'B' => [(0, 0, 0), (12, 0, 12)]
  | 'C' => [(0, 0, 0), (12, 12, 0)]
  | 'I' => [(0, 0, 0), (12, 12, 12)]
  | 'F' => [(0, 0, 0), (0, 12, 12), (12, 0, 12), (12, 12, 0)]
  | 'R' => [(0, 0, 0), (16, 8, 8), (8, 16, 16)]
  | _ => []

/-- The ten kinds of crystallographic operations, by determinant and trace of the rotation block. -/
inductive Kind | r1 | r2 | r3 | r4 | r6 | inv | m | b3 | b4 | b6
  deriving DecidableEq, Repr

/-- All kinds. -/
def Kind.list : List Kind := [.r1, .r2, .r3, .r4, .r6, .inv, .m, .b3, .b4, .b6]

/-- Determinant. -/
def det3 (R : SG.Rot) : ℤ :=
  R.a00 * (R.a11 * R.a22 - R.a12 * R.a21) - R.a01 * (R.a10 * R.a22 - R.a12 * R.a20)
    + R.a02 * (R.a10 * R.a21 - R.a11 * R.a20)

/-- Trace. -/
def trace3 (R : SG.Rot) : ℤ := R.a00 + R.a11 + R.a22

/-- Determinant and trace of the operations of a kind. -/
def Kind.detTrace : Kind → ℤ × ℤ
  | .r1 => (1, 3) | .r2 => (1, -1) | .r3 => (1, 0) | .r4 => (1, 1) | .r6 => (1, 2)
  | .inv => (-1, -3) | .m => (-1, 1) | .b3 => (-1, 0) | .b4 => (-1, -1) | .b6 => (-1, -2)

/-- Number of operations of each kind (in the order of `Kind.list`) in each point group. -/
def PG.counts : PG → List ℕ
  | .p1 => [1, 0, 0, 0, 0, 0, 0, 0, 0, 0]
  | .b1 => [1, 0, 0, 0, 0, 1, 0, 0, 0, 0]
  | .p2 => [1, 1, 0, 0, 0, 0, 0, 0, 0, 0]
  | .m => [1, 0, 0, 0, 0, 0, 1, 0, 0, 0]
  | .p2om => [1, 1, 0, 0, 0, 1, 1, 0, 0, 0]
  | .p222 => [1, 3, 0, 0, 0, 0, 0, 0, 0, 0]
  | .mm2 => [1, 1, 0, 0, 0, 0, 2, 0, 0, 0]
  | .mmm => [1, 3, 0, 0, 0, 1, 3, 0, 0, 0]
  | .p4 => [1, 1, 0, 2, 0, 0, 0, 0, 0, 0]
  | .b4 => [1, 1, 0, 0, 0, 0, 0, 0, 2, 0]
  | .p4om => [1, 1, 0, 2, 0, 1, 1, 0, 2, 0]
  | .p422 => [1, 5, 0, 2, 0, 0, 0, 0, 0, 0]
  | .p4mm => [1, 1, 0, 2, 0, 0, 4, 0, 0, 0]
  | .b42m => [1, 3, 0, 0, 0, 0, 2, 0, 2, 0]
  | .p4ommm => [1, 5, 0, 2, 0, 1, 5, 0, 2, 0]
  | .p3 => [1, 0, 2, 0, 0, 0, 0, 0, 0, 0]
  | .b3 => [1, 0, 2, 0, 0, 1, 0, 2, 0, 0]
  | .p32 => [1, 3, 2, 0, 0, 0, 0, 0, 0, 0]
  | .p3m => [1, 0, 2, 0, 0, 0, 3, 0, 0, 0]
  | .b3m => [1, 3, 2, 0, 0, 1, 3, 2, 0, 0]
  | .p6 => [1, 1, 2, 0, 2, 0, 0, 0, 0, 0]
  | .b6 => [1, 0, 2, 0, 0, 0, 1, 0, 0, 2]
  | .p6om => [1, 1, 2, 0, 2, 1, 1, 2, 0, 2]
  | .p622 => [1, 7, 2, 0, 2, 0, 0, 0, 0, 0]
  | .p6mm => [1, 1, 2, 0, 2, 0, 6, 0, 0, 0]
  | .b6m2 => [1, 3, 2, 0, 0, 0, 4, 0, 0, 2]
  | .p6ommm => [1, 7, 2, 0, 2, 1, 7, 2, 0, 2]
  | .p23 => [1, 3, 8, 0, 0, 0, 0, 0, 0, 0]
  | .mb3 => [1, 3, 8, 0, 0, 1, 3, 8, 0, 0]
  | .p432 => [1, 9, 8, 6, 0, 0, 0, 0, 0, 0]
  | .b43m => [1, 3, 8, 0, 0, 0, 6, 0, 6, 0]
  | .mb3m => [1, 9, 8, 6, 0, 1, 9, 8, 6, 0]

end Verif.Spec
