import Mathlib.Data.Fintype.Basic
/-!
Specification: the 32 crystallographic point groups, their Laue classes (numbered 1-11 as in EMsoft and
ebsdtorch), and the point group of each of the 230 space groups, transcribed from International Tables A.
-/
namespace Verif.Spec

/-- The 32 crystallographic point groups. `b` in a name stands for a bar: `b1` is `-1`. -/
inductive PG
  | p1 | b1
  | p2 | m | p2om
  | p222 | mm2 | mmm
  | p4 | b4 | p4om | p422 | p4mm | b42m | p4ommm
  | p3 | b3 | p32 | p3m | b3m
  | p6 | b6 | p6om | p622 | p6mm | b6m2 | p6ommm
  | p23 | mb3 | p432 | b43m | mb3m
  deriving DecidableEq, Repr

namespace PG

/-- Hermann-Mauguin symbol in the repository's spelling (the bar is written after the digit). -/
def symbol : PG → String
  | p1 => "1" | b1 => "1-"
  | p2 => "2" | m => "m" | p2om => "2/m"
  | p222 => "222" | mm2 => "mm2" | mmm => "mmm"
  | p4 => "4" | b4 => "4-" | p4om => "4/m" | p422 => "422" | p4mm => "4mm" | b42m => "4-2m" | p4ommm => "4/mmm"
  | p3 => "3" | b3 => "3-" | p32 => "32" | p3m => "3m" | b3m => "3-m"
  | p6 => "6" | b6 => "6-" | p6om => "6/m" | p622 => "622" | p6mm => "6mm" | b6m2 => "6-m2" | p6ommm => "6/mmm"
  | p23 => "23" | mb3 => "m3-" | p432 => "432" | b43m => "4-3m" | mb3m => "m3-m"

/-- Adding the inversion: the centrosymmetric point group of the Laue class. -/
def centro : PG → PG
  | p1 | b1 => b1
  | p2 | m | p2om => p2om
  | p222 | mm2 | mmm => mmm
  | p4 | b4 | p4om => p4om
  | p422 | p4mm | b42m | p4ommm => p4ommm
  | p3 | b3 => b3
  | p32 | p3m | b3m => b3m
  | p6 | b6 | p6om => p6om
  | p622 | p6mm | b6m2 | p6ommm => p6ommm
  | p23 | mb3 => mb3
  | p432 | b43m | mb3m => mb3m

/-- The number of a centrosymmetric point group in the list of the eleven Laue classes. -/
def laueNumber : PG → ℕ
  | b1 => 1 | p2om => 2 | mmm => 3 | p4om => 4 | p4ommm => 5 | b3 => 6 | b3m => 7 | p6om => 8
  | p6ommm => 9 | mb3 => 10 | mb3m => 11 | _ => 0

/-- The Laue class of a point group, 1-11. -/
def laue (p : PG) : ℕ := p.centro.laueNumber

/-- The number (1-7) of the crystal system: triclinic, monoclinic, orthorhombic, tetragonal, trigonal,
hexagonal, cubic (the numbering of sg_xt_beg in crystallography/groups.py is by first space group:
1, 3, 16, 75, 143, 168, 195). -/
def system : PG → ℕ
  | p1 | b1 => 1
  | p2 | m | p2om => 2
  | p222 | mm2 | mmm => 3
  | p4 | b4 | p4om | p422 | p4mm | b42m | p4ommm => 4
  | p3 | b3 | p32 | p3m | b3m => 5
  | p6 | b6 | p6om | p622 | p6mm | b6m2 | p6ommm => 6
  | p23 | mb3 | p432 | b43m | mb3m => 7

/-- All 32, in the order of International Tables. -/
def all : List PG := [p1, b1, p2, m, p2om, p222, mm2, mmm, p4, b4, p4om, p422, p4mm, b42m, p4ommm,
  p3, b3, p32, p3m, b3m, p6, b6, p6om, p622, p6mm, b6m2, p6ommm, p23, mb3, p432, b43m, mb3m]

end PG

/-- First space group number of each point group, in the order of `PG.all` (International Tables A). -/
def pgFirst : List ℕ := [1, 2, 3, 6, 10, 16, 25, 47, 75, 81, 83, 89, 99, 111, 123, 143, 147, 149, 156, 162,
  168, 174, 175, 177, 183, 187, 191, 195, 200, 207, 215, 221]

/-- The point group of space group `n` (1-230): the last point group whose first space group is at most `n`. -/
def pgOfSpaceGroup (n : ℕ) : PG :=
  ((PG.all.zip pgFirst).reverse.find? fun p => p.2 ≤ n).elim PG.p1 Prod.fst

end Verif.Spec
