import Mathlib.Data.Int.Notation
import Mathlib.Data.List.Basic
/-!
Model of /repo/ebsdtorch/crystallography/groups.py: tables, generator strings and their closure.
The tables are transcribed mechanically (tools/gen_groups.py).
Simplification: translations are integers counting 24ths of a cell edge (every entry of `trans_map` is a
multiple of 1/24), so the float tolerances `eps = 5e-4` are exact comparisons of integers.
-/
namespace Verif.SG

/-- groups.py:29-36 `sg_two_settings`. -/
def twoSettings : List ℕ := [
  48, 50, 59, 68, 70, 85, 86, 88, 125, 126, 129, 130,
  133, 134, 137, 138, 141, 142, 201, 203, 222, 224, 227, 228]

/-- groups.py:48-109 `sg_names`. -/
def names : List String := [
  " P  1      ", " P -1      ", " P 2       ", " P 21      ",
  " C 2       ", " P m       ", " P c       ", " C m       ",
  " C c       ", " P 2/m     ", " P 21/m    ", " C 2/m     ",
  " P 2/c     ", " P 21/c    ", " C 2/c     ", " P 2 2 2   ",
  " P 2 2 21  ", " P 21 21 2 ", " P 21 21 21", " C 2 2 21  ",
  " C 2 2 2   ", " F 2 2 2   ", " I 2 2 2   ", " I 21 21 21",
  " P m m 2   ", " P m c 21  ", " P c c 2   ", " P m a 2   ",
  " P c a 21  ", " P n c 2   ", " P m n 21  ", " P b a 2   ",
  " P n a 21  ", " P n n 2   ", " C m m 2   ", " C m c 21  ",
  " C c c 2   ", " A m m 2   ", " A b m 2   ", " A m a 2   ",
  " A b a 2   ", " F m m 2   ", " F d d 2   ", " I m m 2   ",
  " I b a 2   ", " I m a 2   ", " P m m m   ", " P n n n   ",
  " P c c m   ", " P b a n   ", " P m m a   ", " P n n a   ",
  " P m n a   ", " P c c a   ", " P b a m   ", " P c c n   ",
  " P b c m   ", " P n n m   ", " P m m n   ", " P b c n   ",
  " P b c a   ", " P n m a   ", " C m c m   ", " C m c a   ",
  " C m m m   ", " C c c m   ", " C m m a   ", " C c c a   ",
  " F m m m   ", " F d d d   ", " I m m m   ", " I b a m   ",
  " I b c a   ", " I m m a   ", " P 4       ", " P 41      ",
  " P 42      ", " P 43      ", " I 4       ", " I 41      ",
  " P -4      ", " I -4      ", " P 4/m     ", " P 42/m    ",
  " P 4/n     ", " P 42/n    ", " I 4/m     ", " I 41/a    ",
  " P 4 2 2   ", " P 4 21 2  ", " P 41 2 2  ", " P 41 21 2 ",
  " P 42 2 2  ", " P 42 21 2 ", " P 43 2 2  ", " P 43 21 2 ",
  " I 4 2 2   ", " I 41 2 2  ", " P 4 m m   ", " P 4 b m   ",
  " P 42 c m  ", " P 42 n m  ", " P 4 c c   ", " P 4 n c   ",
  " P 42 m c  ", " P 42 b c  ", " I 4 m m   ", " I 4 c m   ",
  " I 41 m d  ", " I 41 c d  ", " P -4 2 m  ", " P -4 2 c  ",
  " P -4 21 m ", " P -4 21 c ", " P -4 m 2  ", " P -4 c 2  ",
  " P -4 b 2  ", " P -4 n 2  ", " I -4 m 2  ", " I -4 c 2  ",
  " I -4 2 m  ", " I -4 2 d  ", " P 4/m m m ", " P 4/m c c ",
  " P 4/n b m ", " P 4/n n c ", " P 4/m b m ", " P 4/m n c ",
  " P 4/n m m ", " P 4/n c c ", " P 42/m m c", " P 42/m c m",
  " P 42/n b c", " P 42/n n m", " P 42/m b c", " P 42/m n m",
  " P 42/n m c", " P 42/n c m", " I 4/m m m ", " I 4/m c m ",
  " I 41/a m d", " I 41/a c d", " P 3       ", " P 31      ",
  " P 32      ", " R 3       ", " P -3      ", " R -3      ",
  " P 3 1 2   ", " P 3 2 1   ", " P 31 1 2  ", " P 31 2 1  ",
  " P 32 1 2  ", " P 32 2 1  ", " R 3 2     ", " P 3 m 1   ",
  " P 3 1 m   ", " P 3 c 1   ", " P 3 1 c   ", " R 3 m     ",
  " R 3 c     ", " P -3 1 m  ", " P -3 1 c  ", " P -3 m 1  ",
  " P -3 c 1  ", " R -3 m    ", " R -3 c    ", " P 6       ",
  " P 61      ", " P 65      ", " P 62      ", " P 64      ",
  " P 63      ", " P -6      ", " P 6/m     ", " P 63/m    ",
  " P 6 2 2   ", " P 61 2 2  ", " P 65 2 2  ", " P 62 2 2  ",
  " P 64 2 2  ", " P 63 2 2  ", " P 6 m m   ", " P 6 c c   ",
  " P 63 c m  ", " P 63 m c  ", " P -6 m 2  ", " P -6 c 2  ",
  " P -6 2 m  ", " P -6 2 c  ", " P 6/m m m ", " P 6/m c c ",
  " P 63/m c m", " P 63/m m c", " P 2 3     ", " F 2 3     ",
  " I 2 3     ", " P 21 3    ", " I 21 3    ", " P m 3     ",
  " P n 3     ", " F m 3     ", " F d 3     ", " I m 3     ",
  " P a 3     ", " I a 3     ", " P 4 3 2   ", " P 42 3 2  ",
  " F 4 3 2   ", " F 41 3 2  ", " I 4 3 2   ", " P 43 3 2  ",
  " P 41 3 2  ", " I 41 3 2  ", " P -4 3 m  ", " F -4 3 m  ",
  " I -4 3 m  ", " P -4 3 n  ", " F -4 3 c  ", " I -4 3 d  ",
  " P m 3 m   ", " P n 3 n   ", " P m 3 n   ", " P n 3 m   ",
  " F m 3 m   ", " F m 3 c   ", " F d 3 m   ", " F d 3 c   ",
  " I m 3 m   ", " I a 3 d   ", " R 3   |146", " R -3  |148",
  " R 3 2 |155", " R 3 m |160", " R 3 c |161", " R -3 m|166",
  " R -3 c|167"]

/-- groups.py:112-192 `sg_gen_strings`. -/
def genStrings : List String := [
  "000                                     ", "100                                     ",
  "01cOOO0                                 ", "01cODO0                                 ",
  "02aDDOcOOO0                             ", "01jOOO0                                 ",
  "01jOOD0                                 ", "02aDDOjOOO0                             ",
  "02aDDOjOOD0                             ", "11cOOO0                                 ",
  "11cODO0                                 ", "12aDDOcOOO0                             ",
  "11cOOD0                                 ", "11cODD0                                 ",
  "12aDDOcOOD0                             ", "02bOOOcOOO0                             ",
  "02bOODcOOD0                             ", "02bOOOcDDO0                             ",
  "02bDODcODD0                             ", "03aDDObOODcOOD0                         ",
  "03aDDObOOOcOOO0                         ", "04aODDaDODbOOOcOOO0                     ",
  "03aDDDbOOOcOOO0                         ", "03aDDDbDODcODD0                         ",
  "02bOOOjOOO0                             ", "02bOODjOOD0                             ",
  "02bOOOjOOD0                             ", "02bOOOjDOO0                             ",
  "02bOODjDOO0                             ", "02bOOOjODD0                             ",
  "02bDODjDOD0                             ", "02bOOOjDDO0                             ",
  "02bOODjDDO0                             ", "02bOOOjDDD0                             ",
  "03aDDObOOOjOOO0                         ", "03aDDObOODjOOD0                         ",
  "03aDDObOOOjOOD0                         ", "03aODDbOOOjOOO0                         ",
  "03aODDbOOOjODO0                         ", "03aODDbOOOjDOO0                         ",
  "03aODDbOOOjDDO0                         ", "04aODDaDODbOOOjOOO0                     ",
  "04aODDaDODbOOOjBBB0                     ", "03aDDDbOOOjOOO0                         ",
  "03aDDDbOOOjDDO0                         ", "03aDDDbOOOjDOO0                         ",
  "12bOOOcOOO0                             ", "03bOOOcOOOhDDD1BBB                      ",
  "12bOOOcOOD0                             ", "03bOOOcOOOhDDO1BBO                      ",
  "12bDOOcOOO0                             ", "12bDOOcDDD0                             ",
  "12bDODcDOD0                             ", "12bDOOcOOD0                             ",
  "12bOOOcDDO0                             ", "12bDDOcODD0                             ",
  "12bOODcODD0                             ", "12bOOOcDDD0                             ",
  "03bOOOcDDOhDDO1BBO                      ", "12bDDDcOOD0                             ",
  "12bDODcODD0                             ", "12bDODcODO0                             ",
  "13aDDObOODcOOD0                         ", "13aDDObODDcODD0                         ",
  "13aDDObOOOcOOO0                         ", "13aDDObOOOcOOD0                         ",
  "13aDDObODOcODO0                         ", "04aDDObDDOcOOOhODD1OBB                  ",
  "14aODDaDODbOOOcOOO0                     ", "05aODDaDODbOOOcOOOhBBB1ZZZ              ",
  "13aDDDbOOOcOOO0                         ", "13aDDDbOOOcDDO0                         ",
  "13aDDDbDODcODD0                         ", "13aDDDbODOcODO0                         ",
  "02bOOOgOOO0                             ", "02bOODgOOB0                             ",
  "02bOOOgOOD0                             ", "02bOODgOOF0                             ",
  "03aDDDbOOOgOOO0                         ", "03aDDDbDDDgODB0                         ",
  "02bOOOmOOO0                             ", "03aDDDbOOOmOOO0                         ",
  "12bOOOgOOO0                             ", "12bOOOgOOD0                             ",
  "03bOOOgDDOhDDO1YBO                      ", "03bOOOgDDDhDDD1YYY                      ",
  "13aDDDbOOOgOOO0                         ", "04aDDDbDDDgODBhODB1OYZ                  ",
  "03bOOOgOOOcOOO0                         ", "03bOOOgDDOcDDO0                         ",
  "03bOODgOOBcOOO0                         ", "03bOODgDDBcDDB0                         ",
  "03bOOOgOODcOOO0                         ", "03bOOOgDDDcDDD0                         ",
  "03bOODgOOFcOOO0                         ", "03bOODgDDFcDDF0                         ",
  "04aDDDbOOOgOOOcOOO0                     ", "04aDDDbDDDgODBcDOF0                     ",
  "03bOOOgOOOjOOO0                         ", "03bOOOgOOOjDDO0                         ",
  "03bOOOgOODjOOD0                         ", "03bOOOgDDDjDDD0                         ",
  "03bOOOgOOOjOOD0                         ", "03bOOOgOOOjDDD0                         ",
  "03bOOOgOODjOOO0                         ", "03bOOOgOODjDDO0                         ",
  "04aDDDbOOOgOOOjOOO0                     ", "04aDDDbOOOgOOOjOOD0                     ",
  "04aDDDbDDDgODBjOOO0                     ", "04aDDDbDDDgODBjOOD0                     ",
  "03bOOOmOOOcOOO0                         ", "03bOOOmOOOcOOD0                         ",
  "03bOOOmOOOcDDO0                         ", "03bOOOmOOOcDDD0                         ",
  "03bOOOmOOOjOOO0                         ", "03bOOOmOOOjOOD0                         ",
  "03bOOOmOOOjDDO0                         ", "03bOOOmOOOjDDD0                         ",
  "04aDDDbOOOmOOOjOOO0                     ", "04aDDDbOOOmOOOjOOD0                     ",
  "04aDDDbOOOmOOOcOOO0                     ", "04aDDDbOOOmOOOcDOF0                     ",
  "13bOOOgOOOcOOO0                         ", "13bOOOgOOOcOOD0                         ",
  "04bOOOgOOOcOOOhDDO1YYO                  ", "04bOOOgOOOcOOOhDDD1YYY                  ",
  "13bOOOgOOOcDDO0                         ", "13bOOOgOOOcDDD0                         ",
  "04bOOOgDDOcDDOhDDO1YBO                  ", "04bOOOgDDOcDDDhDDO1YBO                  ",
  "13bOOOgOODcOOO0                         ", "13bOOOgOODcOOD0                         ",
  "04bOOOgDDDcOODhDDD1YBY                  ", "04bOOOgDDDcOOOhDDD1YBY                  ",
  "13bOOOgOODcDDO0                         ", "13bOOOgDDDcDDD0                         ",
  "04bOOOgDDDcDDDhDDD1YBY                  ", "04bOOOgDDDcDDOhDDD1YBY                  ",
  "14aDDDbOOOgOOOcOOO0                     ", "14aDDDbOOOgOOOcOOD0                     ",
  "05aDDDbDDDgODBcDOFhODB1OBZ              ", "05aDDDbDDDgODBcDOBhODB1OBZ              ",
  "01nOOO0                                 ", "01nOOC0                                 ",
  "01nOOE0                                 ", "02aECCnOOO0                             ",
  "11nOOO0                                 ", "12aECCnOOO0                             ",
  "02nOOOfOOO0                             ", "02nOOOeOOO0                             ",
  "02nOOCfOOE0                             ", "02nOOCeOOO0                             ",
  "02nOOEfOOC0                             ", "02nOOEeOOO0                             ",
  "03aECCnOOOeOOO0                         ", "02nOOOkOOO0                             ",
  "02nOOOlOOO0                             ", "02nOOOkOOD0                             ",
  "02nOOOlOOD0                             ", "03aECCnOOOkOOO0                         ",
  "03aECCnOOOkOOD0                         ", "12nOOOfOOO0                             ",
  "12nOOOfOOD0                             ", "12nOOOeOOO0                             ",
  "12nOOOeOOD0                             ", "13aECCnOOOeOOO0                         ",
  "13aECCnOOOeOOD0                         ", "02nOOObOOO0                             ",
  "02nOOCbOOD0                             ", "02nOOEbOOD0                             ",
  "02nOOEbOOO0                             ", "02nOOCbOOO0                             ",
  "02nOOObOOD0                             ", "02nOOOiOOO0                             ",
  "12nOOObOOO0                             ", "12nOOObOOD0                             ",
  "03nOOObOOOeOOO0                         ", "03nOOCbOODeOOC0                         ",
  "03nOOEbOODeOOE0                         ", "03nOOEbOOOeOOE0                         ",
  "03nOOCbOOOeOOC0                         ", "03nOOObOODeOOO0                         ",
  "03nOOObOOOkOOO0                         ", "03nOOObOOOkOOD0                         ",
  "03nOOObOODkOOD0                         ", "03nOOObOODkOOO0                         ",
  "03nOOOiOOOkOOO0                         ", "03nOOOiOODkOOD0                         ",
  "03nOOOiOOOeOOO0                         ", "03nOOOiOODeOOO0                         ",
  "13nOOObOOOeOOO0                         ", "13nOOObOOOeOOD0                         ",
  "13nOOObOODeOOD0                         ", "13nOOObOODeOOO0                         ",
  "03bOOOcOOOdOOO0                         ", "05aODDaDODbOOOcOOOdOOO0                 ",
  "04aDDDbOOOcOOOdOOO0                     ", "03bDODcODDdOOO0                         ",
  "04aDDDbDODcODDdOOO0                     ", "13bOOOcOOOdOOO0                         ",
  "04bOOOcOOOdOOOhDDD1YYY                  ", "15aODDaDODbOOOcOOOdOOO0                 ",
  "06aODDaDODbOOOcOOOdOOOhBBB1ZZZ          ", "14aDDDbOOOcOOOdOOO0                     ",
  "13bDODcODDdOOO0                         ", "14aDDDbDODcODDdOOO0                     ",
  "04bOOOcOOOdOOOeOOO0                     ", "04bOOOcOOOdOOOeDDD0                     ",
  "06aODDaDODbOOOcOOOdOOOeOOO0             ", "06aODDaDODbODDcDDOdOOOeFBF0             ",
  "05aDDDbOOOcOOOdOOOeOOO0                 ", "04bDODcODDdOOOeBFF0                     ",
  "04bDODcODDdOOOeFBB0                     ", "05aDDDbDODcODDdOOOeFBB0                 ",
  "04bOOOcOOOdOOOlOOO0                     ", "06aODDaDODbOOOcOOOdOOOlOOO0             ",
  "05aDDDbOOOcOOOdOOOlOOO0                 ", "04bOOOcOOOdOOOlDDD0                     ",
  "06aODDaDODbOOOcOOOdOOOlDDD0             ", "05aDDDbDODcODDdOOOlBBB0                 ",
  "14bOOOcOOOdOOOeOOO0                     ", "05bOOOcOOOdOOOeOOOhDDD1YYY              ",
  "14bOOOcOOOdOOOeDDD0                     ", "05bOOOcOOOdOOOeDDDhDDD1YYY              ",
  "16aODDaDODbOOOcOOOdOOOeOOO0             ", "16aODDaDODbOOOcOOOdOOOeDDD0             ",
  "07aODDaDODbODDcDDOdOOOeFBFhBBB1ZZZ      ", "07aODDaDODbODDcDDOdOOOeFBFhFFF1XXX      ",
  "15aDDDbOOOcOOOdOOOeOOO0                 ", "15aDDDbDODcODDdOOOeFBB0                 ",
  "01dOOO0                                 ", "11dOOO0                                 ",
  "02dOOOfOOO0                             ", "02dOOOlOOO0                             ",
  "02dOOOlDDD0                             ", "12dOOOfOOO0                             ",
  "12dOOOfDDD0                             "]

/-- groups.py:194-201 `sg_ords`. -/
def ords : List ℕ := [
  1, 2, 2, 2, 4, 2, 2, 4, 4, 4, 4, 8, 4, 4, 8, 4, 4, 4, 4, 8, 8, 16, 8, 8, 4, 4, 4, 4, 4, 4,
  4, 4, 4, 4, 8, 8, 8, 8, 8, 8, 8, 16, 16, 8, 8, 8, 8, 8, 8, 8, 8, 8, 8, 8, 8, 8, 8, 8, 8, 8,
  8, 8, 16, 16, 16, 16, 16, 16, 32, 32, 16, 16, 16, 16, 4, 4, 4, 4, 8, 8, 4, 8, 8, 8, 8, 8, 16, 16, 8, 8,
  8, 8, 8, 8, 8, 8, 16, 16, 8, 8, 8, 8, 8, 8, 8, 8, 16, 16, 16, 16, 8, 8, 8, 8, 8, 8, 8, 8, 16, 16,
  16, 16, 16, 16, 16, 16, 16, 16, 16, 16, 16, 16, 16, 16, 16, 16, 16, 16, 32, 32, 32, 32, 3, 3, 3, 9, 6, 18, 6, 6,
  6, 6, 6, 6, 18, 6, 6, 6, 6, 18, 18, 12, 12, 12, 12, 36, 36, 6, 6, 6, 6, 6, 6, 6, 12, 12, 12, 12, 12, 12,
  12, 12, 12, 12, 12, 12, 12, 12, 12, 12, 24, 24, 24, 24, 12, 48, 24, 12, 24, 24, 24, 96, 96, 48, 24, 48, 24, 24, 96, 96,
  48, 24, 24, 48, 24, 96, 48, 24, 96, 48, 48, 48, 48, 48, 192, 192, 192, 192, 96, 96]

/-- groups.py:207-207 `sg_xt_beg`. -/
def xtBeg : List ℕ := [
  1, 3, 16, 75, 143, 168, 195]

/-- groups.py:208-212 `sg_pg_beg`. -/
def pgBeg : List ℕ := [
  1, 2, 3, 6, 10, 16, 25, 47, 75, 81, 83, 89, 99, 111, 123, 143,
  147, 149, 156, 162, 168, 174, 175, 177, 183, 187, 191, 195, 200, 207, 215, 221]

/-- groups.py:213-220 `sg_symmorphic`. -/
def symmorphic : List ℕ := [
  1, 2, 3, 5, 6, 8, 10, 12, 16, 21, 22, 23, 25, 35, 38, 42, 44, 47, 65, 69,
  71, 75, 79, 81, 82, 83, 87, 89, 97, 99, 107, 111, 115, 119, 121, 123, 139, 143, 146, 147,
  148, 149, 150, 155, 156, 157, 160, 162, 164, 166, 168, 174, 175, 177, 183, 187, 189, 191, 195, 196,
  197, 200, 202, 204, 207, 209, 211, 215, 216, 217, 221, 225, 229]

/-- groups.py:222-227 `pg_to_laue`. -/
def pgToLaue : List ℕ := [
  1, 1, 2, 2, 2, 3, 3, 3, 4, 4, 4, 5, 5, 5, 5, 6, 6, 7, 7, 7,
  8, 8, 8, 9, 9, 9, 9, 10, 10, 11, 11, 11, 12, 13, 14, 15]


/-- The exceptions raised by this module and by the `Cell` class. -/
inductive Err | keyError | indexError | valueError | runtimeError
  deriving DecidableEq, Repr

/-- The 3×3 rotation block of a Seitz matrix. -/
structure Rot where
  (a00 a01 a02 a10 a11 a12 a20 a21 a22 : ℤ)
  deriving DecidableEq, Repr

/-- A 4×4 Seitz matrix whose bottom row is `(0, 0, 0, w)`: rotation block, translation column `(x, y, z)` in
24ths, and the corner entry `w`. -/
structure Op where
  r : Rot
  (x y z w : ℤ)
  deriving DecidableEq, Repr

/-- groups.py:250-262 `trans_map`, in 24ths; `none` is a missing key. -/
def transMap (c : Char) : Option ℤ :=
  if c = 'A' then some 4 else if c = 'B' then some 6 else if c = 'C' then some 8 else if c = 'D' then some 12
  else if c = 'E' then some 16 else if c = 'F' then some 18 else if c = 'G' then some 20
  else if c = 'O' then some 0 else if c = 'X' then some (-9) else if c = 'Y' then some (-6)
  else if c = 'Z' then some (-3) else none

/-- groups.py:265-280 `rot_matrices`; `none` is a missing key. -/
def rotMap (c : Char) : Option Rot :=
  if c = 'a' then some ⟨1, 0, 0, 0, 1, 0, 0, 0, 1⟩
  else if c = 'b' then some ⟨-1, 0, 0, 0, -1, 0, 0, 0, 1⟩
  else if c = 'c' then some ⟨-1, 0, 0, 0, 1, 0, 0, 0, -1⟩
  else if c = 'd' then some ⟨0, 0, 1, 1, 0, 0, 0, 1, 0⟩
  else if c = 'e' then some ⟨0, 1, 0, 1, 0, 0, 0, 0, -1⟩
  else if c = 'f' then some ⟨0, -1, 0, -1, 0, 0, 0, 0, -1⟩
  else if c = 'g' then some ⟨0, -1, 0, 1, 0, 0, 0, 0, 1⟩
  else if c = 'h' then some ⟨-1, 0, 0, 0, -1, 0, 0, 0, -1⟩
  else if c = 'i' then some ⟨1, 0, 0, 0, 1, 0, 0, 0, -1⟩
  else if c = 'j' then some ⟨1, 0, 0, 0, -1, 0, 0, 0, 1⟩
  else if c = 'k' then some ⟨0, -1, 0, -1, 0, 0, 0, 0, 1⟩
  else if c = 'l' then some ⟨0, 1, 0, 1, 0, 0, 0, 0, 1⟩
  else if c = 'm' then some ⟨0, 1, 0, -1, 0, 0, 0, 0, -1⟩
  else if c = 'n' then some ⟨0, -1, 0, 1, -1, 0, 0, 0, 1⟩
  else none

/-- The 3×3 product (used inside the 4×4 products at groups.py:331-334 and 372). -/
def Rot.mul (A B : Rot) : Rot :=
  ⟨A.a00 * B.a00 + A.a01 * B.a10 + A.a02 * B.a20, A.a00 * B.a01 + A.a01 * B.a11 + A.a02 * B.a21,
   A.a00 * B.a02 + A.a01 * B.a12 + A.a02 * B.a22,
   A.a10 * B.a00 + A.a11 * B.a10 + A.a12 * B.a20, A.a10 * B.a01 + A.a11 * B.a11 + A.a12 * B.a21,
   A.a10 * B.a02 + A.a11 * B.a12 + A.a12 * B.a22,
   A.a20 * B.a00 + A.a21 * B.a10 + A.a22 * B.a20, A.a20 * B.a01 + A.a21 * B.a11 + A.a22 * B.a21,
   A.a20 * B.a02 + A.a21 * B.a12 + A.a22 * B.a22⟩

/-- The 4×4 product of two Seitz matrices (groups.py:331-334 and 372). -/
def Op.mul (A B : Op) : Op :=
  ⟨A.r.mul B.r,
   A.r.a00 * B.x + A.r.a01 * B.y + A.r.a02 * B.z + A.x * B.w,
   A.r.a10 * B.x + A.r.a11 * B.y + A.r.a12 * B.z + A.y * B.w,
   A.r.a20 * B.x + A.r.a21 * B.y + A.r.a22 * B.z + A.z * B.w,
   A.w * B.w⟩

/-- Python's `float(torch.fmod(k + x, 1.0))` in 24ths: C remainder (sign of the dividend) of `24 k + x` by 24. -/
def fmod1 (k x : ℤ) : ℤ := (24 * k + x).tmod 24

/-- groups.py:354-392 `matmul_trans_mod`.  The two snapping steps (to 0 from within eps of 0 or 1) change
nothing on multiples of 1/24 that are already reduced. -/
def mulTransMod (A B : Op) : Op :=
  let C := A.mul B
  ⟨C.r, fmod1 1000 C.x, fmod1 1000 C.y, fmod1 1000 C.z, C.w⟩

/-- groups.py:395-402 `unique_rows`: keep a row, drop every later row that is close to it, go on with the next
row that is left. -/
def uniqueRows {α : Type*} (close : α → α → Bool) : List α → List α
  | [] => []
  | a :: l => a :: uniqueRows close (l.filter (fun b => !close a b))
termination_by l => l.length
decreasing_by
  simp only [List.length_unattach, List.length_cons]
  refine Nat.lt_succ_of_le (Nat.le_trans (List.length_filter_le _ _) ?_)
  simp

/-- The identity Seitz matrix (groups.py:286). -/
def Op.one : Op := ⟨⟨1, 0, 0, 0, 1, 0, 0, 0, 1⟩, 0, 0, 0, 1⟩

/-- groups.py:292-295: the inversion. -/
def Op.inversion : Op := ⟨⟨-1, 0, 0, 0, -1, 0, 0, 0, -1⟩, 0, 0, 0, 1⟩

/-- groups.py:298-307: one generator from its four letters. -/
def readGen (t : List Char) : Except Err Op :=
  match t with
  | [c, x, y, z] =>
    match rotMap c, transMap x, transMap y, transMap z with
    | some r, some a, some b, some d => .ok ⟨r, a, b, d, 1⟩
    | _, _, _, _ => .error .keyError
  | _ => .error .indexError

/-- groups.py:298-307: the loop over the `n` generators that start at the character list `s`. -/
def readGens : ℕ → List Char → Except Err (List Op)
  | 0, _ => .ok []
  | n + 1, s => (readGen (s.take 4)).bind fun g => (readGens n (s.drop 4)).map fun l => g :: l

/-- groups.py:312-349: the change of origin, `T(t) · g · T(-t)`, for the slice `t` of the generator string,
followed by the reduction of the *whole* last column. -/
def shiftOrigin (t : List Char) (gens : List Op) : Except Err (List Op) :=
  match t with
  | [x, y, z] =>
    match transMap x, transMap y, transMap z with
    | some a, some b, some c =>
      let fwd : Op := ⟨Op.one.r, -a, -b, -c, 1⟩
      let bwd : Op := ⟨Op.one.r, a, b, c, 1⟩
      .ok (gens.map fun g =>
        let h := bwd.mul (g.mul fwd)
        ⟨h.r, fmod1 1000 h.x, fmod1 1000 h.y, fmod1 1000 h.z, fmod1 1000 (24 * h.w) / 24⟩)
    | _, _, _ => .error .keyError
  | _ => .error .indexError

/-- groups.py:232-351 `read_sg_gen_string` (Python's negative indices, for `sg ≤ 0`, are not modelled:
they are an index error here). -/
def readGenString (sg setting : ℕ) : Except Err (List Op) :=
  match genStrings[sg - 1]? with
  | none => .error .indexError
  | some str =>
    if sg = 0 then .error .indexError else
    match str.toList with
    | inv :: num :: rest =>
      let n := num.toNat - 48
      (readGens n rest).bind fun l =>
        let gens := Op.one :: (if inv = '1' then Op.inversion :: l else l)
        match rest[4 * n]? with
        | none => .error .indexError
        | some flag =>
          if flag ≠ '0' ∧ setting = 2 then shiftOrigin ((rest.drop (4 * n)).take 3) gens else .ok gens
    | _ => .error .indexError

/-- groups.py:431-452, one round: all pairwise products, without repetitions, and those of them whose top three
rows are not yet present are appended.  The flag says whether any were new. -/
def closeRound (gens : List Op) : List Op × Bool :=
  let candidates := gens.flatMap fun a => gens.map fun b => mulTransMod a b
  let uniq := uniqueRows (fun a b => decide (a = b)) candidates
  let new := uniq.filter fun c => !(gens.any fun g => decide (c.r = g.r ∧ c.x = g.x ∧ c.y = g.y ∧ c.z = g.z))
  (gens ++ new, !new.isEmpty)

/-- groups.py:427-452: at most `n` rounds, with `break` when nothing is new.  (The `else` branch of
`depth < 10` is unreachable and not modelled.) -/
def closeLoop : ℕ → List Op → List Op
  | 0, gens => gens
  | n + 1, gens => let p := closeRound gens; if p.2 then closeLoop n p.1 else gens

/-- groups.py:427-429: the space groups closed with three rounds. -/
def deepGroups : List ℕ := [69, 202, 203, 204, 206, 225, 226, 227, 228, 229, 230]

/-- groups.py:476: `gens[:, :, 3] = torch.fmod(100 + gens[:, :, 3], 1.0)` on the whole last column, corner
entry included. -/
def finalMod (g : Op) : Op := 
  ⟨g.r, fmod1 100 g.x, fmod1 100 g.y, fmod1 100 g.z, fmod1 100 (24 * g.w) / 24⟩

/-- groups.py:405-478 `sg_operators`. -/
def sgOperators (sg setting : ℕ) : Except Err (List Op) :=
  (readGenString sg setting).bind fun gens =>
    match ords[sg - 1]? with
    | none => .error .indexError
    | some _ => .ok ((closeLoop (if sg ∈ deepGroups then 3 else 2) gens).map finalMod)

end Verif.SG
