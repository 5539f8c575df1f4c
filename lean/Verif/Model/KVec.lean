import Verif.Model.Sphere
import Verif.Model.Cell
/-!
Model of /repo/ebsdtorch/utils/rosca_lambert.py and /repo/ebsdtorch/crystallography/kvectors.py.
-/
namespace Verif.KV

/-- utils/rosca_lambert.py:7-52 `square_to_hemisphere` for one point; `none` models the NaN row at the origin
(`0 / 0` inside the cosine). -/
noncomputable def squareToHemisphere (p : ℝ × ℝ) : Option V :=
  let pi := Real.pi
  let a := p.1 * (pi / 2) ^ (0.5 : ℝ)
  let b := p.2 * (pi / 2) ^ (0.5 : ℝ)
  open Classical in
  if |b| ≤ |a| then
    if a = 0 then none else
    some ⟨(2 * a / pi) * Real.sqrt (pi - a ^ 2) * Real.cos ((pi * b) / (4 * a)),
          (2 * a / pi) * Real.sqrt (pi - a ^ 2) * Real.sin ((pi * b) / (4 * a)),
          1 - (2 * a ^ 2 / pi)⟩
  else
    some ⟨(2 * b / pi) * Real.sqrt (pi - b ^ 2) * Real.sin ((pi * a) / (4 * b)),
          (2 * b / pi) * Real.sqrt (pi - b ^ 2) * Real.cos ((pi * a) / (4 * b)),
          1 - (2 * b ^ 2 / pi)⟩

/-- utils/rosca_lambert.py:55-101 `square_to_hemisphere_v2` for one point (`none`: NaN at the origin). -/
noncomputable def squareToHemisphereV2 (p : ℝ × ℝ) : Option V :=
  let pi := Real.pi
  let xAbs := |p.1| * (pi / 2) ^ (0.5 : ℝ)
  let yAbs := |p.2| * (pi / 2) ^ (0.5 : ℝ)
  let cond := xAbs ≥ yAbs
  open Classical in
  let xNew := if cond then xAbs else yAbs
  open Classical in
  let yNew := if cond then yAbs else xAbs
  if xNew = 0 then none else
  let xHs := (2 * xNew / pi) * Real.sqrt (pi - xNew ^ 2) * Real.cos (pi * yNew / (4 * xNew))
  let yHs := (2 * xNew / pi) * Real.sqrt (pi - xNew ^ 2) * Real.sin (pi * yNew / (4 * xNew))
  let zOut := 1 - (2 * xNew ^ 2 / pi)
  open Classical in
  let xOut := if cond then xHs else yHs
  open Classical in
  let yOut := if cond then yHs else xHs
  some ⟨copysign xOut p.1, copysign yOut p.2, zOut⟩

/-- crystallography/kvectors.py:8-53 `square_to_hemisphere`: as `_v2`, and the origin is overwritten by the pole. -/
noncomputable def squareToHemisphereK (p : ℝ × ℝ) : V :=
  let pi := Real.pi
  let xAbs := |p.1| * (pi / 2) ^ (0.5 : ℝ)
  let yAbs := |p.2| * (pi / 2) ^ (0.5 : ℝ)
  let swap := xAbs ≥ yAbs
  open Classical in
  let xNew := if swap then xAbs else yAbs
  open Classical in
  let yNew := if swap then yAbs else xAbs
  let xHs := (2 * xNew / pi) * Real.sqrt (pi - xNew ^ 2) * Real.cos (pi * yNew / (4 * xNew))
  let yHs := (2 * xNew / pi) * Real.sqrt (pi - xNew ^ 2) * Real.sin (pi * yNew / (4 * xNew))
  let zOut := 1 - (2 * xNew ^ 2 / pi)
  open Classical in
  let xOut := if swap then xHs else yHs
  open Classical in
  let yOut := if swap then yHs else xHs
  if p.1 = 0 ∧ p.2 = 0 then ⟨0, 0, 1⟩ else ⟨copysign xOut p.1, copysign yOut p.2, zOut⟩

/-- utils/rosca_lambert.py:162-213, crystallography/kvectors.py:57-112 `hexagon_to_hemisphere` (the two differ only in
the last step: kvectors.py overwrites the origin by the pole, rosca_lambert.py leaves NaN). -/
noncomputable def hexagonToHemisphere (p : ℝ × ℝ) : V :=
  let pi := Real.pi
  let xAbs := |p.2|
  let yAbs := |p.1|
  let s3 := Real.sqrt 3
  let rotate := yAbs > xAbs / s3
  open Classical in
  let xNew := if rotate then xAbs * 0.5 + yAbs * 0.5 * s3 else xAbs
  open Classical in
  let yNew := if rotate then -xAbs * 0.5 * s3 + yAbs * 0.5 else yAbs
  let factor := (3 : ℝ) ^ (0.25 : ℝ) * (2 / pi) ^ (0.5 : ℝ) * xNew
  let trigArg := (yNew * pi) / (2 * s3 * xNew)
  let xHs := factor * Real.cos trigArg
  let yHs := factor * Real.sin trigArg
  open Classical in
  let xOut := if rotate then xHs * 0.5 - yHs * 0.5 * s3 else xHs
  open Classical in
  let yOut := if rotate then xHs * 0.5 * s3 + yHs * 0.5 else yHs
  let xOut := copysign xOut p.2 / (3 * s3 / (2 * pi)) ^ (0.5 : ℝ)
  let yOut := copysign yOut p.1 / (3 * s3 / (2 * pi)) ^ (0.5 : ℝ)
  if p.1 = 0 ∧ p.2 = 0 then ⟨0, 0, 1⟩ else ⟨yOut, xOut, 1 - xOut ^ 2 - yOut ^ 2⟩

/-- kvectors.py:149-153 `point_group_to_sample_case` (`-1`: special case). -/
def sampleCase : List ℤ :=
  [1, 2, 3, 4, 5, 5, 5, 6, 5, 5, 6, 6, 7, -1, 9, -1] ++
  [-1, -1, -1, -1, 15, 12, 17, 16, 18, -1, 19, 3, 6, 6, 8, 9, -1, -1, -1, -1] ++ []

/-- kvectors.py:155-185: the sampling type of a cell with the stored `pg_num` and `sg_num`.  The chained comparison
`sg == 147 <= 155` is `sg == 147 and 147 <= 155`, and `sg == 157 | sg == 159` is
`sg == (157 | sg) and (157 | sg) == 159`.  `none`: the list index raises, or the value stays `-1` (ValueError in
the final `else` of line 413). -/
def stnumOf (pg sg : ℕ) : Option ℕ :=
  (sampleCase[pg - 1]?).bind fun s =>
    if s = -1 then
      if 143 ≤ sg ∧ sg ≤ 167 then
        if 143 ≤ sg ∧ sg ≤ 146 then some 10
        else if sg = 147 ∧ 147 ≤ 155 then some 12
        else if sg ∈ [156, 158, 160, 161] then some 14
        else if sg = (157 ||| sg) ∧ (157 ||| sg) = 159 then some 15
        else if sg ∈ [162, 163] then some 17
        else some 16
      else if pg = 14 then
        if 115 ≤ sg ∧ sg ≤ 120 then some 6 else some 8
      else if pg = 26 then
        if sg ∈ [187, 188] then some 16 else some 17
      else none
    else some s.toNat

/-- kvectors.py:188-197: the grid indices `(ki, kj)` of the northern hemisphere, row-major. -/
def gridIJ (w : ℕ) : List (ℤ × ℤ) :=
  let r : List ℤ := (List.range (2 * w + 1)).map fun (n : ℕ) => (n : ℤ) - w
  r.flatMap fun i => r.map fun j => (i, j)

/-- kvectors.py:198 `xy = k_ij.float() / float(grid_half_width)`. -/
noncomputable def xyOf (w : ℕ) (p : ℤ × ℤ) : ℝ × ℝ := ((p.1 : ℝ) / w, (p.2 : ℝ) / w)

/-- The row masks of kvectors.py:200-411, one per sampling type (types 11, 13 and anything else raise). -/
noncomputable def keep (stnum : ℕ) (p : ℤ × ℤ) : Bool :=
  let i := p.1
  let j := p.2
  let xx : ℝ := i - 0.5 * j
  let yy : ℝ := j * Real.sqrt 3 / 2
  let ang := atan2 yy xx
  open Classical in
  if stnum = 1 ∨ stnum = 2 then true
  else if stnum = 3 then decide (i ≥ 0)
  else if stnum = 4 then decide (j ≥ 0)
  else if stnum = 5 ∨ stnum = 6 then decide (i ≥ 0 ∧ j ≥ 0)
  else if stnum = 7 ∨ stnum = 9 then decide (i ≥ 0 ∧ j ≥ 0 ∧ i ≥ j)
  else if stnum = 8 then decide (i ≥ 0 ∧ |j| ≤ i)
  else if stnum = 10 then decide (i ≥ 0 ∧ j ≥ 0)
  else if stnum = 12 then decide (i ≥ 0 ∧ j ≥ 0 ∧ i ≥ j)
  else if stnum = 14 then decide (j ≥ 0 ∧ i ≥ (j + 1) / 2 ∧ i ≤ 2 * j)
  else if stnum = 15 then decide (j ≥ 0 ∧ i ≥ j)
  else if stnum = 16 then decide (i ≥ 0 ∧ j ≥ 0 ∧ ang ≥ Real.pi / 5.9999 ∧ xx ≥ 0)
  else if stnum = 17 then decide (i ≥ 0 ∧ j ≥ 0 ∧ ang ≤ Real.pi / 3 ∧ xx ≥ 0)
  else decide (i ≥ 0 ∧ j ≥ 0 ∧ ang ≤ Real.pi / 6.0001 ∧ xx ≥ 0)

/-- kvectors.py:200-411: the sampling types that append the southern hemisphere ("with SH"). -/
def withSouth (stnum : ℕ) : Bool := stnum ∈ [1, 3, 4, 5, 7, 10, 14, 15, 18]

/-- kvectors.py:200-412: the sampling types that use the hexagon map. -/
def usesHex (stnum : ℕ) : Bool := decide (10 ≤ stnum)

/-- kvectors.py:115-428 `kvectors_grid`: the returned directions with their grid indices `(ki, kj, hemisphere)`.
`second` is `cell.sg_setting != 1` (line 143).  `none`: NotImplementedError or ValueError. -/
noncomputable def kvectorsGrid (pg sg : ℕ) (second : Bool) (w : ℕ) : Option (List (V × ℤ × ℤ × ℤ)) :=
  (stnumOf pg sg).bind fun st =>
    if st = 11 ∨ st = 13 ∨ 20 ≤ st ∨ st = 0 then none
    else if (st = 12 ∨ st = 14 ∨ st = 16) ∧ 143 ≤ sg ∧ sg ≤ 167 ∧ second = true then none
    else
      let rows := (gridIJ w).filter (keep st)
      let north := if usesHex st then
          (rows.map fun p => (hexagonToHemisphere (xyOf w p), p.1, p.2, (1 : ℤ))).filter
            (open Classical in fun r => decide (r.1.z ≥ 0))
        else rows.map fun p => (squareToHemisphereK (xyOf w p), p.1, p.2, (1 : ℤ))
      some (if withSouth st then
          north ++ north.map fun r => (⟨r.1.x, r.1.y, r.1.z * -1⟩, r.2.1, r.2.2.1, r.2.2.2 * -1)
        else north)

end Verif.KV
