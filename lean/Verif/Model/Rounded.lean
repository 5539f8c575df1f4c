import Verif.Model.Fz
/-!
The quaternion routines of /repo/ebsdtorch/s2_and_so3 in floating-point arithmetic: every elementary operation of the code (product, sum,
difference, quotient, square root) is followed by a rounding `fl`; the operations are taken in the order in which Python evaluates the
expressions.  Negation, absolute value and comparison are exact.  Simplifications: no fused multiply-add, no overflow or underflow; the
values of `torch.acos` are exact, but it returns NaN (`none`) outside [-1, 1].
-/
namespace Verif

/-- A row of four products `±aᵢ bᵢ` added from left to right, as in quaternions.py:70-73, each operation rounded. -/
def rSum4 (fl : ℝ → ℝ) (t1 t2 t3 t4 : ℝ) : ℝ := fl (fl (fl (t1 + t2) + t3) + t4)

/-- quaternions.py:56-74 `qu_prod_raw` with rounding. -/
def rProdRaw (fl : ℝ → ℝ) (a b : Q) : Q :=
  ⟨rSum4 fl (fl (a.w * b.w)) (-fl (a.x * b.x)) (-fl (a.y * b.y)) (-fl (a.z * b.z)),
   rSum4 fl (fl (a.w * b.x)) (fl (a.x * b.w)) (fl (a.y * b.z)) (-fl (a.z * b.y)),
   rSum4 fl (fl (a.w * b.y)) (-fl (a.x * b.z)) (fl (a.y * b.w)) (fl (a.z * b.x)),
   rSum4 fl (fl (a.w * b.z)) (fl (a.x * b.y)) (-fl (a.y * b.x)) (fl (a.z * b.w))⟩

/-- quaternions.py:78-91 `qu_prod` with rounding. -/
noncomputable def rProd (fl : ℝ → ℝ) (a b : Q) : Q := quStd (rProdRaw fl a b)

/-- quaternions.py:52 `torch.norm(qu, dim=-1)` with rounding (the squares are added from left to right). -/
noncomputable def rNormVal (fl : ℝ → ℝ) (q : Q) : ℝ :=
  fl (Real.sqrt (rSum4 fl (fl (q.w * q.w)) (fl (q.x * q.x)) (fl (q.y * q.y)) (fl (q.z * q.z))))

/-- quaternions.py:42-52 `qu_norm` with rounding (norm 0: torch gives NaN). -/
noncomputable def rNorm (fl : ℝ → ℝ) (q : Q) : Q :=
  let n := rNormVal fl q
  ⟨fl (q.w / n), fl (q.x / n), fl (q.y / n), fl (q.z / n)⟩

/-- quaternions.py:217-227 `qu_norm_std` with rounding. -/
noncomputable def rNormStd (fl : ℝ → ℝ) (q : Q) : Q := quStd (rNorm fl q)

/-- quaternions.py:172-183 `qu_conj` with rounding. -/
def rConj (fl : ℝ → ℝ) (q : Q) : Q := ⟨fl (q.w * 1), fl (q.x * -1), fl (q.y * -1), fl (q.z * -1)⟩

/-- quaternions.py:118-132 `qu_prod_pos_real` with rounding. -/
def rProdPosReal (fl : ℝ → ℝ) (a b : Q) : ℝ :=
  |rSum4 fl (fl (a.w * b.w)) (-fl (a.x * b.x)) (-fl (a.y * b.y)) (-fl (a.z * b.z))|

/-- quaternions.py:136-148 `qu_triple_prod_pos_real` with rounding. -/
noncomputable def rTripleProdPosReal (fl : ℝ → ℝ) (a b c : Q) : ℝ := rProdPosReal fl a (rProd fl b c)

/-- quaternions.py:187-213 `qu_apply` with rounding. -/
def rApply (fl : ℝ → ℝ) (q : Q) (p : V) : V :=
  let iw := rSum4 fl q.w (-fl (q.x * p.x)) (-fl (q.y * p.y)) (-fl (q.z * p.z))
  let ix := rSum4 fl (fl (q.w * p.x)) q.x (fl (q.y * p.z)) (-fl (q.z * p.y))
  let iy := rSum4 fl (fl (q.w * p.y)) (-fl (q.x * p.z)) q.y (fl (q.z * p.x))
  let iz := rSum4 fl (fl (q.w * p.z)) (fl (q.x * p.y)) (-fl (q.y * p.x)) q.z
  ⟨rSum4 fl (fl (-iw * q.x)) (fl (ix * q.w)) (-fl (iy * q.z)) (fl (iz * q.y)),
   rSum4 fl (fl (-iw * q.y)) (fl (ix * q.z)) (fl (iy * q.w)) (-fl (iz * q.x)),
   rSum4 fl (fl (-iw * q.z)) (-fl (ix * q.y)) (fl (iy * q.x)) (fl (iz * q.w))⟩

/-- `torch.acos`: NaN (`none`) outside `[-1, 1]`. -/
noncomputable def acosNan (x : ℝ) : Option ℝ :=
  open Classical in if -1 ≤ x ∧ x ≤ 1 then some (Real.arccos x) else none

/-- quaternions.py:271-281 `qu_angle` with rounding. -/
noncomputable def rAngle (fl : ℝ → ℝ) (q : Q) : Option ℝ := (acosNan q.w).map fun a => fl (2 * a)

/-- laue_generators.py:54-249 `laue_elements(id).to(dtype)`: `tab` stands for the double-precision evaluation of the table entries
(among them `1.0 / (2.0**0.5)` and `(3.0**0.5) / 2.0`), `fl` for the conversion to the dtype of the quaternions. -/
noncomputable def rLaueElements (fl tab : ℝ → ℝ) (id : ℤ) : Option (List Q) :=
  (laueElements id).map fun G => G.map fun g => ⟨fl (tab g.w), fl (tab g.x), fl (tab g.y), fl (tab g.z)⟩

/-- laue_fz_ori.py:35-81 `ori_to_fz_laue` with rounding. -/
noncomputable def rOriToFz (fl tab : ℝ → ℝ) (q : Q) (id : ℤ) : Option Q := do
  let mult ← getLaueMult id
  let G ← rLaueElements fl tab id
  if G.length = mult / 2 then
    let g ← G[argmaxFirst (G.map (rProdPosReal fl q))]?
    return rProd fl q g
  else none

/-- laue_fz_ori.py:320-344 `ori_angle_laue` with rounding.  The outer `none` means that the call raises, the inner one NaN. -/
noncomputable def rOriAngle (fl tab : ℝ → ℝ) (q1 q2 : Q) (id : ℤ) : Option (Option ℝ) := do
  let r ← rOriToFz fl tab (rProd fl q1 (rConj fl q2)) id
  return (open Classical in if rNormVal fl r = 0 then none else rAngle fl (rNormStd fl r))

/-- laue_fz_ori.py:414-469 `disori_angle_laue` (identical to laue_fz_misori.py:153-203) with rounding.  The outer `none` means that the
call raises, the inner one NaN. -/
noncomputable def rDisoriAngle (fl tab : ℝ → ℝ) (q1 q2 : Q) (id1 id2 : ℤ) : Option (Option ℝ) := do
  let m := rProd fl q1 (rConj fl q2)
  let G1 ← rLaueElements fl tab id1
  let G2 ← rLaueElements fl tab id2
  let c ← rowMax (G2.flatMap fun g2 => G1.map fun g1 => rTripleProdPosReal fl g2 m g1)
  return (acosNan c).map fun a => fl (2 * a)

end Verif
