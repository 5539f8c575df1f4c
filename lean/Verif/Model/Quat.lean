import Verif.Model.Num
/-!
Model of /repo/ebsdtorch/s2_and_so3/quaternions.py, one quaternion (one element of the
batch) at a time.
-/
namespace Verif

/-- A quaternion `(w, x, y, z)`, the last axis of the tensors of quaternions.py. -/
@[ext] structure Q where
  w : ℝ
  x : ℝ
  y : ℝ
  z : ℝ

/-- A 3D point, the last axis of `point` in quaternions.py:187. -/
@[ext] structure V where
  x : ℝ
  y : ℝ
  z : ℝ

namespace Q
/-- elementwise `-qu` (quaternions.py:38) -/
def neg (q : Q) : Q := ⟨-q.w, -q.x, -q.y, -q.z⟩
/-- elementwise division by a scalar (quaternions.py:52) -/
noncomputable def sdiv (q : Q) (s : ℝ) : Q := ⟨q.w / s, q.x / s, q.y / s, q.z / s⟩
/-- `torch.sum(a * b, dim=-1)` (quaternions.py:109) -/
def dot (a b : Q) : ℝ := a.w * b.w + a.x * b.x + a.y * b.y + a.z * b.z
/-- `torch.norm(qu, dim=-1)` (quaternions.py:52) -/
noncomputable def norm (q : Q) : ℝ := Real.sqrt (q.w ^ 2 + q.x ^ 2 + q.y ^ 2 + q.z ^ 2)
end Q

namespace V
/-- `torch.sum(p * q, dim=-1)` (quaternions.py:248) -/
def dot (a b : V) : ℝ := a.x * b.x + a.y * b.y + a.z * b.z
/-- `torch.cross(p, q, dim=-1)` (quaternions.py:250) -/
def cross (a b : V) : V :=
  ⟨a.y * b.z - a.z * b.y, a.z * b.x - a.x * b.z, a.x * b.y - a.y * b.x⟩
/-- `torch.norm(v, dim=-1)` (quaternions.py:254) -/
noncomputable def norm (v : V) : ℝ := Real.sqrt (v.x ^ 2 + v.y ^ 2 + v.z ^ 2)
end V

/-- quaternions.py:28-38 `qu_std`. -/
noncomputable def quStd (q : Q) : Q := if 0 ≤ q.w then q else q.neg

/-- quaternions.py:42-52 `qu_norm`.  (0-quaternion: Lean gives 0, torch NaN.) -/
noncomputable def quNorm (q : Q) : Q := q.sdiv q.norm

/-- quaternions.py:56-74 `qu_prod_raw`. -/
def quProdRaw (a b : Q) : Q :=
  ⟨a.w * b.w - a.x * b.x - a.y * b.y - a.z * b.z,
   a.w * b.x + a.x * b.w + a.y * b.z - a.z * b.y,
   a.w * b.y - a.x * b.z + a.y * b.w + a.z * b.x,
   a.w * b.z + a.x * b.y - a.y * b.x + a.z * b.w⟩

/-- quaternions.py:78-91 `qu_prod`. -/
noncomputable def quProd (a b : Q) : Q := quStd (quProdRaw a b)

/-- quaternions.py:109-113: the interpolation weights of `qu_slerp` for one pair. -/
noncomputable def slerpWeights (a b : Q) (t : ℝ) : ℝ × ℝ :=
  let angle := Real.arccos (Q.dot (quNorm a) (quNorm b))
  (Real.sin ((1 - t) * angle) / Real.sin angle, Real.sin (t * angle) / Real.sin angle)

/-- quaternions.py:95-114 `qu_slerp` called on a single pair of quaternions (shape `(4,)`):
`a.unsqueeze(-1) * w1` has shape `(4, 1)` and the final squeeze returns shape `(4,)`. -/
noncomputable def quSlerp (a b : Q) (t : ℝ) : Q :=
  let w := slerpWeights a b t
  let a := quNorm a
  let b := quNorm b
  ⟨a.w * w.1 + b.w * w.2, a.x * w.1 + b.x * w.2, a.y * w.1 + b.y * w.2, a.z * w.1 + b.z * w.2⟩

/-- quaternions.py:114 for a batch of shape `(N, 4)`: `a.unsqueeze(-1)` has shape `(N, 4, 1)` and
`w1` shape `(N,)`, so by broadcasting entry `[i, c, j]` of the `(N, 4, N)` result is
`a[i,c] * w1[j] + b[i,c] * w2[j]`.  The last axis is squeezed only when `N = 1`.
Here: the quaternion found at batch positions `i` (first axis) and `j` (last axis). -/
noncomputable def quSlerpBatch {n : ℕ} (a b : Fin n → Q) (t : ℝ) (i j : Fin n) : Q :=
  let w := slerpWeights (a j) (b j) t
  let a := quNorm (a i)
  let b := quNorm (b i)
  ⟨a.w * w.1 + b.w * w.2, a.x * w.1 + b.x * w.2, a.y * w.1 + b.y * w.2, a.z * w.1 + b.z * w.2⟩

/-- Shape of the tensor returned by `qu_slerp` on inputs of shape `(n, 4)` (quaternions.py:114):
`(n, 4, n)`, except that `.squeeze(-1)` drops the last axis when it has length one. -/
def quSlerpShape (n : ℕ) : List ℕ := if n = 1 then [n, 4] else [n, 4, n]

/-- quaternions.py:118-132 `qu_prod_pos_real`. -/
def quProdPosReal (a b : Q) : ℝ := |a.w * b.w - a.x * b.x - a.y * b.y - a.z * b.z|

/-- quaternions.py:136-148 `qu_triple_prod_pos_real`. -/
noncomputable def quTripleProdPosReal (a b c : Q) : ℝ := quProdPosReal a (quProd b c)

/-- quaternions.py:152-168 `qu_prod_axis`. -/
def quProdAxis (a b : Q) : V :=
  ⟨a.w * b.x + a.x * b.w + a.y * b.z - a.z * b.y,
   a.w * b.y - a.x * b.z + a.y * b.w + a.z * b.x,
   a.w * b.z + a.x * b.y - a.y * b.x + a.z * b.w⟩

/-- quaternions.py:172-183 `qu_conj`. -/
def quConj (q : Q) : Q := ⟨q.w * 1, q.x * -1, q.y * -1, q.z * -1⟩

/-- quaternions.py:187-213 `qu_apply` (intermediate values `iw ix iy iz` as in the code, which adds
the components of `qu` itself, i.e. multiplies by `1 + v` rather than `v`). -/
def quApply (q : Q) (p : V) : V :=
  let iw := q.w - q.x * p.x - q.y * p.y - q.z * p.z
  let ix := q.w * p.x + q.x + q.y * p.z - q.z * p.y
  let iy := q.w * p.y - q.x * p.z + q.y + q.z * p.x
  let iz := q.w * p.z + q.x * p.y - q.y * p.x + q.z
  ⟨-iw * q.x + ix * q.w - iy * q.z + iz * q.y,
   -iw * q.y + ix * q.z + iy * q.w - iz * q.x,
   -iw * q.z - ix * q.y + iy * q.x + iz * q.w⟩

/-- quaternions.py:217-227 `qu_norm_std`. -/
noncomputable def quNormStd (q : Q) : Q := quStd (quNorm q)

/-- quaternions.py:231-267 `quaternion_rotate_sets_sphere` for one pair of points. -/
noncomputable def rotateSetsSphere (p q : V) : Q :=
  if |V.dot p q| < 0.999999 then
    let c := V.cross p q
    let d := V.dot p q
    let angle0 := atan2 c.norm d
    let angle := if angle0 < 0 then angle0 + 2 * Real.pi else angle0
    ⟨Real.cos (angle / 2), Real.sin (angle / 2) * (c.x / c.norm),
     Real.sin (angle / 2) * (c.y / c.norm), Real.sin (angle / 2) * (c.z / c.norm)⟩
  else ⟨1, 0, 0, 0⟩

/-- quaternions.py:271-281 `qu_angle`. -/
noncomputable def quAngle (q : Q) : ℝ := 2 * Real.arccos q.w

end Verif
