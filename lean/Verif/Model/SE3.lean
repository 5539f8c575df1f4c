import Verif.Model.Orient
/-!
Model of /repo/ebsdtorch/lie_algebra/se3.py, one element of the batch at a time.
-/
namespace Verif

/-- A 4x4 tensor (se3.py:363-382). -/
abbrev M4 := Matrix (Fin 4) (Fin 4) ℝ

/-- `torch.matmul(M, v[..., None])` for a 3x3 matrix (se3.py:331, 379). -/
def mulV (m : M3) (v : V) : V :=
  ⟨m 0 0 * v.x + m 0 1 * v.y + m 0 2 * v.z, m 1 0 * v.x + m 1 1 * v.y + m 1 2 * v.z,
   m 2 0 * v.x + m 2 1 * v.y + m 2 2 * v.z⟩

/-- A 6-vector `(omega, tvec)` (se3.py:311-314). -/
@[ext] structure Twist where
  w : V
  t : V

/-- se3.py:77-98 `skew`. -/
def skew (w : V) : M3 := !![0, -w.z, w.y; w.z, 0, -w.x; -w.y, w.x, 0]

/-- se3.py:102-142 `w_exp`. -/
noncomputable def wExp (w : V) : M3 :=
  let th := w.norm
  let K := skew w
  if th > 0.001 then 1 + (Real.sin th / th) • K + ((1 - Real.cos th) / th ^ 2) • (K * K)
  else 1 + (1 - th ^ 2 / 6 + th ^ 4 / 120) • K + (1 / 2 - th ^ 2 / 24 + th ^ 4 / 720) • (K * K)

/-- se3.py:146-207 `w_exp_vmat`. -/
noncomputable def wExpVmat (w : V) : M3 × M3 :=
  let th := w.norm
  let K := skew w
  if th > 0.001 then
    (1 + (Real.sin th / th) • K + ((1 - Real.cos th) / th ^ 2) • (K * K),
     1 + ((1 - Real.cos th) / th ^ 2) • K + ((th - Real.sin th) / th ^ 3) • (K * K))
  else
    (1 + (1 - th ^ 2 / 6) • K + (1 / 2 - th ^ 2 / 24) • (K * K),
     1 + (1 / 2 - th ^ 2 / 24) • K + (1 / 6 - th ^ 2 / 120) • (K * K))

/-- se3.py:211-250 `w_to_v`. -/
noncomputable def wToV (w : V) : M3 :=
  let th := w.norm
  let K := skew w
  if th > 0.05 then
    1 + ((1 - Real.cos th) / th ^ 2) • K + ((th - Real.sin th) / th ^ 3) • (K * K)
  else
    1 + (1 / 2 - th ^ 2 / 24 + th ^ 4 / 720) • K + (1 / 6 - th ^ 2 / 120 + th ^ 4 / 5040) • (K * K)

/-- se3.py:254-295 `w_to_v_inv`. -/
noncomputable def wToVInv (w : V) : M3 :=
  let th := w.norm
  let K := skew w
  if th > 0.05 then
    1 - (0.5 : ℝ) • K + ((1 - th * Real.cos (th / 2) / (2 * Real.sin (th / 2))) / th ^ 2) • (K * K)
  else
    1 - (0.5 : ℝ) • K + (1 / 12 + th ^ 2 / 720 + th ^ 4 / 30240) • (K * K)

/-- se3.py:319-330: the angle used by `se3_exp_map_quat`: the norm, or for small norms
`exp(logsumexp(2 log(|omega_i| + 1e-10)) / 2)`. -/
noncomputable def quatTheta (w : V) : ℝ :=
  if w.norm > 0.05 then w.norm
  else Real.exp (Real.log (Real.exp (Real.log (|w.x| + 1e-10) * 2) + Real.exp (Real.log (|w.y| + 1e-10) * 2)
    + Real.exp (Real.log (|w.z| + 1e-10) * 2)) / 2)

/-- se3.py:299-336 `se3_exp_map_quat`. -/
noncomputable def se3ExpQuat (v : Twist) : Q × V :=
  let th := quatTheta v.w
  (ax2qu ⟨V.sdiv v.w th, th⟩, mulV (wToV v.w) v.t)

/-- se3.py:340-359 `se3_log_map_quat`. -/
noncomputable def se3LogQuat (q : Q) (t : V) : Twist :=
  let a := qu2ax q
  let w := V.smul a.ang a.n
  ⟨w, mulV (wToVInv w) t⟩

/-- The 4x4 matrix assembled in se3.py:377-381. -/
def se3Mat (R : M3) (t : V) : M4 :=
  !![R 0 0, R 0 1, R 0 2, t.x; R 1 0, R 1 1, R 1 2, t.y; R 2 0, R 2 1, R 2 2, t.z; 0, 0, 0, 1]

/-- se3.py:386-403 `se3_exp_map_split`. -/
noncomputable def se3ExpSplit (v : Twist) : M3 × V :=
  ((wExpVmat v.w).1, mulV (wExpVmat v.w).2 v.t)

/-- se3.py:363-382 `se3_exp_map_om`. -/
noncomputable def se3ExpOm (v : Twist) : M4 := se3Mat (wExpVmat v.w).1 (mulV (wExpVmat v.w).2 v.t)

/-- se3.py:447-484 `se3_log_map_split` with the switch as a parameter; line 471 uses 0.0001. -/
noncomputable def se3LogCore (sw : ℝ) (R : M3) (t : V) : Twist :=
  let theta := Real.arccos (clamp1 (0.5 * (R 0 0 + R 1 1 + R 2 2 - 1)))
  let factor := if theta > sw then 0.5 * theta / Real.sin theta else 0.5
  let w : V := V.smul factor ⟨R 2 1 - R 1 2, R 0 2 - R 2 0, R 1 0 - R 0 1⟩
  ⟨w, mulV (wToVInv w) t⟩

/-- se3.py:447-484 `se3_log_map_split`. -/
noncomputable def se3LogSplit (R : M3) (t : V) : Twist := se3LogCore 0.0001 R t

/-- se3.py:407-443 `se3_log_map_om` (switch 0.01, line 431). -/
noncomputable def se3LogOm (m : M4) : Twist :=
  se3LogCore 0.01 !![m 0 0, m 0 1, m 0 2; m 1 0, m 1 1, m 1 2; m 2 0, m 2 1, m 2 2] ⟨m 0 3, m 1 3, m 2 3⟩

end Verif
