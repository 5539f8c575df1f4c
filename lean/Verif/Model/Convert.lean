import Verif.Model.Cubo
/-!
Model of the conversions of /repo/ebsdtorch/s2_and_so3/orientations.py that are compositions of others, and of the Clifford torus
coordinates, one rotation of the batch at a time.
-/
namespace Verif
open Verif.Cubo

/-- orientations.py:1053-1062 `ax2cu`. -/
noncomputable def ax2cu (A : Argsort) (a : AX) : V := qu2cu A (ax2qu a)
/-- orientations.py:1081-1090 `ro2om`. -/
noncomputable def ro2om (r : RO) : M3 := ax2om (ro2ax r)
/-- orientations.py:1095-1104 `ro2cu`. -/
noncomputable def ro2cu (A : Argsort) (r : RO) : V := ax2cu A (ro2ax r)
/-- orientations.py:1109-1118 `ro2ho`. -/
noncomputable def ro2ho (r : RO) : V := ax2ho (ro2ax r)
/-- orientations.py:1123-1132 `cu2ax`. -/
noncomputable def cu2ax (A : Argsort) (single : Bool) (c : V) : AX := ho2ax single true (cu2ho A c)
/-- orientations.py:1151-1160 `cu2om`. -/
noncomputable def cu2om (A : Argsort) (single : Bool) (c : V) : M3 := ax2om (ho2ax single true (cu2ho A c))
/-- orientations.py:1165-1174 `cu2ro`. -/
noncomputable def cu2ro (A : Argsort) (single : Bool) (c : V) : RO := ax2ro (ho2ax single true (cu2ho A c))
/-- orientations.py:1193-1202 `ho2om`. -/
noncomputable def ho2om (single : Bool) (h : V) : M3 := ax2om (ho2ax single true h)
/-- orientations.py:1207-1216 `ho2ro`. -/
noncomputable def ho2ro (single : Bool) (h : V) : RO := ax2ro (ho2ax single true h)
/-- orientations.py:1235-1244 `om2cu`. -/
noncomputable def om2cu (A : Argsort) (m : M3) : V := qu2cu A (om2qu m)
/-- orientations.py:1277-1286 `bu2ro`. -/
noncomputable def bu2ro (b : BU) : RO := qu2ro (bu2qu b)
/-- orientations.py:1291-1300 `bu2cu`. -/
noncomputable def bu2cu (A : Argsort) (b : BU) : V := qu2cu A (bu2qu b)
/-- orientations.py:1305-1314 `bu2ho`. -/
noncomputable def bu2ho (b : BU) : V := qu2ho (bu2qu b)
/-- orientations.py:1333-1342 `ax2bu`. -/
noncomputable def ax2bu (a : AX) : BU := qu2bu (ax2qu a)
/-- orientations.py:1347-1356 `ro2bu`. -/
noncomputable def ro2bu (r : RO) : BU := qu2bu (ro2qu r)
/-- orientations.py:1361-1370 `cu2bu`. -/
noncomputable def cu2bu (A : Argsort) (single : Bool) (c : V) : BU := qu2bu (cu2qu A single c)
/-- orientations.py:1375-1384 `ho2bu`. -/
noncomputable def ho2bu (single : Bool) (h : V) : BU := qu2bu (ho2qu single h)

/-- `torch.atan(a / b)` (orientations.py:901-906) for a zero that carries no minus sign: `a / 0` is an infinity of the sign of
`a`, whose arc tangent is `±π/2`, and `0 / 0` is NaN (`none`). -/
noncomputable def atanQuot (a b : ℝ) : Option ℝ :=
  if b = 0 then (if a = 0 then none else some (if 0 < a then Real.pi / 2 else -(Real.pi / 2)))
  else some (Real.arctan (a / b))

/-- orientations.py:886-908 `qu2cl`: the six coordinates (X, Z_y, Y, X_z, Z, Y_x). -/
noncomputable def qu2cl (q : Q) : List (Option ℝ) :=
  [atanQuot q.x q.w, atanQuot q.z q.y, atanQuot q.y q.w, atanQuot q.x q.z, atanQuot q.z q.w, atanQuot q.y q.x]

end Verif
