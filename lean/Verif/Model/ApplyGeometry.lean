import Verif.Model.Hrebsd
import Verif.Model.Geometry
/-!
Model of `apply_geometry` of /repo/ebsdtorch/ebsd/fitting.py, one pixel at a time.
-/
namespace Verif.Fit
open Verif

/-- fitting.py:292-320 `apply_geometry` for one pixel; `none` is NaN (division of the zero vector by its norm). -/
noncomputable def applyGeometry (p : V) (R : M3) (t : V) : Option V := Hr.normalize (V.add (mulV R p) t)

end Verif.Fit
