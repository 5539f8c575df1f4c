import Verif.Model.Diffraction
import Verif.Model.Num
/-!
Model of `calc_helper_scatter_matrix` of /repo/ebsdtorch/crystallography/diffraction.py, for one voltage, with the same conventions as
`Verif.Model.Diffraction` (lines 424-544 repeat the Bloch helper).
-/
namespace Verif.Diff
open Cryst
open SG (Err)

/-- diffraction.py:545-547: `umod` at `g`. -/
noncomputable def umod (sf : ScatterFactor) (c : Crystal) (kV : ℝ) (g : Hkl) : ℝ := preg * (pref c * ‖ff sf c kV g‖)

/-- diffraction.py:550-555: `upmod` at `g`. -/
noncomputable def upmod (sf : ScatterFactor) (c : Crystal) (kV : ℝ) (absorption : Bool) (g : Hkl) : ℝ :=
  if absorption then preg * pref c * ‖gg sf c kV g‖ else 0

/-- diffraction.py:575-586: `xg` and `xgp` from the modulus of the coefficient and the wavelength. -/
noncomputable def extinction (u lam : ℝ) : ℝ := open Classical in if |u| > 0 then 1 / |u| / lam else 1.0e8

/-- diffraction.py:546, 551, 588-603: `qg` at `g`; `torch.atan2(z.imag, z.real)` is the argument of `z`. -/
noncomputable def qg (sf : ScatterFactor) (c : Crystal) (kV : ℝ) (absorption shift : Bool) (g : Hkl) : ℂ :=
  let lam := mlambda sf c kV
  let vphase := atan2 (ff sf c kV g).im (ff sf c kV g).re
  let vpphase := atan2 (gg sf c kV g).im (gg sf c kV g).re
  let xg := extinction (umod sf c kV g) lam
  let xgp := extinction (upmod sf c kV absorption g) lam
  if absorption then
    if shift then ⟨Real.cos vphase / xg - Real.sin vpphase / xgp, Real.cos vpphase / xgp + Real.sin vphase / xg⟩
    else
      let arg := vpphase - vphase
      ⟨1 / xg - Real.sin arg / xgp, Real.cos arg / xgp⟩
  else ⟨1 / xg, 0⟩

/-- What `calc_helper_scatter_matrix` returns, for one voltage. -/
structure ScatMat where
  gs : List Hkl
  Q : Matrix (Fin gs.length) (Fin gs.length) ℂ
  xgp0 : ℝ
  lam : ℝ

/-- diffraction.py:424-661 `calc_helper_scatter_matrix` for one voltage: `sfs` are the scattering factors by name (lines 489-514 accept
"WK" and "Hybrid"), `mem` what `torch.empty` (line 633) leaves in the table. -/
noncomputable def scatMatrix (mem : ℤ → ℂ) (sfs : String → ScatterFactor) (name : String) (c : Crystal) (dmin kV : ℝ)
    (absorption shift : Bool) : Except Err ScatMat :=
  (diffs c dmin).bind fun ds =>
    if name ≠ "WK" ∧ name ≠ "Hybrid" then .error .valueError
    else (beams c dmin).map fun gs =>
      ⟨gs, fun i j => table mem (hklLimits c.l dmin) ds (qg (sfs name) c kV absorption shift)
          (flatIndex (hklLimits c.l dmin) (sub (gs.get j) (gs.get i))),
        extinction (upmod (sfs name) c kV absorption (0, 0, 0)) (mlambda (sfs name) c kV), mlambda (sfs name) c kV⟩

end Verif.Diff
