import Verif.Model.Cubo
/-!
Model of `ho2ax_reference` and `ho2ax_newton`, /repo/ebsdtorch/s2_and_so3/orientations.py:519-667, one vector at a time.
-/
namespace Verif.Cubo
open Verif

/-- orientations.py:542-563: the "kikuchipy" coefficients. -/
noncomputable def kikuchipyFit : List ℝ :=
  [1.0000000000018852, -0.5000000002194847, -0.024999992127593126, -0.003928701544781374, -0.0008152701535450438,
   -0.0002009500426119712, -0.00002397986776071756, -0.00008202868926605841, 0.00012448715042090092,
   -0.0001749114214822577, 0.0001703481934140054, -0.00012062065004116828, 0.000059719705868660826,
   -0.00001980756723965647, 0.000003953714684212874, -0.00000036555001439719544]

/-- orientations.py:566-592: the "EMsoft" coefficients. -/
noncomputable def emsoftFit : List ℝ :=
  [0.9999999999999968, -0.49999999999986866, -0.025000000000632055, -0.003928571496460683, -0.0008164666077062752,
   -0.00019411896443261646, -0.00004985822229871769, -0.000014164962366386031, -1.9000248160936107e-6,
   -5.72184549898506e-6, 7.772149920658778e-6, -0.00001053483452909705, 9.528014229335313e-6, -5.660288876265125e-6,
   1.2844901692764126e-6, 1.1255185726258763e-6, -1.3834391419956455e-6, 7.513691751164847e-7, -2.401996891720091e-7,
   4.386887017466388e-8, -3.5917775353564864e-9]

/-- orientations.py:541-597: selection by name; `none` is the `ValueError`. -/
noncomputable def referenceFit (coeffs : String) : Option (List ℝ) :=
  if coeffs = "kikuchipy" then some kikuchipyFit
  else if coeffs = "EMsoft" then some emsoftFit
  else none

/-- orientations.py:519-619 `ho2ax_reference`. -/
noncomputable def ho2axReference (ho : V) (coeffs : String) : Option AX :=
  (referenceFit coeffs).map fun fit =>
    let n := ho.x ^ 2 + ho.y ^ 2 + ho.z ^ 2
    let s := (fit.zipIdx.map fun ci => ci.1 * n ^ ci.2).sum
    if |n| < 1e-8 then ⟨⟨0, 0, 1⟩, 0⟩
    else ⟨V.smul (1 / Real.sqrt n) ho, 2 * Real.arccos (clamp1 s)⟩

/-- orientations.py:653-662: one Newton update (also lines 495-502).  NaN updates (0/0) count as 0, as in line 661. -/
noncomputable def newtonUpdate (h w : ℝ) : ℝ :=
  w - ((3 / 4 * (w - Real.sin w)) ^ ((1 : ℝ) / 3) - h)
    / ((1 - Real.cos w) / ((6 : ℝ) ^ ((2 : ℝ) / 3) * (w - Real.sin w) ^ ((2 : ℝ) / 3)))

/-- orientations.py:622-667 `ho2ax_newton`.  `single`: dtype float32 (two updates instead of three).  For `h > 15^(1/2)/2`
the code takes the square root of a negative number; such vectors lie outside the homochoric ball. -/
noncomputable def ho2axNewton (single : Bool) (ho : V) : AX :=
  let h := Real.sqrt (ho.x ^ 2 + ho.y ^ 2 + ho.z ^ 2)
  if h = 0 then ⟨⟨0, 0, 1⟩, 0⟩
  else
    let w0 := (15 - Real.sqrt (225 - 60 * h ^ 2)) / h
    ⟨V.smul (1 / Real.sqrt h) ho, (newtonUpdate h)^[if single then 2 else 3] w0⟩

end Verif.Cubo
