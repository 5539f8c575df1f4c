import Verif.Model.Geometry
import Verif.Props.SE3
import Mathlib.Analysis.Calculus.Deriv.Basic
/-!
C26 (Bruker round trip), C27 (projection round trip), C28 (frozen parameters), C29 (pixel coordinates).
-/
namespace Verif
open Spec

/-! ### C26 -/

theorem clamp1_cos (x : ℝ) : clamp1 (Real.cos x) = Real.cos x := by
  unfold clamp1
  rw [min_eq_left (Real.cos_le_one x), max_eq_right (Real.neg_one_le_cos x)]

theorem rad2deg_deg2rad (d : ℝ) : rad2deg (deg2rad d) = d := by
  unfold rad2deg deg2rad; field_simp [Real.pi_ne_zero]

theorem deg2rad_range {d : ℝ} (h0 : 0 ≤ d) (h1 : d ≤ 180) : 0 ≤ deg2rad d ∧ deg2rad d ≤ Real.pi := by
  have := Real.pi_pos
  unfold deg2rad
  constructor
  · positivity
  · have : d * (Real.pi / 180) ≤ 180 * (Real.pi / 180) := mul_le_mul_of_nonneg_right h1 (by positivity)
    linarith

theorem cos_deg_ne {d : ℝ} (h0 : 0 ≤ d) (h1 : d ≤ 180) (h2 : d ≠ 90) : Real.cos (deg2rad d) ≠ 0 := by
  have hp := Real.pi_pos
  have hr := deg2rad_range h0 h1
  rcases lt_or_gt_of_ne h2 with h | h
  · have : deg2rad d < Real.pi / 2 := by unfold deg2rad; nlinarith
    exact (Real.cos_pos_of_mem_Ioo ⟨by linarith, this⟩).ne'
  · have : Real.pi / 2 < deg2rad d := by unfold deg2rad; nlinarith
    exact (Real.cos_neg_of_pi_div_two_lt_of_lt this (by linarith)).ne

/-- The rotation of `bruker_geometry_to_SE3` is a proper rotation for all tilts. -/
theorem C26_rotation (primary secondary : ℝ) : IsRotation (brukerRot primary secondary) := by
  have ha := Real.sin_sq_add_cos_sq (deg2rad primary)
  have hs := Real.sin_sq_add_cos_sq (deg2rad secondary)
  unfold brukerRot
  simp only
  generalize Real.sin (deg2rad primary) = sa at *
  generalize Real.cos (deg2rad primary) = ca at *
  generalize Real.sin (deg2rad secondary) = ss at *
  generalize Real.cos (deg2rad secondary) = cs at *
  constructor
  · apply m3_ext
    intro i j
    fin_cases i <;> fin_cases j <;>
      simp [Matrix.mul_apply, Fin.sum_univ_three, Matrix.transpose_apply] <;>
      first
      | ring1
      | linear_combination ha + ca ^ 2 * hs
      | linear_combination hs
      | linear_combination ha + sa ^ 2 * hs
      | linear_combination sa * ca * hs
      | linear_combination (-sa * ca) * hs
  · simp [Matrix.det_fin_three]
    linear_combination ha * (ss^2 + cs^2) + hs

/-- C26 for non-negative tilts: pattern centre and both tilts are recovered.
Missing: negative primary tilts, which is what `EBSDGeometry` always passes (see `C26_fails`). -/
theorem C26_round_trip_partial (pc : V) (primary secondary rows cols : ℝ) (hr : rows ≠ 0) (hc : cols ≠ 0)
    (hp0 : 0 ≤ primary) (hp1 : primary ≤ 180) (hs0 : 0 ≤ secondary) (hs1 : secondary ≤ 180)
    (h90 : secondary ≠ 90) :
    brukerFromSE3 (brukerRot primary secondary) (brukerTrans pc primary secondary rows cols) rows cols
      = (pc, primary, secondary) := by
  have hcs := cos_deg_ne hs0 hs1 h90
  have hra := deg2rad_range hp0 hp1
  have hrs := deg2rad_range hs0 hs1
  have h1 : Real.arccos (clamp1 (brukerRot primary secondary 0 2 / brukerRot primary secondary 1 1))
      = deg2rad primary := by
    simp only [brukerRot, Matrix.of_apply, Matrix.cons_val]
    rw [mul_comm (Real.cos _), mul_div_assoc, div_self hcs, mul_one, clamp1_cos, Real.arccos_cos hra.1 hra.2]
  have h2 : Real.arccos (clamp1 (brukerRot primary secondary 1 1)) = deg2rad secondary := by
    simp only [brukerRot, Matrix.of_apply, Matrix.cons_val]
    rw [clamp1_cos, Real.arccos_cos hrs.1 hrs.2]
  have ha := Real.sin_sq_add_cos_sq (deg2rad primary)
  have hs := Real.sin_sq_add_cos_sq (deg2rad secondary)
  unfold brukerFromSE3
  simp only [h1, h2, rad2deg_deg2rad]
  refine Prod.ext (V.ext ?_ ?_ ?_) rfl
  all_goals
    simp only [brukerTrans]
    generalize Real.sin (deg2rad primary) = sa at *
    generalize Real.cos (deg2rad primary) = ca at *
    generalize Real.sin (deg2rad secondary) = ss at *
    generalize Real.cos (deg2rad secondary) = cs at *
    rw [div_eq_iff (by assumption)]
  · linear_combination (pc.x * cols - 1/2) * (ss ^ 2 * ha + hs) + pc.z * rows * ss * cs * ha
  · linear_combination (pc.y * rows - 1/2) * ha
  · linear_combination (pc.x * cols - 1/2) * ss * cs * ha + pc.z * rows * (cs ^ 2 * ha + hs)

example : (0:ℝ) ≤ 20 ∧ (20:ℝ) ≤ 180 ∧ (0:ℝ) ≤ 3 ∧ (3:ℝ) ≤ 180 ∧ (3:ℝ) ≠ 90 ∧ (60:ℝ) ≠ 0 := by norm_num

/-- For negative primary tilts the recovered tilt has the wrong sign (the sign is lost in `acos`). -/
theorem C26_sign_lost (pc : V) (primary secondary rows cols : ℝ)
    (hp0 : -180 ≤ primary) (hp1 : primary < 0) (hs0 : 0 ≤ secondary) (hs1 : secondary ≤ 180)
    (h90 : secondary ≠ 90) :
    (brukerFromSE3 (brukerRot primary secondary) (brukerTrans pc primary secondary rows cols) rows cols).2.1
      = -primary := by
  have hcs := cos_deg_ne hs0 hs1 h90
  have hra := deg2rad_range (d := -primary) (by linarith) (by linarith)
  have hn : deg2rad primary = -deg2rad (-primary) := by unfold deg2rad; ring
  have h1 : Real.arccos (clamp1 (brukerRot primary secondary 0 2 / brukerRot primary secondary 1 1))
      = deg2rad (-primary) := by
    simp only [brukerRot, Matrix.of_apply, Matrix.cons_val]
    rw [mul_comm (Real.cos _), mul_div_assoc, div_self hcs, mul_one, clamp1_cos, hn, Real.cos_neg,
      Real.arccos_cos hra.1 hra.2]
  unfold brukerFromSE3
  simp only [h1, rad2deg_deg2rad]

/-- C26 is violated at the default geometry (sample tilt 70°, detector tilt 0°, pattern centre `(½,½,½)`,
60×60 detector): `EBSDGeometry` passes the primary tilt `0 - 70`, and the recovered tilt is `+70`. -/
theorem C26_fails :
    (brukerFromSE3 (brukerRot (0 - 70) 0) (brukerTrans ⟨0.5, 0.5, 0.5⟩ (0 - 70) 0 60 60) 60 60).2.1 = 70 ∧
    (70 : ℝ) ≠ 0 - 70 := by
  constructor
  · rw [C26_sign_lost] <;> norm_num
  · norm_num

/-- ... and the pattern centre is wrong too: at a sample tilt of 45° the recovered `pcy` of `(½,½,½)` on a
60×60 detector is `(30 + ½)/60`, not `½`. -/
theorem C26_fails_pc :
    (brukerFromSE3 (brukerRot (0 - 45) 0) (brukerTrans ⟨0.5, 0.5, 0.5⟩ (0 - 45) 0 60 60) 60 60).1.y ≠ 0.5 := by
  have h45 : deg2rad (0 - 45) = -(Real.pi / 4) := by unfold deg2rad; ring
  have h0 : deg2rad 0 = 0 := by unfold deg2rad; ring
  have hp := Real.pi_pos
  have hs : Real.sin (Real.pi / 4) * Real.sin (Real.pi / 4) = 1 / 2 := by
    rw [Real.sin_pi_div_four]; nlinarith [Real.sq_sqrt (show (0:ℝ) ≤ 2 by norm_num)]
  have h1 : Real.arccos (clamp1 (brukerRot (0 - 45) 0 0 2 / brukerRot (0 - 45) 0 1 1)) = Real.pi / 4 := by
    simp only [brukerRot, Matrix.of_apply, Matrix.cons_val, h45, h0, Real.cos_zero, Real.cos_neg]
    rw [one_mul, div_one, clamp1_cos, Real.arccos_cos (by linarith) (by linarith)]
  unfold brukerFromSE3
  simp only [h1, brukerTrans, h45, h0, Real.cos_zero, Real.sin_zero, Real.cos_neg, Real.sin_neg]
  have e : Real.cos (Real.pi / 4) = Real.sin (Real.pi / 4) := by
    rw [Real.cos_pi_div_four, Real.sin_pi_div_four]
  rw [e]
  generalize Real.sin (Real.pi / 4) = u at *
  intro h
  rw [div_eq_iff (by norm_num)] at h
  ring_nf at h
  have hs' : u ^ 2 = 1 / 2 := by rw [sq]; exact hs
  rw [hs'] at h
  norm_num at h

/-! ### C28 -/

/-- Geometry states a program can reach: construction, then any mask changes and parameter updates. -/
inductive Reach : Geom → Prop
  | init (rows cols tilts pcs se3 r s) : Reach (Geom.init rows cols tilts pcs se3 r s)
  | setOpt {g} (r s) : Reach g → Reach (g.setOpt r s)
  | setVec {g} (v) : Reach g → Reach (g.setVec v)

/-- The flag `opt_se3` always says whether some component is live. -/
theorem C28_flag {g : Geom} (h : Reach g) : g.optSe3 = true ↔ ∃ i, g.mask i = true := by
  have key : ∀ m : Fin 6 → Bool, anyMask m = true ↔ ∃ i, m i = true := by
    intro m
    simp only [anyMask, Bool.or_eq_true, Fin.exists_fin_succ, Fin.isValue]
    simp
    tauto
  cases h with
  | init => exact key _
  | setOpt r s _ => exact key _
  | setVec v h' =>
    show _ ↔ _
    induction h' with
    | init => exact key _
    | setOpt r s _ => exact key _
    | setVec v h' ih => exact ih

/-- The history of mask requests, one `(opt_rots, opt_shifts)` per call. -/
abbrev MaskReq := Option (Fin 3 → Bool) × Option (Fin 3 → Bool)

/-- The last non-`None` request of a history, if any. -/
def lastSome {α : Type} : List (Option α) → Option α
  | [] => none
  | x :: xs => (lastSome xs).or x

/-- An interleaving of mask requests and parameter updates. -/
inductive GStep
  | opt (r : MaskReq)
  | vec (v : Fin 6 → ℝ)

/-- Run one call (geometry.py:233-255, or an optimiser step). -/
def GStep.run (g : Geom) : GStep → Geom
  | .opt r => g.setOpt r.1 r.2
  | .vec v => g.setVec v

/-- The rotation requests in a history. -/
def rotReqs : List GStep → List (Option (Fin 3 → Bool))
  | [] => []
  | .opt r :: xs => r.1 :: rotReqs xs
  | .vec _ :: xs => rotReqs xs
/-- The shift requests in a history. -/
def shiftReqs : List GStep → List (Option (Fin 3 → Bool))
  | [] => []
  | .opt r :: xs => r.2 :: shiftReqs xs
  | .vec _ :: xs => shiftReqs xs
/-- The parameter vectors written in a history. -/
def vecWrites : List GStep → List (Option (Fin 6 → ℝ))
  | [] => []
  | .opt _ :: xs => vecWrites xs
  | .vec v :: xs => some v :: vecWrites xs

/-- C28: after every history, each half of the mask is the last non-`None` request for that half (or the
initial mask), the parameter vector is the last one written, and nothing else changed. -/
theorem C28_history (g : Geom) (hist : List GStep) :
    let g' := hist.foldl GStep.run g
    (∀ i : Fin 3, g'.mask (Fin.castAdd 3 i) = ((lastSome (rotReqs hist)).getD fun i => g.mask (Fin.castAdd 3 i)) i) ∧
    (∀ i : Fin 3, g'.mask (Fin.natAdd 3 i) = ((lastSome (shiftReqs hist)).getD fun i => g.mask (Fin.natAdd 3 i)) i) ∧
    g'.vec = (lastSome (vecWrites hist)).getD g.vec ∧
    g'.pc = g.pc ∧ g'.rows = g.rows ∧ g'.cols = g.cols := by
  induction hist generalizing g with
  | nil => simp [rotReqs, shiftReqs, vecWrites, lastSome]
  | cons s xs ih =>
    obtain ⟨h1, h2, h3, h4, h5, h6⟩ := ih (s.run g)
    simp only [List.foldl_cons]
    refine ⟨fun i => (h1 i).trans ?_, fun i => (h2 i).trans ?_, h3.trans ?_, ?_, ?_, ?_⟩
    · cases s with
      | vec v => simp [rotReqs, GStep.run, Geom.setVec]
      | opt r =>
        obtain ⟨r, t⟩ := r
        simp only [rotReqs, lastSome, GStep.run]
        cases lastSome (rotReqs xs) with
        | some a => simp
        | none =>
          cases r <;> cases t <;> simp [Geom.setOpt] <;> fin_cases i <;> simp <;> rfl
    · cases s with
      | vec v => simp [shiftReqs, GStep.run, Geom.setVec]
      | opt r =>
        obtain ⟨r, t⟩ := r
        simp only [shiftReqs, lastSome, GStep.run]
        cases lastSome (shiftReqs xs) with
        | some a => simp
        | none =>
          cases r <;> cases t <;> simp [Geom.setOpt] <;> fin_cases i <;> simp <;> rfl
    · cases s with
      | opt r => simp [vecWrites, GStep.run, Geom.setOpt]
      | vec v =>
        simp only [vecWrites, lastSome, GStep.run, Geom.setVec]
        cases lastSome (vecWrites xs) <;> simp
    all_goals cases s <;> simpa [GStep.run, Geom.setOpt, Geom.setVec] using by assumption

/-- C28: a component whose mask entry is `False` contributes nothing: two geometries with the same base pose
and mask which agree on the live components have the same `get_detector2sample`. -/
theorem C28_frozen (g : Geom) (v : Fin 6 → ℝ) (hv : ∀ i, g.mask i = true → v i = g.vec i) :
    (g.setVec v).detector2sample = g.detector2sample := by
  have : (g.setVec v).masked = g.masked := by
    have e : ∀ i, v i * (if g.mask i then 1 else 0) = g.vec i * (if g.mask i then (1:ℝ) else 0) := by
      intro i
      cases h : g.mask i with
      | true => rw [hv i h]
      | false => simp
    exact Twist.ext (V.ext (e 0) (e 1) (e 2)) (V.ext (e 3) (e 4) (e 5))
  unfold Geom.detector2sample
  rw [this]
  rfl

/-- C28: with every component frozen the transformation is exactly the base pose, whatever the parameter. -/
theorem C28_all_frozen (g : Geom) (h : g.optSe3 = false) (hr : Reach g) :
    g.detector2sample = (Geom.setVec g fun _ => 0).detector2sample := by
  symm
  apply C28_frozen
  intro i hi
  have := (C28_flag hr).2 ⟨i, hi⟩
  simp [h] at this

/-- C28: the derivative of any loss of the pose in the direction of a frozen component is zero, so that no
gradient step moves a frozen component. -/
theorem C28_gradient (g : Geom) (L : M3 × V → ℝ) (i : Fin 6) (hi : g.mask i = false) (x : ℝ) :
    HasDerivAt (fun y => L ((g.setVec (Function.update g.vec i y)).detector2sample)) 0 x := by
  have : (fun y => L ((g.setVec (Function.update g.vec i y)).detector2sample)) = fun _ => L g.detector2sample := by
    funext y
    rw [C28_frozen]
    intro j hj
    by_cases h : j = i
    · subst h; rw [hi] at hj; cases hj
    · rw [Function.update_of_ne h]
  rw [this]
  exact hasDerivAt_const x _

example : Reach ((Geom.init 60 60 ⟨0, 70, 0⟩ ⟨0.5, 0.5, 0.5⟩ none (fun _ => false) (fun _ => true)).setOpt
    (some fun i => i = 0) none) := .setOpt _ _ (.init _ _ _ _ _ _ _)

/-! ### C27 -/

theorem reach_pc {g : Geom} (h : Reach g) : ∃ a s t, g.pc = se3Mat (brukerRot a s) t := by
  induction h with
  | init => exact ⟨_, _, _, rfl⟩
  | setOpt _ _ _ ih => exact ih
  | setVec _ _ ih => exact ih

theorem se3Mat_mul (A B : M3) (s t : V) : se3Mat A s * se3Mat B t = se3Mat (A * B) (V.add (mulV A t) s) := by
  ext i j
  fin_cases i <;> fin_cases j <;>
    simp [se3Mat, Matrix.mul_apply, Fin.sum_univ_three, Fin.sum_univ_four, V.add, mulV]

theorem det2samp_eq {g : Geom} {A : M3} {s : V} (h : g.pc = se3Mat A s) :
    g.detector2sample = (A * (wExpVmat g.masked.w).1,
      V.add (mulV A (mulV (wExpVmat g.masked.w).2 g.masked.t)) s) := by
  unfold Geom.detector2sample se3ExpOm
  rw [h, se3Mat_mul]
  simp only
  refine Prod.ext ?_ ?_
  · apply m3_ext
    intro i j
    fin_cases i <;> fin_cases j <;> simp [se3Mat]
  · ext <;> simp [se3Mat]

theorem wExp_orth {w : V} (h : w = ⟨0, 0, 0⟩ ∨ 0.001 < w.norm) :
    (wExpVmat w).1 * (wExpVmat w).1.transpose = 1 := by
  rcases h with rfl | h
  · have : (V.mk 0 0 0).norm = 0 := by simp [V.norm]
    have hk : skew ⟨0, 0, 0⟩ = 0 := by apply m3_ext; intro i j; fin_cases i <;> fin_cases j <;> simp [skew]
    unfold wExpVmat
    simp only
    rw [if_neg (by rw [this]; norm_num), hk]
    simp
  · unfold wExpVmat; simp only; rw [if_pos h, exp_rodrigues (by linarith)]
    exact (qu2om_isRotation (ax2qu_unit (axis_unit (by linarith)))).1

theorem det2samp_orth {g : Geom} (hr : Reach g) (h : g.masked.w = ⟨0, 0, 0⟩ ∨ 0.001 < g.masked.w.norm) :
    g.detector2sample.1 * g.detector2sample.1.transpose = 1 := by
  obtain ⟨a, s, t, hpc⟩ := reach_pc hr
  rw [det2samp_eq hpc]
  simp only [Matrix.transpose_mul]
  rw [Matrix.mul_assoc, ← Matrix.mul_assoc _ _ (brukerRot a s).transpose, wExp_orth h, Matrix.one_mul,
    (C26_rotation a s).1]

theorem vmul_mulV {R : M3} (h : R * R.transpose = 1) (v : V) : vmul (mulV R v) R = v := by
  have h' : R.transpose * R = 1 := mul_eq_one_comm.1 h
  have e : ∀ i j, (R.transpose * R) i j = (1 : M3) i j := fun i j => by rw [h']
  simp only [Matrix.mul_apply, Fin.sum_univ_three, Matrix.transpose_apply] at e
  have e00 : _ = (1:ℝ) := e 0 0
  have e01 : _ = (0:ℝ) := e 0 1
  have e02 : _ = (0:ℝ) := e 0 2
  have e10 : _ = (0:ℝ) := e 1 0
  have e11 : _ = (1:ℝ) := e 1 1
  have e12 : _ = (0:ℝ) := e 1 2
  have e20 : _ = (0:ℝ) := e 2 0
  have e21 : _ = (0:ℝ) := e 2 1
  have e22 : _ = (1:ℝ) := e 2 2
  ext <;> simp only [vmul, mulV]
  · linear_combination v.x * e00 + v.y * e01 + v.z * e02
  · linear_combination v.x * e10 + v.y * e11 + v.z * e12
  · linear_combination v.x * e20 + v.y * e21 + v.z * e22

theorem mulV_vmul {R : M3} (h : R * R.transpose = 1) (v : V) : mulV R (vmul v R) = v := by
  have h2 := vmul_mulV (R := R.transpose) (by rw [Matrix.transpose_transpose]; exact mul_eq_one_comm.1 h) v
  have : mulV R (vmul v R) = vmul (mulV R.transpose v) R.transpose := by
    ext <;> simp [mulV, vmul, Matrix.transpose_apply] <;> ring
  rw [this, h2]

/-- The common part of the back-projection with the ray origin `c` (zero when no scan point is given). -/
noncomputable def backCore (d : M3 × V) (ray c : V) : ℝ × ℝ :=
  let origin := vmul (V.add (V.smul (-1) d.2) c) d.1
  let r := V.sub (vmul (V.sub (V.add ray c) d.2) d.1) origin
  (origin.x + -origin.z / r.z * r.x, origin.y + -origin.z / r.z * r.y)

theorem back_eq (g : Geom) (ray : V) (scan : Option (ℝ × ℝ)) :
    g.backproject2detector ray scan
      = backCore g.detector2sample ray (match scan with | some c => ⟨c.1, c.2, 0⟩ | none => ⟨0, 0, 0⟩) := by
  cases scan <;> simp [Geom.backproject2detector, backCore, V.add]

theorem proj_eq (g : Geom) (px py : ℝ) (scan : Option (ℝ × ℝ)) :
    g.project2sample px py scan = V.sub (V.add (mulV g.detector2sample.1 ⟨px, py, 0⟩) g.detector2sample.2)
      (match scan with | some c => ⟨c.1, c.2, 0⟩ | none => ⟨0, 0, 0⟩) := by
  cases scan <;> simp [Geom.project2sample, V.sub]

/-- The round trip for a general linear map: only `R Rᵀ = 1` matters. -/
theorem back_proj_core {d : M3 × V} (h : d.1 * d.1.transpose = 1) (c : V) (px py : ℝ)
    (hne : ∀ qx qy : ℝ, V.sub (V.add (mulV d.1 ⟨qx, qy, 0⟩) d.2) c ≠ ⟨0, 0, 0⟩) :
    backCore d (V.sub (V.add (mulV d.1 ⟨px, py, 0⟩) d.2) c) c = (px, py) := by
  unfold backCore
  simp only
  have htip : vmul (V.sub (V.add (V.sub (V.add (mulV d.1 ⟨px, py, 0⟩) d.2) c) c) d.2) d.1 = ⟨px, py, 0⟩ := by
    rw [← vmul_mulV h ⟨px, py, 0⟩]
    congr 1
    rw [vmul_mulV h]
    ext <;> simp [V.sub, V.add]
  rw [htip]
  set o := vmul (V.add (V.smul (-1) d.2) c) d.1 with ho
  have hoz : o.z ≠ 0 := by
    intro hz
    apply hne o.x o.y
    have h1 : (⟨o.x, o.y, 0⟩ : V) = o := by ext <;> simp [hz]
    rw [h1, ho, mulV_vmul h]
    ext <;> simp [V.sub, V.add, V.smul]
  simp only [V.sub, zero_sub]
  rw [neg_div_neg_eq, div_self hoz]
  ext <;> simp

/-- C27 for an exactly orthogonal pose (all rotation components frozen or zero, or a rotation angle above the
small-angle switch 0.001 of the exponential map): for every reachable geometry, every scan position that is not
itself in the detector plane, and every detector coordinate, back-projecting the projected coordinate returns it.
Missing: rotation angles in `(0, 0.001]`, where the truncated series is not orthogonal (`C27_fails`). -/
theorem C27_round_trip_partial {g : Geom} (hr : Reach g)
    (hw : g.masked.w = ⟨0, 0, 0⟩ ∨ 0.001 < g.masked.w.norm) (scan : Option (ℝ × ℝ)) (px py : ℝ)
    (hne : ∀ qx qy : ℝ, g.project2sample qx qy scan ≠ ⟨0, 0, 0⟩) :
    g.backproject2detector (g.project2sample px py scan) scan = (px, py) := by
  rw [back_eq, proj_eq]
  apply back_proj_core (det2samp_orth hr hw)
  intro qx qy
  rw [← proj_eq]
  exact hne qx qy

/-- C27: scaling a ray does not change its back-projection (the projection is projective). -/
theorem C27_scale (g : Geom) (ray : V) (scan : Option (ℝ × ℝ)) (k : ℝ) (hk : k ≠ 0) :
    g.backproject2detector (V.smul k ray) scan = g.backproject2detector ray scan := by
  rw [back_eq, back_eq]
  generalize (match scan with | some c => (⟨c.1, c.2, 0⟩ : V) | none => ⟨0, 0, 0⟩) = c
  have e : ∀ r : V, V.sub (vmul (V.sub (V.add r c) g.detector2sample.2) g.detector2sample.1)
      (vmul (V.add (V.smul (-1) g.detector2sample.2) c) g.detector2sample.1) = vmul r g.detector2sample.1 := by
    intro r; ext <;> simp only [V.sub, V.add, V.smul, vmul] <;> ring
  have e2 : vmul (V.smul k ray) g.detector2sample.1 = V.smul k (vmul ray g.detector2sample.1) := by
    ext <;> simp only [V.smul, vmul] <;> ring
  unfold backCore
  simp only [e, e2]
  generalize vmul ray g.detector2sample.1 = u
  generalize vmul (V.add (V.smul (-1) g.detector2sample.2) c) g.detector2sample.1 = o
  have key : ∀ y : ℝ, -o.z / (k * u.z) * (k * y) = -o.z / u.z * y := by
    intro y
    by_cases hz : u.z = 0
    · simp [hz]
    · field_simp
  ext <;> simp only [V.smul, key]

/-- An untilted geometry with a small in-plane rotation `θ` about the detector normal. -/
noncomputable def tiltedSmall (th : ℝ) : Geom :=
  Geom.init 60 60 ⟨0, 0, 0⟩ ⟨0.5, 0.5, 0.5⟩ (some fun i => if i = 2 then th else 0) (fun _ => true) (fun _ => false)

theorem tiltedSmall_d2s (th : ℝ) (h0 : 0 ≤ th) (h1 : th ≤ 0.001) :
    (tiltedSmall th).detector2sample =
      (brukerRot 0 0 * !![1 - (1/2 - th^2/24) * th^2, -((1 - th^2/6) * th), 0;
                         (1 - th^2/6) * th, 1 - (1/2 - th^2/24) * th^2, 0; 0, 0, 1],
       brukerTrans ⟨0.5, 0.5, 0.5⟩ 0 0 60 60) := by
  have hw : (tiltedSmall th).masked = ⟨⟨0, 0, th⟩, ⟨0, 0, 0⟩⟩ := by
    simp [tiltedSmall, Geom.init, Geom.masked, catMask]
  have hn : (V.mk 0 0 th).norm = th := by simp [V.norm, Real.sqrt_sq h0]
  rw [det2samp_eq (A := brukerRot (0 - 0) 0) (s := brukerTrans ⟨0.5, 0.5, 0.5⟩ (0 - 0) 0 60 60)
    (by simp [tiltedSmall, Geom.init]), hw]
  simp only [sub_zero]
  refine Prod.ext ?_ ?_
  · simp only
    congr 1
    unfold wExpVmat
    simp only
    rw [if_neg (by rw [hn]; linarith), hn]
    apply m3_ext
    intro i j
    fin_cases i <;> fin_cases j <;>
      simp [skew, Matrix.mul_apply, Fin.sum_univ_three, Matrix.add_apply] <;> ring
  · ext <;> simp [V.add, mulV]

/-- C27 is violated for small rotations: an in-plane rotation by 0.001 rad scales the returned coordinate. -/
theorem C27_fails :
    Reach (tiltedSmall 0.001) ∧
    (∀ qx qy : ℝ, (tiltedSmall 0.001).project2sample qx qy none ≠ ⟨0, 0, 0⟩) ∧
    (tiltedSmall 0.001).backproject2detector ((tiltedSmall 0.001).project2sample 1 0 none) none ≠ (1, 0) := by
  have hd := tiltedSmall_d2s 0.001 (by norm_num) (by norm_num)
  have hb : brukerRot 0 0 = !![0, 0, 1; 0, 1, 0; -1, 0, 0] := by
    simp [brukerRot, deg2rad]
  have ht : brukerTrans ⟨0.5, 0.5, 0.5⟩ 0 0 60 60 = ⟨30, -29.5, 29.5⟩ := by
    ext <;> simp [brukerTrans, deg2rad] <;> norm_num
  have hmul : ∀ a c : ℝ, (!![0, 0, 1; 0, 1, 0; -1, 0, 0] : M3) * !![a, -c, 0; c, a, 0; 0, 0, 1]
      = !![0, 0, 1; c, a, 0; -a, c, 0] := by
    intro a c
    apply m3_ext
    intro i j
    fin_cases i <;> fin_cases j <;> simp [Matrix.mul_apply, Fin.sum_univ_three]
  rw [hb, ht, hmul] at hd
  refine ⟨.init _ _ _ _ _ _ _, fun qx qy h => ?_, fun h => ?_⟩
  · have hx := congrArg V.x h
    simp only [proj_eq, hd, V.sub, V.add, mulV, Matrix.of_apply, Matrix.cons_val] at hx
    norm_num at hx
  · have hx := congrArg Prod.fst h
    simp only [proj_eq, back_eq, hd, backCore, vmul, V.smul, V.sub, V.add, mulV, Matrix.of_apply,
      Matrix.cons_val] at hx
    norm_num at hx

/-- The hypotheses of `C27_round_trip_partial` are met by an untilted detector with all rotations live at zero. -/
example : Reach (tiltedSmall 0) ∧ (tiltedSmall 0).masked.w = ⟨0, 0, 0⟩ ∧
    ∀ qx qy : ℝ, (tiltedSmall 0).project2sample qx qy (some (3, 4)) ≠ ⟨0, 0, 0⟩ := by
  have hd := tiltedSmall_d2s 0 le_rfl (by norm_num)
  have hb : brukerRot 0 0 = !![0, 0, 1; 0, 1, 0; -1, 0, 0] := by
    simp [brukerRot, deg2rad]
  have ht : brukerTrans ⟨0.5, 0.5, 0.5⟩ 0 0 60 60 = ⟨30, -29.5, 29.5⟩ := by
    ext <;> simp [brukerTrans, deg2rad] <;> norm_num
  refine ⟨.init _ _ _ _ _ _ _, by simp [tiltedSmall, Geom.init, Geom.masked, catMask], fun qx qy h => ?_⟩
  rw [hb, ht] at hd
  have hx := congrArg V.x h
  simp only [proj_eq, hd, V.sub, V.add, mulV] at hx
  simp [Matrix.mul_apply, Fin.sum_univ_three] at hx
  norm_num at hx

/-! ### C29 -/

/-- What a user expects: the centres of the `n/b` blocks of `b` consecutive pixels `b k, …, b k + b - 1`:
the mean of the pixel indices of block `k`. -/
noncomputable def blockCentre (b k : ℕ) : ℝ := (∑ p ∈ Finset.range b, ((b * k + p : ℕ) : ℝ)) / b

theorem blockCentre_eq {b : ℕ} (hb : b ≠ 0) (k : ℕ) : blockCentre b k = b * k + (b - 1) / 2 := by
  have hb' : (b : ℝ) ≠ 0 := by exact_mod_cast hb
  have : ∑ p ∈ Finset.range b, ((b * k + p : ℕ) : ℝ) = b * (b * k) + b * (b - 1) / 2 := by
    push_cast
    rw [Finset.sum_add_distrib, Finset.sum_const, Finset.card_range, nsmul_eq_mul]
    congr 1
    have h2 := Finset.sum_range_id_mul_two b
    have : ((∑ i ∈ Finset.range b, i : ℕ) : ℝ) * 2 = b * (b - 1) := by
      have h3 : (((∑ i ∈ Finset.range b, i) * 2 : ℕ) : ℝ) = ((b * (b - 1) : ℕ) : ℝ) := by rw [h2]
      rw [Nat.cast_mul, Nat.cast_mul, Nat.cast_sub (Nat.one_le_iff_ne_zero.2 hb)] at h3
      simpa using h3
    push_cast at this
    linarith
  unfold blockCentre
  rw [this]
  field_simp

/-- C29, the part that holds: shapes that are not multiples of the binning are rejected, the number of
coordinates is `(H/b)(W/b)`, and the first coordinate of an axis is the first block centre.
Missing: the other block centres (`C29_axis_exact_iff`, `C29_fails`). -/
theorem C29_shape_partial (g : Geom) (bi bj : ℕ) (hi : bi ≠ 0) (hj : bj ≠ 0) :
    ((g.pixelCoords bi bj).isSome ↔ bi ∣ g.rows ∧ bj ∣ g.cols) ∧
    (∀ l, g.pixelCoords bi bj = some l → l.length = (g.rows / bi) * (g.cols / bj)) ∧
    (∀ l, g.coordsSampleFrame bi bj = some l → l.length = (g.rows / bi) * (g.cols / bj)) := by
  have hlen : ∀ l, g.pixelCoords bi bj = some l → l.length = (g.rows / bi) * (g.cols / bj) := by
    intro l h
    unfold Geom.pixelCoords at h
    split_ifs at h
    have := Option.some.inj h
    subst this
    have ha : ∀ n b, (axisCoords n b).length = n / b := by intro n b; simp [axisCoords, linspace]
    rw [List.length_flatMap]
    simp [ha]
  refine ⟨?_, hlen, ?_⟩
  · unfold Geom.pixelCoords
    rw [if_neg (by tauto), Nat.dvd_iff_mod_eq_zero, Nat.dvd_iff_mod_eq_zero]
    by_cases h1 : g.rows % bi = 0 <;> by_cases h2 : g.cols % bj = 0 <;> simp [h1, h2]
  · intro l h
    unfold Geom.coordsSampleFrame at h
    cases hp : g.pixelCoords bi bj with
    | none => simp [hp] at h
    | some m =>
      rw [hp] at h
      have := Option.some.inj h
      rw [← this, List.length_map, hlen m hp]

/-- C29, exact account of one axis: with `n = b m` pixels, the code returns the `m` block centres only when
`m ≤ 1`; for `m ≥ 2` every coordinate but the first is too large. -/
theorem C29_axis_exact_iff_partial (b m : ℕ) (hb : b ≠ 0) :
    (axisCoords (b * m) b).length = m ∧
    (∀ k (hk : k < (axisCoords (b * m) b).length),
      (axisCoords (b * m) b)[k] = blockCentre b k + k / ((m : ℝ) - 1)) ∧
    (axisCoords (b * m) b = (List.range m).map (blockCentre b) ↔ m ≤ 1) := by
  have hdiv : b * m / b = m := Nat.mul_div_cancel_left m (Nat.pos_of_ne_zero hb)
  have hl : (axisCoords (b * m) b).length = m := by simp [axisCoords, linspace, hdiv]
  have hget : ∀ k (hk : k < (axisCoords (b * m) b).length),
      (axisCoords (b * m) b)[k] = blockCentre b k + k / ((m : ℝ) - 1) := by
    intro k hk
    rw [blockCentre_eq hb]
    simp only [axisCoords, linspace, List.getElem_ofFn, hdiv]
    rw [hl] at hk
    rw [Fin.val_cast]
    simp only
    push_cast
    by_cases hm : m = 1
    · subst hm
      have : k = 0 := by omega
      subst this; norm_num; ring
    · have : (m : ℝ) - 1 ≠ 0 := by
        intro h; apply hm; exact_mod_cast (by linarith : (m : ℝ) = 1)
      field_simp
      ring
  refine ⟨hl, hget, fun h => ?_, fun h => ?_⟩
  · by_contra hm
    have h1 : 1 < (axisCoords (b * m) b).length := by omega
    have := hget 1 h1
    have e : (axisCoords (b * m) b)[1] = blockCentre b 1 := by
      simp only [h, List.getElem_map, List.getElem_range]
    rw [e] at this
    have hm' : (m : ℝ) - 1 ≠ 0 := by
      intro h0
      have : m = 1 := by exact_mod_cast (by linarith : (m : ℝ) = 1)
      omega
    have : ((1 : ℕ) : ℝ) / ((m : ℝ) - 1) ≠ 0 := by simpa using hm'
    apply this; linarith
  · apply List.ext_getElem
    · simp [hl]
    · intro k h1 h2
      rw [hget k h1]
      have : k = 0 := by rw [hl] at h1; omega
      subst this; simp

/-- C29 is violated on a 4-pixel axis without binning: `0, 4/3, 8/3, 4` instead of `0, 1, 2, 3`. -/
theorem C29_fails : axisCoords 4 1 = [0, 4/3, 8/3, 4] ∧ (List.range 4).map (blockCentre 1) = [0, 1, 2, 3] := by
  constructor
  · simp [axisCoords, linspace, List.ofFn_succ]
    norm_num
  · simp [List.range_succ, blockCentre]

end Verif
