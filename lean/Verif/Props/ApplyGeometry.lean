import Verif.Model.ApplyGeometry
import Verif.Props.Hrebsd
/-! C173: directions of detector pixels computed by `apply_geometry`. -/
namespace Verif.Fit
open Verif Verif.Spec Verif.Hr

/-! ### Specification -/

/-- `d` is the direction in which `w` is seen from the origin. -/
def IsDirection (d w : V) : Prop := IsUnit3 d ∧ ∃ k : ℝ, 0 < k ∧ w = V.smul k d

/-- The point of the sample frame where the detector point `p` sits. -/
def place (R : M3) (t p : V) : V := V.add (mulV R p) t

/-! ### Proof -/

theorem unitOf_direction {w : V} (h : w ≠ ⟨0, 0, 0⟩) : IsDirection (unitOf w) w := by
  have hp : 0 < w.norm := lt_of_le_of_ne (norm_nonneg w) (fun h' => h ((norm_pos_iff w).mp h'.symm))
  refine ⟨unitOf_unit h, w.norm, hp, ?_⟩
  ext <;> simp only [V.smul, unitOf] <;> field_simp

theorem direction_unique {d e w : V} (hd : IsDirection d w) (he : IsDirection e w) : d = e := by
  obtain ⟨ud, k, k0, hk⟩ := hd
  obtain ⟨ue, l, l0, hl⟩ := he
  rw [hk] at hl
  have hx : k * d.x = l * e.x := congrArg V.x hl
  have hy : k * d.y = l * e.y := congrArg V.y hl
  have hz : k * d.z = l * e.z := congrArg V.z hl
  unfold IsUnit3 at ud ue
  have hkl : k ^ 2 = l ^ 2 := by
    calc k ^ 2 = (k * d.x) ^ 2 + (k * d.y) ^ 2 + (k * d.z) ^ 2 := by linear_combination -k ^ 2 * ud
      _ = (l * e.x) ^ 2 + (l * e.y) ^ 2 + (l * e.z) ^ 2 := by rw [hx, hy, hz]
      _ = l ^ 2 := by linear_combination l ^ 2 * ue
  have : k = l := (pow_left_inj₀ k0.le l0.le two_ne_zero).mp hkl
  subst this
  ext
  · exact mul_left_cancel₀ k0.ne' hx
  · exact mul_left_cancel₀ k0.ne' hy
  · exact mul_left_cancel₀ k0.ne' hz

/-- **C173.**  `apply_geometry` returns the direction of the pixel's place in the sample frame, and NaN only for the place of the source. -/
theorem C173_direction (p : V) (R : M3) (t : V) :
    (applyGeometry p R t = none ↔ place R t p = ⟨0, 0, 0⟩) ∧ ∀ d, applyGeometry p R t = some d ↔ IsDirection d (place R t p) := by
  refine ⟨normalize_none, fun d => ⟨fun h => ?_, fun h => ?_⟩⟩
  · by_cases h0 : place R t p = ⟨0, 0, 0⟩
    · have : applyGeometry p R t = none := normalize_none.mpr h0
      rw [this] at h
      exact absurd h (by simp)
    · have : applyGeometry p R t = some (unitOf (place R t p)) := normalize_eq h0
      rw [this, Option.some.injEq] at h
      exact h ▸ unitOf_direction h0
  · have h0 : place R t p ≠ ⟨0, 0, 0⟩ := fun h0 => by
      obtain ⟨u, k, k0, hk⟩ := h
      rw [h0] at hk
      have hx : 0 = k * d.x := congrArg V.x hk
      have hy : 0 = k * d.y := congrArg V.y hk
      have hz : 0 = k * d.z := congrArg V.z hk
      have e : ∀ c : ℝ, 0 = k * c → c = 0 := fun c hc => (mul_eq_zero.mp hc.symm).resolve_left k0.ne'
      unfold IsUnit3 at u
      rw [e _ hx, e _ hy, e _ hz] at u
      norm_num at u
    have : applyGeometry p R t = some (unitOf (place R t p)) := normalize_eq h0
    rw [this, direction_unique (unitOf_direction h0) h]

/-- **C173.**  For an orthogonal matrix and a source outside the detector plane (the third coordinate of `Rᵀ t` is not zero)
every pixel `(x, y, 0)` has a direction, and different pixels have different directions. -/
theorem C173_distinct {R : M3} (hR : R * R.transpose = 1) {t : V} (ht : (mulV R.transpose t).z ≠ 0) (x y x' y' : ℝ) :
    applyGeometry ⟨x, y, 0⟩ R t ≠ none ∧ (applyGeometry ⟨x, y, 0⟩ R t = applyGeometry ⟨x', y', 0⟩ R t → x = x' ∧ y = y') := by
  have e : ∀ w : V, mulV R.transpose w = vmul w R := fun w => by
    ext <;> simp [mulV, vmul, Matrix.transpose_apply] <;> ring
  have back : ∀ a b : ℝ, mulV R.transpose (place R t ⟨a, b, 0⟩) = V.add ⟨a, b, 0⟩ (mulV R.transpose t) := fun a b => by
    have h := vmul_mulV hR ⟨a, b, 0⟩
    rw [e, e]
    have : vmul (place R t ⟨a, b, 0⟩) R = V.add (vmul (mulV R ⟨a, b, 0⟩) R) (vmul t R) := by
      ext <;> simp only [vmul, place, V.add] <;> ring
    rw [this, h]
  have hne : ∀ a b : ℝ, place R t ⟨a, b, 0⟩ ≠ ⟨0, 0, 0⟩ := fun a b h => by
    have h1 := back a b
    rw [h, mulV_zero] at h1
    have : (0 : ℝ) = 0 + (mulV R.transpose t).z := congrArg V.z h1
    exact ht (by linarith)
  refine ⟨fun h => hne x y ((C173_direction _ R t).1.mp h), fun h => ?_⟩
  have hd : applyGeometry ⟨x, y, 0⟩ R t = some (unitOf (place R t ⟨x, y, 0⟩)) := normalize_eq (hne x y)
  obtain ⟨-, k, k0, hk⟩ := ((C173_direction _ R t).2 _).mp hd
  obtain ⟨-, l, l0, hl⟩ := ((C173_direction _ R t).2 _).mp (h ▸ hd)
  set d := unitOf (place R t ⟨x, y, 0⟩)
  have b1 := back x y
  have b2 := back x' y'
  rw [hk, mulV_smul] at b1
  rw [hl, mulV_smul] at b2
  set s := mulV R.transpose t
  set g := mulV R.transpose d
  have z1 : k * g.z = 0 + s.z := congrArg V.z b1
  have z2 : l * g.z = 0 + s.z := congrArg V.z b2
  have gz : g.z ≠ 0 := fun h0 => ht (by rw [h0] at z1; linarith)
  have : k = l := mul_right_cancel₀ gz (z1.trans z2.symm)
  subst this
  have x1 : k * g.x = x + s.x := congrArg V.x b1
  have x2 : k * g.x = x' + s.x := congrArg V.x b2
  have y1 : k * g.y = y + s.y := congrArg V.y b1
  have y2 : k * g.y = y' + s.y := congrArg V.y b2
  constructor <;> linarith

/-- **C173.**  A geometry from `bruker_geometries_to_SE3` has its source outside the detector plane exactly when the detector distance is not zero. -/
theorem C173_bruker (pc : V) (primary secondary rows cols : ℝ) :
    (mulV (brukerRot primary secondary).transpose (brukerTrans pc primary secondary rows cols)).z = pc.z * rows := by
  have ha := Real.sin_sq_add_cos_sq (deg2rad primary)
  have hs := Real.sin_sq_add_cos_sq (deg2rad secondary)
  simp only [mulV, brukerRot, brukerTrans, Matrix.transpose_apply]
  simp
  generalize Real.sin (deg2rad primary) = sa at *
  generalize Real.cos (deg2rad primary) = ca at *
  generalize Real.sin (deg2rad secondary) = ss at *
  generalize Real.cos (deg2rad secondary) = cs at *
  linear_combination (pc.x * cols * ss * cs + pc.z * rows * cs ^ 2 - ss * cs / 2) * ha + (pc.z * rows) * hs

/-- **C173.**  The directions do not depend on the unit of length, and turn with the sample frame. -/
theorem C173_scale_rotate (p : V) (R : M3) (t : V) :
    (∀ c : ℝ, 0 < c → applyGeometry (V.smul c p) R (V.smul c t) = applyGeometry p R t) ∧
    ∀ S : M3, S * S.transpose = 1 → applyGeometry p (S * R) (mulV S t) = (applyGeometry p R t).map (mulV S) := by
  constructor
  · intro c hc
    unfold applyGeometry
    have : V.add (mulV R (V.smul c p)) (V.smul c t) = V.smul c (V.add (mulV R p) t) := by
      ext <;> simp only [V.add, V.smul, mulV] <;> ring
    rw [this, normalize_smul hc]
  · intro S hS
    have hp : place (S * R) (mulV S t) p = mulV S (place R t p) := by
      ext <;> simp only [place, V.add, mulV, Matrix.mul_apply, Fin.sum_univ_three] <;> ring
    cases h : applyGeometry p R t with
    | none =>
      rw [Option.map_none, (C173_direction _ _ _).1, hp, (C173_direction _ _ _).1.mp h, mulV_zero]
    | some d =>
      rw [Option.map_some, (C173_direction _ _ _).2, hp]
      obtain ⟨u, k, k0, hk⟩ := ((C173_direction _ _ _).2 _).mp h
      refine ⟨?_, k, k0, by rw [hk, mulV_smul]⟩
      have h' : S.transpose * S = 1 := mul_eq_one_comm.1 hS
      have e : ∀ i j, (S.transpose * S) i j = (1 : M3) i j := fun i j => by rw [h']
      simp only [Matrix.mul_apply, Fin.sum_univ_three, Matrix.transpose_apply] at e
      have e00 : _ = (1:ℝ) := e 0 0
      have e01 : _ = (0:ℝ) := e 0 1
      have e02 : _ = (0:ℝ) := e 0 2
      have e11 : _ = (1:ℝ) := e 1 1
      have e12 : _ = (0:ℝ) := e 1 2
      have e22 : _ = (1:ℝ) := e 2 2
      unfold IsUnit3 at u ⊢
      simp only [mulV]
      linear_combination u + d.x ^ 2 * e00 + d.y ^ 2 * e11 + d.z ^ 2 * e22 + 2 * d.x * d.y * e01 + 2 * d.x * d.z * e02 + 2 * d.y * d.z * e12

theorem mulV_one' (v : V) : mulV 1 v = v := by
  ext <;> simp [mulV]

/-! ### Non-vacuity -/

/-- A detector of 60 × 80 pixels at 0.6 heights, tilted by 20 and 3 degrees. -/
example (x y x' y' : ℝ) := C173_distinct (C26_rotation 20 3).1 (t := brukerTrans ⟨0.5, 0.4, 0.6⟩ 20 3 60 80)
  (by rw [C173_bruker]; norm_num) x y x' y'

example : applyGeometry ⟨3, 0, 0⟩ 1 ⟨0, 4, 0⟩ = some ⟨3 / 5, 4 / 5, 0⟩ := by
  rw [(C173_direction _ _ _).2]
  refine ⟨by norm_num [IsUnit3], 5, by norm_num, ?_⟩
  rw [place, mulV_one']
  ext <;> norm_num [V.add, V.smul]

example : applyGeometry ⟨3, 4, 0⟩ 1 ⟨-3, -4, 0⟩ = none := by
  rw [(C173_direction _ _ _).1]
  rw [place, mulV_one']
  ext <;> norm_num [V.add]

end Verif.Fit
