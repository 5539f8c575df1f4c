import Verif.Props.SE3
import Verif.Props.Geometry
import Verif.Props.McSim
/-!
Sharper statements of C23 (small rotations through `se3_exp_map_quat`), C28 (which component a flag belongs to) and C125 (which energy bins are
meant), found necessary by editing the model.
-/
namespace Verif
open Spec Real

/-! ### C28 -/

theorem masked_ite (g : Geom) : g.masked = ⟨⟨if g.mask 0 then g.vec 0 else 0, if g.mask 1 then g.vec 1 else 0, if g.mask 2 then g.vec 2 else 0⟩,
    ⟨if g.mask 3 then g.vec 3 else 0, if g.mask 4 then g.vec 4 else 0, if g.mask 5 then g.vec 5 else 0⟩⟩ := by
  have h : ∀ i, g.vec i * (if g.mask i then 1 else 0) = if g.mask i then g.vec i else 0 := fun i => by
    rw [mul_ite, mul_one, mul_zero]
  unfold Geom.masked
  simp only [h]

/-- C28: after construction the flag `i` of the rotations governs component `i` of the parameter and the flag `i` of the shifts component
`3 + i`; a component whose flag is off counts as zero. -/
theorem C28_selects (rows cols : ℕ) (tilts pc : V) (v : Fin 6 → ℝ) (r s : Fin 3 → Bool) :
    (Geom.init rows cols tilts pc (some v) r s).masked =
      ⟨⟨if r 0 then v 0 else 0, if r 1 then v 1 else 0, if r 2 then v 2 else 0⟩,
       ⟨if s 0 then v 3 else 0, if s 1 then v 4 else 0, if s 2 then v 5 else 0⟩⟩ := by
  rw [masked_ite]; rfl

/-- C28: likewise after `set_optimizable_se3_params` with both arguments. -/
theorem C28_selects_set (g : Geom) (r s : Fin 3 → Bool) :
    (g.setOpt (some r) (some s)).masked =
      ⟨⟨if r 0 then g.vec 0 else 0, if r 1 then g.vec 1 else 0, if r 2 then g.vec 2 else 0⟩,
       ⟨if s 0 then g.vec 3 else 0, if s 1 then g.vec 4 else 0, if s 2 then g.vec 5 else 0⟩⟩ := by
  rw [masked_ite]; rfl

example : (Geom.init 60 60 ⟨70, 0, 10⟩ ⟨0.5, 0.5, 0.5⟩ (some fun i => (i : ℝ) + 1) (fun i => i == 1) (fun i => i == 1)).masked =
    ⟨⟨0, 2, 0⟩, ⟨0, 5, 0⟩⟩ := by
  rw [C28_selects]
  simp
  norm_num

/-! ### C23 -/

theorem exp_two_log {a : ℝ} (ha : 0 < a) : exp (log a * 2) = a ^ 2 := by
  rw [mul_comm, ← Real.log_rpow ha, Real.exp_log (by positivity)]
  norm_cast

theorem quatTheta_small {w : V} (h : w.norm ≤ 0.05) : w.norm ≤ quatTheta w ∧ quatTheta w ≤ w.norm + 2e-10 ∧ 0 < quatTheta w := by
  have hq : quatTheta w = sqrt ((|w.x| + 1e-10) ^ 2 + (|w.y| + 1e-10) ^ 2 + (|w.z| + 1e-10) ^ 2) := by
    unfold quatTheta
    rw [if_neg (not_lt.mpr h)]
    have hx := exp_two_log (a := |w.x| + 1e-10) (by positivity)
    have hy := exp_two_log (a := |w.y| + 1e-10) (by positivity)
    have hz := exp_two_log (a := |w.z| + 1e-10) (by positivity)
    rw [hx, hy, hz, ← Real.log_sqrt (by positivity), Real.exp_log (Real.sqrt_pos.mpr (by positivity))]
  have hn : w.norm ^ 2 = w.x ^ 2 + w.y ^ 2 + w.z ^ 2 := by unfold V.norm; rw [sq_sqrt (by positivity)]
  have hn0 : 0 ≤ w.norm := by unfold V.norm; exact sqrt_nonneg _
  have ax := abs_nonneg w.x
  have ay := abs_nonneg w.y
  have az := abs_nonneg w.z
  rw [← sq_abs w.x, ← sq_abs w.y, ← sq_abs w.z] at hn
  rw [hq]
  generalize |w.x| = x at *
  generalize |w.y| = y at *
  generalize |w.z| = z at *
  generalize w.norm = n at *
  refine ⟨Real.le_sqrt_of_sq_le ?_, ?_, Real.sqrt_pos.mpr (by positivity)⟩
  · rw [hn]
    have h1 : x ^ 2 ≤ (x + 1e-10) ^ 2 := pow_le_pow_left₀ ax (by norm_num) 2
    have h2 : y ^ 2 ≤ (y + 1e-10) ^ 2 := pow_le_pow_left₀ ay (by norm_num) 2
    have h3 : z ^ 2 ≤ (z + 1e-10) ^ 2 := pow_le_pow_left₀ az (by norm_num) 2
    linarith
  · rw [Real.sqrt_le_left (by positivity)]
    have hs : x + y + z ≤ 2 * n := by
      apply abs_le_of_sq_le_sq' _ (by positivity) |>.2
      nlinarith [sq_nonneg (x - y), sq_nonneg (y - z), sq_nonneg (x - z)]
    norm_num
    nlinarith

/-- C23, `se3_exp_map_quat` for rotations of at most 0.05 rad (the branch with the regularised norm): each component of the quaternion returned is
that of the rotation by `φ` about the unit axis `u`, to `2e-10`. -/
theorem C23_quat_small (u : V) (hu : IsUnit3 u) (φ : ℝ) (h0 : 0 ≤ φ) (h1 : φ ≤ 0.05) (t : V) :
    let q := (se3ExpQuat ⟨V.smul φ u, t⟩).1
    |q.w - cos (φ / 2)| ≤ 2e-10 ∧ |q.x - sin (φ / 2) * u.x| ≤ 2e-10 ∧ |q.y - sin (φ / 2) * u.y| ≤ 2e-10 ∧
      |q.z - sin (φ / 2) * u.z| ≤ 2e-10 := by
  intro q
  have hu' : u.x ^ 2 + u.y ^ 2 + u.z ^ 2 = 1 := hu
  have hn : (V.smul φ u).norm = φ := by
    simp only [V.norm, V.smul]
    rw [show (φ * u.x) ^ 2 + (φ * u.y) ^ 2 + (φ * u.z) ^ 2 = φ ^ 2 * (u.x ^ 2 + u.y ^ 2 + u.z ^ 2) by ring, hu', mul_one, sqrt_sq h0]
  obtain ⟨a1, a2, a3⟩ := quatTheta_small (w := V.smul φ u) (by rw [hn]; exact h1)
  rw [hn] at a1 a2
  have hq : q = ax2qu ⟨V.sdiv (V.smul φ u) (quatTheta (V.smul φ u)), quatTheta (V.smul φ u)⟩ := rfl
  rw [hq]
  simp only [ax2qu, V.sdiv, V.smul]
  have hdef : quatTheta (V.smul φ u) = quatTheta ⟨φ * u.x, φ * u.y, φ * u.z⟩ := rfl
  rw [← hdef]
  generalize quatTheta (V.smul φ u) = th at *
  have hsin : |sin (th / 2) - sin (φ / 2)| ≤ (th - φ) / 2 := by
    have := Real.abs_sin_sub_sin_le (th / 2) (φ / 2)
    refine this.trans (le_of_eq ?_)
    rw [abs_of_nonneg (by linarith)]
    ring
  have hcos : |cos (th / 2) - cos (φ / 2)| ≤ (th - φ) / 2 := by
    have := Real.abs_cos_sub_cos_le (th / 2) (φ / 2)
    refine this.trans (le_of_eq ?_)
    rw [abs_of_nonneg (by linarith)]
    ring
  have hmag : |φ / th * sin (th / 2) - sin (φ / 2)| ≤ th - φ := by
    have e : φ / th * sin (th / 2) - sin (φ / 2) = (φ - th) / th * sin (th / 2) + (sin (th / 2) - sin (φ / 2)) := by
      field_simp
      ring
    rw [e]
    refine (abs_add_le _ _).trans ?_
    have h3 : |(φ - th) / th * sin (th / 2)| ≤ (th - φ) / 2 := by
      rw [abs_mul, abs_div, abs_of_pos a3, abs_of_nonpos (by linarith : φ - th ≤ 0)]
      have h4 : |sin (th / 2)| ≤ th / 2 := by
        have := Real.abs_sin_le_abs (x := th / 2)
        rwa [abs_of_pos (by linarith : 0 < th / 2)] at this
      calc -(φ - th) / th * |sin (th / 2)| ≤ -(φ - th) / th * (th / 2) :=
            mul_le_mul_of_nonneg_left h4 (div_nonneg (by linarith) a3.le)
        _ = (th - φ) / 2 := by field_simp; ring
    linarith
  have comp : ∀ c : ℝ, c ^ 2 ≤ 1 → |φ * c / th * sin (th / 2) - sin (φ / 2) * c| ≤ 2e-10 := by
    intro c hc
    have hc1 : |c| ≤ 1 := by rwa [sq_le_one_iff_abs_le_one] at hc
    have e : φ * c / th * sin (th / 2) - sin (φ / 2) * c = (φ / th * sin (th / 2) - sin (φ / 2)) * c := by ring
    rw [e, abs_mul]
    calc |φ / th * sin (th / 2) - sin (φ / 2)| * |c| ≤ (th - φ) * 1 := mul_le_mul hmag hc1 (abs_nonneg c) (by linarith)
      _ ≤ 2e-10 := by linarith
  refine ⟨hcos.trans (by linarith), comp u.x (by nlinarith [sq_nonneg u.y, sq_nonneg u.z]), comp u.y (by nlinarith [sq_nonneg u.x, sq_nonneg u.z]),
    comp u.z (by nlinarith [sq_nonneg u.x, sq_nonneg u.y])⟩

example : IsUnit3 (⟨0, 3 / 5, 4 / 5⟩ : V) ∧ (0 : ℝ) ≤ 0.01 ∧ (0.01 : ℝ) ≤ 0.05 := by
  refine ⟨?_, by norm_num, by norm_num⟩
  unfold IsUnit3
  norm_num

end Verif

namespace Verif.Mck

/-- C125: the bins meant by "every energy bin below kV" are the whole bins of width `b` that fit between zero and the accelerating voltage. -/
theorem C125_bins (m : McSim) (hb : 0 < m.binE) (hk : 0 ≤ m.kV) :
    m.nFillable * m.binE ≤ m.kV ∧ m.kV < (m.nFillable + 1) * m.binE := by
  unfold McSim.nFillable
  constructor
  · exact (le_div_iff₀ hb).mp (Nat.floor_le (by positivity))
  · exact (div_lt_iff₀ hb).mp (Nat.lt_floor_add_one _)

example : 0 < threeBins.binE ∧ 0 ≤ threeBins.kV := by unfold threeBins; norm_num

end Verif.Mck
