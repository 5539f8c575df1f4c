import Verif.Props.Fz

/-!
# C11: the disorientation angle obeys the triangle inequality

`disori_angle_laue` (ebsdtorch/s2_and_so3/laue_fz_ori.py) as a distance: the triangle inequality for one Laue group,
a version for two different groups, and the consequence that a rotation of one orientation by a small angle moves
the disorientation angle by at most that angle.
-/
open Quaternion
namespace Verif
open Spec

/-- squared length of the vector part of a unit quaternion -/
theorem vec_sq {x : Q} (h : IsUnit4 x) : x.x ^ 2 + x.y ^ 2 + x.z ^ 2 = 1 - x.w ^ 2 := by
  unfold IsUnit4 at h; linarith

theorem abs_w_le {x : Q} (h : IsUnit4 x) : |x.w| ≤ 1 := by
  have := vec_sq h
  rw [abs_le_one_iff_mul_self_le_one]
  nlinarith [sq_nonneg x.x, sq_nonneg x.y, sq_nonneg x.z]

/-- The angle of a product of two rotations is at most the sum of their angles. -/
theorem rotAngle_mul_le {x y : Q} (hx : IsUnit4 x) (hy : IsUnit4 y) :
    rotAngle (toH x * toH y) ≤ rotAngle (toH x) + rotAngle (toH y) := by
  unfold rotAngle
  set a := Real.arccos |(toH x).re| with ha
  set b := Real.arccos |(toH y).re| with hb
  have a0 : 0 ≤ a := Real.arccos_nonneg _
  have b0 : 0 ≤ b := Real.arccos_nonneg _
  have a1 : a ≤ Real.pi / 2 := Real.arccos_le_pi_div_two.mpr (abs_nonneg _)
  have b1 : b ≤ Real.pi / 2 := Real.arccos_le_pi_div_two.mpr (abs_nonneg _)
  have ca : Real.cos a = |x.w| := by
    rw [ha, Real.cos_arccos (by have := abs_nonneg (toH x).re; linarith) (by simpa using abs_w_le hx)]; simp
  have cb : Real.cos b = |y.w| := by
    rw [hb, Real.cos_arccos (by have := abs_nonneg (toH y).re; linarith) (by simpa using abs_w_le hy)]; simp
  have sa0 : 0 ≤ Real.sin a := Real.sin_nonneg_of_nonneg_of_le_pi a0 (by linarith [Real.pi_pos])
  have sb0 : 0 ≤ Real.sin b := Real.sin_nonneg_of_nonneg_of_le_pi b0 (by linarith [Real.pi_pos])
  have sa : Real.sin a ^ 2 = x.x ^ 2 + x.y ^ 2 + x.z ^ 2 := by
    rw [Real.sin_sq, ca, sq_abs, vec_sq hx]
  have sb : Real.sin b ^ 2 = y.x ^ 2 + y.y ^ 2 + y.z ^ 2 := by
    rw [Real.sin_sq, cb, sq_abs, vec_sq hy]
  have cs : |x.x * y.x + x.y * y.y + x.z * y.z| ≤ Real.sin a * Real.sin b := by
    apply abs_le_of_sq_le_sq _ (mul_nonneg sa0 sb0)
    rw [mul_pow, sa, sb]
    nlinarith [sq_nonneg (x.x * y.y - x.y * y.x), sq_nonneg (x.x * y.z - x.z * y.x),
      sq_nonneg (x.y * y.z - x.z * y.y)]
  have hre : (toH x * toH y).re = x.w * y.w - (x.x * y.x + x.y * y.y + x.z * y.z) := by
    simp; ring
  have key : Real.cos (a + b) ≤ |(toH x * toH y).re| := by
    rw [Real.cos_add, ca, cb, hre, ← abs_mul]
    have := abs_sub_abs_le_abs_sub (x.w * y.w) (x.x * y.x + x.y * y.y + x.z * y.z)
    linarith
  have := Real.arccos_le_arccos key
  rw [Real.arccos_cos (by linarith) (by linarith)] at this
  linarith

/-- `disori_angle_laue` as the least rotation angle over the two groups. -/
theorem disori_least (q1 q2 : Q) (n m : ℕ) (hn1 : 1 ≤ n) (hn2 : n ≤ 11) (hm1 : 1 ≤ m) (hm2 : m ≤ 11) :
    ∃ a, disoriAngle q1 q2 n m = some a ∧
      (∃ g ∈ laueRotations n, ∃ h ∈ laueRotations m, a = rotAngle (h * (toH q1 * star (toH q2)) * g)) ∧
      (∀ g ∈ laueRotations n, ∀ h ∈ laueRotations m, a ≤ rotAngle (h * (toH q1 * star (toH q2)) * g)) := by
  obtain ⟨c, hc, ⟨g, hg, h, hh, e⟩, hmax⟩ := disori_spec q1 q2 n m hn1 hn2 hm1 hm2
  refine ⟨_, hc, ⟨g, hg, h, hh, by rw [e]; rfl⟩, fun g' hg' h' hh' => ?_⟩
  have := Real.arccos_le_arccos (hmax g' hg' h' hh')
  unfold rotAngle
  linarith

/-- every group member is a unit quaternion of the model -/
theorem rot_unit {n : ℕ} (hn1 : 1 ≤ n) (hn2 : n ≤ 11) {g : ℍ[ℝ]} (hg : g ∈ laueRotations n) :
    ∃ p : Q, IsUnit4 p ∧ toH p = g := by
  have h := (rot_star hn1 hn2 hg).2.1
  refine ⟨⟨g.re, g.imI, g.imJ, g.imK⟩, ?_, by ext <;> simp⟩
  have := congrArg (fun q : ℍ[ℝ] => q.re) h
  simp at this
  unfold IsUnit4
  linarith

/-- the three factors of `h (q1 q2*) g`, all unit -/
theorem triple_unit {n m : ℕ} (hn1 : 1 ≤ n) (hn2 : n ≤ 11) (hm1 : 1 ≤ m) (hm2 : m ≤ 11) {q1 q2 : Q}
    (u1 : IsUnit4 q1) (u2 : IsUnit4 q2) {g h : ℍ[ℝ]} (hg : g ∈ laueRotations n) (hh : h ∈ laueRotations m) :
    ∃ p : Q, IsUnit4 p ∧ toH p = h * (toH q1 * star (toH q2)) * g := by
  obtain ⟨a, ua, ea⟩ := rot_unit hn1 hn2 hg
  obtain ⟨b, ub, eb⟩ := rot_unit hm1 hm2 hh
  obtain ⟨c, uc, ec⟩ := unit_star_mul u1 u2
  exact ⟨quProdRaw (quProdRaw b c) a, unit_prodRaw (unit_prodRaw ub uc) ua, by
    rw [toH_prodRaw, toH_prodRaw, ea, eb, ec]⟩

/-- C11: with one Laue group `disori_angle_laue` obeys the triangle inequality: going from `q1` to `q3` directly is
never further than through a third orientation. -/
theorem C11_triangle (q1 q2 q3 : Q) (u1 : IsUnit4 q1) (u2 : IsUnit4 q2) (u3 : IsUnit4 q3) (n : ℕ)
    (hn1 : 1 ≤ n) (hn2 : n ≤ 11) :
    ∃ a b c, disoriAngle q1 q2 n n = some a ∧ disoriAngle q2 q3 n n = some b ∧
      disoriAngle q1 q3 n n = some c ∧ c ≤ a + b := by
  obtain ⟨a, ha, ⟨g, hg, h, hh, ea⟩, -⟩ := disori_least q1 q2 n n hn1 hn2 hn1 hn2
  obtain ⟨b, hb, ⟨g', hg', h', hh', eb⟩, -⟩ := disori_least q2 q3 n n hn1 hn2 hn1 hn2
  obtain ⟨c, hc, -, hmin⟩ := disori_least q1 q3 n n hn1 hn2 hn1 hn2
  refine ⟨a, b, c, ha, hb, hc, ?_⟩
  have L := laueRotations n
  have cyc : ∀ x y z : ℍ[ℝ], (x * y * z).re = (z * x * y).re := by
    intro x y z; rw [H_re_mul_comm, mul_assoc]
  have cyc2 : ∀ x y z : ℍ[ℝ], (x * y * z).re = (y * (z * x)).re := by
    intro x y z; rw [mul_assoc, H_re_mul_comm, mul_assoc]
  -- move the whole symmetry of the first to the left, of the second to the right
  obtain ⟨x, ux, ex⟩ := triple_unit hn1 hn2 hn1 hn2 u1 u2 (laueRotations n).one_mem ((laueRotations n).mul_mem hg hh)
  obtain ⟨y, uy, ey⟩ := triple_unit hn1 hn2 hn1 hn2 u2 u3 ((laueRotations n).mul_mem hg' hh') (laueRotations n).one_mem
  have a' : a = rotAngle (toH x) := by
    rw [ea, ex]; unfold rotAngle
    rw [cyc, mul_one]
  have b' : b = rotAngle (toH y) := by
    rw [eb, ey]; unfold rotAngle
    rw [cyc2, one_mul]
  have key := rotAngle_mul_le ux uy
  rw [← a', ← b', ex, ey] at key
  have e : (g * h) * (toH q1 * star (toH q2)) * 1 * (1 * (toH q2 * star (toH q3)) * (g' * h')) =
      (g * h) * (toH q1 * star (toH q3)) * (g' * h') := by
    rw [mul_one, one_mul]
    have : toH q1 * star (toH q2) * (toH q2 * star (toH q3)) = toH q1 * star (toH q3) := by
      rw [mul_assoc, ← mul_assoc (star (toH q2)), H_star_mul_of_unit u2, one_mul]
    rw [← this]; simp only [mul_assoc]
  rw [e] at key
  exact (hmin _ ((laueRotations n).mul_mem hg' hh') _ ((laueRotations n).mul_mem hg hh)).trans key

/-- C11: with two Laue groups (ids `n` of the first, `m` of the second) the intermediate orientation is counted without
symmetry (id 1, triclinic): its distance to `q1` uses only the second id and its distance to `q2` only the first. -/
theorem C11_triangle_two_groups (q1 q2 q3 : Q) (u1 : IsUnit4 q1) (u2 : IsUnit4 q2) (u3 : IsUnit4 q3) (n m : ℕ)
    (hn1 : 1 ≤ n) (hn2 : n ≤ 11) (hm1 : 1 ≤ m) (hm2 : m ≤ 11) :
    ∃ a b c, disoriAngle q1 q2 1 m = some a ∧ disoriAngle q2 q3 n 1 = some b ∧
      disoriAngle q1 q3 n m = some c ∧ c ≤ a + b := by
  obtain ⟨a, ha, ⟨g, hg, h, hh, ea⟩, -⟩ := disori_least q1 q2 1 m (by norm_num) (by norm_num) hm1 hm2
  obtain ⟨b, hb, ⟨g', hg', h', hh', eb⟩, -⟩ := disori_least q2 q3 n 1 hn1 hn2 (by norm_num) (by norm_num)
  obtain ⟨c, hc, -, hmin⟩ := disori_least q1 q3 n m hn1 hn2 hm1 hm2
  refine ⟨a, b, c, by exact_mod_cast ha, by exact_mod_cast hb, hc, ?_⟩
  have one : ∀ k ∈ laueRotations 1, SameUpToSign k 1 := by
    intro k hk
    have h1' : laueElements ((1 : ℕ) : ℤ) = some laueC1 := rfl
    rw [gen_laue (n := 1) (by norm_num) (by norm_num) h1'] at hk
    obtain ⟨k1, hk1, hs⟩ := hk
    simp only [laueC1, List.mem_cons, List.not_mem_nil, or_false] at hk1
    refine hs.trans (Or.inl ?_)
    rw [hk1]; ext <;> simp
  obtain ⟨x, ux, ex⟩ := triple_unit hm1 hm2 hm1 hm2 u1 u2 (laueRotations m).one_mem hh
  obtain ⟨y, uy, ey⟩ := triple_unit hn1 hn2 hn1 hn2 u2 u3 hg' (laueRotations n).one_mem
  have a' : a = rotAngle (toH x) := by
    rw [ea, ex]; unfold rotAngle
    rw [(SameUpToSign.mul_left _ (one g hg)).abs_re]
  have b' : b = rotAngle (toH y) := by
    rw [eb, ey]; unfold rotAngle
    rw [(SameUpToSign.mul_right _ (SameUpToSign.mul_right _ (one h' hh'))).abs_re]
  have key := rotAngle_mul_le ux uy
  rw [← a', ← b', ex, ey] at key
  have e : h * (toH q1 * star (toH q2)) * 1 * (1 * (toH q2 * star (toH q3)) * g') =
      h * (toH q1 * star (toH q3)) * g' := by
    rw [mul_one, one_mul]
    have : toH q1 * star (toH q2) * (toH q2 * star (toH q3)) = toH q1 * star (toH q3) := by
      rw [mul_assoc, ← mul_assoc (star (toH q2)), H_star_mul_of_unit u2, one_mul]
    rw [← this]; simp only [mul_assoc]
  rw [e] at key
  exact (hmin _ hg' _ hh).trans key

/-- C11: an error in one orientation moves the disorientation angle (any two ids) by at most the rotation angle of the
error, so the angle is a continuous function of the orientations. -/
theorem C11_lipschitz (q1 q1' q2 : Q) (u1 : IsUnit4 q1) (u1' : IsUnit4 q1') (u2 : IsUnit4 q2) (n m : ℕ)
    (hn1 : 1 ≤ n) (hn2 : n ≤ 11) (hm1 : 1 ≤ m) (hm2 : m ≤ 11) :
    ∃ a a', disoriAngle q1 q2 n m = some a ∧ disoriAngle q1' q2 n m = some a' ∧
      |a - a'| ≤ rotAngle (toH q1 * star (toH q1')) := by
  have half : ∀ p p' : Q, IsUnit4 p → IsUnit4 p' → ∀ a a', disoriAngle p q2 n m = some a →
      disoriAngle p' q2 n m = some a' → a ≤ rotAngle (toH p * star (toH p')) + a' := by
    intro p p' up up' a a' ha ha'
    obtain ⟨b, hb, -, hmin⟩ := disori_least p q2 n m hn1 hn2 hm1 hm2
    obtain ⟨b', hb', ⟨g, hg, h, hh, e⟩, -⟩ := disori_least p' q2 n m hn1 hn2 hm1 hm2
    rw [hb] at ha; rw [hb'] at ha'
    obtain rfl := Option.some.inj ha
    obtain rfl := Option.some.inj ha'
    obtain ⟨k, uk, ek⟩ := rot_unit hm1 hm2 hh
    obtain ⟨y, uy, ey⟩ := triple_unit hn1 hn2 hm1 hm2 up' u2 hg hh
    obtain ⟨d, ud, ed⟩ := unit_star_mul up up'
    have hs := rot_star hm1 hm2 hh
    have key := rotAngle_mul_le (unit_prodRaw (unit_prodRaw uk ud) (unit_conj.mpr uk)) uy
    rw [toH_prodRaw, toH_prodRaw, toH_conj, ek, ed, ey] at key
    have e1 : rotAngle (h * (toH p * star (toH p')) * star h) = rotAngle (toH p * star (toH p')) := by
      unfold rotAngle
      rw [H_re_mul_comm, ← mul_assoc, hs.2.2, one_mul]
    have e2 : h * (toH p * star (toH p')) * star h * (h * (toH p' * star (toH q2)) * g) =
        h * (toH p * star (toH q2)) * g := by
      have i1 : star h * (h * (toH p' * star (toH q2)) * g) = toH p' * star (toH q2) * g := by
        simp only [← mul_assoc]; rw [hs.2.2, one_mul]
      rw [mul_assoc (h * (toH p * star (toH p'))), i1]
      have i2 : toH p * star (toH p') * (toH p' * star (toH q2) * g) = toH p * star (toH q2) * g := by
        rw [mul_assoc (toH p), mul_assoc (toH p'), ← mul_assoc (star (toH p')), H_star_mul_of_unit up', one_mul,
          ← mul_assoc]
      rw [mul_assoc h, i2, ← mul_assoc]
    rw [e1, e2, ← e] at key
    exact (hmin g hg h hh).trans key
  obtain ⟨a, ha, -⟩ := disori_least q1 q2 n m hn1 hn2 hm1 hm2
  obtain ⟨a', ha', -⟩ := disori_least q1' q2 n m hn1 hn2 hm1 hm2
  refine ⟨a, a', ha, ha', ?_⟩
  have A := half q1 q1' u1 u1' a a' ha ha'
  have B := half q1' q1 u1' u1 a' a ha' ha
  have S : rotAngle (toH q1' * star (toH q1)) = rotAngle (toH q1 * star (toH q1')) := by
    unfold rotAngle
    rw [← H_re_star, H_star_mul, H_star_star]
  rw [S] at B
  rw [abs_le]; constructor <;> linarith

/-- non-vacuity: three different unit orientations and two different groups (orthorhombic id 3, cubic id 11). -/
example : IsUnit4 ⟨1/2, 1/2, 1/2, 1/2⟩ ∧ IsUnit4 ⟨3/5, 0, 4/5, 0⟩ ∧ IsUnit4 ⟨0, 5/13, 0, 12/13⟩ ∧
    (1 : ℕ) ≤ 3 ∧ 3 ≤ 11 ∧ (1 : ℕ) ≤ 11 ∧ 11 ≤ 11 := by
  refine ⟨?_, ?_, ?_, by decide, by decide, by decide, by decide⟩ <;> norm_num [IsUnit4]
end Verif
