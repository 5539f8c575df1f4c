import Verif.Model.Hrebsd
import Verif.Props.Geometry
import Verif.Props.Quat
/-!
C97: the directions computed by `hrebsd_coords`.
-/
namespace Verif.Hr
open Verif Verif.Spec

/-- `v` scaled to length one (`v ≠ 0`). -/
noncomputable def unitOf (v : V) : V := ⟨v.x / v.norm, v.y / v.norm, v.z / v.norm⟩

theorem norm_pos_iff (v : V) : v.norm = 0 ↔ v = ⟨0, 0, 0⟩ := by
  have hs := V.norm_sq v
  constructor
  · intro h
    rw [h] at hs
    have hx : v.x ^ 2 = 0 := by nlinarith [sq_nonneg v.x, sq_nonneg v.y, sq_nonneg v.z]
    have hy : v.y ^ 2 = 0 := by nlinarith [sq_nonneg v.x, sq_nonneg v.y, sq_nonneg v.z]
    have hz : v.z ^ 2 = 0 := by nlinarith [sq_nonneg v.x, sq_nonneg v.y, sq_nonneg v.z]
    ext
    · exact pow_eq_zero_iff (two_ne_zero) |>.mp hx
    · exact pow_eq_zero_iff (two_ne_zero) |>.mp hy
    · exact pow_eq_zero_iff (two_ne_zero) |>.mp hz
  · rintro rfl; simp [V.norm]

theorem norm_nonneg (v : V) : 0 ≤ v.norm := Real.sqrt_nonneg _

theorem norm_smul (k : ℝ) (hk : 0 ≤ k) (v : V) : (V.smul k v).norm = k * v.norm := by
  unfold V.norm V.smul
  simp only
  rw [show (k * v.x) ^ 2 + (k * v.y) ^ 2 + (k * v.z) ^ 2 = k ^ 2 * (v.x ^ 2 + v.y ^ 2 + v.z ^ 2) by ring,
    Real.sqrt_mul (sq_nonneg k), Real.sqrt_sq hk]

theorem normalize_eq {v : V} (h : v ≠ ⟨0, 0, 0⟩) : normalize v = some (unitOf v) := by
  unfold normalize
  rw [if_neg (fun h' => h ((norm_pos_iff v).mp h'))]; rfl

theorem normalize_none {v : V} : normalize v = none ↔ v = ⟨0, 0, 0⟩ := by
  constructor
  · intro h
    by_contra hne
    rw [normalize_eq hne] at h; simp at h
  · rintro rfl; unfold normalize; rw [if_pos ((norm_pos_iff _).mpr rfl)]

theorem unitOf_smul {k : ℝ} (hk : 0 < k) (v : V) : unitOf (V.smul k v) = unitOf v := by
  unfold unitOf
  rw [norm_smul k hk.le]
  ext <;> simp only [V.smul] <;> rw [mul_div_mul_left _ _ hk.ne']

theorem smul_ne {k : ℝ} (hk : 0 < k) {v : V} (h : V.smul k v = ⟨0, 0, 0⟩) : v = ⟨0, 0, 0⟩ := by
  have := norm_smul k hk.le v
  rw [(norm_pos_iff _).mpr h] at this
  exact (norm_pos_iff v).mp ((mul_eq_zero.mp this.symm).resolve_left hk.ne')

theorem normalize_smul {k : ℝ} (hk : 0 < k) (v : V) : normalize (V.smul k v) = normalize v := by
  by_cases h : v = ⟨0, 0, 0⟩
  · rw [h]; congr 1; simp [V.smul]
  · rw [normalize_eq h, normalize_eq (fun h' => h (smul_ne hk h')), unitOf_smul hk]

theorem unitOf_unit {v : V} (h : v ≠ ⟨0, 0, 0⟩) : IsUnit3 (unitOf v) := by
  have hp : 0 < v.norm := lt_of_le_of_ne (norm_nonneg v) (fun h' => h ((norm_pos_iff v).mp h'.symm))
  exact axis_unit hp

theorem mulV_smul (m : M3) (k : ℝ) (v : V) : mulV m (V.smul k v) = V.smul k (mulV m v) := by
  ext <;> simp only [mulV, V.smul] <;> ring

theorem quApply_smul (q : Q) (k : ℝ) (v : V) : quApply q (V.smul k v) = V.smul k (quApply q v) := by
  ext <;> simp only [quApply, V.smul] <;> ring

theorem mulV_qu2om (q : Q) (v : V) : mulV (qu2om q) v = quApply q v := by
  ext <;> simp [mulV, qu2om, quApply] <;> ring

theorem mulV_zero (m : M3) : mulV m ⟨0, 0, 0⟩ = ⟨0, 0, 0⟩ := by
  ext <;> simp [mulV]

/-- The point of the sample frame where detector pixel `p` sits, for the pose `exp(mask * vector)`. -/
noncomputable def samplePoint (mask v : Twist) (p : ℝ × ℝ) : V :=
  let e := se3ExpSplit (masked mask v)
  V.add (mulV e.1 ⟨p.1, p.2, 0⟩) e.2

/-- **C97.**  For every pose, quaternion, deformation and pixel the direction is the unit vector along
`F⁻¹ · R(q) · (point of the pixel)`: the two normalisations do not disturb each other; it is undefined exactly when that
vector is zero. -/
theorem C97_direction (mask v : Twist) (q : Q) (F : M3) (p : ℝ × ℝ) :
    (mulV F (mulV (qu2om q) (samplePoint mask v p)) ≠ ⟨0, 0, 0⟩ →
      direction mask v q F p = some (unitOf (mulV F (mulV (qu2om q) (samplePoint mask v p))))) ∧
    (mulV F (mulV (qu2om q) (samplePoint mask v p)) = ⟨0, 0, 0⟩ → direction mask v q F p = none) ∧
    (∀ d, direction mask v q F p = some d → IsUnit3 d) := by
  rw [mulV_qu2om]
  have main : direction mask v q F p = normalize (mulV F (quApply q (samplePoint mask v p))) := by
    unfold direction
    show (normalize (samplePoint mask v p)).bind _ = _
    by_cases h : samplePoint mask v p = ⟨0, 0, 0⟩
    · rw [normalize_none.mpr h, h]
      have : mulV F (quApply q ⟨0, 0, 0⟩) = ⟨0, 0, 0⟩ := by
        rw [← mulV_qu2om, mulV_zero, mulV_zero]
      rw [this, normalize_none.mpr rfl]; rfl
    · rw [normalize_eq h, Option.bind_some]
      have hp : 0 < (samplePoint mask v p).norm :=
        lt_of_le_of_ne (norm_nonneg _) (fun h' => h ((norm_pos_iff _).mp h'.symm))
      have e : unitOf (samplePoint mask v p) = V.smul (1 / (samplePoint mask v p).norm) (samplePoint mask v p) := by
        ext <;> simp only [unitOf, V.smul] <;> ring
      rw [e, quApply_smul, mulV_smul, normalize_smul (by positivity)]
  refine ⟨fun h => main.trans (normalize_eq h), fun h => main.trans (normalize_none.mpr h), fun d hd => ?_⟩
  rw [main] at hd
  by_cases h : mulV F (quApply q (samplePoint mask v p)) = ⟨0, 0, 0⟩
  · rw [normalize_none.mpr h] at hd; simp at hd
  · rw [normalize_eq h] at hd
    rw [← Option.some.inj hd]; exact unitOf_unit h

theorem direction_eq (mask v : Twist) (q : Q) (F : M3) (p : ℝ × ℝ) :
    direction mask v q F p = normalize (mulV F (mulV (qu2om q) (samplePoint mask v p))) := by
  have h := C97_direction mask v q F p
  by_cases hz : mulV F (mulV (qu2om q) (samplePoint mask v p)) = ⟨0, 0, 0⟩
  · rw [h.2.1 hz, normalize_none.mpr hz]
  · rw [h.1 hz, normalize_eq hz]

/-- **C97, shape and rejection.**  A call succeeds exactly when the binning is positive and divides both sides; it then returns
`(rows / b) (cols / b)` directions per pattern, in the pixel order of `EBSDGeometry.get_coords_sample_frame`. -/
theorem C97_shape (mask : Twist) (pats : List Pat) (g : Geom) (b : ℕ) :
    ((hrebsdCoords mask pats g.rows g.cols b).isSome ↔ 0 < b ∧ b ∣ g.rows ∧ b ∣ g.cols) ∧
    pixels g.rows g.cols b = g.pixelCoords b b ∧
    ∀ r, hrebsdCoords mask pats g.rows g.cols b = some r →
      r.length = pats.length ∧ (∀ l ∈ r, l.length = g.rows / b * (g.cols / b)) ∧
      ∀ (i : ℕ) (p : Pat), pats[i]? = some p → ∃ px, g.pixelCoords b b = some px ∧
        r[i]? = some (px.map fun xy => direction mask p.vec p.q p.fInv xy) := by
  have hpx : pixels g.rows g.cols b = g.pixelCoords b b := by
    unfold pixels Geom.pixelCoords
    simp only [or_self]
  refine ⟨?_, hpx, ?_⟩
  · unfold hrebsdCoords
    rw [Option.isSome_map]
    unfold pixels
    by_cases h0 : b = 0
    · rw [if_pos h0]; simp [h0]
    · rw [if_neg h0]
      by_cases h1 : g.rows % b = 0
      · rw [if_neg (not_not.mpr h1)]
        by_cases h2 : g.cols % b = 0
        · rw [if_neg (not_not.mpr h2)]
          simp [Nat.dvd_of_mod_eq_zero h1, Nat.dvd_of_mod_eq_zero h2, Nat.pos_of_ne_zero h0]
        · rw [if_pos h2]
          simp only [Option.isSome_none, Bool.false_eq_true, false_iff, not_and]
          exact fun _ _ h => h2 (Nat.mod_eq_zero_of_dvd h)
      · rw [if_pos h1]
        simp only [Option.isSome_none, Bool.false_eq_true, false_iff, not_and]
        exact fun _ h => absurd (Nat.mod_eq_zero_of_dvd h) h1
  · intro r hr
    unfold hrebsdCoords at hr
    obtain ⟨px, hp, rfl⟩ := Option.map_eq_some_iff.mp hr
    have hl : px.length = g.rows / b * (g.cols / b) := by
      unfold pixels at hp
      split_ifs at hp with h0 h1 h2
      rw [← Option.some.inj hp]
      have hax : ∀ n, (axisCoords n b).length = n / b := fun n => by simp [axisCoords, linspace]
      rw [List.length_flatMap]
      simp only [List.length_map, hax, List.map_const', List.sum_replicate, smul_eq_mul]
    refine ⟨by simp, ?_, ?_⟩
    · intro l hl'
      obtain ⟨p, -, rfl⟩ := List.mem_map.mp hl'
      simpa using hl
    · intro i p hi
      refine ⟨px, by rw [← hpx]; exact hp, ?_⟩
      rw [List.getElem?_map, hi]; rfl

/-- **C97, dilatation.**  Multiplying the deformation by a positive number (a change of volume) changes nothing. -/
theorem C97_dilatation (mask v : Twist) (q : Q) (F : M3) (p : ℝ × ℝ) (k : ℝ) (hk : 0 < k) :
    direction mask v q (k • F) p = direction mask v q F p := by
  rw [direction_eq, direction_eq]
  have : ∀ u : V, mulV (k • F) u = V.smul k (mulV F u) := by
    intro u; ext <;> simp [mulV, V.smul] <;> ring
  rw [this, normalize_smul hk]

/-- **C97, rigid rotations.**  A deformation that is the rotation of a quaternion `r` is the same as multiplying the
orientation by `r`; no deformation leaves the rotated direction; `q` and `-q` agree. -/
theorem C97_rotation (mask v : Twist) (q r : Q) (p : ℝ × ℝ) :
    direction mask v q (qu2om r) p = direction mask v (quProd r q) 1 p ∧
    direction mask v q 1 p = normalize (quApply q (samplePoint mask v p)) ∧
    (∀ F, direction mask v q.neg F p = direction mask v q F p) := by
  refine ⟨?_, ?_, fun F => ?_⟩
  · rw [direction_eq, direction_eq, mulV_qu2om, mulV_qu2om, mulV_qu2om, mulV_one, C03_compose]
  · rw [direction_eq, mulV_one, mulV_qu2om]
  · rw [direction_eq, direction_eq, mulV_qu2om, mulV_qu2om, quApply_neg]

/-- A deformation composed with a rotation of the crystal: only the product matters. -/
theorem C97_compose (mask v : Twist) (q r : Q) (F : M3) (p : ℝ × ℝ) :
    direction mask v (quProd r q) F p = direction mask v q (F * qu2om r) p := by
  rw [direction_eq, direction_eq, mulV_qu2om, C03_compose, ← mulV_mul, mulV_qu2om, mulV_qu2om]

/-- **C97, mask.**  Components of the vector with mask 0 have no influence; with an all-ones mask the vector is used as it
is. -/
theorem C97_mask (mask v v' : Twist) (q : Q) (F : M3) (p : ℝ × ℝ)
    (h1 : mask.w.x ≠ 0 → v.w.x = v'.w.x) (h2 : mask.w.y ≠ 0 → v.w.y = v'.w.y) (h3 : mask.w.z ≠ 0 → v.w.z = v'.w.z)
    (h4 : mask.t.x ≠ 0 → v.t.x = v'.t.x) (h5 : mask.t.y ≠ 0 → v.t.y = v'.t.y) (h6 : mask.t.z ≠ 0 → v.t.z = v'.t.z) :
    direction mask v q F p = direction mask v' q F p := by
  have key : ∀ m a a' : ℝ, (m ≠ 0 → a = a') → m * a = m * a' := by
    intro m a a' h
    by_cases hm : m = 0
    · rw [hm, zero_mul, zero_mul]
    · rw [h hm]
  have : masked mask v = masked mask v' := by
    unfold masked
    rw [key _ _ _ h1, key _ _ _ h2, key _ _ _ h3, key _ _ _ h4, key _ _ _ h5, key _ _ _ h6]
  unfold direction
  rw [this]

theorem exp_log_split (n t : V) (a : ℝ) (hn : IsUnit3 n) (h : 0.05 < a) (h1 : a < Real.pi) :
    se3ExpSplit (se3LogSplit (qu2om (ax2qu ⟨n, a⟩)) t) = (qu2om (ax2qu ⟨n, a⟩), t) := by
  have ha : 0 < a := by linarith
  have hnorm : (V.smul a n).norm = a := by
    unfold V.norm V.smul IsUnit3 at *
    simp only
    rw [show (a * n.x) ^ 2 + (a * n.y) ^ 2 + (a * n.z) ^ 2 = a ^ 2 * (n.x ^ 2 + n.y ^ 2 + n.z ^ 2) by ring, hn,
      mul_one, Real.sqrt_sq ha.le]
  have hax : V.sdiv (V.smul a n) a = n := by
    ext <;> simp only [V.smul, V.sdiv] <;> field_simp
  unfold se3LogSplit
  rw [log_core hn ha h1 (by linarith)]
  set w := V.smul a n
  have hw : 0.05 < w.norm := by rw [hnorm]; exact h
  have hinv := (v_inverse hw (half_sin_ne (by linarith) (by rw [hnorm]; exact h1))).1
  have h' : 0.001 < w.norm := by linarith
  have hR : (wExpVmat w).1 = qu2om (ax2qu ⟨n, a⟩) := by
    unfold wExpVmat; simp only; rw [if_pos h', exp_rodrigues (by linarith), hnorm, hax]
  have hV : (wExpVmat w).2 = wToV w := by
    unfold wExpVmat wToV; simp only; rw [if_pos h', if_pos hw]
  unfold se3ExpSplit
  simp only
  rw [hR, hV, mulV_mul, hinv, mulV_one]

/-- The all-ones mask. -/
noncomputable def allOnes : Twist := ⟨⟨1, 1, 1⟩, ⟨1, 1, 1⟩⟩

/-- **C97, pose.**  Feeding the logarithm of a detector pose `(R, t)` (rotation angle between 0.05 and π) with an all-ones mask
reads the master pattern along `F⁻¹ R(q) (R p + t)`, the sample-frame coordinates of pixel `p` under that pose. -/
theorem C97_pose_partial (n t : V) (a : ℝ) (hn : IsUnit3 n) (h : 0.05 < a) (h1 : a < Real.pi) (q : Q) (F : M3) (p : ℝ × ℝ) :
    direction allOnes (se3LogSplit (qu2om (ax2qu ⟨n, a⟩)) t) q F p =
      normalize (mulV F (quApply q (V.add (mulV (qu2om (ax2qu ⟨n, a⟩)) ⟨p.1, p.2, 0⟩) t))) := by
  have hm : ∀ v : Twist, masked allOnes v = v := by
    intro v; unfold masked allOnes; simp
  rw [direction_eq, mulV_qu2om]
  unfold samplePoint
  rw [hm, exp_log_split n t a hn h h1]

/-- **C97 fails at the corner pixel.**  With all six parameters frozen (mask 0, whatever the vector) and no binning, the pixel
`(0, 0)` sits at the source point and its direction is undefined (NaN), for every orientation and deformation; all other
pixels look along the detector plane. -/
theorem C97_frozen_fails (v : Twist) (q : Q) (F : M3) (p : ℝ × ℝ) :
    direction ⟨⟨0, 0, 0⟩, ⟨0, 0, 0⟩⟩ v q F (0, 0) = none ∧
    samplePoint ⟨⟨0, 0, 0⟩, ⟨0, 0, 0⟩⟩ v p = ⟨p.1, p.2, 0⟩ := by
  have hs : ∀ p : ℝ × ℝ, samplePoint ⟨⟨0, 0, 0⟩, ⟨0, 0, 0⟩⟩ v p = ⟨p.1, p.2, 0⟩ := by
    intro p
    have hm : masked ⟨⟨0, 0, 0⟩, ⟨0, 0, 0⟩⟩ v = ⟨⟨0, 0, 0⟩, ⟨0, 0, 0⟩⟩ := by unfold masked; simp
    have hsk : skew ⟨0, 0, 0⟩ = 0 := by
      apply m3_ext; intro i j; fin_cases i <;> fin_cases j <;> simp [skew]
    unfold samplePoint se3ExpSplit
    rw [hm]
    simp only
    have hR : (wExpVmat ⟨0, 0, 0⟩).1 = 1 := by
      unfold wExpVmat
      simp only [hsk]
      split_ifs <;> simp
    rw [hR, mulV_one, mulV_zero]
    ext <;> simp [V.add]
  refine ⟨?_, hs p⟩
  rw [direction_eq, hs, mulV_zero, mulV_zero]
  exact normalize_none.mpr rfl

/-- non-vacuity of `C97_direction` and `C97_pose_partial`: a pose, a deformation and a pixel with a defined direction. -/
example : ∃ d, direction allOnes (se3LogSplit (qu2om (ax2qu ⟨⟨0, 0, 1⟩, 1⟩)) ⟨0, 0, 5⟩) ⟨1, 0, 0, 0⟩ !![1, 0, 0; 0, 1, 0; 0, 0, 2] (0, 0) = some d ∧
    d = ⟨0, 0, 1⟩ := by
  refine ⟨_, ?_, rfl⟩
  rw [C97_pose_partial ⟨0, 0, 1⟩ ⟨0, 0, 5⟩ 1 (by unfold IsUnit3; norm_num) (by norm_num) (by linarith [Real.pi_gt_three])]
  have e : mulV !![1, 0, 0; 0, 1, 0; 0, 0, 2] (quApply ⟨1, 0, 0, 0⟩ (V.add (mulV (qu2om (ax2qu ⟨⟨0, 0, 1⟩, 1⟩)) ⟨0, 0, 0⟩) ⟨0, 0, 5⟩)) = V.smul 10 ⟨0, 0, 1⟩ := by
    rw [mulV_zero]
    ext <;> simp [mulV, quApply, V.add, V.smul] <;> norm_num
  rw [e, normalize_smul (by norm_num)]
  have hn : (⟨0, 0, 1⟩ : V).norm = 1 := by unfold V.norm; norm_num
  unfold normalize
  rw [hn, if_neg one_ne_zero]
  simp [V.sdiv]

/-- non-vacuity of `C97_shape`: a 60 by 80 detector with binning 4. -/
example (mask : Twist) (pats : List Pat) (g : Geom) (h : g.rows = 60) (h' : g.cols = 80) :
    (hrebsdCoords mask pats g.rows g.cols 4).isSome := by
  rw [(C97_shape mask pats g 4).1, h, h']; decide

end Verif.Hr
