import Verif.Lemmas.Quat
import Mathlib.Tactic.NormNum
import Mathlib.Analysis.SpecialFunctions.Trigonometric.Basic
import Mathlib.Analysis.SpecialFunctions.Complex.Arg
/-!
Properties C01-C05 and C66 (quaternions.py).
-/
open Quaternion
namespace Verif
open Spec

/-! ### C01: products -/

/-- C01: `qu_prod_raw` is Hamilton's product. -/
theorem C01_prod_raw (a b : Q) : toH (quProdRaw a b) = toH a * toH b := toH_prodRaw a b

/-- C01: `qu_prod` is Hamilton's product up to sign, with non-negative scalar part. -/
theorem C01_prod (a b : Q) :
    SameUpToSign (toH (quProd a b)) (toH a * toH b) ∧ 0 ≤ (quProd a b).w := by
  refine ⟨?_, quStd_nonneg _⟩
  rw [← toH_prodRaw]; exact toH_std _

/-- C01: `qu_prod_pos_real` is the magnitude of the scalar part of the product. -/
theorem C01_pos_real (a b : Q) : quProdPosReal a b = |(toH a * toH b).re| := by
  rw [← toH_prodRaw]; rfl

/-- C01: `qu_triple_prod_pos_real` is the magnitude of the scalar part of the triple product. -/
theorem C01_triple (a b c : Q) :
    quTripleProdPosReal a b c = |(toH a * toH b * toH c).re| := by
  unfold quTripleProdPosReal
  rw [C01_pos_real, mul_assoc]
  rcases (C01_prod b c).1 with h | h <;> rw [h]
  have : (toH a * -(toH b * toH c)).re = -(toH a * (toH b * toH c)).re := by simp; ring
  rw [this, abs_neg]

/-- C01: `qu_prod_axis` is the vector part of the product. -/
theorem C01_axis (a b : Q) :
    (quProdAxis a b).x = (toH a * toH b).imI ∧ (quProdAxis a b).y = (toH a * toH b).imJ ∧
    (quProdAxis a b).z = (toH a * toH b).imK := by
  rw [← toH_prodRaw]; exact ⟨rfl, rfl, rfl⟩

/-- C01: `qu_conj` is quaternion conjugation, hence the inverse rotation for unit quaternions. -/
theorem C01_conj (a : Q) : toH (quConj a) = star (toH a) ∧
    (IsUnit4 a → quProd a (quConj a) = ⟨1, 0, 0, 0⟩ ∧ quProd (quConj a) a = ⟨1, 0, 0, 0⟩) := by
  refine ⟨toH_conj a, fun h => ?_⟩
  have h1 : quProdRaw a (quConj a) = ⟨1, 0, 0, 0⟩ := by
    unfold IsUnit4 at h
    ext <;> simp [quProdRaw, quConj]
    · linear_combination h
    · ring
    · ring
    · ring
  have h2 : quProdRaw (quConj a) a = ⟨1, 0, 0, 0⟩ := by
    unfold IsUnit4 at h
    ext <;> simp [quProdRaw, quConj]
    · linear_combination h
    · ring
    · ring
    · ring
  exact ⟨by rw [quProd, h1]; simp [quStd], by rw [quProd, h2]; simp [quStd]⟩

/-- non-vacuity for C01: `i * j = k`, and a product whose sign is flipped by `qu_prod`. -/
example : quProd ⟨0, 1, 0, 0⟩ ⟨0, 0, 1, 0⟩ = ⟨0, 0, 0, 1⟩ ∧
    quProd ⟨0, 1, 0, 0⟩ ⟨0, 1, 0, 0⟩ = ⟨1, 0, 0, 0⟩ := by
  constructor <;> simp [quProd, quProdRaw, quStd, Q.neg]
example : IsUnit4 ⟨3/5, 0, 4/5, 0⟩ := by norm_num [IsUnit4]

/-! ### C02: standardisation and normalisation -/

/-- C02: standardisation returns `±q` with non-negative scalar part, is idempotent and leaves the
rotation `v ↦ h v h*` unchanged. -/
theorem C02_std (q : Q) :
    SameUpToSign (toH (quStd q)) (toH q) ∧ 0 ≤ (quStd q).w ∧ quStd (quStd q) = quStd q ∧
    (∀ v r, Rotates (toH (quStd q)) v r ↔ Rotates (toH q) v r) ∧
    (∀ v, quApply (quStd q) v = quApply q v) := by
  refine ⟨toH_std q, quStd_nonneg q, quStd_of_nonneg (quStd_nonneg q), ?_, quApply_std q⟩
  intro v r
  rcases toH_std q with h | h <;> rw [h]
  exact rotates_neg _ v r

/-- C02: two quaternions equal up to sign have the same standardisation, unless the scalar part is
zero (180 degree rotations). -/
theorem C02_std_canonical (a b : Q) (h : SameUpToSign (toH a) (toH b)) (hw : a.w ≠ 0) :
    quStd a = quStd b := by
  rcases h with h | h
  · rw [toH_inj h]
  · rw [← toH_neg] at h
    have h := toH_inj h
    subst h
    simp only [Q.neg, ne_eq, neg_eq_zero] at hw
    unfold quStd
    rcases lt_or_gt_of_ne hw with hlt | hgt
    · have h1 : (0:ℝ) ≤ b.neg.w := by simp [Q.neg]; linarith
      simp [h1, not_le.mpr hlt]
    · have h1 : ¬ (0:ℝ) ≤ b.neg.w := by simp [Q.neg]; linarith
      simp [h1, hgt.le]
      simp [Q.neg]

/-- C02: `qu_norm_std` of a non-zero quaternion is a standardised unit quaternion proportional to
the input. -/
theorem C02_norm_std (q : Q) (hq : q ≠ ⟨0, 0, 0, 0⟩) :
    IsUnit4 (quNormStd q) ∧ 0 ≤ (quNormStd q).w ∧
    ∃ s : ℝ, s ≠ 0 ∧ toH q = s • toH (quNormStd q) := by
  have hp := Q.norm_pos_of_ne hq
  refine ⟨unit_std.mpr (unit_norm hq), quStd_nonneg _, ?_⟩
  have hn : toH q = q.norm • toH (quNorm q) := by
    ext <;> simp [quNorm, Q.sdiv] <;> field_simp
  rcases toH_std (quNorm q) with h | h
  · exact ⟨q.norm, hp.ne', by rw [quNormStd, h]; exact hn⟩
  · exact ⟨-q.norm, by simpa using hp.ne', by rw [quNormStd, h, smul_neg, neg_smul, neg_neg]; exact hn⟩

example : (⟨-3, 0, 4, 0⟩ : Q) ≠ ⟨0, 0, 0, 0⟩ := by simp
example : SameUpToSign (toH ⟨-1, 2, 0, 0⟩) (toH ⟨1, -2, 0, 0⟩) := by
  right; ext <;> simp

/-! ### C03: rotation action -/

/-- C03: `qu_apply` is the rotation `v ↦ h v h*`. -/
theorem C03_apply (q : Q) (v : V) : Rotates (toH q) v (quApply q v) :=
  rotates_apply_scaled q v

/-- C03: for unit quaternions `qu_apply` preserves dot products and cross products (it is a proper
rotation) and is linear. -/
theorem C03_isometry (q : Q) (hq : IsUnit4 q) (u v : V) :
    V.dot (quApply q u) (quApply q v) = V.dot u v ∧
    V.cross (quApply q u) (quApply q v) = quApply q (V.cross u v) ∧
    (∀ s t : ℝ, quApply q ⟨s * u.x + t * v.x, s * u.y + t * v.y, s * u.z + t * v.z⟩ =
      ⟨s * (quApply q u).x + t * (quApply q v).x, s * (quApply q u).y + t * (quApply q v).y,
       s * (quApply q u).z + t * (quApply q v).z⟩) := by
  unfold IsUnit4 at hq
  refine ⟨?_, ?_, ?_⟩
  · have : V.dot (quApply q u) (quApply q v) =
        (q.w ^ 2 + q.x ^ 2 + q.y ^ 2 + q.z ^ 2) ^ 2 * V.dot u v := by
      simp only [quApply, V.dot]; ring
    rw [this, hq]; ring
  · have : ∀ w : V, V.cross (quApply q u) (quApply q v) =
        ⟨(q.w ^ 2 + q.x ^ 2 + q.y ^ 2 + q.z ^ 2) * (quApply q (V.cross u v)).x,
         (q.w ^ 2 + q.x ^ 2 + q.y ^ 2 + q.z ^ 2) * (quApply q (V.cross u v)).y,
         (q.w ^ 2 + q.x ^ 2 + q.y ^ 2 + q.z ^ 2) * (quApply q (V.cross u v)).z⟩ := by
      intro w
      ext <;> simp only [quApply, V.cross] <;> ring
    rw [this u, hq]; ext <;> simp
  · intro s t
    ext <;> simp only [quApply] <;> ring

/-- C03: composition law, with the standardised product. -/
theorem C03_compose (a b : Q) (v : V) : quApply (quProd a b) v = quApply a (quApply b v) := by
  rw [quProd, quApply_std, quApply_prodRaw]

/-- C03: the conjugate undoes the rotation of a unit quaternion. -/
theorem C03_inverse (q : Q) (hq : IsUnit4 q) (v : V) : quApply (quConj q) (quApply q v) = v := by
  unfold IsUnit4 at hq
  have : quApply (quConj q) (quApply q v) =
      ⟨(q.w ^ 2 + q.x ^ 2 + q.y ^ 2 + q.z ^ 2) ^ 2 * v.x,
       (q.w ^ 2 + q.x ^ 2 + q.y ^ 2 + q.z ^ 2) ^ 2 * v.y,
       (q.w ^ 2 + q.x ^ 2 + q.y ^ 2 + q.z ^ 2) ^ 2 * v.z⟩ := by
    ext <;> simp only [quApply, quConj] <;> ring
  rw [this, hq]; ext <;> simp

/-- non-vacuity for C03: a unit quaternion that really moves a vector. -/
example : IsUnit4 ⟨3/5, 0, 0, 4/5⟩ ∧ quApply ⟨3/5, 0, 0, 4/5⟩ ⟨1, 0, 0⟩ = ⟨-7/25, 24/25, 0⟩ := by
  constructor
  · norm_num [IsUnit4]
  · ext <;> norm_num [quApply]

/-! ### C04: aligning two points of the sphere -/

/-- C04 (partial: pairs that are not (anti)parallel within the code's threshold): the returned
quaternion is a unit quaternion and takes `p` to `q`. -/
theorem C04_rotate_partial (p q : V) (hp : IsUnit3 p) (hq : IsUnit3 q)
    (hv : |V.dot p q| < 0.999999) :
    IsUnit4 (rotateSetsSphere p q) ∧ quApply (rotateSetsSphere p q) p = q := by
  set c := V.cross p q with hc
  set d := V.dot p q with hd
  have hlag : c.norm ^ 2 = 1 - d ^ 2 := by
    rw [V.norm_sq, hc, hd]; simp only [V.cross, V.dot]
    unfold IsUnit3 at hp hq
    linear_combination (q.x ^ 2 + q.y ^ 2 + q.z ^ 2) * hp + hq
  have hdlt : d ^ 2 < 1 := by
    have := abs_lt.mp hv
    nlinarith [this.1, this.2]
  have hcn : 0 < c.norm := by
    rcases (V.norm_nonneg c).lt_or_eq with h | h
    · exact h
    · rw [← h] at hlag; nlinarith
  -- the angle
  set z : ℂ := ⟨d, c.norm⟩ with hz
  have hnz : ‖z‖ = 1 := by
    rw [Complex.norm_def, Complex.normSq_mk]
    rw [show d * d + c.norm * c.norm = 1 by nlinarith]; simp
  have hz0 : z ≠ 0 := by intro h; rw [h] at hnz; simp at hnz
  have hcos : Real.cos (Complex.arg z) = d := by rw [Complex.cos_arg hz0, hnz]; simp [hz]
  have hsin : Real.sin (Complex.arg z) = c.norm := by rw [Complex.sin_arg, hnz]; simp [hz]
  have hnn : ¬ Complex.arg z < 0 := by
    rw [not_lt, Complex.arg_nonneg_iff]; simpa [hz] using hcn.le
  set θ := Complex.arg z with hθ
  have hform : rotateSetsSphere p q =
      ⟨Real.cos (θ / 2), Real.sin (θ / 2) * (c.x / c.norm), Real.sin (θ / 2) * (c.y / c.norm),
        Real.sin (θ / 2) * (c.z / c.norm)⟩ := by
    unfold rotateSetsSphere
    rw [if_pos hv]
    simp only [atan2, ← hc, ← hd, ← hz, ← hθ, if_neg hnn]
  have hcs : Real.cos (θ / 2) ^ 2 + Real.sin (θ / 2) ^ 2 = 1 := by
    rw [add_comm]; exact Real.sin_sq_add_cos_sq _
  have h2c : Real.cos (θ / 2) ^ 2 - Real.sin (θ / 2) ^ 2 = d := by
    have := Real.cos_two_mul (θ / 2)
    rw [show 2 * (θ / 2) = θ by ring, hcos] at this
    linarith
  have h2s : 2 * Real.sin (θ / 2) * Real.cos (θ / 2) = c.norm := by
    have := Real.sin_two_mul (θ / 2)
    rw [show 2 * (θ / 2) = θ by ring, hsin] at this
    linarith
  have hcn0 : c.norm ≠ 0 := hcn.ne'
  have hn2 := V.norm_sq c
  generalize Real.cos (θ / 2) = C at *
  generalize Real.sin (θ / 2) = S at *
  rw [hform]
  -- write S = s * |c|
  obtain ⟨s, hs⟩ : ∃ s, S = s * c.norm := ⟨S / c.norm, by field_simp⟩
  have e1 : S * (c.x / c.norm) = s * c.x := by rw [hs]; field_simp
  have e2 : S * (c.y / c.norm) = s * c.y := by rw [hs]; field_simp
  have e3 : S * (c.z / c.norm) = s * c.z := by rw [hs]; field_simp
  rw [e1, e2, e3]
  have h2s' : 2 * s * C = 1 := by
    have : (2 * s * C) * c.norm = 1 * c.norm := by
      linear_combination h2s - 2 * C * hs
    exact mul_right_cancel₀ hcn0 this
  have hS2 : S ^ 2 = s ^ 2 * (c.x ^ 2 + c.y ^ 2 + c.z ^ 2) := by rw [hs, mul_pow, hn2]
  constructor
  · unfold IsUnit4
    simp only
    linear_combination hcs - hS2
  · have key : ∀ v : V, V.dot c v = 0 → True := fun _ _ => trivial
    have hcx : c.x = p.y * q.z - p.z * q.y := rfl
    have hcy : c.y = p.z * q.x - p.x * q.z := rfl
    have hcz : c.z = p.x * q.y - p.y * q.x := rfl
    have hdd : d = p.x * q.x + p.y * q.y + p.z * q.z := rfl
    unfold IsUnit3 at hp hq
    have hA : C ^ 2 - s ^ 2 * (c.x ^ 2 + c.y ^ 2 + c.z ^ 2) = d := by rw [← hS2]; exact h2c
    have hcp : c.x * p.x + c.y * p.y + c.z * p.z = 0 := by rw [hcx, hcy, hcz]; ring
    have k1 : c.y * p.z - c.z * p.y = q.x - d * p.x := by
      rw [hcy, hcz, hdd]; linear_combination q.x * hp
    have k2 : c.z * p.x - c.x * p.z = q.y - d * p.y := by
      rw [hcz, hcx, hdd]; linear_combination q.y * hp
    have k3 : c.x * p.y - c.y * p.x = q.z - d * p.z := by
      rw [hcy, hcx, hdd]; linear_combination q.z * hp
    ext
    · simp only [quApply]
      linear_combination p.x * hA + (2 * s ^ 2 * c.x) * hcp + (c.y * p.z - c.z * p.y) * h2s' + k1
    · simp only [quApply]
      linear_combination p.y * hA + (2 * s ^ 2 * c.y) * hcp + (c.z * p.x - c.x * p.z) * h2s' + k2
    · simp only [quApply]
      linear_combination p.z * hA + (2 * s ^ 2 * c.z) * hcp + (c.x * p.y - c.y * p.x) * h2s' + k3

/-- C04 fails for antiparallel points: the identity is returned although `p` must go to `-p`. -/
theorem C04_antiparallel_fails : ∃ p q : V, IsUnit3 p ∧ IsUnit3 q ∧
    quApply (rotateSetsSphere p q) p ≠ q := by
  refine ⟨⟨1, 0, 0⟩, ⟨-1, 0, 0⟩, by norm_num [IsUnit3], by norm_num [IsUnit3], ?_⟩
  have : ¬ |V.dot ⟨1, 0, 0⟩ ⟨-1, 0, 0⟩| < 0.999999 := by norm_num [V.dot]
  rw [rotateSetsSphere, if_neg this]
  intro h
  have := congrArg V.x h
  norm_num [quApply] at this

example : IsUnit3 ⟨1, 0, 0⟩ ∧ IsUnit3 ⟨3/5, 4/5, 0⟩ ∧
    |V.dot ⟨1, 0, 0⟩ ⟨3/5, 4/5, 0⟩| < 0.999999 := by
  norm_num [IsUnit3, V.dot, abs_of_pos]

/-! ### C05: rotation angle -/

/-- C05: the angle of a standardised unit quaternion lies in `[0, π]`, determines and is determined
by the scalar part, and does not depend on the sign of the quaternion. -/
theorem C05_angle (q : Q) (hq : IsUnit4 q) :
    0 ≤ quAngle (quStd q) ∧ quAngle (quStd q) ≤ Real.pi ∧
    Real.cos (quAngle (quStd q) / 2) = |q.w| ∧
    quAngle (quStd q.neg) = quAngle (quStd q) := by
  have hw : |q.w| ≤ 1 := by
    unfold IsUnit4 at hq
    rw [abs_le]; constructor <;> nlinarith [sq_nonneg q.x, sq_nonneg q.y, sq_nonneg q.z]
  have h0 := abs_nonneg q.w
  refine ⟨?_, ?_, ?_, ?_⟩
  · unfold quAngle; have := Real.arccos_nonneg (quStd q).w; linarith
  · unfold quAngle
    have : Real.arccos (quStd q).w ≤ Real.pi / 2 := Real.arccos_le_pi_div_two.mpr (quStd_nonneg q)
    linarith
  · unfold quAngle
    rw [show 2 * Real.arccos (quStd q).w / 2 = Real.arccos (quStd q).w by ring, abs_std_w,
      Real.cos_arccos (by linarith) hw]
  · unfold quAngle
    rw [abs_std_w, abs_std_w]; simp [Q.neg]

example : IsUnit4 ⟨-3/5, 0, 4/5, 0⟩ := by norm_num [IsUnit4]

/-! ### C66: slerp -/

/-- C66 (partial: one pair, i.e. inputs of shape `(4,)`): slerp of non-(anti)parallel non-zero
quaternions stays on the unit sphere and interpolates its end points. -/
theorem C66_slerp_partial (a b : Q) (t : ℝ) (ha : a ≠ ⟨0,0,0,0⟩) (hb : b ≠ ⟨0,0,0,0⟩)
    (hab : |Q.dot (quNorm a) (quNorm b)| < 1) :
    IsUnit4 (quSlerp a b t) ∧ quSlerp a b 0 = quNorm a ∧ quSlerp a b 1 = quNorm b := by
  have hua := unit_norm ha
  have hub := unit_norm hb
  set A := quNorm a with hA
  set B := quNorm b with hB
  set θ := Real.arccos (Q.dot A B) with hθ
  have hlt := abs_lt.mp hab
  have hcos : Real.cos θ = Q.dot A B := Real.cos_arccos hlt.1.le hlt.2.le
  have hsin : 0 < Real.sin θ := by
    rw [hθ, Real.sin_arccos]; apply Real.sqrt_pos.mpr; nlinarith
  have hs0 := hsin.ne'
  refine ⟨?_, ?_, ?_⟩
  · unfold IsUnit4 at *
    simp only [quSlerp, slerpWeights, ← hA, ← hB, ← hθ]
    have hexp : Real.sin ((1 - t) * θ) = Real.sin θ * Real.cos (t * θ) -
        Real.cos θ * Real.sin (t * θ) := by
      rw [show (1 - t) * θ = θ - t * θ by ring, Real.sin_sub]
    rw [hexp]
    have hT := Real.sin_sq_add_cos_sq (t * θ)
    have hTh := Real.sin_sq_add_cos_sq θ
    generalize Real.cos (t * θ) = c at *
    generalize Real.sin (t * θ) = s at *
    rw [hcos] at hTh ⊢
    generalize Real.sin θ = S at *
    obtain ⟨D, hD⟩ : ∃ D, D = Q.dot A B := ⟨_, rfl⟩
    have hDe : D = A.w * B.w + A.x * B.x + A.y * B.y + A.z * B.z := hD
    rw [← hD] at hTh ⊢
    set u := (S * c - D * s) / S with hu
    set v := s / S with hv
    have huS : u * S = S * c - D * s := by rw [hu]; field_simp
    have hvS : v * S = s := by rw [hv]; field_simp
    have goal : u ^ 2 + v ^ 2 + 2 * u * v * D = 1 := by
      have h1 : (u ^ 2 + v ^ 2 + 2 * u * v * D) * S ^ 2 = 1 * S ^ 2 := by
        have : (u ^ 2 + v ^ 2 + 2 * u * v * D) * S ^ 2 =
          (u * S) ^ 2 + (v * S) ^ 2 + 2 * (u * S) * (v * S) * D := by ring
        rw [this, huS, hvS]
        linear_combination (S^2) * hT - s^2 * hTh
      exact mul_right_cancel₀ (by positivity) h1
    linear_combination goal + u ^ 2 * hua + v ^ 2 * hub - 2 * u * v * hDe
  · simp only [quSlerp, slerpWeights, ← hA, ← hB, ← hθ]
    simp [div_self hs0]
  · simp only [quSlerp, slerpWeights, ← hA, ← hB, ← hθ]
    simp [div_self hs0]

/-- C66 fails for batches: with `n ≥ 2` pairs the result does not have the shape `(n, 4)` of the
inputs (the weight of pair `j` is applied to pair `i` for all `i, j`). -/
theorem C66_slerp_batch_fails (n : ℕ) (hn : 2 ≤ n) : quSlerpShape n ≠ [n, 4] := by
  unfold quSlerpShape; rw [if_neg (by omega)]; simp

example : |Q.dot (quNorm ⟨1,0,0,0⟩) (quNorm ⟨0,1,0,0⟩)| < 1 := by
  rw [quNorm_of_unit (by norm_num [IsUnit4]), quNorm_of_unit (by norm_num [IsUnit4])]
  norm_num [Q.dot]

end Verif
