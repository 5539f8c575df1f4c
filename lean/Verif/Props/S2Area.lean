import Verif.Props.S2ToFz
import Verif.Props.Laue
import Mathlib.MeasureTheory.Measure.Lebesgue.VolumeOfBalls
import Mathlib.LinearAlgebra.Matrix.Determinant.Basic
/-! C161: the sectors of the sphere that `s2_in_fz_laue` accepts share the sphere equally. -/
open Quaternion
namespace Verif.S2
open Spec Real MeasureTheory

/-! ### Specification: area of a set of directions -/

/-- Euclidean norm in space. -/
noncomputable def norm3 (x : Fin 3 → ℝ) : ℝ := √(x 0 ^ 2 + x 1 ^ 2 + x 2 ^ 2)

/-- The direction of a vector. -/
noncomputable def dirOf (x : Fin 3 → ℝ) : V := ⟨x 0 / norm3 x, x 1 / norm3 x, x 2 / norm3 x⟩

/-- The cone over a set of directions, within the unit ball. -/
noncomputable def cone3 (S : Set V) : Set (Fin 3 → ℝ) := {x | 0 < norm3 x ∧ norm3 x < 1 ∧ dirOf x ∈ S}

/-- Area of a set of directions on the unit sphere: three times the volume of the cone over the set. -/
noncomputable def dirArea (S : Set V) : ENNReal := 3 * volume (cone3 S)

theorem norm3_sq (x : Fin 3 → ℝ) : norm3 x ^ 2 = x 0 ^ 2 + x 1 ^ 2 + x 2 ^ 2 := sq_sqrt (by positivity)

theorem dirOf_unit {x : Fin 3 → ℝ} (h : 0 < norm3 x) : IsUnit3 (dirOf x) := by
  unfold IsUnit3 dirOf
  simp only [div_pow]
  rw [← add_div, ← add_div, ← norm3_sq, div_self (by positivity)]

theorem dirArea_all : dirArea Set.univ = ENNReal.ofReal (4 * π) := by
  have hball : volume {x : Fin 3 → ℝ | norm3 x < 1} = ENNReal.ofReal (π * 4 / 3) := by
    have h := EuclideanSpace.volume_ball_fin_three (0 : EuclideanSpace ℝ (Fin 3)) 1
    rw [← (PiLp.volume_preserving_toLp (Fin 3)).measure_preimage measurableSet_ball.nullMeasurableSet] at h
    have hs : (WithLp.toLp 2 ⁻¹' (Metric.ball (0 : EuclideanSpace ℝ (Fin 3)) 1) : Set (Fin 3 → ℝ)) = {x : Fin 3 → ℝ | norm3 x < 1} := by
      ext x
      simp [EuclideanSpace.norm_eq, Fin.sum_univ_three, norm3]
    rw [hs] at h
    rw [h]
    simp
  have h0 : volume ({0} : Set (Fin 3 → ℝ)) = 0 := measure_singleton 0
  have e : cone3 Set.univ = {x : Fin 3 → ℝ | norm3 x < 1} \ {0} := by
    ext x
    have hn : 0 ≤ norm3 x := sqrt_nonneg _
    have hz : norm3 x = 0 ↔ x = 0 := by
      constructor
      · intro h
        have hq := norm3_sq x
        rw [h] at hq
        have s0 := sq_nonneg (x 0)
        have s1 := sq_nonneg (x 1)
        have s2 := sq_nonneg (x 2)
        have z : ∀ t : ℝ, t ^ 2 = 0 → t = 0 := fun t ht => pow_eq_zero_iff (two_ne_zero) |>.mp ht
        ext i
        fin_cases i
        · exact z (x 0) (by linarith)
        · exact z (x 1) (by linarith)
        · exact z (x 2) (by linarith)
      · rintro rfl
        simp [norm3]
    simp only [cone3, Set.mem_ofPred_eq, Set.mem_univ, and_true, Set.mem_sdiff, Set.mem_singleton_iff]
    constructor
    · rintro ⟨a, b⟩
      exact ⟨b, fun h => a.ne' (hz.mpr h)⟩
    · rintro ⟨a, b⟩
      exact ⟨lt_of_le_of_ne hn fun h => b (hz.mp h.symm), a⟩
  rw [dirArea, e, measure_sdiff_null h0, hball, show (3 : ENNReal) = ENNReal.ofReal 3 by norm_num, ← ENNReal.ofReal_mul (by norm_num)]
  congr 1; ring

/-! ### Rotations and the inversion -/

/-- The matrix of a rotation, times a sign. -/
def rotMat (g : Q) (s : ℝ) : Matrix (Fin 3) (Fin 3) ℝ := Matrix.of
  ![![s * (g.w ^ 2 + g.x ^ 2 - g.y ^ 2 - g.z ^ 2), s * (2 * (g.x * g.y - g.w * g.z)), s * (2 * (g.x * g.z + g.w * g.y))],
    ![s * (2 * (g.x * g.y + g.w * g.z)), s * (g.w ^ 2 - g.x ^ 2 + g.y ^ 2 - g.z ^ 2), s * (2 * (g.y * g.z - g.w * g.x))],
    ![s * (2 * (g.x * g.z - g.w * g.y)), s * (2 * (g.y * g.z + g.w * g.x)), s * (g.w ^ 2 - g.x ^ 2 - g.y ^ 2 + g.z ^ 2)]]

theorem rotMat_det (g : Q) (s : ℝ) : (rotMat g s).det = s ^ 3 * (g.w ^ 2 + g.x ^ 2 + g.y ^ 2 + g.z ^ 2) ^ 3 := by
  simp [rotMat, Matrix.det_fin_three]
  ring

/-- The image of a direction under a rotation, times a sign. -/
def move (g : Q) (s : ℝ) (v : V) : V := ⟨s * (quApply g v).x, s * (quApply g v).y, s * (quApply g v).z⟩

theorem rotMat_apply (g : Q) (s : ℝ) (x : Fin 3 → ℝ) (i : Fin 3) :
    Matrix.toLin' (rotMat g s) x i = ![s * (quApply g ⟨x 0, x 1, x 2⟩).x, s * (quApply g ⟨x 0, x 1, x 2⟩).y, s * (quApply g ⟨x 0, x 1, x 2⟩).z] i := by
  fin_cases i <;> simp [rotMat, Matrix.mulVec, dotProduct, Fin.sum_univ_three, quApply] <;> ring

theorem quApply_div (g : Q) (v : V) (c : ℝ) : quApply g ⟨v.x / c, v.y / c, v.z / c⟩ = ⟨(quApply g v).x / c, (quApply g v).y / c, (quApply g v).z / c⟩ := by
  simp only [quApply]
  ext <;> simp only <;> ring

theorem rotMat_norm {g : Q} (hg : IsUnit4 g) {s : ℝ} (hs : s ^ 2 = 1) (x : Fin 3 → ℝ) : norm3 (Matrix.toLin' (rotMat g s) x) = norm3 x := by
  unfold norm3
  rw [rotMat_apply, rotMat_apply, rotMat_apply]
  congr 1
  simp [quApply]
  unfold IsUnit4 at hg
  have h2 : (g.w ^ 2 + g.x ^ 2 + g.y ^ 2 + g.z ^ 2) ^ 2 = 1 := by rw [hg]; norm_num
  linear_combination (x 0 ^ 2 + x 1 ^ 2 + x 2 ^ 2) * (g.w ^ 2 + g.x ^ 2 + g.y ^ 2 + g.z ^ 2) ^ 2 * hs + (x 0 ^ 2 + x 1 ^ 2 + x 2 ^ 2) * h2

theorem rotMat_dir {g : Q} (hg : IsUnit4 g) {s : ℝ} (hs : s ^ 2 = 1) (x : Fin 3 → ℝ) : dirOf (Matrix.toLin' (rotMat g s) x) = move g s (dirOf x) := by
  unfold dirOf move
  rw [rotMat_norm hg hs, rotMat_apply, rotMat_apply, rotMat_apply, quApply_div g ⟨x 0, x 1, x 2⟩]
  ext <;> simp <;> ring

theorem cone_move {g : Q} (hg : IsUnit4 g) {s : ℝ} (hs : s ^ 2 = 1) (S : Set V) :
    cone3 {v | move g s v ∈ S} = Matrix.toLin' (rotMat g s) ⁻¹' cone3 S := by
  ext x
  simp only [cone3, Set.mem_ofPred_eq, Set.mem_preimage, rotMat_norm hg hs, rotMat_dir hg hs]

theorem volume_move {g : Q} (hg : IsUnit4 g) {s : ℝ} (hs : s ^ 2 = 1) (S : Set V) : volume (cone3 {v | move g s v ∈ S}) = volume (cone3 S) := by
  have hdet : |LinearMap.det (Matrix.toLin' (rotMat g s))| = 1 := by
    unfold IsUnit4 at hg
    rw [LinearMap.det_toLin', rotMat_det, hg, one_pow, mul_one, ← sq_eq_sq₀ (abs_nonneg _) (by norm_num), sq_abs]
    calc (s ^ 3) ^ 2 = (s ^ 2) ^ 3 := by ring
      _ = 1 ^ 2 := by rw [hs]; norm_num
  have hne : LinearMap.det (Matrix.toLin' (rotMat g s)) ≠ 0 := by
    intro h; rw [h] at hdet; norm_num at hdet
  rw [cone_move hg hs]
  have key := Measure.addHaar_preimage_linearMap volume (f := Matrix.toLin' (rotMat g s)) hne (cone3 S)
  rw [abs_inv, hdet] at key
  simpa only [inv_one, ENNReal.ofReal_one, one_mul] using key

/-- The area of a set of directions does not change under a rotation and under inversion. -/
theorem area_invariant (g : Q) (hg : g.w ^ 2 + g.x ^ 2 + g.y ^ 2 + g.z ^ 2 = 1) (s : ℝ) (hs : s = 1 ∨ s = -1) (S : Set V) :
    dirArea {v | (∃ r, Rotates (toH g) v r ∧ (⟨s * r.x, s * r.y, s * r.z⟩ : V) ∈ S)} = dirArea S := by
  have : {v | (∃ r, Rotates (toH g) v r ∧ (⟨s * r.x, s * r.y, s * r.z⟩ : V) ∈ S)} = {v | move g s v ∈ S} := by
    ext v
    simp only [rotates_iff, Set.mem_ofPred_eq, exists_eq_left]
    rfl
  rw [dirArea, dirArea, this, volume_move hg (by rcases hs with rfl | rfl <;> norm_num)]

/-! ### Planes and slabs -/

theorem plane_null (m : V) (hm : m ≠ ⟨0, 0, 0⟩) : volume {x : Fin 3 → ℝ | m.x * x 0 + m.y * x 1 + m.z * x 2 = 0} = 0 := by
  have := Measure.addHaar_submodule (volume : Measure (Fin 3 → ℝ)) (LinearMap.ker (m.x • LinearMap.proj 0 + m.y • LinearMap.proj 1 + m.z • LinearMap.proj 2 : (Fin 3 → ℝ) →ₗ[ℝ] ℝ)) (by
    intro h
    rw [LinearMap.ker_eq_top] at h
    have h0 := LinearMap.congr_fun h ![1, 0, 0]
    have h1 := LinearMap.congr_fun h ![0, 1, 0]
    have h2 := LinearMap.congr_fun h ![0, 0, 1]
    simp at h0 h1 h2
    exact hm (by ext <;> assumption))
  convert this using 2
  ext x
  simp

theorem wall_ne {n : ℕ} {m : V} (hm : m ∈ wallNormals n) : m ≠ ⟨0, 0, 0⟩ := by
  rintro rfl
  have := s2_facts.1
  have := s3_facts.1
  unfold wallNormals at hm
  split at hm <;> simp at hm

/-- The directions in a wall. -/
def wallSet (n : ℕ) : Set V := {v | ∃ m ∈ wallNormals n, m.x * v.x + m.y * v.y + m.z * v.z = 0}

theorem wall_null (n : ℕ) : volume (cone3 (wallSet n)) = 0 := by
  have h : volume (⋃ m ∈ {m | m ∈ wallNormals n}, {x : Fin 3 → ℝ | m.x * x 0 + m.y * x 1 + m.z * x 2 = 0}) = 0 :=
    (measure_biUnion_null_iff (List.finite_toSet (wallNormals n)).countable).mpr fun m hm => plane_null m (wall_ne hm)
  refine measure_mono_null ?_ h
  rintro x ⟨h1, h2, m, hm, e⟩
  simp only [Set.mem_iUnion]
  refine ⟨m, hm, ?_⟩
  simp only [dirOf] at e
  rw [Set.mem_ofPred_eq]
  field_simp at e
  linarith

/-! ### Measurability -/

theorem norm3_meas : Measurable norm3 := by
  unfold norm3
  fun_prop

theorem inside_meas (n : ℕ) : MeasurableSet (cone3 {v | Inside n 0 v}) := by
  have hn := norm3_meas
  have e : cone3 {v | Inside n 0 v} = ({x | 0 < norm3 x} ∩ {x | norm3 x < 1}) ∩
      ⋂ m ∈ {m | m ∈ wallNormals n}, {x | 0 < m.x * (dirOf x).x + m.y * (dirOf x).y + m.z * (dirOf x).z} := by
    ext x
    simp only [cone3, Inside, Set.mem_ofPred_eq, Set.mem_inter_iff, Set.mem_iInter]
    tauto
  rw [e]
  refine ((measurableSet_lt measurable_const hn).inter (measurableSet_lt hn measurable_const)).inter ?_
  refine MeasurableSet.biInter (List.finite_toSet (wallNormals n)).countable fun m _ => ?_
  apply measurableSet_lt measurable_const
  simp only [dirOf]
  fun_prop

/-! ### The theorems -/

theorem move_one (g : Q) (v : V) : move g 1 v = quApply g v := by
  simp [move]

theorem move_neg (g : Q) (v : V) : move g (-1) v = vneg (quApply g v) := by
  ext <;> simp [move, vneg]

theorem inside_above' {n : ℕ} {v : V} (h : Inside n 0 v) : Above n (-0) v := fun m hm => by
  rw [neg_zero]; exact (h m hm).le

theorem order_pos {n : ℕ} (h1 : 1 ≤ n) (h2 : n ≤ 11) : 0 < (laueOrder n : ℝ) := by
  interval_cases n <;> norm_num [laueOrder]

/-- **C161**: the standard sector of every Laue class holds the same share of the sphere: `4π` divided by the order of the Laue group. -/
theorem C161_sector (n : ℕ) (h1 : 1 ≤ n) (h2 : n ≤ 11) : dirArea {v | Inside n 0 v} = ENNReal.ofReal (4 * π / laueOrder n) := by
  classical
  obtain ⟨G, he, -, hu, -, -, -, -, hl, -⟩ := C06_group n h1 h2
  have hnd := laue_nodup h1 h2 he
  let S : Set V := {v | Inside n 0 v}
  let J : Finset (Q × ℝ) := G.toFinset ×ˢ {1, -1}
  have hJ : J.card = laueOrder n := by
    have : ({1, -1} : Finset ℝ).card = 2 := Finset.card_pair (by norm_num)
    rw [Finset.card_product, List.toFinset_card_of_nodup hnd, this, ← hl]; ring
  have hJm : ∀ j ∈ J, j.1 ∈ G ∧ (j.2 = 1 ∨ j.2 = -1) := by
    intro j hj
    simpa [J] using hj
  have hsq : ∀ j ∈ J, j.2 ^ 2 = 1 := by
    intro j hj
    rcases (hJm j hj).2 with h | h <;> rw [h] <;> norm_num
  let F : Q × ℝ → Set (Fin 3 → ℝ) := fun j => cone3 {v | move j.1 j.2 v ∈ S}
  have hF : ∀ j ∈ J, volume (F j) = volume (cone3 S) := fun j hj => volume_move (hu _ (hJm j hj).1) (hsq j hj) S
  have hFm : ∀ j ∈ J, NullMeasurableSet (F j) volume := by
    intro j hj
    have : MeasurableSet (F j) := by
      simp only [F]
      rw [cone_move (hu _ (hJm j hj).1) (hsq j hj)]
      exact (LinearMap.continuous_of_finiteDimensional (Matrix.toLin' (rotMat j.1 j.2))).measurable (inside_meas n)
    exact this.nullMeasurableSet
  have hdis : ∀ j ∈ J, ∀ k ∈ J, ∀ v, move j.1 j.2 v ∈ S → move k.1 k.2 v ∈ S → j = k := by
    rintro ⟨g, s⟩ hj ⟨g', s'⟩ hk v a b
    obtain ⟨hg, hs⟩ := hJm _ hj
    obtain ⟨hg', hs'⟩ := hJm _ hk
    simp only [S, Set.mem_ofPred_eq] at a b hs hs' hg hg'
    obtain ⟨c, hc, ec, hce⟩ := image_rel h1 h2 he hg hg' v
    rcases hs with rfl | rfl <;> rcases hs' with rfl | rfl
    · rw [move_one] at a b
      rw [ec] at b
      rw [hce ((uniq h1 h2 he 0 le_rfl _ a c hc).1 (inside_above' b))]
    · rw [move_one] at a
      rw [move_neg, ec] at b
      exact absurd (inside_above' b) (uniq h1 h2 he 0 le_rfl _ a c hc).2
    · rw [move_neg] at a
      rw [move_one, ec, ← vneg_vneg (quApply g v), quApply_vneg] at b
      exact absurd (inside_above' b) (uniq h1 h2 he 0 le_rfl _ a c hc).2
    · rw [move_neg] at a b
      rw [ec, ← quApply_vneg] at b
      rw [hce ((uniq h1 h2 he 0 le_rfl _ a c hc).1 (inside_above' b))]
  have hd : Set.Pairwise (↑J) (Function.onFun (AEDisjoint volume) F) := by
    intro j hj k hk hne
    have : F j ∩ F k = ∅ := by
      ext x
      simp only [Set.mem_inter_iff, Set.mem_empty_iff_false, iff_false, not_and]
      rintro ⟨-, -, a⟩ ⟨-, -, b⟩
      exact hne (hdis j hj k hk _ a b)
    show volume (F j ∩ F k) = 0
    rw [this, measure_empty]
  have hsum := measure_biUnion_finset₀ hd hFm
  have hae : volume (cone3 Set.univ) = volume (⋃ j ∈ J, F j) := by
    have hN : volume (⋃ j ∈ J, cone3 {v | move j.1 j.2 v ∈ wallSet n}) = 0 :=
      (measure_biUnion_null_iff (s := fun j : Q × ℝ => cone3 {v | move j.1 j.2 v ∈ wallSet n}) J.countable_toSet).mpr fun j hj => by
        rw [volume_move (hu _ (hJm j hj).1) (hsq j hj), wall_null]
    apply le_antisymm
    · rw [← measure_sdiff_null (s := cone3 Set.univ) hN]
      apply measure_mono
      rintro x ⟨⟨a1, a2, -⟩, hx⟩
      obtain ⟨q, hq, ha⟩ := cover h1 h2 (dirOf x)
      rw [dirEquiv_iff h1 h2 he] at hq
      have : ∃ j ∈ J, q = move j.1 j.2 (dirOf x) := by
        simp only [equivPoints, List.mem_append, List.mem_map] at hq
        rcases hq with ⟨g, hg, rfl⟩ | ⟨r, ⟨g, hg, rfl⟩, rfl⟩
        · exact ⟨(g, 1), by simp [J, hg], (move_one _ _).symm⟩
        · exact ⟨(g, -1), by simp [J, hg], (move_neg _ _).symm⟩
      obtain ⟨j, hj, rfl⟩ := this
      simp only [Set.mem_iUnion] at hx ⊢
      refine ⟨j, hj, a1, a2, fun m hm => lt_of_le_of_ne (ha m hm) fun e => hx ⟨j, hj, a1, a2, m, hm, e.symm⟩⟩
    · apply measure_mono
      intro x hx
      simp only [Set.mem_iUnion] at hx
      obtain ⟨j, hj, a1, a2, -⟩ := hx
      exact ⟨a1, a2, trivial⟩
  have hall := dirArea_all
  rw [dirArea, hae, hsum, Finset.sum_congr rfl hF, Finset.sum_const, hJ, nsmul_eq_mul] at hall
  have ho := order_pos h1 h2
  have hne : (laueOrder n : ENNReal) ≠ 0 := by
    have : laueOrder n ≠ 0 := by exact_mod_cast ho.ne'
    exact_mod_cast this
  rw [ENNReal.ofReal_div_of_pos ho, ← hall, ENNReal.ofReal_natCast, mul_left_comm, mul_comm (laueOrder n : ENNReal),
    ENNReal.mul_div_cancel_right hne (ENNReal.natCast_ne_top _)]
  rfl

theorem slab_box (i : Fin 3) (m : Fin 3 → ℝ) (hm : 1 ≤ 2 * m i ^ 2) (e : ℝ) (he : 0 ≤ e) :
    volume {x : Fin 3 → ℝ | norm3 x < 1 ∧ -e ≤ m 0 * x 0 + m 1 * x 1 + m 2 * x 2 ∧ m 0 * x 0 + m 1 * x 1 + m 2 * x 2 ≤ 0} ≤ ENNReal.ofReal (6 * e) := by
  let L := Matrix.toLin' (Matrix.updateRow (1 : Matrix (Fin 3) (Fin 3) ℝ) i m)
  let lo : Fin 3 → ℝ := Function.update (fun _ => -1) i (-e)
  let hi : Fin 3 → ℝ := Function.update (fun _ => 1) i 0
  have hdet : LinearMap.det L = m i := by
    simp only [L]
    rw [LinearMap.det_toLin']
    fin_cases i <;> simp [Matrix.det_fin_three, Matrix.updateRow_apply]
  have hmi : 0 < |m i| := by
    rw [abs_pos]; intro h; rw [h] at hm; norm_num at hm
  have hne : LinearMap.det L ≠ 0 := by rw [hdet]; exact abs_pos.mp hmi
  have key := Measure.addHaar_preimage_linearMap volume (f := L) hne (Set.Icc lo hi)
  have hbox : volume (Set.Icc lo hi) = ENNReal.ofReal (4 * e) := by
    rw [Real.volume_Icc_pi]
    have : ∏ k, ENNReal.ofReal (hi k - lo k) = ENNReal.ofReal (∏ k, (hi k - lo k)) := by
      rw [ENNReal.ofReal_prod_of_nonneg]
      intro k _
      by_cases h : k = i
      · subst h; simp [lo, hi, he]
      · simp [lo, hi, h]
    rw [this, Fin.prod_univ_three]
    congr 1
    fin_cases i <;> simp [lo, hi] <;> first | ring1 | (left; norm_num)
  have hsub : {x : Fin 3 → ℝ | norm3 x < 1 ∧ -e ≤ m 0 * x 0 + m 1 * x 1 + m 2 * x 2 ∧ m 0 * x 0 + m 1 * x 1 + m 2 * x 2 ≤ 0} ⊆ L ⁻¹' Set.Icc lo hi := by
    rintro x ⟨h1, h2, h3⟩
    have hq := norm3_sq x
    have hn : 0 ≤ norm3 x := sqrt_nonneg _
    have hb : ∀ k, -1 ≤ x k ∧ x k ≤ 1 := by
      intro k
      have : x k ^ 2 ≤ 1 := by
        have s0 := sq_nonneg (x 0)
        have s1 := sq_nonneg (x 1)
        have s2 := sq_nonneg (x 2)
        have : norm3 x ^ 2 ≤ 1 := by nlinarith
        fin_cases k
        · show x 0 ^ 2 ≤ 1; linarith
        · show x 1 ^ 2 ≤ 1; linarith
        · show x 2 ^ 2 ≤ 1; linarith
      exact abs_le.mp ((sq_le_one_iff_abs_le_one _).mp this)
    have hL : ∀ k, L x k = if k = i then m 0 * x 0 + m 1 * x 1 + m 2 * x 2 else x k := by
      intro k
      simp only [L, Matrix.toLin'_apply, Matrix.mulVec, dotProduct, Fin.sum_univ_three, Matrix.updateRow_apply]
      by_cases h : k = i
      · simp [h]
      · simp only [h, if_false, Matrix.one_apply]
        fin_cases k <;> simp
    refine ⟨fun k => ?_, fun k => ?_⟩ <;> rw [hL] <;> by_cases h : k = i
    · rw [if_pos h, h]; simpa [lo] using h2
    · rw [if_neg h]; simpa [lo, h] using (hb k).1
    · rw [if_pos h, h]; simpa [hi] using h3
    · rw [if_neg h]; simpa [hi, h] using (hb k).2
  calc _ ≤ volume (L ⁻¹' Set.Icc lo hi) := measure_mono hsub
    _ = ENNReal.ofReal (|(m i)⁻¹| * (4 * e)) := by rw [key, hdet, hbox, ← ENNReal.ofReal_mul (abs_nonneg _)]
    _ ≤ _ := by
      apply ENNReal.ofReal_le_ofReal
      have h1 : |(m i)⁻¹| ≤ 3 / 2 := by
        rw [abs_inv, inv_le_comm₀ hmi (by norm_num)]
        by_contra hc
        have hc := not_le.mp hc
        have : |m i| ^ 2 < ((3 / 2)⁻¹) ^ 2 := pow_lt_pow_left₀ hc (abs_nonneg _) (by norm_num)
        rw [sq_abs] at this
        norm_num at this
        linarith
      have := mul_le_mul_of_nonneg_right h1 (by linarith : 0 ≤ 4 * e)
      linarith

theorem wall_big {n : ℕ} {m : V} (hm : m ∈ wallNormals n) : 1 ≤ 2 * m.x ^ 2 ∨ 1 ≤ 2 * m.y ^ 2 ∨ 1 ≤ 2 * m.z ^ 2 := by
  have h2 : (1 / √2 : ℝ) ^ 2 = 1 / 2 := by rw [div_pow, sq_sqrt (by norm_num)]; norm_num
  have h3 : (√3 / 2 : ℝ) ^ 2 = 3 / 4 := by rw [div_pow, sq_sqrt (by norm_num)]; norm_num
  unfold wallNormals at hm
  split at hm <;> simp only [List.mem_cons, List.not_mem_nil, or_false] at hm
  · subst hm; norm_num
  all_goals
    rcases hm with rfl | rfl | rfl | rfl <;> simp only [neg_sq, h2, h3] <;> norm_num

theorem slab_wall {n : ℕ} {m : V} (hm : m ∈ wallNormals n) {e : ℝ} (he : 0 ≤ e) :
    volume {x : Fin 3 → ℝ | norm3 x < 1 ∧ -e ≤ m.x * x 0 + m.y * x 1 + m.z * x 2 ∧ m.x * x 0 + m.y * x 1 + m.z * x 2 ≤ 0} ≤ ENNReal.ofReal (6 * e) := by
  rcases wall_big hm with h | h | h
  · exact slab_box 0 ![m.x, m.y, m.z] h e he
  · exact slab_box 1 ![m.x, m.y, m.z] h e he
  · exact slab_box 2 ![m.x, m.y, m.z] h e he

/-- **C161**: what `s2_in_fz_laue` accepts of the sphere is the share of the class, up to its tolerance: at least `4π` divided by the order
of the Laue group, and at most `144 EPS` more. -/
theorem C161_accepted (n : ℕ) (h1 : 1 ≤ n) (h2 : n ≤ 11) (single : Bool) :
    ENNReal.ofReal (4 * π / laueOrder n) ≤ dirArea {v | s2InFz (s2Eps single) n v = some true} ∧
      dirArea {v | s2InFz (s2Eps single) n v = some true} ≤ ENNReal.ofReal (4 * π / laueOrder n + 144 * s2Eps single) := by
  classical
  obtain ⟨he, he1⟩ := eps_facts single
  constructor
  · rw [← C161_sector n h1 h2]
    unfold dirArea
    gcongr
    rintro x ⟨a1, a2, h⟩
    refine ⟨a1, a2, ?_⟩
    have hu := dirOf_unit a1
    rw [Set.mem_ofPred_eq] at h ⊢
    rcases Nat.lt_or_eq_of_le h2 with h' | rfl
    · refine acc_of_above h1 (by omega) he.le hu (inside_above le_rfl h) ?_
      rintro rfl ⟨hx, hy⟩
      rw [inside7] at h
      rw [hx] at h
      linarith [h.1]
    · rw [inside11] at h
      exact acc11 he hu (by linarith) (by linarith) (by linarith)
  · have hsub : cone3 {v | s2InFz (s2Eps single) n v = some true} ⊆ cone3 {v | Inside n 0 v} ∪
        ⋃ m ∈ (wallNormals n).toFinset, {x : Fin 3 → ℝ | norm3 x < 1 ∧ -(2 * s2Eps single) ≤ m.x * x 0 + m.y * x 1 + m.z * x 2 ∧ m.x * x 0 + m.y * x 1 + m.z * x 2 ≤ 0} := by
      rintro x ⟨a1, a2, h⟩
      have hb := above_of_acc h1 h2 he.le (by linarith) (dirOf_unit a1) h
      by_cases hin : Inside n 0 (dirOf x)
      · exact Or.inl ⟨a1, a2, hin⟩
      · right
        unfold Inside at hin
        push Not at hin
        obtain ⟨m, hm, hle⟩ := hin
        have hge := hb m hm
        simp only [Set.mem_iUnion]
        have e : m.x * (dirOf x).x + m.y * (dirOf x).y + m.z * (dirOf x).z = (m.x * x 0 + m.y * x 1 + m.z * x 2) / norm3 x := by
          simp only [dirOf]; ring
        rw [e] at hle hge
        rw [le_div_iff₀ a1] at hge
        rw [div_le_iff₀ a1] at hle
        refine ⟨m, by simpa using hm, a2, ?_, by linarith⟩
        nlinarith
    have hcard : (wallNormals n).toFinset.card ≤ 4 := by
      refine (List.toFinset_card_le _).trans ?_
      interval_cases n <;> simp [wallNormals]
    have hN : volume (⋃ m ∈ (wallNormals n).toFinset, {x : Fin 3 → ℝ | norm3 x < 1 ∧ -(2 * s2Eps single) ≤ m.x * x 0 + m.y * x 1 + m.z * x 2 ∧ m.x * x 0 + m.y * x 1 + m.z * x 2 ≤ 0}) ≤
        ENNReal.ofReal (48 * s2Eps single) := by
      refine (measure_biUnion_finset_le _ _).trans ?_
      refine (Finset.sum_le_card_nsmul _ _ (ENNReal.ofReal (6 * (2 * s2Eps single))) fun m hm => slab_wall (by simpa using hm) (by linarith)).trans ?_
      rw [nsmul_eq_mul, ← ENNReal.ofReal_natCast, ← ENNReal.ofReal_mul (by positivity)]
      apply ENNReal.ofReal_le_ofReal
      have : ((wallNormals n).toFinset.card : ℝ) ≤ 4 := by exact_mod_cast hcard
      nlinarith
    have ho := order_pos h1 h2
    have hpi := pi_pos
    rw [ENNReal.ofReal_add (by positivity) (by linarith), ← C161_sector n h1 h2]
    unfold dirArea
    calc _ ≤ 3 * (volume (cone3 {v | Inside n 0 v}) + ENNReal.ofReal (48 * s2Eps single)) := by
          gcongr
          exact (measure_mono hsub).trans ((measure_union_le _ _).trans (by gcongr))
      _ = _ := by
          rw [mul_add]
          congr 1
          rw [show (3 : ENNReal) = ENNReal.ofReal 3 by norm_num, ← ENNReal.ofReal_mul (by norm_num)]
          congr 1; ring

/-! ### Non-vacuity -/

/-- The standard triangle of the cubic class `m-3m` is one 48th of the sphere, and the code accepts it up to its tolerance. -/
example : dirArea {v | Inside 11 0 v} = ENNReal.ofReal (4 * π / (48 : ℕ)) := C161_sector 11 (by norm_num) (by norm_num)

example : dirArea {v | s2InFz (s2Eps false) (9 : ℕ) v = some true} ≤ ENNReal.ofReal (4 * π / (24 : ℕ) + 144 * s2Eps false) :=
  (C161_accepted 9 (by norm_num) (by norm_num) false).2

end Verif.S2
