import Verif.Model.Rfz
import Verif.Props.Cubo
/-!
C67: cube_to_rfz and rfz_to_cube (cubic high symmetry).
-/
namespace Verif.Rfz
open Verif Verif.Cubo Real

/-- Specification: largest coordinate magnitude. -/
noncomputable def linf (v : V) : ℝ := max (max |v.x| |v.y|) |v.z|
/-- Specification: sum of the coordinate magnitudes. -/
noncomputable def l1 (v : V) : ℝ := |v.x| + |v.y| + |v.z|
/-- Specification: the closed cube of half-edge `√2 - 1`. -/
def InCube (v : V) : Prop := |v.x| ≤ √2 - 1 ∧ |v.y| ≤ √2 - 1 ∧ |v.z| ≤ √2 - 1
/-- Specification: the Rodrigues vectors `axis * tan (angle/2)` of the cubic (m-3m) fundamental zone: the cube of
half-edge `tan(π/8) = √2 - 1` truncated by the planes normal to the `⟨111⟩` directions at distance `tan(π/6)`. -/
def InZone (v : V) : Prop := InCube v ∧ |v.x| + |v.y| + |v.z| ≤ 1
/-- the unit quaternion with non-negative scalar part whose Rodrigues vector is `v` -/
noncomputable def quatOf (v : V) : Q :=
  let n := √(1 + v.x ^ 2 + v.y ^ 2 + v.z ^ 2)
  ⟨1 / n, v.x / n, v.y / n, v.z / n⟩

theorem linf_nonneg (v : V) : 0 ≤ linf v := le_max_of_le_right (abs_nonneg _)

theorem le_linf (v : V) (i : Fin 3) : |comp v i| ≤ linf v := by
  fin_cases i <;> simp [comp, linf]

theorem copysign_mul {a k : ℝ} (hk : 0 ≤ k) : copysign (|a| * k) a = a * k := by
  unfold copysign
  have : abs (|a| * k) = |a| * k := abs_of_nonneg (mul_nonneg (abs_nonneg _) hk)
  rw [this]
  split
  · rename_i h; rw [abs_of_neg h]; ring
  · rename_i h; rw [abs_of_nonneg (not_lt.mp h)]

/-- closed form of the shared body -/
theorem rescale_eq (op : ℝ → ℝ → ℝ) (g : ℝ → ℝ) (hop : ∀ a f, op a f = a * g f) (hg : ∀ f, 0 ≤ f → 0 ≤ g f)
    (A : Argsort) (c : V) : rescale op A c =
      open Classical in
      if linf c < (l1 c - linf c) / √2 then
        ofComp fun i => comp c i * g (l1 c * (√2 - 1) / linf c)
      else c := by
  obtain ⟨h1, h2⟩ := A.sorted fun i => |comp c i|
  set σ := A.run fun i => |comp c i| with hσ
  have hM : |comp c (σ 2)| = linf c := max_comp c σ (A.mono _)
  have hS : |comp c (σ 0)| + |comp c (σ 1)| + |comp c (σ 2)| = l1 c := by
    have h := Equiv.sum_comp σ fun i => |comp c i|
    rw [Fin.sum_univ_three, Fin.sum_univ_three] at h
    exact h
  have hS' : |comp c (σ 0)| + |comp c (σ 1)| = l1 c - linf c := by rw [← hM, ← hS]; ring
  have s2 : 1 < √2 := by rw [lt_sqrt] <;> norm_num
  have l0 := linf_nonneg c
  have ll : 0 ≤ l1 c := by unfold l1; positivity
  unfold rescale
  simp only [← hσ, hM, hS']
  by_cases ht : linf c < (l1 c - linf c) / √2
  · rw [if_pos ht]
    simp only [if_pos ht]
    have hpos : linf c ≠ 0 := by
      intro h0
      have z : ∀ i, |comp c i| = 0 := fun i => le_antisymm (h0 ▸ le_linf c i) (abs_nonneg _)
      have : l1 c = 0 := by rw [← hS, z, z, z]; ring
      rw [h0, this] at ht; simp at ht
    rw [if_neg hpos]
    congr 1
    funext i
    rw [Equiv.apply_symm_apply, hop, copysign_mul]
    · rfl
    · exact hg _ (div_nonneg (mul_nonneg ll (by linarith)) l0)
  · rw [if_neg ht]
    simp only [if_neg ht]
    rw [← ofComp_comp c]
    simp only [comp_ofComp]
    congr 1
    funext i
    rw [Equiv.apply_symm_apply]
    exact copysign_self' (abs_abs _)

theorem scale_linf (v : V) {k : ℝ} (hk : 0 ≤ k) : linf (ofComp fun i => comp v i * k) = linf v * k := by
  simp only [linf, ofComp, comp, Matrix.cons_val_zero, Matrix.cons_val_one, Matrix.cons_val, abs_mul, abs_of_nonneg hk]
  rw [max_mul_of_nonneg _ _ hk, max_mul_of_nonneg _ _ hk]

theorem scale_l1 (v : V) {k : ℝ} (hk : 0 ≤ k) : l1 (ofComp fun i => comp v i * k) = l1 v * k := by
  simp only [l1, ofComp, comp, Matrix.cons_val_zero, Matrix.cons_val_one, Matrix.cons_val, abs_mul, abs_of_nonneg hk]
  ring

theorem inCube_iff (v : V) : InCube v ↔ linf v ≤ √2 - 1 := by
  unfold InCube linf; rw [max_le_iff, max_le_iff, and_assoc]

theorem test_pos {c : V} (ht : linf c < (l1 c - linf c) / √2) :
    0 < linf c ∧ (1 + √2) * linf c < l1 c ∧ 1 < l1 c * (√2 - 1) / linf c := by
  have s2 : 1 < √2 := by rw [lt_sqrt] <;> norm_num
  have s22 : √2 * √2 = 2 := mul_self_sqrt (by norm_num)
  have h := (lt_div_iff₀ (by linarith)).mp ht
  have hp : 0 < linf c := by
    rcases (linf_nonneg c).lt_or_eq with h' | h'
    · exact h'
    · exfalso
      have z : ∀ i, |comp c i| = 0 := fun i => le_antisymm (h' ▸ le_linf c i) (abs_nonneg _)
      have : l1 c = 0 := by
        have a := z 0; have b := z 1; have d := z 2
        change |c.x| = 0 at a; change |c.y| = 0 at b; change |c.z| = 0 at d
        unfold l1; rw [a, b, d]; ring
      rw [← h', this] at h; simp at h
  have h2 : (1 + √2) * linf c < l1 c := by linarith
  refine ⟨hp, h2, ?_⟩
  rw [lt_div_iff₀ hp]
  have := mul_lt_mul_of_pos_right h2 (show 0 < √2 - 1 by linarith)
  have e : (1 + √2) * linf c * (√2 - 1) = linf c * (√2 * √2 - 1) := by ring
  rw [e, s22] at this
  linarith

theorem test_scale {c : V} {k : ℝ} (hk : 0 < k) :
    (linf (ofComp fun i => comp c i * k) < (l1 (ofComp fun i => comp c i * k) - linf (ofComp fun i => comp c i * k)) / √2)
      ↔ linf c < (l1 c - linf c) / √2 := by
  rw [scale_linf _ hk.le, scale_l1 _ hk.le, show (l1 c * k - linf c * k) / √2 = (l1 c - linf c) / √2 * k by ring]
  exact mul_lt_mul_iff_left₀ hk

theorem factor_scale (c : V) {k : ℝ} (hk : 0 < k) :
    l1 (ofComp fun i => comp c i * k) * (√2 - 1) / linf (ofComp fun i => comp c i * k) =
      l1 c * (√2 - 1) / linf c := by
  rw [scale_linf _ hk.le, scale_l1 _ hk.le, show l1 c * k * (√2 - 1) = l1 c * (√2 - 1) * k by ring]
  exact mul_div_mul_right _ _ hk.ne'

theorem mul_eq (A : Argsort) (c : V) : rescale (· * ·) A c =
      open Classical in
      if linf c < (l1 c - linf c) / √2 then
        ofComp fun i => comp c i * (l1 c * (√2 - 1) / linf c)
      else c := rescale_eq (· * ·) id (fun _ _ => rfl) (fun _ h => h) A c
theorem div_eq (A : Argsort) (c : V) : rescale (· / ·) A c =
      open Classical in
      if linf c < (l1 c - linf c) / √2 then
        ofComp fun i => comp c i * (l1 c * (√2 - 1) / linf c)⁻¹
      else c :=
  rescale_eq (· / ·) (·⁻¹) (fun _ _ => div_eq_mul_inv _ _) (fun _ h => inv_nonneg.mpr h) A c

theorem scale_scale (c : V) {k l : ℝ} (h : k * l = 1) :
    (ofComp fun i => comp (ofComp fun i => comp c i * k) i * l) = c := by
  rw [comp_ofComp]
  conv_rhs => rw [← ofComp_comp c]
  congr 1
  funext i
  rw [mul_assoc, h, mul_one]

/-- C67: the two functions undo each other at every point (the origin included), whichever way the sort breaks
ties, and refuse every other group. -/
theorem C67_inverse (A B : Argsort) (c : V) :
    (cubeToRfz A c 11).bind (fun r => rfzToCube B r 11) = some c ∧
    (rfzToCube A c 11).bind (fun r => cubeToRfz B r 11) = some c ∧
    (∀ g : ℤ, g ≠ 11 → cubeToRfz A c g = none ∧ rfzToCube A c g = none) := by
  refine ⟨?_, ?_, fun g hg => ⟨if_neg hg, if_neg hg⟩⟩
  · simp only [cubeToRfz, rfzToCube, if_true, Option.bind_some, Option.some.injEq]
    rw [mul_eq]
    by_cases ht : linf c < (l1 c - linf c) / √2
    · obtain ⟨-, -, hf⟩ := test_pos ht
      have hf0 : 0 < l1 c * (√2 - 1) / linf c := by linarith
      rw [if_pos ht, div_eq, if_pos ((test_scale hf0).mpr ht)]
      rw [factor_scale c hf0]
      exact scale_scale c (mul_inv_cancel₀ hf0.ne')
    · rw [if_neg ht, div_eq, if_neg ht]
  · simp only [cubeToRfz, rfzToCube, if_true, Option.bind_some, Option.some.injEq]
    rw [div_eq]
    by_cases ht : linf c < (l1 c - linf c) / √2
    · obtain ⟨-, -, hf⟩ := test_pos ht
      have hf0 : 0 < l1 c * (√2 - 1) / linf c := by linarith
      have hi := inv_pos.mpr hf0
      rw [if_pos ht, mul_eq, if_pos ((test_scale hi).mpr ht)]
      rw [factor_scale c hi]
      exact scale_scale c (inv_mul_cancel₀ hf0.ne')
    · rw [if_neg ht, mul_eq, if_neg ht]

/-- C67: each function only rescales the point by a positive factor (the direction is kept); cube_to_rfz never
shrinks and rfz_to_cube never stretches. -/
theorem C67_radial (A : Argsort) (c : V) :
    (∃ k : ℝ, 1 ≤ k ∧ cubeToRfz A c 11 = some ⟨k * c.x, k * c.y, k * c.z⟩) ∧
    (∃ k : ℝ, 0 < k ∧ k ≤ 1 ∧ rfzToCube A c 11 = some ⟨k * c.x, k * c.y, k * c.z⟩) := by
  simp only [cubeToRfz, rfzToCube, if_true, Option.some.injEq]
  rw [mul_eq, div_eq]
  by_cases ht : linf c < (l1 c - linf c) / √2
  · obtain ⟨-, -, hf⟩ := test_pos ht
    rw [if_pos ht, if_pos ht]
    refine ⟨⟨_, hf.le, ?_⟩, ⟨(l1 c * (√2 - 1) / linf c)⁻¹, by positivity, inv_le_one_of_one_le₀ hf.le, ?_⟩⟩ <;>
      simp [ofComp, comp, mul_comm]
  · rw [if_neg ht, if_neg ht]
    exact ⟨⟨1, le_refl _, by simp⟩, ⟨1, one_pos, le_refl _, by simp⟩⟩

/-- C67 (what holds): it is rfz_to_cube that maps the cube onto the zone: its value is in the zone exactly when its
argument is in the cube.  Equivalently cube_to_rfz maps the zone exactly onto the cube.  The English claim has the two
functions the other way round; see `C67_cube_to_rfz_fails`. -/
theorem C67_zone_partial (A : Argsort) (c : V) :
    (∃ r, rfzToCube A c 11 = some r ∧ (InZone r ↔ InCube c)) ∧
    (∃ r, cubeToRfz A c 11 = some r ∧ (InCube r ↔ InZone c)) := by
  have s2 : 1 < √2 := by rw [lt_sqrt] <;> norm_num
  have s22 : √2 * √2 = 2 := mul_self_sqrt (by norm_num)
  have key : ∀ (A : Argsort) c, InZone (rescale (· / ·) A c) ↔ InCube c := by
    intro A c
    rw [div_eq]
    unfold InZone
    change _ ∧ l1 _ ≤ 1 ↔ _
    rw [inCube_iff, inCube_iff]
    by_cases ht : linf c < (l1 c - linf c) / √2
    · obtain ⟨hp, hb, hf⟩ := test_pos ht
      rw [if_pos ht]
      set f := l1 c * (√2 - 1) / linf c with hfd
      have hi : 0 < f⁻¹ := inv_pos.mpr (by linarith)
      have hi1 : f⁻¹ ≤ 1 := inv_le_one_of_one_le₀ hf.le
      rw [scale_linf _ hi.le, scale_l1 _ hi.le]
      have l0 : 0 < l1 c := lt_trans (mul_pos (by linarith) hp) hb
      have e : l1 c * f⁻¹ = linf c / (√2 - 1) := by
        rw [hfd, inv_div]
        have : √2 - 1 ≠ 0 := by linarith
        field_simp
      rw [e, div_le_one (by linarith)]
      refine ⟨fun h => h.2, fun h => ⟨?_, h⟩⟩
      calc linf c * f⁻¹ ≤ linf c * 1 := mul_le_mul_of_nonneg_left hi1 hp.le
        _ ≤ _ := by rw [mul_one]; exact h
    · rw [if_neg ht]
      refine ⟨fun h => h.1, fun h => ⟨h, ?_⟩⟩
      have h' := (div_le_iff₀ (by linarith)).mp (not_lt.mp ht)
      have := mul_le_mul_of_nonneg_right h (show 0 ≤ 1 + √2 by linarith)
      have e : (√2 - 1) * (1 + √2) = √2 * √2 - 1 := by ring
      rw [e, s22] at this
      linarith
  refine ⟨⟨_, if_pos rfl, key A c⟩, ⟨_, if_pos rfl, ?_⟩⟩
  have hinv : rescale (· / ·) A (rescale (· * ·) A c) = c := by
    have := (C67_inverse A A c).1
    simpa only [cubeToRfz, rfzToCube, if_true, Option.bind_some, Option.some.injEq] using this
  rw [← key A (rescale (· * ·) A c), hinv]

/-- C67: `InZone` is the zone the library itself tests for: the quaternion of a Rodrigues vector passes
`ori_in_fz_laue(_, 11)` exactly when the vector is in the zone. -/
theorem C67_zone_is_fz (v : V) : oriInFz (quatOf v) 11 = some true ↔ InZone v := by
  have hn : 0 < √(1 + v.x ^ 2 + v.y ^ 2 + v.z ^ 2) := sqrt_pos.mpr (by positivity)
  unfold oriInFz
  simp only [if_true, Option.some.injEq, decide_eq_true_eq]
  unfold quatOf maxAbsXyz sumAbsXyz InZone InCube
  simp only
  set n := √(1 + v.x ^ 2 + v.y ^ 2 + v.z ^ 2)
  rw [abs_div, abs_div, abs_div, abs_of_pos hn, ← add_div, ← add_div, div_le_div_iff_of_pos_right hn,
    show 1 / n * (√2 - 1) = (√2 - 1) / n by ring]
  simp only [max_le_iff, div_le_div_iff_of_pos_right hn, and_assoc]

/-- C67 violation: cube_to_rfz does not map the cube into the zone: the corner of the cube is sent outside even the
cube (and the rotation is outside the library's own fundamental zone). -/
theorem C67_cube_to_rfz_fails (A : Argsort) :
    InCube ⟨√2 - 1, √2 - 1, √2 - 1⟩ ∧ ∃ r, cubeToRfz A ⟨√2 - 1, √2 - 1, √2 - 1⟩ 11 = some r ∧ ¬ InZone r ∧
      ¬ InCube r ∧ oriInFz (quatOf r) 11 ≠ some true := by
  have s2 : 1 < √2 := by rw [lt_sqrt] <;> norm_num
  have s1 : 1.4 < √2 := by rw [lt_sqrt] <;> norm_num
  have s3 : √2 < 1.5 := by rw [sqrt_lt'] <;> norm_num
  have habs : |√2 - 1| = √2 - 1 := abs_of_pos (by linarith)
  refine ⟨by simp [InCube, habs], ?_⟩
  obtain ⟨-, ⟨r, hr, hiff⟩⟩ := C67_zone_partial A ⟨√2 - 1, √2 - 1, √2 - 1⟩
  have hc : ¬ InCube r := by
    rw [hiff]
    rintro ⟨-, h⟩
    simp only [habs] at h
    linarith
  refine ⟨r, hr, fun h => hc h.1, hc, ?_⟩
  rw [Ne, C67_zone_is_fz]
  exact fun h => hc h.1

/-- non-vacuity: the test is met at the cube corner (so the maps are not the identity) and not at `(1, 0, 0)`. -/
example (A : Argsort) : cubeToRfz A ⟨√2 - 1, √2 - 1, √2 - 1⟩ 11 ≠ some ⟨√2 - 1, √2 - 1, √2 - 1⟩ ∧
    InZone ⟨√2 - 1, 0, 0⟩ := by
  constructor
  · obtain ⟨h, r, hr, -, h', -⟩ := C67_cube_to_rfz_fails A
    rw [hr]
    rintro ⟨rfl⟩
    exact h' h
  · have s2 : 1 < √2 := by rw [lt_sqrt] <;> norm_num
    have s3 : √2 < 1.5 := by rw [sqrt_lt'] <;> norm_num
    have habs : |√2 - 1| = √2 - 1 := abs_of_pos (by linarith)
    simp only [InZone, InCube, habs, abs_zero]
    refine ⟨⟨le_refl _, by linarith, by linarith⟩, by linarith⟩

end Verif.Rfz
