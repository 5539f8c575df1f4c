import Verif.Props.CuboVolume
import Verif.Lemmas.HoVolume
/-! C157: homochoric and cubochoric coordinates measure rotations uniformly. -/
namespace Verif.Cubo
open Verif Real MeasureTheory

/-! ### Specification: the uniform measure of the unit quaternions -/

/-- Euclidean norm in four-dimensional space. -/
noncomputable def norm4 (x : Fin 4 → ℝ) : ℝ := √(x 0 ^ 2 + x 1 ^ 2 + x 2 ^ 2 + x 3 ^ 2)

/-- The unit quaternion in the direction of a vector. -/
noncomputable def unitQ (x : Fin 4 → ℝ) : Q := ⟨x 0 / norm4 x, x 1 / norm4 x, x 2 / norm4 x, x 3 / norm4 x⟩

/-- Uniform measure of a set of unit quaternions: area on the unit sphere of four-dimensional space, as four times the volume of the
cone over the set. -/
noncomputable def haar (S : Set Q) : ENNReal := 4 * volume {x : Fin 4 → ℝ | 0 < norm4 x ∧ norm4 x < 1 ∧ unitQ x ∈ S}

/-- Length of a homochoric vector. -/
noncomputable def len3 (h : Fin 3 → ℝ) : ℝ := √(h 0 ^ 2 + h 1 ^ 2 + h 2 ^ 2)

/-- Homochoric radius of a rotation angle. -/
noncomputable def radiusOf (ω : ℝ) : ℝ := (3 * (ω - sin ω) / 4) ^ ((1 : ℝ) / 3)

/-! ### The map -/

theorem volume_of_rows4 {F : (Fin 4 → ℝ) → Fin 4 → ℝ} {M : (Fin 4 → ℝ) → Matrix (Fin 4) (Fin 4) ℝ} {B : Set (Fin 4 → ℝ)}
    (hB : MeasurableSet B) (h : ∀ u ∈ B, ∀ i, D4 (fun v => F v i) (M u i) u) (hdet : ∀ u ∈ B, (M u).det = 1)
    (hinj : Set.InjOn F B) : volume (F '' B) = volume B := by
  have hd : ∀ u ∈ B, HasFDerivWithinAt F (LinearMap.toContinuousLinearMap (Matrix.toLin' (M u))) B u := by
    intro u hu
    apply HasFDerivAt.hasFDerivWithinAt
    rw [hasFDerivAt_pi']
    intro i
    refine (h u hu i).congr_fderiv ?_
    ext v
    simp [Matrix.mulVec, dotProduct]
  rw [← lintegral_abs_det_fderiv_eq_addHaar_image volume hB hd hinj, setLIntegral_congr_fun hB (g := fun _ => 1), setLIntegral_const, one_mul]
  intro u hu
  simp only [LinearMap.det_toContinuousLinearMap, LinearMap.det_toLin', hdet u hu, abs_one, ENNReal.ofReal_one]

/-- length of the vector part -/
noncomputable def vlen (x : Fin 4 → ℝ) : ℝ := √(x 1 * x 1 + x 2 * x 2 + x 3 * x 3)

/-- half of the rotation angle -/
noncomputable def half (x : Fin 4 → ℝ) : ℝ := arccos (x 0 / norm4 x)

theorem norm4_sq (x : Fin 4 → ℝ) : norm4 x ^ 2 = x 0 ^ 2 + vlen x ^ 2 := by
  unfold norm4 vlen
  rw [sq_sqrt (by positivity), sq_sqrt (by nlinarith [mul_self_nonneg (x 1), mul_self_nonneg (x 2), mul_self_nonneg (x 3)])]
  ring

theorem norm4_eq (x : Fin 4 → ℝ) : √(x 0 * x 0 + (x 1 * x 1 + x 2 * x 2 + x 3 * x 3)) = norm4 x := by
  unfold norm4; congr 1; ring

theorem facts4 {x : Fin 4 → ℝ} (h : 0 < vlen x) : 0 < norm4 x ∧ cos (half x) = x 0 / norm4 x ∧ sin (half x) = vlen x / norm4 x ∧ 0 < half x ∧ half x < π := by
  have e := norm4_sq x
  have n0 : 0 < norm4 x := by
    have : 0 ≤ norm4 x := sqrt_nonneg _
    rcases this.lt_or_eq with h1 | h1
    · exact h1
    · rw [← h1] at e; nlinarith [sq_nonneg (x 0), mul_pos h h]
  have hs : 1 - (x 0 / norm4 x) ^ 2 = (vlen x / norm4 x) ^ 2 := by
    field_simp; linarith
  have hp : 0 < (vlen x / norm4 x) ^ 2 := by positivity
  have hl := abs_lt.mp ((sq_lt_one_iff_abs_lt_one (x 0 / norm4 x)).mp (by linarith))
  refine ⟨n0, cos_arccos hl.1.le hl.2.le, ?_, arccos_pos.mpr hl.2, ?_⟩
  · unfold half; rw [sin_arccos, hs, sqrt_sq (by positivity)]
  · unfold half
    exact lt_of_le_of_ne (arccos_le_pi _) (fun h => by rw [arccos_eq_pi] at h; linarith [hl.1])

/-- the tail of a vector -/
def tail4 (y : Fin 4 → ℝ) : Fin 3 → ℝ := fun i => y i.succ

theorem hoMap_zero {x : Fin 4 → ℝ} : hoMap x 0 = norm4 x ^ 4 / 4 := by
  have : norm4 x ^ 4 = (norm4 x ^ 2) ^ 2 := by ring
  rw [this]
  unfold norm4
  rw [sq_sqrt (by positivity)]
  simp only [hoMap, Matrix.cons_val_zero]
  ring

theorem hoMap_tail (x : Fin 4 → ℝ) : tail4 (hoMap x) = fun i => x i.succ * (hoRadius (half x) / vlen x) := by
  funext i
  unfold tail4 hoMap half vlen
  simp only [norm4_eq]
  fin_cases i <;> rfl

theorem len_smul (h : Fin 3 → ℝ) (c : ℝ) (hc : 0 ≤ c) : len3 (fun i => h i * c) = len3 h * c := by
  unfold len3
  rw [show (h 0 * c) ^ 2 + (h 1 * c) ^ 2 + (h 2 * c) ^ 2 = (h 0 ^ 2 + h 1 ^ 2 + h 2 ^ 2) * c ^ 2 by ring, sqrt_mul (by positivity), sqrt_sq hc]

theorem len_tail (x : Fin 4 → ℝ) : len3 (fun i => x i.succ) = vlen x := by
  unfold len3 vlen; congr 1; simp; ring

theorem hoMap_len {x : Fin 4 → ℝ} (h : 0 < vlen x) : len3 (tail4 (hoMap x)) = hoRadius (half x) := by
  obtain ⟨-, -, -, p, -⟩ := facts4 h
  have := hoRadius_pos p
  rw [hoMap_tail, len_smul _ _ (by positivity), len_tail]
  field_simp

theorem hoMap_inj : Set.InjOn hoMap {x | 0 < vlen x} := by
  intro x hx y hy e
  obtain ⟨n1, c1, s1, p1, -⟩ := facts4 hx
  obtain ⟨n2, c2, s2, p2, -⟩ := facts4 hy
  have en : norm4 x = norm4 y := by
    have := congrFun e 0
    rw [hoMap_zero, hoMap_zero] at this
    have h4 : norm4 x ^ 4 = norm4 y ^ 4 := by linarith
    exact (pow_left_inj₀ n1.le n2.le (by norm_num)).mp h4
  have eψ : half x = half y := by
    have h1 := hoMap_len hx
    rw [e, hoMap_len hy] at h1
    rcases lt_trichotomy (half x) (half y) with h | h | h
    · exact absurd h1 (hoRadius_mono p1 h).ne'
    · exact h
    · exact absurd h1 (hoRadius_mono p2 h).ne
  rw [eψ, c2, en, div_left_inj' n2.ne'] at c1
  rw [eψ, s2, en, div_left_inj' n2.ne'] at s1
  have et := congrArg tail4 e
  rw [hoMap_tail, hoMap_tail, eψ, s1] at et
  have hk : hoRadius (half y) / vlen x ≠ 0 := (div_pos (hoRadius_pos p2) hx).ne'
  have ev : ∀ i : Fin 3, x i.succ = y i.succ := fun i => mul_right_cancel₀ hk (congrFun et i)
  funext i
  refine Fin.cases ?_ (fun j => ?_) i
  · exact c1.symm
  · exact ev j

theorem hoRadius_eq (ψ : ℝ) : hoRadius ψ = radiusOf (2 * ψ) := rfl

theorem hoRadius_continuous : Continuous hoRadius := by
  unfold hoRadius
  exact (by fun_prop : Continuous fun ψ : ℝ => 3 * (2 * ψ - sin (2 * ψ)) / 4).rpow_const fun _ => Or.inr (by norm_num)

theorem hoMap_onto (ρ : ℝ) (h : Fin 3 → ℝ) (hρ : 0 < ρ) (hl : radiusOf 1e-8 ≤ len3 h) (hu : len3 h < radiusOf (2 * π)) :
    ∃ x, 0 < vlen x ∧ 1e-8 ≤ 2 * half x ∧ hoMap x 0 = ρ ∧ tail4 (hoMap x) = h := by
  have hpi := pi_gt_three
  have e1 : hoRadius 5e-9 = radiusOf 1e-8 := by rw [hoRadius_eq]; norm_num
  have e2 : hoRadius π = radiusOf (2 * π) := rfl
  obtain ⟨ψ, ⟨l, u⟩, hψ⟩ := intermediate_value_Icc (show (5e-9 : ℝ) ≤ π by norm_num; linarith) hoRadius_continuous.continuousOn
    (show len3 h ∈ Set.Icc (hoRadius 5e-9) (hoRadius π) from ⟨by rw [e1]; exact hl, by rw [e2]; exact hu.le⟩)
  have hne : ψ ≠ π := by rintro rfl; rw [← hψ, e2] at hu; exact lt_irrefl _ hu
  have ψ0 : 0 < ψ := lt_of_lt_of_le (by norm_num) l
  have ψ1 : ψ < π := lt_of_le_of_ne u hne
  have sp := sin_pos_of_pos_of_lt_pi ψ0 ψ1
  have r0 : 0 < len3 h := by rw [← hψ]; exact hoRadius_pos ψ0
  obtain ⟨n, n0, n4⟩ : ∃ n : ℝ, 0 < n ∧ n ^ 4 = 4 * ρ := by
    refine ⟨√(√(4 * ρ)), by positivity, ?_⟩
    rw [show √(√(4 * ρ)) ^ 4 = (√(√(4 * ρ)) ^ 2) ^ 2 by ring, sq_sqrt (by positivity), sq_sqrt (by positivity)]
  let x : Fin 4 → ℝ := Fin.cons (n * cos ψ) fun i => h i * (n * sin ψ / len3 h)
  have x0 : x 0 = n * cos ψ := rfl
  have xs : ∀ i : Fin 3, x i.succ = h i * (n * sin ψ / len3 h) := fun i => rfl
  have hv : vlen x = n * sin ψ := by
    rw [← len_tail]
    simp only [xs]
    rw [len_smul _ _ (by positivity)]
    field_simp
  have hn : norm4 x = n := by
    have : norm4 x ^ 2 = n ^ 2 := by
      rw [norm4_sq, hv, x0]; linear_combination n ^ 2 * (sin_sq_add_cos_sq ψ)
    exact (pow_left_inj₀ (sqrt_nonneg _) n0.le (by norm_num)).mp this
  have hh : half x = ψ := by
    unfold half
    rw [hn, x0, mul_div_cancel_left₀ _ n0.ne', arccos_cos ψ0.le ψ1.le]
  refine ⟨x, by rw [hv]; positivity, by rw [hh]; norm_num at l ⊢; linarith, by rw [hoMap_zero, hn, n4]; ring, ?_⟩
  rw [hoMap_tail, hh, hv, hψ]
  funext i
  rw [xs]
  field_simp

theorem vlen_measurable : Measurable vlen := by
  have f : ∀ i : Fin 4, Measurable (fun u : Fin 4 → ℝ => u i) := fun i => measurable_pi_apply i
  exact continuous_sqrt.measurable.comp ((((f 1).mul (f 1)).add ((f 2).mul (f 2))).add ((f 3).mul (f 3)))

theorem norm4_measurable : Measurable norm4 := by
  have f : ∀ i : Fin 4, Measurable (fun u : Fin 4 → ℝ => u i) := fun i => measurable_pi_apply i
  exact continuous_sqrt.measurable.comp (((((f 0).pow_const 2).add ((f 1).pow_const 2)).add ((f 2).pow_const 2)).add ((f 3).pow_const 2))

theorem half_measurable : Measurable half :=
  continuous_arccos.measurable.comp ((measurable_pi_apply 0).div norm4_measurable)

theorem tail_measurable : Measurable fun x => tail4 (hoMap x) := by
  have : (fun x => tail4 (hoMap x)) = fun x i => x i.succ * (hoRadius (half x) / vlen x) := funext hoMap_tail
  rw [this, measurable_pi_iff]
  intro i
  exact (measurable_pi_apply i.succ).mul ((hoRadius_continuous.measurable.comp half_measurable).div vlen_measurable)

theorem len3_measurable : Measurable len3 := by
  have f : ∀ i : Fin 3, Measurable (fun u : Fin 3 → ℝ => u i) := fun i => measurable_pi_apply i
  exact continuous_sqrt.measurable.comp ((((f 0).pow_const 2).add ((f 1).pow_const 2)).add ((f 2).pow_const 2))

theorem cylinder_volume (C : Set (Fin 3 → ℝ)) : volume {y : Fin 4 → ℝ | y 0 ∈ Set.Ioo (0 : ℝ) (1 / 4) ∧ tail4 y ∈ C} = ENNReal.ofReal (1 / 4) * volume C := by
  have mp := volume_preserving_piFinSuccAbove (fun _ : Fin 4 => ℝ) 0
  have := mp.measure_preimage_equiv (Set.Ioo (0 : ℝ) (1 / 4) ×ˢ C)
  rw [Measure.volume_eq_prod, Measure.prod_prod, Real.volume_Ioo, sub_zero] at this
  rw [← this]
  rfl

/-- measure of the cone over the rotations with homochoric vector in a region -/
theorem cone_volume (B : Set (Fin 3 → ℝ)) (hB : MeasurableSet B) :
    volume {x : Fin 4 → ℝ | 0 < vlen x ∧ norm4 x < 1 ∧ 1e-8 ≤ 2 * half x ∧ tail4 (hoMap x) ∈ B} =
      ENNReal.ofReal (1 / 4) * volume (B ∩ {h | radiusOf 1e-8 ≤ len3 h ∧ len3 h < radiusOf (2 * π)}) := by
  have hm : MeasurableSet {x : Fin 4 → ℝ | 0 < vlen x ∧ norm4 x < 1 ∧ 1e-8 ≤ 2 * half x ∧ tail4 (hoMap x) ∈ B} :=
    (measurableSet_lt measurable_const vlen_measurable).inter ((measurableSet_lt norm4_measurable measurable_const).inter
      ((measurableSet_le measurable_const (half_measurable.const_mul 2)).inter (tail_measurable hB)))
  have hex : ∀ x ∈ {x : Fin 4 → ℝ | 0 < vlen x ∧ norm4 x < 1 ∧ 1e-8 ≤ 2 * half x ∧ tail4 (hoMap x) ∈ B},
      ∃ M : Matrix (Fin 4) (Fin 4) ℝ, (∀ i, D4 (fun v => hoMap v i) (M i) x) ∧ M.det = 1 := by
    rintro x ⟨h, -⟩
    exact hoMap_deriv x (sqrt_pos.mp h)
  choose! M hM using hex
  rw [← volume_of_rows4 (F := hoMap) (M := M) hm (fun x hx => (hM x hx).1) (fun x hx => (hM x hx).2)
    (hoMap_inj.mono fun x hx => hx.1), ← cylinder_volume]
  congr 1
  ext y
  constructor
  · rintro ⟨x, ⟨h1, h2, h3, h4⟩, rfl⟩
    obtain ⟨n0, -, -, p, q⟩ := facts4 h1
    have e1 : hoRadius 5e-9 = radiusOf 1e-8 := by rw [hoRadius_eq]; norm_num
    refine ⟨⟨?_, ?_⟩, h4, ?_, ?_⟩
    · rw [hoMap_zero]; positivity
    · rw [hoMap_zero]
      have : norm4 x ^ 4 < 1 := pow_lt_one₀ n0.le h2 (by norm_num)
      linarith
    · rw [hoMap_len h1, ← e1]
      rcases lt_or_eq_of_le (show (5e-9 : ℝ) ≤ half x by norm_num at h3 ⊢; linarith) with h | h
      · exact (hoRadius_mono (by norm_num) h).le
      · rw [h]
    · rw [hoMap_len h1]
      exact hoRadius_mono p q
  · rintro ⟨⟨h1, h2⟩, h3, h4, h5⟩
    obtain ⟨x, a1, a2, a3, a4⟩ := hoMap_onto (y 0) (tail4 y) h1 h4 h5
    have e : hoMap x = y := by
      funext i
      refine Fin.cases a3 (fun j => congrFun a4 j) i
    refine ⟨x, ⟨a1, ?_, a2, by rw [e]; exact h3⟩, e⟩
    rw [hoMap_zero] at a3
    have n0 := (facts4 a1).1
    by_contra hc
    have : 1 ≤ norm4 x ^ 4 := one_le_pow₀ (not_lt.mp hc)
    linarith

/-- the same for regions that are measurable up to a null set -/
theorem cone_volume_null (B : Set (Fin 3 → ℝ)) (hB : NullMeasurableSet B volume) :
    volume {x : Fin 4 → ℝ | 0 < vlen x ∧ norm4 x < 1 ∧ 1e-8 ≤ 2 * half x ∧ tail4 (hoMap x) ∈ B} =
      ENNReal.ofReal (1 / 4) * volume (B ∩ {h | radiusOf 1e-8 ≤ len3 h ∧ len3 h < radiusOf (2 * π)}) := by
  obtain ⟨C, hBC, hC, e⟩ := hB.exists_measurable_superset_ae_eq
  have h0 : volume (C \ B) = 0 := (ae_le_set.mp e.le)
  obtain ⟨N, hN, mN, zN⟩ := exists_measurable_superset_of_null h0
  have e1 : volume (B ∩ {h | radiusOf 1e-8 ≤ len3 h ∧ len3 h < radiusOf (2 * π)}) =
      volume (C ∩ {h | radiusOf 1e-8 ≤ len3 h ∧ len3 h < radiusOf (2 * π)}) :=
    measure_congr (e.symm.inter (Filter.EventuallyEq.refl _ _))
  rw [e1, ← cone_volume C hC]
  apply le_antisymm
  · exact measure_mono fun x ⟨h1, h2, h3, h4⟩ => ⟨h1, h2, h3, hBC h4⟩
  · have hz := cone_volume N mN
    rw [measure_mono_null Set.inter_subset_left zN, mul_zero] at hz
    refine (measure_mono (t := {x : Fin 4 → ℝ | 0 < vlen x ∧ norm4 x < 1 ∧ 1e-8 ≤ 2 * half x ∧ tail4 (hoMap x) ∈ B} ∪
      {x : Fin 4 → ℝ | 0 < vlen x ∧ norm4 x < 1 ∧ 1e-8 ≤ 2 * half x ∧ tail4 (hoMap x) ∈ N}) ?_).trans ((measure_union_le _ _).trans (by rw [hz, add_zero]))
    rintro x ⟨h1, h2, h3, h4⟩
    by_cases h : tail4 (hoMap x) ∈ B
    · exact Or.inl ⟨h1, h2, h3, h⟩
    · exact Or.inr ⟨h1, h2, h3, hN ⟨h4, h⟩⟩

/-! ### The functions of the library -/

theorem clamp_of_abs {t : ℝ} (h1 : -1 ≤ t) (h2 : t ≤ 1) : clamp1 t = t := by
  unfold clamp1
  simp [h1, h2]

theorem qu2ho_unitQ {x : Fin 4 → ℝ} (h : 0 < vlen x) (ha : 1e-8 ≤ 2 * half x) : comp (qu2ho (unitQ x)) = tail4 (hoMap x) := by
  obtain ⟨n0, c, s, p, q⟩ := facts4 h
  have hw1 : -1 ≤ x 0 / norm4 x := by rw [← c]; exact neg_one_le_cos _
  have hw2 : x 0 / norm4 x ≤ 1 := by rw [← c]; exact cos_le_one _
  have hv : (unitQ x).vec.norm = vlen x / norm4 x := by
    have : (unitQ x).vec.norm = √(((x 1 / norm4 x)) ^ 2 + (x 2 / norm4 x) ^ 2 + (x 3 / norm4 x) ^ 2) := rfl
    rw [this, show (x 1 / norm4 x) ^ 2 + (x 2 / norm4 x) ^ 2 + (x 3 / norm4 x) ^ 2 = (x 1 * x 1 + x 2 * x 2 + x 3 * x 3) / norm4 x ^ 2 by field_simp,
      sqrt_div' _ (by positivity), sqrt_sq n0.le]
    rfl
  have hang : 2 * arccos (clamp1 (unitQ x).w) = 2 * half x := by
    change 2 * arccos (clamp1 (x 0 / norm4 x)) = _
    rw [clamp_of_abs hw1 hw2]; rfl
  rw [hoMap_tail]
  unfold qu2ho
  simp only [hang, hv]
  rw [if_neg (not_lt.mpr ha)]
  change comp (V.smul (hoRadius (half x)) _) = _
  funext i
  fin_cases i
  · change hoRadius (half x) * (x 1 / norm4 x / (vlen x / norm4 x)) = x 1 * (hoRadius (half x) / vlen x)
    field_simp
  · change hoRadius (half x) * (x 2 / norm4 x / (vlen x / norm4 x)) = x 2 * (hoRadius (half x) / vlen x)
    field_simp
  · change hoRadius (half x) * (x 3 / norm4 x / (vlen x / norm4 x)) = x 3 * (hoRadius (half x) / vlen x)
    field_simp

theorem vlen_pos_iff (x : Fin 4 → ℝ) (hn : 0 < norm4 x) : (unitQ x).vec ≠ ⟨0, 0, 0⟩ ↔ 0 < vlen x := by
  have hv : 0 ≤ vlen x := sqrt_nonneg _
  have hS : vlen x ^ 2 = x 1 ^ 2 + x 2 ^ 2 + x 3 ^ 2 := by
    unfold vlen
    rw [sq_sqrt (by nlinarith [mul_self_nonneg (x 1), mul_self_nonneg (x 2), mul_self_nonneg (x 3)])]; ring
  constructor
  · intro h
    rcases hv.lt_or_eq with h1 | h1
    · exact h1
    · exfalso
      rw [← h1] at hS
      have a1 : x 1 = 0 := by nlinarith [sq_nonneg (x 1), sq_nonneg (x 2), sq_nonneg (x 3)]
      have a2 : x 2 = 0 := by nlinarith [sq_nonneg (x 1), sq_nonneg (x 2), sq_nonneg (x 3)]
      have a3 : x 3 = 0 := by nlinarith [sq_nonneg (x 1), sq_nonneg (x 2), sq_nonneg (x 3)]
      apply h
      change (⟨x 1 / norm4 x, x 2 / norm4 x, x 3 / norm4 x⟩ : V) = _
      rw [a1, a2, a3]; simp
  · intro h e
    change (⟨x 1 / norm4 x, x 2 / norm4 x, x 3 / norm4 x⟩ : V) = _ at e
    have b1 := congrArg V.x e
    have b2 := congrArg V.y e
    have b3 := congrArg V.z e
    simp only [div_eq_zero_iff, hn.ne', or_false] at b1 b2 b3
    rw [b1, b2, b3] at hS
    nlinarith

/-- **C157**: `qu2ho` measures rotations uniformly: the unit quaternions with rotation angle of at least `1e-8` whose homochoric
vector lies in a region have the volume of the region as their measure (on the whole sphere of quaternions, both signs). -/
theorem C157_qu2ho (B : Set (Fin 3 → ℝ)) (hB : NullMeasurableSet B volume) :
    haar {q | q.vec ≠ ⟨0, 0, 0⟩ ∧ 1e-8 ≤ 2 * arccos q.w ∧ comp (qu2ho q) ∈ B} =
      volume (B ∩ {h | radiusOf 1e-8 ≤ len3 h ∧ len3 h < radiusOf (2 * π)}) := by
  have e : {x : Fin 4 → ℝ | 0 < norm4 x ∧ norm4 x < 1 ∧ unitQ x ∈ {q : Q | q.vec ≠ ⟨0, 0, 0⟩ ∧ 1e-8 ≤ 2 * arccos q.w ∧ comp (qu2ho q) ∈ B}} =
      {x : Fin 4 → ℝ | 0 < vlen x ∧ norm4 x < 1 ∧ 1e-8 ≤ 2 * half x ∧ tail4 (hoMap x) ∈ B} := by
    ext x
    constructor
    · rintro ⟨h1, h2, h3, h4, h5⟩
      have hv := (vlen_pos_iff x h1).mp h3
      exact ⟨hv, h2, h4, by rw [← qu2ho_unitQ hv h4]; exact h5⟩
    · rintro ⟨h1, h2, h3, h4⟩
      have hn := (facts4 h1).1
      exact ⟨hn, h2, (vlen_pos_iff x hn).mpr h1, h3, by rw [qu2ho_unitQ h1 h3]; exact h4⟩
  unfold haar
  rw [e, cone_volume_null B hB, ← mul_assoc]
  have : (4 : ENNReal) * ENNReal.ofReal (1 / 4) = 1 := by
    rw [show (4 : ENNReal) = ENNReal.ofReal 4 by norm_num, ← ENNReal.ofReal_mul (by norm_num)]; norm_num
  rw [this, one_mul]

theorem radius_half {x : Fin 4 → ℝ} (h : 0 < vlen x) : len3 (tail4 (hoMap x)) < radiusOf π ↔ 0 < x 0 := by
  obtain ⟨n0, c, s, p, q⟩ := facts4 h
  have e : radiusOf π = hoRadius (π / 2) := by rw [hoRadius_eq]; congr 1; ring
  have hpi := pi_pos
  rw [hoMap_len h, e]
  have hc : 0 < x 0 ↔ 0 < cos (half x) := by
    rw [c]
    exact ⟨fun h => by positivity, fun h => by have := mul_pos h n0; rwa [div_mul_cancel₀ _ n0.ne'] at this⟩
  rw [hc]
  constructor
  · intro h1
    apply cos_pos_of_mem_Ioo
    refine ⟨by linarith, ?_⟩
    by_contra h2
    rcases (not_lt.mp h2).lt_or_eq with h3 | h3
    · linarith [hoRadius_mono (by linarith) h3]
    · rw [h3] at h1; exact lt_irrefl _ h1
  · intro h1
    apply hoRadius_mono p
    by_contra h2
    have := cos_nonpos_of_pi_div_two_le_of_le (not_lt.mp h2) (by linarith)
    linarith

/-- **C157**: with the positive sign of the scalar part, which `qu_std` gives, these are the vectors of the homochoric ball. -/
theorem C157_standard (B : Set (Fin 3 → ℝ)) (hB : NullMeasurableSet B volume) :
    haar {q | 0 < q.w ∧ 1e-8 ≤ 2 * arccos q.w ∧ comp (qu2ho q) ∈ B} =
      volume (B ∩ {h | radiusOf 1e-8 ≤ len3 h ∧ len3 h < radiusOf π}) := by
  have hpi := pi_gt_three
  have hr : radiusOf π < radiusOf (2 * π) := by
    have e : radiusOf π = hoRadius (π / 2) := by rw [hoRadius_eq]; congr 1; ring
    rw [e, ← hoRadius_eq]
    exact hoRadius_mono (by linarith) (by linarith)
  have hm : MeasurableSet {h : Fin 3 → ℝ | len3 h < radiusOf π} := measurableSet_lt len3_measurable measurable_const
  have key := C157_qu2ho (B ∩ {h | len3 h < radiusOf π}) (hB.inter hm.nullMeasurableSet)
  have e1 : B ∩ {h | len3 h < radiusOf π} ∩ {h | radiusOf 1e-8 ≤ len3 h ∧ len3 h < radiusOf (2 * π)} =
      B ∩ {h | radiusOf 1e-8 ≤ len3 h ∧ len3 h < radiusOf π} := by
    ext h
    constructor
    · rintro ⟨⟨a, b⟩, c, -⟩; exact ⟨a, c, b⟩
    · rintro ⟨a, b, c⟩; exact ⟨⟨a, c⟩, b, lt_trans c hr⟩
  rw [e1] at key
  rw [← key]
  unfold haar
  congr 2
  ext x
  constructor
  · rintro ⟨h1, h2, h3, h4, h5⟩
    have hw : 0 < x 0 := by
      have := mul_pos h3 h1
      rwa [show (unitQ x).w * norm4 x = x 0 from div_mul_cancel₀ _ h1.ne'] at this
    have hv : 0 < vlen x := by
      have hv : 0 ≤ vlen x := sqrt_nonneg _
      rcases hv.lt_or_eq with h | h
      · exact h
      · exfalso
        have e := norm4_sq x
        rw [← h] at e
        have e2 : norm4 x = x 0 := (pow_left_inj₀ h1.le hw.le (by norm_num : (2 : ℕ) ≠ 0)).mp (by linarith)
        have : (unitQ x).w = 1 := by change x 0 / norm4 x = 1; rw [e2]; exact div_self hw.ne'
        rw [this, arccos_one] at h4
        norm_num at h4
    refine ⟨h1, h2, (vlen_pos_iff x h1).mpr hv, h4, h5, ?_⟩
    change len3 (comp (qu2ho (unitQ x))) < _
    rw [qu2ho_unitQ hv h4, radius_half hv]
    exact hw
  · rintro ⟨h1, h2, h3, h4, h5, h6⟩
    have hv := (vlen_pos_iff x h1).mp h3
    refine ⟨h1, h2, ?_, h4, h5⟩
    change len3 (comp (qu2ho (unitQ x))) < _ at h6
    rw [qu2ho_unitQ hv h4, radius_half hv] at h6
    exact div_pos h6 h1

theorem norm_len (h : Fin 3 → ℝ) : (ofComp h).norm = len3 h := rfl

theorem radius_pi : radiusOf π = K * (1 / 2 * π ^ ((2 : ℝ) / 3)) := by
  have hp := pi_pos
  have e2 : radiusOf π = (3 * π / 4) ^ ((1 : ℝ) / 3) := by unfold radiusOf; rw [sin_pi, sub_zero]
  have k3 : K ^ 3 = 6 / π := by
    unfold K
    rw [← rpow_natCast, ← rpow_mul (by positivity)]; norm_num
  have h3 : (π ^ ((2 : ℝ) / 3)) ^ 3 = π ^ 2 := by
    rw [← rpow_natCast, ← rpow_mul hp.le, ← rpow_natCast]; norm_num
  have l3 : ((3 * π / 4) ^ ((1 : ℝ) / 3)) ^ 3 = 3 * π / 4 := by
    rw [← rpow_natCast, ← rpow_mul (by positivity)]; norm_num
  rw [e2]
  refine (pow_left_inj₀ (by positivity) (mul_nonneg K_pos.le (by positivity)) (by norm_num : (3 : ℕ) ≠ 0)).mp ?_
  rw [l3, mul_pow, mul_pow, k3, h3]
  field_simp
  ring

/-- **C157**: cubochoric coordinates measure rotations uniformly: the unit quaternions with positive scalar part whose cubochoric
vector lies in a region have the volume of the part of the region inside the cube as their measure (rotation angles of at least
`1e-8`: a small cube is left out). -/
theorem C157_qu2cu (A : Argsort) (B : Set (Fin 3 → ℝ)) (hB : MeasurableSet B) :
    haar {q | 0 < q.w ∧ 1e-8 ≤ 2 * arccos q.w ∧ comp (qu2cu A q) ∈ B} =
      volume (B ∩ {u | (∀ i, |u i| < 1 / 2 * π ^ ((2 : ℝ) / 3)) ∧ ∃ i, radiusOf 1e-8 / (6 / π) ^ ((1 : ℝ) / 3) ≤ |u i|}) := by
  have hK := K_pos
  have key := C157_standard _ (ho2cu_nullMeasurable A B hB)
  have e0 : {q : Q | 0 < q.w ∧ 1e-8 ≤ 2 * arccos q.w ∧ comp (qu2ho q) ∈ {h : Fin 3 → ℝ | comp (ho2cu A (ofComp h)) ∈ B}} =
      {q | 0 < q.w ∧ 1e-8 ≤ 2 * arccos q.w ∧ comp (qu2cu A q) ∈ B} := rfl
  rw [e0] at key
  have f : ∀ i : Fin 3, Measurable (fun u : Fin 3 → ℝ => |u i|) := fun i => continuous_abs.measurable.comp (measurable_pi_apply i)
  have hm : MeasurableSet {u : Fin 3 → ℝ | (∀ i, |u i| < 1 / 2 * π ^ ((2 : ℝ) / 3)) ∧ ∃ i, radiusOf 1e-8 / (6 / π) ^ ((1 : ℝ) / 3) ≤ |u i|} := by
    have e : {u : Fin 3 → ℝ | (∀ i, |u i| < 1 / 2 * π ^ ((2 : ℝ) / 3)) ∧ ∃ i, radiusOf 1e-8 / (6 / π) ^ ((1 : ℝ) / 3) ≤ |u i|} =
        (⋂ i, {u | |u i| < 1 / 2 * π ^ ((2 : ℝ) / 3)}) ∩ ⋃ i, {u | radiusOf 1e-8 / (6 / π) ^ ((1 : ℝ) / 3) ≤ |u i|} := by
      ext u; simp
    rw [e]
    exact (MeasurableSet.iInter fun i => measurableSet_lt (f i) measurable_const).inter
      (MeasurableSet.iUnion fun i => measurableSet_le measurable_const (f i))
  rw [key, ← C156_ho2cu A _ (hB.inter hm)]
  congr 1
  ext h
  have hr := C84_radius A (ho2cu A (ofComp h))
  rw [C84_cu2ho_ho2cu, norm_len] at hr
  change _ = K * _ at hr
  set c := ho2cu A (ofComp h) with hc
  have hall : (∀ i, |comp c i| < 1 / 2 * π ^ ((2 : ℝ) / 3)) ↔ max (max |c.x| |c.y|) |c.z| < 1 / 2 * π ^ ((2 : ℝ) / 3) := by
    rw [max_lt_iff, max_lt_iff]
    exact ⟨fun h => ⟨⟨h 0, h 1⟩, h 2⟩, fun h i => by fin_cases i; exacts [h.1.1, h.1.2, h.2]⟩
  have hex : (∃ i, radiusOf 1e-8 / (6 / π) ^ ((1 : ℝ) / 3) ≤ |comp c i|) ↔ radiusOf 1e-8 / K ≤ max (max |c.x| |c.y|) |c.z| := by
    rw [le_max_iff, le_max_iff]
    constructor
    · rintro ⟨i, hi⟩
      fin_cases i
      exacts [Or.inl (Or.inl hi), Or.inl (Or.inr hi), Or.inr hi]
    · rintro ((h | h) | h)
      exacts [⟨0, h⟩, ⟨1, h⟩, ⟨2, h⟩]
  have hlt : len3 h < radiusOf π ↔ max (max |c.x| |c.y|) |c.z| < 1 / 2 * π ^ ((2 : ℝ) / 3) := by
    rw [hr, radius_pi]
    exact mul_lt_mul_iff_right₀ hK
  have hle : radiusOf 1e-8 ≤ len3 h ↔ radiusOf 1e-8 / K ≤ max (max |c.x| |c.y|) |c.z| := by
    rw [hr, div_le_iff₀ hK, mul_comm]
  constructor
  · rintro ⟨h1, h2, h3⟩
    exact ⟨h1, hall.mpr (hlt.mp h3), hex.mpr (hle.mp h2)⟩
  · rintro ⟨h1, h2, h3⟩
    exact ⟨h1, hle.mpr (hex.mp h3), hlt.mpr (hall.mp h2)⟩

/-! ### The specification: the measure is invariant under rotations -/

theorem left_matrix_det (a b c d : ℝ) :
    (Matrix.of ![![a, -b, -c, -d], ![b, a, -d, c], ![c, d, a, -b], ![d, -c, b, a]]).det = (a ^ 2 + b ^ 2 + c ^ 2 + d ^ 2) ^ 2 := by
  rw [Matrix.det_succ_row_zero]
  simp [Fin.sum_univ_succ, Matrix.det_fin_three, Matrix.submatrix, Fin.succAbove]
  ring

/-- The measure does not change when all quaternions of a set are multiplied by a unit quaternion. -/
theorem haar_left (p : Q) (hp : p.w ^ 2 + p.x ^ 2 + p.y ^ 2 + p.z ^ 2 = 1) (S : Set Q) :
    haar {q | (⟨p.w * q.w - p.x * q.x - p.y * q.y - p.z * q.z, p.x * q.w + p.w * q.x - p.z * q.y + p.y * q.z,
      p.y * q.w + p.z * q.x + p.w * q.y - p.x * q.z, p.z * q.w - p.y * q.x + p.x * q.y + p.w * q.z⟩ : Q) ∈ S} = haar S := by
  let M := Matrix.of ![![p.w, -p.x, -p.y, -p.z], ![p.x, p.w, -p.z, p.y], ![p.y, p.z, p.w, -p.x], ![p.z, -p.y, p.x, p.w]]
  have hdet : LinearMap.det (Matrix.toLin' M) = 1 := by
    rw [LinearMap.det_toLin', left_matrix_det, hp]; norm_num
  unfold haar
  congr 1
  have key := Measure.addHaar_preimage_linearMap volume (f := Matrix.toLin' M) (by rw [hdet]; norm_num)
    {x : Fin 4 → ℝ | 0 < norm4 x ∧ norm4 x < 1 ∧ unitQ x ∈ S}
  rw [hdet] at key
  simp only [inv_one, abs_one, ENNReal.ofReal_one, one_mul] at key
  rw [← key]
  congr 1
  ext x
  have c0 : (Matrix.toLin' M) x 0 = p.w * x 0 - p.x * x 1 - p.y * x 2 - p.z * x 3 := by
    simp [M, Matrix.mulVec, dotProduct, Fin.sum_univ_four]; ring
  have c1 : (Matrix.toLin' M) x 1 = p.x * x 0 + p.w * x 1 - p.z * x 2 + p.y * x 3 := by
    simp [M, Matrix.mulVec, dotProduct, Fin.sum_univ_four]; ring
  have c2 : (Matrix.toLin' M) x 2 = p.y * x 0 + p.z * x 1 + p.w * x 2 - p.x * x 3 := by
    simp [M, Matrix.mulVec, dotProduct, Fin.sum_univ_four]; ring
  have c3 : (Matrix.toLin' M) x 3 = p.z * x 0 - p.y * x 1 + p.x * x 2 + p.w * x 3 := by
    simp [M, Matrix.mulVec, dotProduct, Fin.sum_univ_four]; ring
  have hn : norm4 ((Matrix.toLin' M) x) = norm4 x := by
    unfold norm4
    rw [c0, c1, c2, c3]
    congr 1
    linear_combination (x 0 ^ 2 + x 1 ^ 2 + x 2 ^ 2 + x 3 ^ 2) * hp
  have hu : unitQ ((Matrix.toLin' M) x) = ⟨p.w * (unitQ x).w - p.x * (unitQ x).x - p.y * (unitQ x).y - p.z * (unitQ x).z,
      p.x * (unitQ x).w + p.w * (unitQ x).x - p.z * (unitQ x).y + p.y * (unitQ x).z,
      p.y * (unitQ x).w + p.z * (unitQ x).x + p.w * (unitQ x).y - p.x * (unitQ x).z,
      p.z * (unitQ x).w - p.y * (unitQ x).x + p.x * (unitQ x).y + p.w * (unitQ x).z⟩ := by
    unfold unitQ
    rw [hn, c0, c1, c2, c3]
    ext <;> ring
  simp only [Set.mem_preimage, Set.mem_ofPred_eq, hn, hu]

/-! ### The cells of the cubochoric grid -/

/-- The cell of the cubochoric grid with `n` cells per edge whose lower corner is the grid point `(i 0, i 1, i 2)`. -/
def gridCell (n : ℕ) (i : Fin 3 → ℕ) : Set (Fin 3 → ℝ) :=
  {u | ∀ k, -(1 / 2 * π ^ ((2 : ℝ) / 3)) + i k * (π ^ ((2 : ℝ) / 3) / n) < u k ∧
    u k < -(1 / 2 * π ^ ((2 : ℝ) / 3)) + (i k + 1) * (π ^ ((2 : ℝ) / 3) / n)}

theorem small_radius : radiusOf 1e-8 / (6 / π) ^ ((1 : ℝ) / 3) ≤ 1e-8 := by
  have hp := pi_pos
  have h4 := pi_lt_four
  have h1 : radiusOf 1e-8 ≤ 1e-8 := by
    have hs := sin_gt_sub_cube (x := 1e-8) (by norm_num)
    have : 3 * ((1e-8 : ℝ) - sin 1e-8) / 4 ≤ (1e-8) ^ 3 := by linarith
    have h0 : 0 ≤ 3 * ((1e-8 : ℝ) - sin 1e-8) / 4 := by
      have := sin_le (x := 1e-8) (by norm_num)
      linarith
    unfold radiusOf
    calc _ ≤ ((1e-8 : ℝ) ^ 3) ^ ((1 : ℝ) / 3) := rpow_le_rpow h0 this (by norm_num)
      _ = 1e-8 := by rw [← rpow_natCast, ← rpow_mul (by norm_num)]; norm_num
  have h2 : (1 : ℝ) ≤ (6 / π) ^ ((1 : ℝ) / 3) := by
    apply one_le_rpow _ (by norm_num)
    rw [le_div_iff₀ hp]; linarith
  rw [div_le_iff₀ (by linarith)]
  calc radiusOf 1e-8 ≤ 1e-8 * 1 := by linarith
    _ ≤ _ := by gcongr

/-- **C157**: all cells of the cubochoric grid that lie off the centre along some axis contain rotations of the same measure `π²/n³`
(`n` cells per edge). -/
theorem C157_cells (A : Argsort) (n : ℕ) (h0 : 0 < n) (hn : n ≤ 10 ^ 8) (i : Fin 3 → ℕ) (hi : ∀ k, i k < n)
    (hoff : ∃ k, n + 1 ≤ 2 * i k ∨ 2 * i k + 3 ≤ n) :
    haar {q | 0 < q.w ∧ 1e-8 ≤ 2 * arccos q.w ∧ comp (qu2cu A q) ∈ gridCell n i} = ENNReal.ofReal (π ^ 2 / n ^ 3) := by
  have hp := pi_pos
  have h3 := pi_gt_three
  have hnr : (0 : ℝ) < n := by exact_mod_cast h0
  have hnr' : (n : ℝ) ≤ 10 ^ 8 := by exact_mod_cast hn
  obtain ⟨E, hE⟩ : ∃ E : ℝ, E = π ^ ((2 : ℝ) / 3) := ⟨_, rfl⟩
  have E0 : 0 < E := by rw [hE]; positivity
  have E3 : E ^ 3 = π ^ 2 := by rw [hE, ← rpow_natCast, ← rpow_mul hp.le, ← rpow_natCast]; norm_num
  have E2 : 2 ≤ E := by
    by_contra h
    have : E ^ 3 < 2 ^ 3 := pow_lt_pow_left₀ (not_le.mp h) E0.le (by norm_num)
    nlinarith
  have hcell : gridCell n i = Set.univ.pi fun k => Set.Ioo (-(1 / 2 * E) + i k * (E / n)) (-(1 / 2 * E) + (i k + 1) * (E / n)) := by
    ext u; simp [gridCell, hE]
  have hm : MeasurableSet (gridCell n i) := by
    rw [hcell]; exact MeasurableSet.univ_pi fun k => measurableSet_Ioo
  rw [C157_qu2cu A _ hm]
  have hsub : gridCell n i ⊆ {u | (∀ i, |u i| < 1 / 2 * π ^ ((2 : ℝ) / 3)) ∧ ∃ i, radiusOf 1e-8 / (6 / π) ^ ((1 : ℝ) / 3) ≤ |u i|} := by
    intro u hu
    unfold gridCell at hu
    rw [← hE] at hu ⊢
    have hd : n * (E / n) = E := by field_simp
    have hd0 : 0 < E / n := by positivity
    constructor
    · intro k
      obtain ⟨a, b⟩ := hu k
      have c1 : (i k : ℝ) + 1 ≤ n := by exact_mod_cast hi k
      have c2 : ((i k : ℝ) + 1) * (E / n) ≤ n * (E / n) := by gcongr
      have c3 : 0 ≤ (i k : ℝ) * (E / n) := by positivity
      rw [abs_lt]; constructor <;> linarith
    · obtain ⟨k, hk⟩ := hoff
      refine ⟨k, small_radius.trans ?_⟩
      obtain ⟨a, b⟩ := hu k
      have hsm : (1e-8 : ℝ) ≤ 1 / 2 * (E / n) := by
        have c : (1e-8 : ℝ) * n ≤ 1e-8 * 10 ^ 8 := by gcongr
        have c' : (1e-8 : ℝ) * 10 ^ 8 = 1 := by norm_num
        rw [mul_div, le_div_iff₀ hnr]; linarith
      rcases hk with hk | hk
      · have c1 : (n : ℝ) + 1 ≤ 2 * i k := by exact_mod_cast hk
        have c2 : ((n : ℝ) + 1) * (E / n) ≤ 2 * i k * (E / n) := by gcongr
        exact le_trans (by linarith) (le_abs_self _)
      · have c1 : 2 * (i k : ℝ) + 3 ≤ n := by exact_mod_cast hk
        have c2 : (2 * (i k : ℝ) + 3) * (E / n) ≤ n * (E / n) := by gcongr
        exact le_trans (by linarith) (neg_le_abs _)
  rw [Set.inter_eq_self_of_subset_left hsub, hcell, Real.volume_pi_Ioo]
  have e : ∀ k : Fin 3, -(1 / 2 * E) + ((i k : ℝ) + 1) * (E / n) - (-(1 / 2 * E) + i k * (E / n)) = E / n := fun k => by ring
  simp only [e, Fin.prod_univ_three]
  rw [← ENNReal.ofReal_mul (by positivity), ← ENNReal.ofReal_mul (by positivity)]
  congr 1
  rw [← E3]
  field_simp

/-! ### Non-vacuity -/

example (A : Argsort) : haar {q | 0 < q.w ∧ 1e-8 ≤ 2 * arccos q.w ∧ comp (qu2cu A q) ∈ gridCell 100 ![3, 50, 99]} = ENNReal.ofReal (π ^ 2 / (100 : ℕ) ^ 3) :=
  C157_cells A 100 (by norm_num) (by norm_num) _ (fun k => by fin_cases k <;> simp) ⟨0, Or.inr (by simp)⟩

/-- Half of the sphere: the quaternions with positive scalar part and rotations above the limit fill the homochoric ball. -/
example : haar {q | 0 < q.w ∧ 1e-8 ≤ 2 * arccos q.w} = volume {h : Fin 3 → ℝ | radiusOf 1e-8 ≤ len3 h ∧ len3 h < radiusOf π} := by
  have := C157_standard Set.univ MeasurableSet.univ.nullMeasurableSet
  simpa using this

example : haar {q | q.vec ≠ ⟨0, 0, 0⟩ ∧ 1e-8 ≤ 2 * arccos q.w} = volume {h : Fin 3 → ℝ | radiusOf 1e-8 ≤ len3 h ∧ len3 h < radiusOf (2 * π)} := by
  have := C157_qu2ho Set.univ MeasurableSet.univ.nullMeasurableSet
  simpa using this

end Verif.Cubo
