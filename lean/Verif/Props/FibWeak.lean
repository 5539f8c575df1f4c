import Verif.Props.FibUniform
import Verif.Props.S2Share
import Mathlib.MeasureTheory.Measure.Portmanteau
/-! C166 (continued): the Fibonacci lattice is equidistributed on the sphere. -/
namespace Verif.Samp
open Verif Verif.Cubo Real MeasureTheory Filter Topology

/-- Height and azimuth of the points, azimuth in `[-π/4, 7π/4)`. -/
noncomputable def coordAt (e : ℝ) (n i : ℕ) : ℝ × ℝ := (fibArg e n i, toIcoMod two_pi_pos (-(π / 4)) (2 * π * i / ((1 + (5 : ℝ) ^ (0.5 : ℝ)) / 2)))

theorem coordAt_snd (e : ℝ) (n i : ℕ) : -(π / 4) ≤ (coordAt e n i).2 ∧ (coordAt e n i).2 < 2 * π - π / 4 := by
  have := toIcoMod_mem_Ico two_pi_pos (-(π / 4)) (2 * π * i / ((1 + (5 : ℝ) ^ (0.5 : ℝ)) / 2))
  rw [Set.mem_Ico] at this
  exact ⟨this.1, by have := this.2; simp only [coordAt]; linarith⟩

theorem coordAt_fst {e : ℝ} (he : 0 < e) {n i : ℕ} (hi : i < n) : -1 < (coordAt e n i).1 ∧ (coordAt e n i).1 < 1 := by
  have hi' : (i : ℝ) + 1 ≤ n := by exact_mod_cast hi
  have hi0 : (0 : ℝ) ≤ i := by positivity
  have hD : 0 < (n : ℝ) - 1 + 2 * e := by linarith
  simp only [coordAt, fibArg]
  constructor
  · have : 2 * ((i : ℝ) + e) / (n - 1 + 2 * e) < 2 := by rw [div_lt_iff₀ hD]; linarith
    linarith
  · have : 0 < 2 * ((i : ℝ) + e) / (n - 1 + 2 * e) := by positivity
    linarith

/-- The point at the coordinates. -/
theorem coordAt_point {e : ℝ} (he : 0 < e) {n i : ℕ} (hi : i < n) :
    thetaPhiToXyz (2 * π * i / ((1 + (5 : ℝ) ^ (0.5 : ℝ)) / 2)) (arccos (fibArg e n i)) = atHeight (coordAt e n i).1 (coordAt e n i).2 := by
  obtain ⟨h0, h1⟩ := coordAt_fst he hi
  simp only [coordAt] at h0 h1 ⊢
  obtain ⟨t, ht⟩ : ∃ t, t = 2 * π * i / ((1 + (5 : ℝ) ^ (0.5 : ℝ)) / 2) := ⟨_, rfl⟩
  rw [← ht]
  have hc : cos (toIcoMod two_pi_pos (-(π / 4)) t) = cos t := by
    rw [toIcoMod, zsmul_eq_mul, cos_sub_int_mul_two_pi]
  have hs : sin (toIcoMod two_pi_pos (-(π / 4)) t) = sin t := by
    rw [toIcoMod, zsmul_eq_mul, sin_sub_int_mul_two_pi]
  unfold thetaPhiToXyz atHeight
  rw [sin_arccos, cos_arccos h0.le h1.le, hc, hs]
  ext <;> simp only <;> ring

/-- The uniform distribution on heights and azimuths. -/
noncomputable def box : Set (ℝ × ℝ) := Set.Ico (-1) 1 ×ˢ Set.Ico (-(π / 4)) (2 * π - π / 4)

noncomputable def target : Measure (ℝ × ℝ) := (ENNReal.ofReal (4 * π))⁻¹ • volume.restrict box

theorem box_volume : volume box = ENNReal.ofReal (4 * π) := by
  have hp := pi_pos
  rw [box, Measure.volume_eq_prod, Measure.prod_prod, volume_Ico, volume_Ico, ← ENNReal.ofReal_mul (by norm_num)]
  congr 1; ring

instance : IsProbabilityMeasure target := by
  constructor
  have hp := pi_pos
  rw [target, Measure.smul_apply, Measure.restrict_apply MeasurableSet.univ, Set.univ_inter, box_volume, smul_eq_mul,
    ENNReal.inv_mul_cancel _ ENNReal.ofReal_ne_top]
  rw [Ne, ENNReal.ofReal_eq_zero]; linarith

/-- The distribution of the points. -/
noncomputable def spread (e : ℝ) (n : ℕ) : Measure (ℝ × ℝ) := ((n + 1 : ℕ) : ENNReal)⁻¹ • ∑ i ∈ Finset.range (n + 1), Measure.dirac (coordAt e (n + 1) i)

open Classical in
theorem spread_apply (e : ℝ) (n : ℕ) {A : Set (ℝ × ℝ)} (hA : MeasurableSet A) :
    spread e n A = ((n + 1 : ℕ) : ENNReal)⁻¹ * ((Finset.range (n + 1)).filter fun i => coordAt e (n + 1) i ∈ A).card := by
  rw [spread, Measure.smul_apply, Measure.finsetSum_apply, smul_eq_mul]
  congr 1
  rw [Finset.card_filter]
  push_cast
  refine Finset.sum_congr rfl fun i _ => ?_
  rw [Measure.dirac_apply' _ hA, Set.indicator_apply]
  rfl

instance (e : ℝ) (n : ℕ) : IsProbabilityMeasure (spread e n) := by
  classical
  constructor
  rw [spread_apply e n MeasurableSet.univ]
  simp only [Set.mem_univ, Finset.filter_true, Finset.card_range]
  exact ENNReal.inv_mul_cancel (by simp) (ENNReal.natCast_ne_top _)

/-- Rectangles of the plane. -/
def rects : Set (Set (ℝ × ℝ)) := {A | ∃ a b c d : ℝ, A = Set.Ico a b ×ˢ Set.Ico c d}

theorem rects_pi : IsPiSystem rects := by
  rintro _ ⟨a, b, c, d, rfl⟩ _ ⟨a', b', c', d', rfl⟩ -
  exact ⟨max a a', min b b', max c c', min d d', by rw [Set.prod_inter_prod, Set.Ico_inter_Ico, Set.Ico_inter_Ico]⟩

theorem rects_meas : ∀ s ∈ rects, MeasurableSet s := by
  rintro _ ⟨a, b, c, d, rfl⟩
  exact measurableSet_Ico.prod measurableSet_Ico

theorem rects_nhds (u : Set (ℝ × ℝ)) (hu : IsOpen u) (x : ℝ × ℝ) (hx : x ∈ u) : ∃ s ∈ rects, s ∈ 𝓝 x ∧ s ⊆ u := by
  obtain ⟨ε, h0, hε⟩ := Metric.isOpen_iff.mp hu x hx
  refine ⟨Set.Ico (x.1 - ε) (x.1 + ε) ×ˢ Set.Ico (x.2 - ε) (x.2 + ε) ∩ Set.Ico (x.1 - ε / 2) (x.1 + ε / 2) ×ˢ Set.Ico (x.2 - ε / 2) (x.2 + ε / 2), ?_, ?_, ?_⟩
  · refine ⟨_, _, _, _, by rw [Set.prod_inter_prod, Set.Ico_inter_Ico, Set.Ico_inter_Ico]⟩
  · refine inter_mem (prod_mem_nhds (Ico_mem_nhds (by linarith) (by linarith)) (Ico_mem_nhds (by linarith) (by linarith)))
      (prod_mem_nhds (Ico_mem_nhds (by linarith) (by linarith)) (Ico_mem_nhds (by linarith) (by linarith)))
  · rintro y ⟨-, ⟨h1, h2⟩, h3, h4⟩
    apply hε
    rw [Metric.mem_ball, Prod.dist_eq, max_lt_iff, Real.dist_eq, Real.dist_eq]
    constructor <;> rw [abs_lt] <;> constructor <;> linarith

theorem real_rect {a b c d : ℝ} (ha : -1 ≤ a) (hab : a ≤ b) (hb : b ≤ 1) (hc : -(π / 4) ≤ c) (hcd : c ≤ d) (hd : d ≤ 2 * π - π / 4) :
    target.real (Set.Ico a b ×ˢ Set.Ico c d) = (b - a) * (d - c) / (4 * π) := by
  have hp := pi_pos
  have hsub : Set.Ico a b ×ˢ Set.Ico c d ⊆ box := Set.prod_mono (Set.Ico_subset_Ico ha hb) (Set.Ico_subset_Ico hc hd)
  rw [Measure.real, target, Measure.smul_apply, Measure.restrict_apply (measurableSet_Ico.prod measurableSet_Ico), Set.inter_eq_left.mpr hsub,
    Measure.volume_eq_prod, Measure.prod_prod, volume_Ico, volume_Ico, smul_eq_mul, ENNReal.toReal_mul, ENNReal.toReal_mul, ENNReal.toReal_inv,
    ENNReal.toReal_ofReal (by positivity), ENNReal.toReal_ofReal (by linarith), ENNReal.toReal_ofReal (by linarith)]
  field_simp

open Classical in
theorem spread_rect {e : ℝ} (he : 0 < e) (n : ℕ) {a b c d : ℝ} (ha : -1 ≤ a) (hab : a ≤ b) (hb : b ≤ 1) (hc : -(π / 4) ≤ c) (hcd : c ≤ d) (hd : d ≤ 2 * π - π / 4) :
    |(spread e n).real (Set.Ico a b ×ˢ Set.Ico c d) - (b - a) * (d - c) / (4 * π)| ≤ (25 * √((n + 1 : ℕ) : ℝ) + (2 * e + 4)) / ((n + 1 : ℕ) : ℝ) := by
  have hp := pi_pos
  have h := fib_count (n := n + 1) he ha hab hb hcd (by linarith : d ≤ c + 2 * π)
  have hn : (0 : ℝ) < ((n + 1 : ℕ) : ℝ) := by positivity
  have hcard : (((List.range (n + 1)).map fun i : ℕ => thetaPhiToXyz (2 * π * i / ((1 + (5 : ℝ) ^ (0.5 : ℝ)) / 2)) (arccos (fibArg e (n + 1) i))).countP fun v => decide (v ∈ rect a b c d)) =
      ((Finset.range (n + 1)).filter fun i => coordAt e (n + 1) i ∈ Set.Ico a b ×ˢ Set.Ico c d).card := by
    rw [List.countP_map, List.countP_eq_length_filter, ← List.toFinset_card_of_nodup (List.Nodup.filter _ List.nodup_range)]
    congr 1
    ext i
    rw [List.mem_toFinset, List.mem_filter, List.mem_range, Finset.mem_filter, Finset.mem_range]
    refine and_congr_right fun hi => ?_
    simp only [Function.comp, decide_eq_true_eq]
    rw [coordAt_point he hi]
    obtain ⟨h0, h1⟩ := coordAt_fst he hi
    obtain ⟨k0, k1⟩ := coordAt_snd e (n + 1) i
    obtain ⟨z, hz⟩ : ∃ z, z = (coordAt e (n + 1) i).1 := ⟨_, rfl⟩
    obtain ⟨f, hf⟩ : ∃ f, f = (coordAt e (n + 1) i).2 := ⟨_, rfl⟩
    rw [Set.mem_prod, ← hz, ← hf, Set.mem_Ico, Set.mem_Ico]
    rw [← hz] at h0 h1
    rw [← hf] at k0 k1
    have hq : 0 < √(1 - z ^ 2) := sqrt_pos.mpr (by nlinarith)
    constructor
    · rintro ⟨z', φ, a1, a2, a3, a4, ee⟩
      simp only [atHeight, V.mk.injEq] at ee
      obtain ⟨e1, e2, e3⟩ := ee
      subst e3
      have c1 := mul_left_cancel₀ hq.ne' e1
      have c2 := mul_left_cancel₀ hq.ne' e2
      have h5 : cos (f - φ) = 1 := by
        rw [cos_sub, c1, c2]; nlinarith [sin_sq_add_cos_sq φ]
      have := (cos_eq_one_iff_of_lt_of_lt (x := f - φ) (by linarith) (by linarith)).mp h5
      exact ⟨⟨a1, a2⟩, by linarith, by linarith⟩
    · rintro ⟨⟨a1, a2⟩, a3, a4⟩
      exact ⟨z, f, a1, a2, a3, a4, rfl⟩
  rw [hcard] at h
  have hr : (spread e n).real (Set.Ico a b ×ˢ Set.Ico c d) =
      ((Finset.range (n + 1)).filter fun i => coordAt e (n + 1) i ∈ Set.Ico a b ×ˢ Set.Ico c d).card / ((n + 1 : ℕ) : ℝ) := by
    rw [Measure.real, spread_apply e n (measurableSet_Ico.prod measurableSet_Ico), ENNReal.toReal_mul, ENNReal.toReal_inv, ENNReal.toReal_natCast, ENNReal.toReal_natCast]
    rw [div_eq_inv_mul]
    congr!
  rw [hr, le_div_iff₀ hn, ← abs_of_pos hn, ← abs_mul, abs_of_pos hn, sub_mul, div_mul_cancel₀ _ hn.ne', mul_comm _ ((n + 1 : ℕ) : ℝ)]
  exact h

theorem spread_box {e : ℝ} (he : 0 < e) (n : ℕ) {A : Set (ℝ × ℝ)} (hA : MeasurableSet A) : (spread e n).real A = (spread e n).real (A ∩ box) := by
  classical
  have hb : MeasurableSet box := measurableSet_Ico.prod measurableSet_Ico
  rw [Measure.real, Measure.real, spread_apply e n hA, spread_apply e n (hA.inter hb)]
  congr 4
  ext i
  simp only [Finset.mem_filter, Finset.mem_range, Set.mem_inter_iff]
  refine and_congr_right fun hi => ?_
  have h1 := coordAt_fst he hi
  have h2 := coordAt_snd e (n + 1) i
  have : coordAt e (n + 1) i ∈ box := ⟨⟨h1.1.le, h1.2⟩, h2.1, h2.2⟩
  simp only [this, and_true]

theorem target_box {A : Set (ℝ × ℝ)} (hA : MeasurableSet A) : target.real A = target.real (A ∩ box) := by
  have hb : MeasurableSet box := measurableSet_Ico.prod measurableSet_Ico
  rw [Measure.real, Measure.real, target, Measure.smul_apply, Measure.smul_apply, Measure.restrict_apply hA, Measure.restrict_apply (hA.inter hb),
    Set.inter_assoc, Set.inter_self]

theorem rate_zero (e : ℝ) : Tendsto (fun n : ℕ => (25 * √((n + 1 : ℕ) : ℝ) + (2 * e + 4)) / ((n + 1 : ℕ) : ℝ)) atTop (𝓝 0) := by
  have h : Tendsto (fun n : ℕ => 25 / √(n : ℝ) + (2 * e + 4) / (n : ℝ)) atTop (𝓝 0) := by
    have h1 : Tendsto (fun n : ℕ => √(n : ℝ)) atTop atTop := Real.tendsto_sqrt_atTop.comp tendsto_natCast_atTop_atTop
    have h2 := (h1.const_div_atTop (25 : ℝ)).add (tendsto_const_div_atTop_nhds_zero_nat (2 * e + 4))
    rwa [zero_add] at h2
  have h' := h.comp (tendsto_add_atTop_nat 1)
  refine h'.congr fun n => ?_
  have hn : (0 : ℝ) < ((n + 1 : ℕ) : ℝ) := by positivity
  have hs0 : 0 < √((n + 1 : ℕ) : ℝ) := sqrt_pos.mpr hn
  simp only [Function.comp]
  rw [add_div (25 * √_) (2 * e + 4)]
  congr 1
  rw [div_eq_div_iff hs0.ne' hn.ne', mul_assoc, mul_self_sqrt hn.le]

/-- The distributions as points of the space of probability measures. -/
noncomputable def spreadP (e : ℝ) (n : ℕ) : ProbabilityMeasure (ℝ × ℝ) := ⟨spread e n, inferInstance⟩
noncomputable def targetP : ProbabilityMeasure (ℝ × ℝ) := ⟨target, inferInstance⟩

/-- The points of the lattice are equidistributed: their distributions converge weakly to the uniform one. -/
theorem weak {e : ℝ} (he : 0 < e) : Tendsto (spreadP e) atTop (𝓝 targetP) := by
  refine rects_pi.tendsto_probabilityMeasure_of_tendsto_of_mem rects_meas rects_nhds ?_
  intro s hs
  rw [← NNReal.tendsto_coe]
  change Tendsto (fun n : ℕ => (spread e n).real s) atTop (𝓝 (target.real s))
  have hm := rects_meas s hs
  obtain ⟨a, b, c, d, rfl⟩ := hs
  have hin : Set.Ico a b ×ˢ Set.Ico c d ∩ box = Set.Ico (max a (-1)) (min b 1) ×ˢ Set.Ico (max c (-(π / 4))) (min d (2 * π - π / 4)) := by
    rw [box, Set.prod_inter_prod, Set.Ico_inter_Ico, Set.Ico_inter_Ico]
  rw [target_box hm, hin]
  simp only [fun n => spread_box he n hm, hin]
  by_cases h1 : max a (-1) ≤ min b 1
  · by_cases h2 : max c (-(π / 4)) ≤ min d (2 * π - π / 4)
    · rw [real_rect (le_max_right _ _) h1 (min_le_right _ _) (le_max_right _ _) h2 (min_le_right _ _), tendsto_iff_norm_sub_tendsto_zero]
      refine squeeze_zero (fun n => norm_nonneg _) (fun n => ?_) (rate_zero e)
      rw [norm_eq_abs]
      exact spread_rect he n (le_max_right _ _) h1 (min_le_right _ _) (le_max_right _ _) h2 (min_le_right _ _)
    · rw [Set.Ico_eq_empty_of_le (not_le.mp h2).le, Set.prod_empty]
      simp
  · rw [Set.Ico_eq_empty_of_le (not_le.mp h1).le, Set.empty_prod]
    simp

/-- Coordinates of the directions of a set. -/
def coords (S : Set V) : Set (ℝ × ℝ) := {p | atHeight p.1 p.2 ∈ S}

theorem coords_cont : Continuous fun p : ℝ × ℝ => (![√(1 - p.1 ^ 2) * cos p.2, √(1 - p.1 ^ 2) * sin p.2, p.1] : Fin 3 → ℝ) := by
  refine continuous_pi fun i => ?_
  have h : Continuous fun p : ℝ × ℝ => √(1 - p.1 ^ 2) := Real.continuous_sqrt.comp (continuous_const.sub (continuous_fst.pow 2))
  fin_cases i
  · exact h.mul (Real.continuous_cos.comp continuous_snd)
  · exact h.mul (Real.continuous_sin.comp continuous_snd)
  · exact continuous_fst

theorem coords_open {S : Set V} (hS : IsOpen {x : Fin 3 → ℝ | ofComp x ∈ S}) : IsOpen (coords S) := hS.preimage coords_cont

theorem coords_closed {S : Set V} (hS : IsClosed {x : Fin 3 → ℝ | ofComp x ∈ S}) : IsClosed (coords S) := hS.preimage coords_cont

theorem coords_solid (S : Set V) (hm : MeasurableSet (coords S)) : target (coords S) = (ENNReal.ofReal (4 * π))⁻¹ * solidAngle S := by
  rw [target, Measure.smul_apply, Measure.restrict_apply hm, smul_eq_mul]
  congr 1
  obtain ⟨c, hc⟩ : ∃ c, c = -(π / 4) := ⟨_, rfl⟩
  obtain ⟨d, hd⟩ : ∃ d, d = 2 * π - π / 4 := ⟨_, rfl⟩
  have hae : (Set.Ioo (-1 : ℝ) 1 ×ˢ Set.Ioo c d : Set (ℝ × ℝ)) =ᵐ[volume] Set.Icc (-1 : ℝ) 1 ×ˢ Set.Icc c d := by
    rw [Measure.volume_eq_prod]
    exact Measure.set_prod_ae_eq Ioo_ae_eq_Icc Ioo_ae_eq_Icc
  have heq : volume (coords S ∩ Set.Ioo (-1 : ℝ) 1 ×ˢ Set.Ioo c d) = volume (coords S ∩ Set.Icc (-1 : ℝ) 1 ×ˢ Set.Icc c d) :=
    measure_congr ((ae_eq_refl _).inter hae)
  have a1 : volume (coords S ∩ box) ≤ volume (coords S ∩ Set.Icc (-1 : ℝ) 1 ×ˢ Set.Icc c d) := by
    apply measure_mono
    refine Set.inter_subset_inter_right _ ?_
    rw [box, ← hc, ← hd]
    exact Set.prod_mono Set.Ico_subset_Icc_self Set.Ico_subset_Icc_self
  have a2 : volume (coords S ∩ Set.Ioo (-1 : ℝ) 1 ×ˢ Set.Ioo c d) ≤ volume (coords S ∩ box) := by
    apply measure_mono
    refine Set.inter_subset_inter_right _ ?_
    rw [box, ← hc, ← hd]
    exact Set.prod_mono Set.Ioo_subset_Ico_self Set.Ioo_subset_Ico_self
  have b1 : solidAngle S ≤ volume (coords S ∩ Set.Icc (-1 : ℝ) 1 ×ˢ Set.Icc c d) := by
    apply measure_mono
    rintro p ⟨h1, h2, h3, h4, h5⟩
    rw [← hc] at h3
    rw [← hd] at h4
    exact ⟨h5, ⟨h1.le, h2.le⟩, h3.le, h4⟩
  have b2 : volume (coords S ∩ Set.Ioo (-1 : ℝ) 1 ×ˢ Set.Ioo c d) ≤ solidAngle S := by
    apply measure_mono
    rintro p ⟨h5, ⟨h1, h2⟩, h3, h4⟩
    rw [hc] at h3
    rw [hd] at h4
    exact ⟨h1, h2, h3, h4.le, h5⟩
  rw [← heq] at a1 b1
  exact le_antisymm (a1.trans b2) (b1.trans a2)

/-- The points of the lattice. -/
noncomputable def fibPts (e : ℝ) (n : ℕ) : List V :=
  (List.range n).map fun i : ℕ => thetaPhiToXyz (2 * π * i / ((1 + (5 : ℝ) ^ (0.5 : ℝ)) / 2)) (arccos (fibArg e n i))

open Classical in
/-- How many of the points lie in the set. -/
noncomputable def hits (S : Set V) (l : List V) : ℕ := l.countP fun v => decide (v ∈ S)

theorem spread_coords {e : ℝ} (he : 0 < e) (n : ℕ) (S : Set V) (hm : MeasurableSet (coords S)) :
    (spread e n).real (coords S) = hits S (fibPts e (n + 1)) / ((n + 1 : ℕ) : ℝ) := by
  classical
  have hcard : hits S (fibPts e (n + 1)) = ((Finset.range (n + 1)).filter fun i => coordAt e (n + 1) i ∈ coords S).card := by
    unfold hits fibPts
    rw [List.countP_map, List.countP_eq_length_filter, ← List.toFinset_card_of_nodup (List.Nodup.filter _ List.nodup_range)]
    congr 1
    ext i
    rw [List.mem_toFinset, List.mem_filter, List.mem_range, Finset.mem_filter, Finset.mem_range]
    refine and_congr_right fun hi => ?_
    simp only [Function.comp, decide_eq_true_eq]
    rw [coordAt_point he hi]
    rfl
  rw [hcard, Measure.real, spread_apply e n hm, ENNReal.toReal_mul, ENNReal.toReal_inv, ENNReal.toReal_natCast, ENNReal.toReal_natCast]
  rw [div_eq_inv_mul]

/-- The share of the sphere that a set of directions holds. -/
noncomputable def share (S : Set V) : ℝ := (solidAngle S).toReal / (4 * π)

theorem real_coords (S : Set V) (hm : MeasurableSet (coords S)) : target.real (coords S) = share S := by
  have hp := pi_pos
  rw [share, Measure.real, coords_solid S hm, ENNReal.toReal_mul, ENNReal.toReal_inv, ENNReal.toReal_ofReal (by linarith), div_eq_inv_mul]

theorem from_succ {P : ℕ → Prop} (h : ∀ᶠ n : ℕ in atTop, P (n + 1)) : ∀ᶠ n : ℕ in atTop, P n := by
  obtain ⟨N, hN⟩ := eventually_atTop.mp h
  refine eventually_atTop.mpr ⟨N + 1, fun n hn => ?_⟩
  obtain ⟨k, rfl⟩ : ∃ k, n = k + 1 := ⟨n - 1, by omega⟩
  exact hN k (by omega)

theorem count_ge {e : ℝ} (he : 0 < e) (S : Set V) (hS : IsOpen {x : Fin 3 → ℝ | ofComp x ∈ S}) {δ : ℝ} (hδ : 0 < δ) :
    ∀ᶠ n : ℕ in atTop, n * (share S - δ) ≤ hits S (fibPts e n) := by
  have ho := coords_open hS
  have hl := ProbabilityMeasure.le_liminf_measure_open_of_tendsto (weak he) ho
  have key : ∀ᶠ n : ℕ in atTop, target.real (coords S) - δ ≤ (spread e n).real (coords S) := by
    by_cases h0 : target.real (coords S) - δ ≤ 0
    · exact Eventually.of_forall fun n => h0.trans measureReal_nonneg
    have h0' := not_le.mp h0
    have hlt : ENNReal.ofReal (target.real (coords S) - δ) < liminf (fun n => ((spreadP e n : ProbabilityMeasure (ℝ × ℝ)) : Measure (ℝ × ℝ)) (coords S)) atTop := by
      refine lt_of_lt_of_le ?_ hl
      change _ < target (coords S)
      rw [← ENNReal.ofReal_toReal (measure_ne_top target (coords S))]
      exact (ENNReal.ofReal_lt_ofReal_iff (by change 0 < target.real (coords S); linarith)).mpr (by change _ < target.real (coords S); linarith)
    filter_upwards [eventually_lt_of_lt_liminf hlt] with n hn
    change _ < spread e n (coords S) at hn
    exact (ENNReal.ofReal_le_iff_le_toReal (measure_ne_top _ _)).mp hn.le
  refine from_succ ?_
  filter_upwards [key] with n hn
  rw [real_coords S ho.measurableSet, spread_coords he n S ho.measurableSet, le_div_iff₀ (by positivity)] at hn
  rw [mul_comm]; exact hn

theorem count_le {e : ℝ} (he : 0 < e) (S : Set V) (hS : IsClosed {x : Fin 3 → ℝ | ofComp x ∈ S}) {δ : ℝ} (hδ : 0 < δ) :
    ∀ᶠ n : ℕ in atTop, hits S (fibPts e n) ≤ n * (share S + δ) := by
  have ho := coords_closed hS
  have hl := ProbabilityMeasure.limsup_measure_closed_le_of_tendsto (weak he) ho
  have key : ∀ᶠ n : ℕ in atTop, (spread e n).real (coords S) ≤ target.real (coords S) + δ := by
    have hlt : limsup (fun n => ((spreadP e n : ProbabilityMeasure (ℝ × ℝ)) : Measure (ℝ × ℝ)) (coords S)) atTop < ENNReal.ofReal (target.real (coords S) + δ) := by
      refine lt_of_le_of_lt hl ?_
      change target (coords S) < _
      rw [← ENNReal.ofReal_toReal (measure_ne_top target (coords S))]
      have : 0 ≤ target.real (coords S) := measureReal_nonneg
      exact (ENNReal.ofReal_lt_ofReal_iff (by linarith)).mpr (by change target.real (coords S) < _; linarith)
    filter_upwards [eventually_lt_of_limsup_lt hlt] with n hn
    change spread e n (coords S) < _ at hn
    have : 0 ≤ target.real (coords S) := measureReal_nonneg
    exact ENNReal.toReal_le_of_le_ofReal (by linarith) hn.le
  refine from_succ ?_
  filter_upwards [key] with n hn
  rw [real_coords S ho.measurableSet, spread_coords he n S ho.measurableSet, div_le_iff₀ (by positivity)] at hn
  rw [mul_comm]; exact hn

theorem fib_pts {mode : String} {n : ℕ} {pts : List V} (h : s2Fibonacci mode n = some pts) : ∃ e, fibEps mode n = some e ∧ pts = fibPts e n := by
  unfold s2Fibonacci at h
  rw [Option.map_eq_some_iff] at h
  obtain ⟨e, he, rfl⟩ := h
  exact ⟨e, he, rfl⟩

theorem fib_eventually {mode : String} (hm : mode = "avg" ∨ mode = "max") : ∃ e : ℝ, 0 < e ∧ ∀ᶠ n : ℕ in atTop, s2Fibonacci mode n = some (fibPts e n) := by
  rcases hm with rfl | rfl
  · exact ⟨0.36, by norm_num, Eventually.of_forall fun n => rfl⟩
  · refine ⟨214, by norm_num, ?_⟩
    filter_upwards [eventually_ge_atTop 600000] with n hn
    unfold s2Fibonacci fibEps
    rw [if_neg (by decide), if_pos rfl, if_pos hn]
    rfl

/-- **C166**: of the points of `s2_fibonacci`, an open set of directions gets at least its share of the sphere and a closed one at most its share,
up to any `δ`, once there are enough of them. -/
theorem C166_sets (mode : String) (hm : mode = "avg" ∨ mode = "max") (S : Set V) (δ : ℝ) (hδ : 0 < δ) :
    (IsOpen {x : Fin 3 → ℝ | ofComp x ∈ S} → ∀ᶠ n : ℕ in atTop, ∃ pts, s2Fibonacci mode n = some pts ∧ n * (share S - δ) ≤ hits S pts) ∧
      (IsClosed {x : Fin 3 → ℝ | ofComp x ∈ S} → ∀ᶠ n : ℕ in atTop, ∃ pts, s2Fibonacci mode n = some pts ∧ hits S pts ≤ n * (share S + δ)) := by
  obtain ⟨e, he, hx⟩ := fib_eventually hm
  constructor
  · intro hS
    filter_upwards [hx, count_ge he S hS hδ] with n h1 hn
    exact ⟨_, h1, hn⟩
  · intro hS
    filter_upwards [hx, count_le he S hS hδ] with n h1 hn
    exact ⟨_, h1, hn⟩

/-! ### Non-vacuity -/

theorem share_cap : share {v | 0 < v.z} = 1 / 2 := by
  have hp := pi_pos
  rw [share, C155_hemisphere, ENNReal.toReal_ofReal (by positivity)]
  field_simp; norm_num

/-- The upper hemisphere gets at least 49 % of the points. -/
example : ∀ᶠ n : ℕ in atTop, ∃ pts, s2Fibonacci "avg" n = some pts ∧ n * (0.49 : ℝ) ≤ hits {v | 0 < v.z} pts := by
  have h := (C166_sets "avg" (Or.inl rfl) {v | 0 < v.z} 0.01 (by norm_num)).1 (isOpen_lt continuous_const (continuous_apply (2 : Fin 3)))
  rw [share_cap] at h
  filter_upwards [h] with n hn
  obtain ⟨pts, h1, h2⟩ := hn
  exact ⟨pts, h1, by norm_num at h2 ⊢; linarith⟩

end Verif.Samp
