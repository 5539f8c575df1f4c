import Verif.Props.CuGrid
import Verif.Props.FibWeak
import Verif.Lemmas.SuperFib
import Mathlib.MeasureTheory.Function.Floor
/-! C171: the super-Fibonacci sample of orientations is spread uniformly in the limit of large samples. -/
namespace Verif.Cubo
open Verif Verif.Samp Verif.Spec Verif.SuperFib Real MeasureTheory Filter Topology

/-! ### Specification -/

/-- Unit quaternions within an angle of `5e-24` on the unit sphere of a unit quaternion of the set. -/
def Close (S : Set Q) : Set Q := {p | ∃ r ∈ S, IsUnit4 r ∧ cos 5e-24 < p.w * r.w + p.x * r.x + p.y * r.y + p.z * r.z}

/-- Members of the sample in a set. -/
noncomputable def fibCount (n : ℕ) (S : Set Q) : ℕ := open Classical in ((so3Fibonacci n).filter fun q => q ∈ S).length

/-! ### Coordinates of the sample -/

/-- Share of the range, first angle, and index of the second angle. -/
noncomputable def ptX (n i : ℕ) : (ℝ × ℝ) × ℕ := ((((i : ℝ) + 1 / 2) / n, Int.fract (((i : ℝ) + 1 / 2) / √2)), jj i)

noncomputable def qX (x : (ℝ × ℝ) × ℕ) : Q :=
  ⟨√x.1.1 * sin (2 * π * x.1.2), √x.1.1 * cos (2 * π * x.1.2), √(1 - x.1.1) * sin (2 * π * (x.2 / P)), √(1 - x.1.1) * cos (2 * π * (x.2 / P))⟩

theorem fract_angle (y : ℝ) : sin (2 * π * Int.fract y) = sin (2 * π * y) ∧ cos (2 * π * Int.fract y) = cos (2 * π * y) := by
  have e : 2 * π * Int.fract y = 2 * π * y - ⌊y⌋ * (2 * π) := by
    have := Int.fract_add_floor y
    linear_combination 2 * π * this
  rw [e]
  exact ⟨sin_sub_int_mul_two_pi _ _, cos_sub_int_mul_two_pi _ _⟩

theorem jj_angle (i : ℕ) : sin (2 * π * (jj i / P)) = sin (2 * π * ((i : ℝ) + 1 / 2) / 1.533751168755204288118041) ∧
    cos (2 * π * (jj i / P)) = cos (2 * π * ((i : ℝ) + 1 / 2) / 1.533751168755204288118041) := by
  have hP : (0 : ℝ) < P := by exact_mod_cast P_pos
  have h := Nat.mod_add_div ((2 * i + 1) * M) P
  have h' : ((jj i : ℕ) : ℝ) + P * (((2 * i + 1) * M / P : ℕ) : ℝ) = (2 * i + 1) * M := by
    unfold jj
    exact_mod_cast h
  generalize (((2 * i + 1) * M / P : ℕ)) = k at *
  have e : 2 * π * ((jj i : ℝ) / P) = 2 * π * ((i : ℝ) + 1 / 2) / 1.533751168755204288118041 - (k : ℤ) * (2 * π) := by
    have hv : (1.533751168755204288118041 : ℝ) = P / (2 * M) := by unfold P M; norm_num
    have hM : (0 : ℝ) < M := by unfold M; norm_num
    rw [hv]
    have h2 : (jj i : ℝ) = (2 * i + 1) * M - P * k := by linarith
    rw [h2]
    push_cast
    field_simp
  rw [e]
  exact ⟨sin_sub_int_mul_two_pi _ _, cos_sub_int_mul_two_pi _ _⟩

theorem fib_eq (n : ℕ) : so3Fibonacci n = (List.range n).map fun i => qX (ptX n i) := by
  unfold so3Fibonacci
  refine List.map_congr_left fun i _ => ?_
  obtain ⟨a1, a2⟩ := fract_angle (((i : ℝ) + 1 / 2) / √2)
  obtain ⟨b1, b2⟩ := jj_angle i
  have h2 : (2 : ℝ) ^ (0.5 : ℝ) = √2 := by rw [sqrt_eq_rpow]; norm_num
  have hh : (i : ℝ) + 0.5 = i + 1 / 2 := by norm_num
  unfold qX ptX
  dsimp only
  rw [a1, a2, b1, b2, h2, hh]
  simp only [mul_div_assoc]

/-! ### Weak convergence -/

def boxes : Set (Set ((ℝ × ℝ) × ℕ)) := {A | ∃ (a b c d : ℝ) (j : ℕ), A = (Set.Ico a b ×ˢ Set.Ico c d) ×ˢ {j}}

theorem boxes_pi : IsPiSystem boxes := by
  rintro _ ⟨a, b, c, d, j, rfl⟩ _ ⟨a', b', c', d', j', rfl⟩ ⟨x, ⟨-, h1⟩, -, h2⟩
  have e : j = j' := by rw [← Set.mem_singleton_iff.mp h1, ← Set.mem_singleton_iff.mp h2]
  subst e
  exact ⟨max a a', min b b', max c c', min d d', j, by rw [Set.prod_inter_prod, Set.prod_inter_prod, Set.Ico_inter_Ico, Set.Ico_inter_Ico, Set.inter_self]⟩

theorem boxes_meas : ∀ s ∈ boxes, MeasurableSet s := by
  rintro _ ⟨a, b, c, d, j, rfl⟩
  exact (measurableSet_Ico.prod measurableSet_Ico).prod (measurableSet_singleton j)

theorem boxes_nhds (u : Set ((ℝ × ℝ) × ℕ)) (hu : IsOpen u) (x : (ℝ × ℝ) × ℕ) (hx : x ∈ u) : ∃ s ∈ boxes, s ∈ 𝓝 x ∧ s ⊆ u := by
  have hc : Continuous fun y : ℝ × ℝ => (y, x.2) := by fun_prop
  obtain ⟨s, ⟨a, b, c, d, rfl⟩, h1, h2⟩ := rects_nhds _ (hu.preimage hc) x.1 hx
  refine ⟨_, ⟨a, b, c, d, x.2, rfl⟩, prod_mem_nhds h1 (by simp), ?_⟩
  rintro ⟨y, k⟩ ⟨hy, hk⟩
  rw [Set.mem_singleton_iff] at hk
  dsimp only at hk
  subst hk
  exact h2 hy

/-- The open cube of draws. -/
def cube : Set (Fin 3 → ℝ) := Set.univ.pi fun _ => Set.Ioo 0 1

noncomputable def ofDraw (d : Fin 3 → ℝ) : (ℝ × ℝ) × ℕ := ((1 - d 0, d 1), ⌊P * d 2⌋₊)

theorem ofDraw_meas : Measurable ofDraw := by
  have f : ∀ i : Fin 3, Measurable fun d : Fin 3 → ℝ => d i := fun i => measurable_pi_apply i
  exact (((measurable_const.sub (f 0)).prodMk (f 1))).prodMk ((f 2).const_mul _).nat_floor

noncomputable def limitX : Measure ((ℝ × ℝ) × ℕ) := (volume.restrict cube).map ofDraw

theorem limit_apply {A : Set ((ℝ × ℝ) × ℕ)} (hA : MeasurableSet A) : limitX A = volume ({d | ofDraw d ∈ A} ∩ cube) := by
  rw [limitX, Measure.map_apply ofDraw_meas hA, Measure.restrict_apply (ofDraw_meas hA)]
  rfl

instance : IsProbabilityMeasure limitX := by
  constructor
  rw [limit_apply MeasurableSet.univ]
  simp only [Set.mem_univ, Set.ofPred_true, Set.univ_inter]
  unfold cube
  rw [volume_pi_pi]
  simp

noncomputable def sampleX (n : ℕ) : Measure ((ℝ × ℝ) × ℕ) := ((n + 1 : ℕ) : ENNReal)⁻¹ • ∑ i ∈ Finset.range (n + 1), Measure.dirac (ptX (n + 1) i)

open Classical in
theorem sample_apply (n : ℕ) {A : Set ((ℝ × ℝ) × ℕ)} (hA : MeasurableSet A) :
    sampleX n A = ((n + 1 : ℕ) : ENNReal)⁻¹ * ((Finset.range (n + 1)).filter fun i => ptX (n + 1) i ∈ A).card := by
  rw [sampleX, Measure.smul_apply, Measure.finsetSum_apply, smul_eq_mul]
  congr 1
  rw [Finset.card_filter]
  push_cast
  refine Finset.sum_congr rfl fun i _ => ?_
  rw [Measure.dirac_apply' _ hA, Set.indicator_apply]
  congr!

instance (n : ℕ) : IsProbabilityMeasure (sampleX n) := by
  classical
  constructor
  rw [sample_apply n MeasurableSet.univ]
  simp only [Set.mem_univ, Finset.filter_true, Finset.card_range]
  exact ENNReal.inv_mul_cancel (by simp) (ENNReal.natCast_ne_top _)

noncomputable def sampleP (n : ℕ) : ProbabilityMeasure ((ℝ × ℝ) × ℕ) := ⟨sampleX n, inferInstance⟩
noncomputable def limitP : ProbabilityMeasure ((ℝ × ℝ) × ℕ) := ⟨limitX, inferInstance⟩

theorem ptX_range {n i : ℕ} (hi : i < n) : (0 ≤ (ptX n i).1.1 ∧ (ptX n i).1.1 < 1) ∧ (0 ≤ (ptX n i).1.2 ∧ (ptX n i).1.2 < 1) ∧ (ptX n i).2 < P := by
  have hi' : (i : ℝ) + 1 ≤ n := by exact_mod_cast hi
  have h0 : (0 : ℝ) ≤ i := by positivity
  have hn : (0 : ℝ) < n := by linarith
  refine ⟨⟨by unfold ptX; positivity, ?_⟩, ⟨Int.fract_nonneg _, Int.fract_lt_one _⟩, Nat.mod_lt _ P_pos⟩
  unfold ptX
  rw [div_lt_one hn]
  linarith

open Classical in
theorem sample_box (n : ℕ) (a b c d : ℝ) (j : ℕ) : (sampleX n).real ((Set.Ico a b ×ˢ Set.Ico c d) ×ˢ {j}) =
    (inBox (n + 1) (max a 0) (min b 1) (max c 0) (min d 1) j).card / ((n + 1 : ℕ) : ℝ) := by
  rw [Measure.real, sample_apply n (boxes_meas _ ⟨a, b, c, d, j, rfl⟩), ENNReal.toReal_mul, ENNReal.toReal_inv, ENNReal.toReal_natCast, ENNReal.toReal_natCast, div_eq_inv_mul]
  refine congrArg (fun k : ℕ => ((n + 1 : ℕ) : ℝ)⁻¹ * (k : ℝ)) (congrArg Finset.card ?_)
  ext i
  unfold inBox
  simp only [Finset.mem_filter]
  refine and_congr_right fun hi => ?_
  obtain ⟨⟨h1, h2⟩, ⟨h3, h4⟩, -⟩ := ptX_range (Finset.mem_range.mp hi)
  unfold ptX at *
  dsimp only at *
  simp only [Set.mem_prod, Set.mem_Ico, Set.mem_singleton_iff, max_le_iff, lt_min_iff]
  tauto

theorem limit_box {a b c d : ℝ} (ha : 0 ≤ a) (hab : a ≤ b) (hb : b ≤ 1) (hc : 0 ≤ c) (hcd : c ≤ d) (hd : d ≤ 1) {j : ℕ} (hj : j < P) :
    limitX.real ((Set.Ico a b ×ˢ Set.Ico c d) ×ˢ {j}) = (b - a) * (d - c) / P := by
  have hP : (0 : ℝ) < P := by exact_mod_cast P_pos
  have hj' : (j : ℝ) + 1 ≤ P := by exact_mod_cast hj
  have hj0 : (0 : ℝ) ≤ j := by positivity
  have key : volume ({x | ofDraw x ∈ (Set.Ico a b ×ˢ Set.Ico c d) ×ˢ {j}} ∩ cube) = ENNReal.ofReal ((b - a) * (d - c) / P) := by
    have fl : ∀ t : ℝ, 0 ≤ t → (⌊P * t⌋₊ = j ↔ j / P ≤ t ∧ t < (j + 1) / P) := by
      intro t ht
      rw [Nat.floor_eq_iff (by positivity), div_le_iff₀ hP, lt_div_iff₀ hP, mul_comm]
    have prodv : ENNReal.ofReal (1 - a - (1 - b)) * ENNReal.ofReal (d - c) * ENNReal.ofReal ((j + 1) / P - j / P) = ENNReal.ofReal ((b - a) * (d - c) / P) := by
      rw [← ENNReal.ofReal_mul (by linarith), ← ENNReal.ofReal_mul (mul_nonneg (by linarith) (by linarith))]
      congr 1
      field_simp
      ring
    apply le_antisymm
    · have hs : {x | ofDraw x ∈ (Set.Ico a b ×ˢ Set.Ico c d) ×ˢ {j}} ∩ cube ⊆
          Set.univ.pi (![Set.Icc (1 - b) (1 - a), Set.Icc c d, Set.Icc (j / P : ℝ) ((j + 1) / P)] : Fin 3 → Set ℝ) := by
        rintro x ⟨⟨⟨h1, h2⟩, h3⟩, hx⟩ i -
        have h3' := (fl (x 2) (hx 2 trivial).1.le).mp h3
        simp only [ofDraw, Set.mem_Ico] at h1 h2
        fin_cases i
        · exact ⟨by change 1 - b ≤ x 0; linarith, by change x 0 ≤ 1 - a; linarith⟩
        · exact ⟨h2.1, h2.2.le⟩
        · exact ⟨h3'.1, h3'.2.le⟩
      refine (measure_mono hs).trans ?_
      rw [volume_pi_pi, Fin.prod_univ_three, ← prodv]
      simp
    · have hs : Set.univ.pi (![Set.Ioo (1 - b) (1 - a), Set.Ioo c d, Set.Ioo (j / P : ℝ) ((j + 1) / P)] : Fin 3 → Set ℝ) ⊆
          {x | ofDraw x ∈ (Set.Ico a b ×ˢ Set.Ico c d) ×ˢ {j}} ∩ cube := by
        intro x hx
        have h0 : x 0 ∈ Set.Ioo (1 - b) (1 - a) := hx 0 trivial
        have h1 : x 1 ∈ Set.Ioo c d := hx 1 trivial
        have h2 : x 2 ∈ Set.Ioo (j / P : ℝ) ((j + 1) / P) := hx 2 trivial
        have q0 : 0 ≤ (j : ℝ) / P := by positivity
        have q1 : ((j : ℝ) + 1) / P ≤ 1 := by rw [div_le_one hP]; exact hj'
        refine ⟨⟨⟨⟨?_, ?_⟩, h1.1.le, h1.2⟩, (fl (x 2) (q0.trans h2.1.le)).mpr ⟨h2.1.le, h2.2⟩⟩, ?_⟩
        · change a ≤ 1 - x 0; linarith [h0.2]
        · change 1 - x 0 < b; linarith [h0.1]
        · intro i _
          fin_cases i
          · exact ⟨by change 0 < x 0; linarith [h0.1], by change x 0 < 1; linarith [h0.2]⟩
          · exact ⟨by change 0 < x 1; linarith [h1.1], by change x 1 < 1; linarith [h1.2]⟩
          · exact ⟨by change 0 < x 2; linarith [h2.1], by change x 2 < 1; linarith [h2.2]⟩
      refine le_trans ?_ (measure_mono hs)
      rw [volume_pi_pi, Fin.prod_univ_three, ← prodv]
      simp
  rw [Measure.real, limit_apply (boxes_meas _ ⟨a, b, c, d, j, rfl⟩), key, ENNReal.toReal_ofReal]
  exact div_nonneg (mul_nonneg (by linarith) (by linarith)) hP.le

theorem limit_clip (a b c d : ℝ) (j : ℕ) : limitX.real ((Set.Ico a b ×ˢ Set.Ico c d) ×ˢ {j}) =
    limitX.real ((Set.Ico (max a 0) (min b 1) ×ˢ Set.Ico (max c 0) (min d 1)) ×ˢ {j}) := by
  rw [Measure.real, Measure.real, limit_apply (boxes_meas _ ⟨a, b, c, d, j, rfl⟩), limit_apply (boxes_meas _ ⟨_, _, _, _, j, rfl⟩)]
  congr 2
  ext x
  simp only [Set.mem_inter_iff]
  refine and_congr_left fun hx => ?_
  have h0 : 0 < x 0 ∧ x 0 < 1 := hx 0 trivial
  have h1 : 0 < x 1 ∧ x 1 < 1 := hx 1 trivial
  simp only [ofDraw, Set.mem_ofPred_eq, Set.mem_prod, Set.mem_Ico, Set.mem_singleton_iff, max_le_iff, lt_min_iff]
  have e1 : 0 ≤ 1 - x 0 := by linarith
  have e2 : 1 - x 0 < 1 := by linarith
  have e3 := h1.1.le
  have e4 := h1.2
  tauto

theorem sample_weak : Tendsto sampleP atTop (𝓝 limitP) := by
  refine boxes_pi.tendsto_probabilityMeasure_of_tendsto_of_mem boxes_meas boxes_nhds ?_
  intro s hs
  rw [← NNReal.tendsto_coe]
  change Tendsto (fun n : ℕ => (sampleX n).real s) atTop (𝓝 (limitX.real s))
  obtain ⟨a, b, c, d, j, rfl⟩ := hs
  rw [limit_clip]
  simp only [sample_box]
  by_cases hj : j < P
  · by_cases h1 : max a 0 ≤ min b 1
    · by_cases h2 : max c 0 ≤ min d 1
      · rw [limit_box (le_max_right _ _) h1 (min_le_right _ _) (le_max_right _ _) h2 (min_le_right _ _) hj, Metric.tendsto_atTop]
        intro ε hε
        have hev := box_count (le_max_right a 0) h1 (min_le_right b 1) (le_max_right c 0) h2 (min_le_right d 1) hj (half_pos hε)
        obtain ⟨N, hN⟩ := eventually_atTop.mp hev
        refine ⟨N, fun n hn => ?_⟩
        have h := hN (n + 1) (hn.trans (Nat.le_succ n))
        have hp : (0 : ℝ) < ((n + 1 : ℕ) : ℝ) := by positivity
        rw [dist_eq, div_sub' hp.ne', abs_div, abs_of_pos hp, div_lt_iff₀ hp]
        refine h.trans_lt ?_
        nlinarith
      · have e : ∀ n, inBox (n + 1) (max a 0) (min b 1) (max c 0) (min d 1) j = ∅ := by
          intro n
          ext i
          simp only [inBox, Finset.mem_filter, Finset.notMem_empty, iff_false]
          rintro ⟨-, -, ⟨k1, k2⟩, -⟩
          exact h2 (k1.trans k2.le)
        rw [Set.Ico_eq_empty_of_le (not_le.mp h2).le, Set.prod_empty, Set.empty_prod]
        simp [e]
    · have e : ∀ n, inBox (n + 1) (max a 0) (min b 1) (max c 0) (min d 1) j = ∅ := by
        intro n
        ext i
        simp only [inBox, Finset.mem_filter, Finset.notMem_empty, iff_false]
        rintro ⟨-, ⟨k1, k2⟩, -⟩
        exact h1 (k1.trans k2.le)
      rw [Set.Ico_eq_empty_of_le (not_le.mp h1).le, Set.empty_prod, Set.empty_prod]
      simp [e]
  · have e : ∀ n, inBox (n + 1) (max a 0) (min b 1) (max c 0) (min d 1) j = ∅ := by
      intro n
      ext i
      simp only [inBox, Finset.mem_filter, Finset.notMem_empty, iff_false]
      rintro ⟨-, -, -, k⟩
      exact hj (k ▸ Nat.mod_lt _ P_pos)
    have e0 : limitX.real ((Set.Ico (max a 0) (min b 1) ×ˢ Set.Ico (max c 0) (min d 1)) ×ˢ {j}) = 0 := by
      rw [Measure.real, limit_apply (boxes_meas _ ⟨_, _, _, _, j, rfl⟩)]
      have : {x | ofDraw x ∈ (Set.Ico (max a 0) (min b 1) ×ˢ Set.Ico (max c 0) (min d 1)) ×ˢ {j}} ∩ cube = ∅ := by
        ext x
        simp only [Set.mem_inter_iff, Set.mem_empty_iff_false, iff_false]
        rintro ⟨⟨-, h⟩, hx⟩
        apply hj
        have hx2 : 0 < x 2 ∧ x 2 < 1 := hx 2 trivial
        have hP : (0 : ℝ) < P := by exact_mod_cast P_pos
        have h' : ⌊P * x 2⌋₊ = j := h
        rw [← h', Nat.floor_lt (mul_nonneg hP.le hx2.1.le)]
        nlinarith
      rw [this]; simp
    rw [e0]
    simp [e]

/-! ### From angles to orientations -/

theorem qX_continuous : Continuous fun x => comp4 (qX x) := by
  have c1 : Continuous fun x : (ℝ × ℝ) × ℕ => x.1.1 := by fun_prop
  have c2 : Continuous fun x : (ℝ × ℝ) × ℕ => x.1.2 := by fun_prop
  have c3 : Continuous fun x : (ℝ × ℝ) × ℕ => (x.2 : ℝ) := (continuous_of_discreteTopology (f := fun k : ℕ => (k : ℝ))).comp continuous_snd
  refine continuous_pi fun i => ?_
  fin_cases i
  · change Continuous fun x : (ℝ × ℝ) × ℕ => √x.1.1 * sin (2 * π * x.1.2)
    fun_prop
  · change Continuous fun x : (ℝ × ℝ) × ℕ => √x.1.1 * cos (2 * π * x.1.2)
    fun_prop
  · change Continuous fun x : (ℝ × ℝ) × ℕ => √(1 - x.1.1) * sin (2 * π * (x.2 / P))
    fun_prop
  · change Continuous fun x : (ℝ × ℝ) × ℕ => √(1 - x.1.1) * cos (2 * π * (x.2 / P))
    fun_prop

theorem close_open (S : Set Q) : IsOpen {y : Fin 4 → ℝ | quat4 y ∈ Close S} := by
  have e : {y : Fin 4 → ℝ | quat4 y ∈ Close S} =
      ⋃ r ∈ {r | r ∈ S ∧ IsUnit4 r}, {y | cos 5e-24 < y 0 * r.w + y 1 * r.x + y 2 * r.y + y 3 * r.z} := by
    ext y; simp [Close, quat4, and_assoc]
  rw [e]
  refine isOpen_biUnion fun r _ => isOpen_lt continuous_const ?_
  fun_prop

theorem qX_unit {x : (ℝ × ℝ) × ℕ} (h0 : 0 ≤ x.1.1) (h1 : x.1.1 ≤ 1) : IsUnit4 (qX x) := by
  have a := sq_sqrt h0
  have b := sq_sqrt (sub_nonneg.mpr h1)
  have c := sin_sq_add_cos_sq (2 * π * x.1.2)
  have d := sin_sq_add_cos_sq (2 * π * (x.2 / P))
  unfold IsUnit4 qX
  dsimp only
  generalize √x.1.1 = s at *
  generalize √(1 - x.1.1) = t at *
  linear_combination s ^ 2 * c + t ^ 2 * d + a + b

theorem draw_close {d : Fin 3 → ℝ} (hd : d ∈ cube) (S : Set Q) (h : qX (ofDraw d) ∈ S) : quatOfDraw d ∈ Close S := by
  have d0 : 0 < d 0 ∧ d 0 < 1 := hd 0 trivial
  have d2 : 0 < d 2 ∧ d 2 < 1 := hd 2 trivial
  have hP : (0 : ℝ) < P := by exact_mod_cast P_pos
  refine ⟨_, h, qX_unit (by change 0 ≤ 1 - d 0; linarith) (by change 1 - d 0 ≤ 1; linarith), ?_⟩
  set k : ℝ := ((⌊P * d 2⌋₊ : ℕ) : ℝ) with hk
  have k1 : k ≤ P * d 2 := Nat.floor_le (mul_nonneg hP.le d2.1.le)
  have k2 : P * d 2 < k + 1 := Nat.lt_floor_add_one _
  have e : (quatOfDraw d).w * (qX (ofDraw d)).w + (quatOfDraw d).x * (qX (ofDraw d)).x + (quatOfDraw d).y * (qX (ofDraw d)).y +
      (quatOfDraw d).z * (qX (ofDraw d)).z = (1 - d 0) + d 0 * cos (2 * π * d 2 - 2 * π * (k / P)) := by
    rw [cos_sub]
    unfold quatOfDraw qX ofDraw
    dsimp only
    rw [← hk, show (1 : ℝ) - (1 - d 0) = d 0 by ring]
    have a := sq_sqrt d0.1.le
    have b := sq_sqrt (sub_nonneg.mpr d0.2.le)
    have c := sin_sq_add_cos_sq (2 * π * d 1)
    generalize √(d 0) = s at *
    generalize √(1 - d 0) = t at *
    linear_combination t ^ 2 * c + b + (cos (2 * π * d 2) * cos (2 * π * (k / P)) + sin (2 * π * d 2) * sin (2 * π * (k / P))) * a
  rw [e]
  have hπ := pi_pos
  have hπ4 := pi_lt_d2
  have f : 2 * π * d 2 - 2 * π * (k / P) = 2 * π * (P * d 2 - k) / P := by field_simp
  have g0 : 0 ≤ 2 * π * d 2 - 2 * π * (k / P) := by
    rw [f]; apply div_nonneg _ hP.le; nlinarith
  have g1 : 2 * π * d 2 - 2 * π * (k / P) < 5e-24 := by
    rw [f, div_lt_iff₀ hP]
    have : 2 * π * (P * d 2 - k) ≤ 2 * π := by nlinarith
    refine this.trans_lt ?_
    unfold P
    norm_num
    linarith
  have g2 : cos 5e-24 < cos (2 * π * d 2 - 2 * π * (k / P)) := cos_lt_cos_of_nonneg_of_le_pi g0 (by norm_num; linarith [pi_gt_three]) g1
  have g3 := cos_le_one (5e-24 : ℝ)
  nlinarith

/-- The draws for which the orientation is well inside a set. -/
theorem limit_ge (S : Set Q) (hS : IsOpen {y | quat4 y ∈ S}) : haar {p | p ∉ Close Sᶜ} ≤ ENNReal.ofReal (2 * π ^ 2) * limitX {x | qX x ∈ S} := by
  have hm : MeasurableSet {x | qX x ∈ S} := (hS.preimage qX_continuous).measurableSet
  have hB : MeasurableSet {y : Fin 4 → ℝ | quat4 y ∉ Close Sᶜ} := (close_open Sᶜ).measurableSet.compl
  have hu := C162_uniform _ hB
  have e : {q : Q | comp4 q ∈ {y : Fin 4 → ℝ | quat4 y ∉ Close Sᶜ}} = {p | p ∉ Close Sᶜ} := by ext q; rfl
  rw [e] at hu
  rw [← hu, limit_apply hm]
  refine mul_le_mul' le_rfl ?_
  have hsub : {d : Fin 3 → ℝ | (∀ i, 0 ≤ d i ∧ d i < 1) ∧ ∀ q ∈ so3UniformQuat [ofComp d], comp4 q ∈ {y : Fin 4 → ℝ | quat4 y ∉ Close Sᶜ}} ⊆
      (⋃ i : Fin 3, {d : Fin 3 → ℝ | d i = 0}) ∪ ({d | ofDraw d ∈ {x | qX x ∈ S}} ∩ cube) := by
    rintro d ⟨h1, h2⟩
    rw [quatOfDraw_eq] at h2
    have h2' : quatOfDraw d ∉ Close Sᶜ := h2 _ (List.mem_singleton.mpr rfl)
    by_cases hz : ∃ i, d i = 0
    · obtain ⟨i, hi⟩ := hz
      exact Or.inl (Set.mem_iUnion.mpr ⟨i, hi⟩)
    · push Not at hz
      have hc : d ∈ cube := fun i _ => ⟨lt_of_le_of_ne (h1 i).1 (Ne.symm (hz i)), (h1 i).2⟩
      refine Or.inr ⟨?_, hc⟩
      by_contra hq
      exact h2' (draw_close hc Sᶜ hq)
  refine (measure_mono hsub).trans ((measure_union_le _ _).trans ?_)
  rw [measure_iUnion_null fun i => coord_null i, zero_add]

theorem count_sample (n : ℕ) (S : Set Q) (hm : MeasurableSet {x | qX x ∈ S}) :
    sampleX n {x | qX x ∈ S} = (fibCount (n + 1) S : ENNReal) / ((n + 1 : ℕ) : ENNReal) := by
  classical
  rw [sample_apply n hm, ENNReal.div_eq_inv_mul]
  congr 2
  unfold fibCount
  rw [fib_eq, List.filter_map, List.length_map, Finset.card_def, Finset.filter_val, Finset.range_val, ← Multiset.coe_range, Multiset.filter_coe, Multiset.coe_card]
  congr!

/-- **C171**, open sets of orientations get at least their share of a large super-Fibonacci sample, up to `5e-24` rad. -/
theorem C171_open (S : Set Q) (hopen : IsOpen {y | quat4 y ∈ S}) {δ : ENNReal} (hδ : δ ≠ 0) :
    ∀ᶠ n : ℕ in atTop, haar {p | p ∉ Close Sᶜ} ≤ ENNReal.ofReal (2 * π ^ 2) * ((fibCount n S : ENNReal) / n) + δ := by
  have hO : IsOpen {x | qX x ∈ S} := hopen.preimage qX_continuous
  have hlim : limitX {x | qX x ∈ S} ≤ liminf (fun n => sampleX n {x | qX x ∈ S}) atTop :=
    ProbabilityMeasure.le_liminf_measure_open_of_tendsto sample_weak hO
  have hc0 : ENNReal.ofReal (2 * π ^ 2) ≠ 0 := by
    have := pi_pos
    exact (ENNReal.ofReal_pos.mpr (by positivity)).ne'
  have hev : ∀ᶠ n : ℕ in atTop, ENNReal.ofReal (2 * π ^ 2) * limitX {x | qX x ∈ S} ≤ ENNReal.ofReal (2 * π ^ 2) * sampleX n {x | qX x ∈ S} + δ := by
    by_cases h0 : limitX {x | qX x ∈ S} = 0
    · rw [h0, mul_zero]
      exact Eventually.of_forall fun _ => bot_le
    · have hd : δ / ENNReal.ofReal (2 * π ^ 2) ≠ 0 := ENNReal.div_ne_zero.mpr ⟨hδ, ENNReal.ofReal_ne_top⟩
      have hlt : limitX {x | qX x ∈ S} - δ / ENNReal.ofReal (2 * π ^ 2) < liminf (fun n => sampleX n {x | qX x ∈ S}) atTop :=
        (ENNReal.sub_lt_self (measure_ne_top _ _) h0 hd).trans_le hlim
      filter_upwards [eventually_lt_of_lt_liminf hlt] with n hn
      have h1 : limitX {x | qX x ∈ S} ≤ sampleX n {x | qX x ∈ S} + δ / ENNReal.ofReal (2 * π ^ 2) := tsub_le_iff_right.mp hn.le
      calc _ ≤ ENNReal.ofReal (2 * π ^ 2) * (sampleX n {x | qX x ∈ S} + δ / ENNReal.ofReal (2 * π ^ 2)) := mul_le_mul' le_rfl h1
        _ = _ := by rw [mul_add, ENNReal.mul_div_cancel hc0 ENNReal.ofReal_ne_top]
  obtain ⟨N, hN⟩ := eventually_atTop.mp hev
  refine eventually_atTop.mpr ⟨N + 1, fun n hn => ?_⟩
  obtain ⟨m, rfl⟩ : ∃ m, n = m + 1 := ⟨n - 1, by omega⟩
  have h := hN m (by omega)
  rw [count_sample m S hO.measurableSet] at h
  exact (limit_ge S hopen).trans h

theorem fibCount_compl (n : ℕ) (S : Set Q) : fibCount n S + fibCount n Sᶜ = n := by
  classical
  have hl : (so3Fibonacci n).length = n := by rw [fib_eq, List.length_map, List.length_range]
  rw [← hl]
  rw [hl]
  conv_rhs => rw [← hl]
  unfold fibCount
  generalize so3Fibonacci n = l
  induction l with
  | nil => simp
  | cons a l ih =>
    by_cases h : a ∈ S
    · simp only [List.filter_cons, h, decide_true, if_true, List.length_cons, Set.mem_compl_iff, not_true_eq_false, decide_false] at ih ⊢
      simp only [Bool.false_eq_true, if_false]
      omega
    · simp only [List.filter_cons, h, decide_true, if_true, List.length_cons, Set.mem_compl_iff, not_false_eq_true, decide_false] at ih ⊢
      simp only [Bool.false_eq_true, if_false]
      omega

/-- **C171**, closed sets get at most their share, up to `5e-24` rad. -/
theorem C171_closed (S : Set Q) (hclosed : IsClosed {y | quat4 y ∈ S}) {δ : ENNReal} (hδ : δ ≠ 0) :
    ∀ᶠ n : ℕ in atTop, ENNReal.ofReal (2 * π ^ 2) * ((fibCount n S : ENNReal) / n) ≤ haar (Close S) + δ := by
  have h := C171_open Sᶜ hclosed.isOpen_compl hδ
  have hm : MeasurableSet {x : Fin 4 → ℝ | unitQ x ∈ Close S} := comp_meas (close_open S).measurableSet
  have hall : ENNReal.ofReal (2 * π ^ 2) ≤ haar (Close S) + haar {p | p ∉ Close S} := by
    rw [← haar_all]
    unfold haar
    rw [← mul_add]
    refine mul_le_mul' le_rfl ((measure_mono ?_).trans (measure_union_le _ _))
    rintro x ⟨a, b, -⟩
    by_cases hx : unitQ x ∈ Close S
    · exact Or.inl ⟨a, b, hx⟩
    · exact Or.inr ⟨a, b, hx⟩
  filter_upwards [h, eventually_gt_atTop 0] with n hn h0
  rw [compl_compl] at hn
  have hn0 : (n : ENNReal) ≠ 0 := by exact_mod_cast h0.ne'
  have hsum : ENNReal.ofReal (2 * π ^ 2) * ((fibCount n S : ENNReal) / n) + ENNReal.ofReal (2 * π ^ 2) * ((fibCount n Sᶜ : ENNReal) / n) =
      ENNReal.ofReal (2 * π ^ 2) := by
    rw [← mul_add, ← ENNReal.add_div, ← Nat.cast_add, fibCount_compl, ENNReal.div_self hn0 (ENNReal.natCast_ne_top _), mul_one]
  have hfin : ENNReal.ofReal (2 * π ^ 2) * ((fibCount n Sᶜ : ENNReal) / n) ≠ ⊤ :=
    ENNReal.mul_ne_top ENNReal.ofReal_ne_top (ENNReal.div_ne_top (ENNReal.natCast_ne_top _) hn0)
  have key := hsum.le.trans (hall.trans (add_le_add le_rfl hn))
  rw [← add_assoc, add_right_comm] at key
  exact (ENNReal.add_le_add_iff_right hfin).mp key

/-! ### Non-vacuity -/

/-- Rotations of at least a right angle. -/
example : ∀ᶠ n : ℕ in atTop, ENNReal.ofReal (2 * π ^ 2) * ((fibCount n {q | |q.w| ≤ √2 / 2} : ENNReal) / n) ≤ haar (Close {q | |q.w| ≤ √2 / 2}) + 1 :=
  C171_closed _ (isClosed_le (f := fun y : Fin 4 → ℝ => |y 0|) (continuous_abs.comp (continuous_apply 0)) continuous_const) one_ne_zero

end Verif.Cubo
