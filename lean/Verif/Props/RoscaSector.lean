import Verif.Props.FibSector
import Mathlib.Analysis.Convex.Measure
/-! C168: the Rosca-Lambert sample of a fundamental sector of directions is spread evenly and twice the requested size. -/
namespace Verif.S2
open Verif Verif.Cubo Verif.Samp Real MeasureTheory Filter Topology
open Verif.Spec

/-! ### The regular grid of the square -/

/-- Nodes of the regular grid, without the last. -/
noncomputable def node (N i : ℕ) : ℝ := -1 + i * (2 / (N : ℝ))

theorem node_count {N : ℕ} (hN : 0 < N) {a b : ℝ} (ha : -1 ≤ a) (hab : a ≤ b) (hb : b ≤ 1) :
    |(((Finset.range N).filter fun i => node N i ∈ Set.Ico a b).card : ℝ) - N * ((b - a) / 2)| ≤ 1 := by
  have hN' : (0 : ℝ) < N := by exact_mod_cast hN
  have hy : (b + 1) * N / 2 ≤ N := by nlinarith
  have hx0 : 0 ≤ (a + 1) * N / 2 := div_nonneg (mul_nonneg (by linarith) hN'.le) (by norm_num)
  have hxy : (a + 1) * N / 2 ≤ (b + 1) * N / 2 := by gcongr
  have he : ((Finset.range N).filter fun i => node N i ∈ Set.Ico a b) = Finset.Ico ⌈(a + 1) * N / 2⌉₊ ⌈(b + 1) * N / 2⌉₊ := by
    ext i
    have e : node N i = (2 * i - N) / N := by unfold node; field_simp; ring
    rw [Finset.mem_filter, Finset.mem_range, Finset.mem_Ico, Nat.ceil_le, Nat.lt_ceil, Set.mem_Ico, e, le_div_iff₀ hN', div_lt_iff₀ hN']
    constructor
    · rintro ⟨-, h1, h2⟩; constructor <;> linarith
    · rintro ⟨h1, h2⟩
      refine ⟨?_, by linarith, by linarith⟩
      have : (i : ℝ) < N := by linarith
      exact_mod_cast this
  have hc : ⌈(a + 1) * N / 2⌉₊ ≤ ⌈(b + 1) * N / 2⌉₊ := Nat.ceil_mono hxy
  rw [he, Nat.card_Ico, Nat.cast_sub hc]
  have a1 := Nat.le_ceil ((a + 1) * N / 2)
  have a2 := Nat.ceil_lt_add_one hx0
  have b1 := Nat.le_ceil ((b + 1) * N / 2)
  have b2 := Nat.ceil_lt_add_one (hx0.trans hxy)
  rw [abs_le]
  constructor <;> linarith

theorem node_range {N i : ℕ} (hi : i < N) : -1 ≤ node N i ∧ node N i < 1 := by
  have hi' : (i : ℝ) < N := by exact_mod_cast hi
  have h0 : (0 : ℝ) ≤ i := by positivity
  have hN : (0 : ℝ) < N := by linarith
  unfold node
  constructor
  · have : 0 ≤ (i : ℝ) * (2 / N) := by positivity
    linarith
  · have : (i : ℝ) * (2 / N) < 2 := by rw [← mul_div_assoc, div_lt_iff₀ hN]; linarith
    linarith

/-- The half-open square. -/
def sq : Set (ℝ × ℝ) := Set.Ico (-1) 1 ×ˢ Set.Ico (-1) 1

theorem sq_volume : volume sq = 4 := by
  rw [sq, Measure.volume_eq_prod, Measure.prod_prod, volume_Ico, ← ENNReal.ofReal_mul (by norm_num)]
  norm_num

/-- The uniform distribution on the square. -/
noncomputable def flat : Measure (ℝ × ℝ) := (4 : ENNReal)⁻¹ • volume.restrict sq

instance : IsProbabilityMeasure flat := by
  constructor
  rw [flat, Measure.smul_apply, Measure.restrict_apply MeasurableSet.univ, Set.univ_inter, sq_volume, smul_eq_mul, ENNReal.inv_mul_cancel (by norm_num) (by norm_num)]

/-- Nodes in a set. -/
noncomputable def inGrid (N : ℕ) (U : Set (ℝ × ℝ)) : ℕ :=
  open Classical in ((Finset.range N ×ˢ Finset.range N).filter fun p => (node N p.1, node N p.2) ∈ U).card

/-- The distribution of the nodes. -/
noncomputable def gridM (n : ℕ) : Measure (ℝ × ℝ) :=
  (((n + 1) * (n + 1) : ℕ) : ENNReal)⁻¹ • ∑ p ∈ Finset.range (n + 1) ×ˢ Finset.range (n + 1), Measure.dirac (node (n + 1) p.1, node (n + 1) p.2)

theorem gridM_apply (n : ℕ) {A : Set (ℝ × ℝ)} (hA : MeasurableSet A) : gridM n A = (((n + 1) * (n + 1) : ℕ) : ENNReal)⁻¹ * inGrid (n + 1) A := by
  classical
  rw [gridM, Measure.smul_apply, Measure.finsetSum_apply, smul_eq_mul]
  congr 1
  rw [inGrid, Finset.card_filter]
  push_cast
  refine Finset.sum_congr rfl fun i _ => ?_
  rw [Measure.dirac_apply' _ hA, Set.indicator_apply]
  congr!

instance (n : ℕ) : IsProbabilityMeasure (gridM n) := by
  classical
  constructor
  rw [gridM_apply n MeasurableSet.univ]
  have : inGrid (n + 1) Set.univ = (n + 1) * (n + 1) := by
    simp [inGrid]
  rw [this]
  exact ENNReal.inv_mul_cancel (by simp) (ENNReal.natCast_ne_top _)

noncomputable def gridP (n : ℕ) : ProbabilityMeasure (ℝ × ℝ) := ⟨gridM n, inferInstance⟩
noncomputable def flatP : ProbabilityMeasure (ℝ × ℝ) := ⟨flat, inferInstance⟩

theorem gridM_real (n : ℕ) {A : Set (ℝ × ℝ)} (hA : MeasurableSet A) : (gridM n).real A = inGrid (n + 1) A / ((n + 1 : ℕ) : ℝ) ^ 2 := by
  rw [Measure.real, gridM_apply n hA, ENNReal.toReal_mul, ENNReal.toReal_inv, ENNReal.toReal_natCast, ENNReal.toReal_natCast, div_eq_inv_mul]
  push_cast
  rw [_root_.sq]

theorem inGrid_sq (N : ℕ) (A : Set (ℝ × ℝ)) : inGrid N A = inGrid N (A ∩ sq) := by
  classical
  unfold inGrid
  congr 1
  ext p
  simp only [Finset.mem_filter, Finset.mem_product, Finset.mem_range, Set.mem_inter_iff]
  refine and_congr_right fun hp => ?_
  have h1 := node_range hp.1
  have h2 := node_range hp.2
  have : (node N p.1, node N p.2) ∈ sq := ⟨h1, h2⟩
  simp only [this, and_true]

theorem inGrid_rect (N : ℕ) (a b c d : ℝ) : inGrid N (Set.Ico a b ×ˢ Set.Ico c d) =
    ((Finset.range N).filter fun i => node N i ∈ Set.Ico a b).card * ((Finset.range N).filter fun i => node N i ∈ Set.Ico c d).card := by
  classical
  unfold inGrid
  rw [← Finset.card_product]
  congr 1
  ext p
  simp only [Finset.mem_filter, Finset.mem_product, Set.mem_prod]
  tauto

theorem node_share {a b : ℝ} (ha : -1 ≤ a) (hab : a ≤ b) (hb : b ≤ 1) :
    Tendsto (fun n : ℕ => (((Finset.range (n + 1)).filter fun i => node (n + 1) i ∈ Set.Ico a b).card : ℝ) / ((n + 1 : ℕ) : ℝ)) atTop (𝓝 ((b - a) / 2)) := by
  rw [tendsto_iff_norm_sub_tendsto_zero]
  have hz : Tendsto (fun n : ℕ => 1 / ((n + 1 : ℕ) : ℝ)) atTop (𝓝 0) := by
    have := tendsto_one_div_add_atTop_nhds_zero_nat (𝕜 := ℝ)
    simpa using this
  refine squeeze_zero (fun n => norm_nonneg _) (fun n => ?_) hz
  have hn : (0 : ℝ) < ((n + 1 : ℕ) : ℝ) := by positivity
  rw [norm_eq_abs, le_div_iff₀ hn, ← abs_of_pos hn, ← abs_mul, abs_of_pos hn, sub_mul, div_mul_cancel₀ _ hn.ne', mul_comm _ ((n + 1 : ℕ) : ℝ)]
  exact node_count (Nat.succ_pos n) ha hab hb

theorem flat_rect {a b c d : ℝ} (ha : -1 ≤ a) (hab : a ≤ b) (hb : b ≤ 1) (hc : -1 ≤ c) (hcd : c ≤ d) (hd : d ≤ 1) :
    flat.real (Set.Ico a b ×ˢ Set.Ico c d) = (b - a) / 2 * ((d - c) / 2) := by
  have hsub : Set.Ico a b ×ˢ Set.Ico c d ⊆ sq := Set.prod_mono (Set.Ico_subset_Ico ha hb) (Set.Ico_subset_Ico hc hd)
  rw [Measure.real, flat, Measure.smul_apply, Measure.restrict_apply (measurableSet_Ico.prod measurableSet_Ico), Set.inter_eq_left.mpr hsub,
    Measure.volume_eq_prod, Measure.prod_prod, volume_Ico, volume_Ico, smul_eq_mul, ENNReal.toReal_mul, ENNReal.toReal_mul, ENNReal.toReal_inv,
    ENNReal.toReal_ofReal (by linarith), ENNReal.toReal_ofReal (by linarith)]
  norm_num
  ring

theorem flat_sq {A : Set (ℝ × ℝ)} (hA : MeasurableSet A) : flat.real A = flat.real (A ∩ sq) := by
  have hb : MeasurableSet sq := measurableSet_Ico.prod measurableSet_Ico
  rw [Measure.real, Measure.real, flat, Measure.smul_apply, Measure.smul_apply, Measure.restrict_apply hA, Measure.restrict_apply (hA.inter hb),
    Set.inter_assoc, Set.inter_self]

theorem grid_weak : Tendsto gridP atTop (𝓝 flatP) := by
  refine rects_pi.tendsto_probabilityMeasure_of_tendsto_of_mem rects_meas rects_nhds ?_
  intro s hs
  rw [← NNReal.tendsto_coe]
  change Tendsto (fun n : ℕ => (gridM n).real s) atTop (𝓝 (flat.real s))
  have hm := rects_meas s hs
  obtain ⟨a, b, c, d, rfl⟩ := hs
  have hin : Set.Ico a b ×ˢ Set.Ico c d ∩ sq = Set.Ico (max a (-1)) (min b 1) ×ˢ Set.Ico (max c (-1)) (min d 1) := by
    rw [sq, Set.prod_inter_prod, Set.Ico_inter_Ico, Set.Ico_inter_Ico]
  rw [flat_sq hm, hin]
  simp only [fun n => gridM_real n hm]
  simp only [fun N => inGrid_sq N (Set.Ico a b ×ˢ Set.Ico c d), hin]
  by_cases h1 : max a (-1) ≤ min b 1
  · by_cases h2 : max c (-1) ≤ min d 1
    · rw [flat_rect (le_max_right _ _) h1 (min_le_right _ _) (le_max_right _ _) h2 (min_le_right _ _)]
      refine ((node_share (le_max_right _ _) h1 (min_le_right _ _)).mul (node_share (le_max_right _ _) h2 (min_le_right _ _))).congr fun n => ?_
      rw [inGrid_rect, div_mul_div_comm]
      push_cast
      rw [_root_.sq]
    · rw [Set.Ico_eq_empty_of_le (not_le.mp h2).le, Set.prod_empty]
      simp [inGrid]
  · rw [Set.Ico_eq_empty_of_le (not_le.mp h1).le, Set.empty_prod]
    simp [inGrid]

/-- Open sets get their share of the nodes. -/
theorem grid_open (U : Set (ℝ × ℝ)) (hU : IsOpen U) {δ : ℝ} (hδ : 0 < δ) :
    ∀ᶠ N : ℕ in atTop, (N : ℝ) ^ 2 * (flat.real U - δ) ≤ inGrid N U := by
  have hl := ProbabilityMeasure.le_liminf_measure_open_of_tendsto grid_weak hU
  have key : ∀ᶠ n : ℕ in atTop, flat.real U - δ ≤ (gridM n).real U := by
    by_cases h0 : flat.real U - δ ≤ 0
    · exact Eventually.of_forall fun n => h0.trans measureReal_nonneg
    have h0' := not_le.mp h0
    have hlt : ENNReal.ofReal (flat.real U - δ) < liminf (fun n => ((gridP n : ProbabilityMeasure (ℝ × ℝ)) : Measure (ℝ × ℝ)) U) atTop := by
      refine lt_of_lt_of_le ?_ hl
      change _ < flat U
      rw [← ENNReal.ofReal_toReal (measure_ne_top flat U)]
      exact (ENNReal.ofReal_lt_ofReal_iff (by change 0 < flat.real U; linarith)).mpr (by change _ < flat.real U; linarith)
    filter_upwards [eventually_lt_of_lt_liminf hlt] with n hn
    change _ < gridM n U at hn
    exact (ENNReal.ofReal_le_iff_le_toReal (measure_ne_top _ _)).mp hn.le
  refine from_succ ?_
  filter_upwards [key] with n hn
  rw [gridM_real n hU.measurableSet, le_div_iff₀ (by positivity)] at hn
  rw [mul_comm]; exact hn

/-! ### The part of the square over a set of directions -/

theorem inv_chart (k : Fin 4) (p : ℝ × ℝ) (hp : p ∈ sector k) : invRoscaLambert p = some (atHeight (chart k p).1 (chart k p).2) := by
  obtain ⟨a, b⟩ := p
  have hpi := Real.pi_pos
  fin_cases k <;> simp only [sector, Set.mem_ofPred_eq] at hp <;> obtain ⟨h1, h2, h3, h4⟩ := hp
  · have hb : |b| ≤ |a| := by rw [abs_of_pos h1, abs_le]; constructor <;> linarith
    have ha : |a| ≤ 1 := by rw [abs_of_pos h1]; linarith
    exact inv_chartX hb ha (Or.inl ⟨rfl, h1⟩)
  · have hb : |a| ≤ |b| := by rw [abs_of_pos h1, abs_le]; constructor <;> linarith
    have ha : |b| ≤ 1 := by rw [abs_of_pos h1]; linarith
    rcases lt_or_eq_of_le h3 with h5 | h5
    · exact inv_chartY (by rw [abs_of_pos h1, abs_lt]; constructor <;> linarith) ha (Or.inl ⟨rfl, h1⟩)
    · subst h5
      rw [inv_chartX (c := Real.pi) (by rw [abs_neg]) (by rw [abs_neg]; exact ha) (Or.inr ⟨rfl, by linarith⟩)]
      simp only [chart, chartX, chartY]
      have e1 : b / -b = -1 := by rw [div_neg, div_self h1.ne']
      have e2 : -b / b = -1 := by rw [neg_div, div_self h1.ne']
      rw [e1, e2, neg_sq]
      congr 2
      ring
  · have hb : |b| ≤ |a| := by rw [abs_of_neg h2, abs_le]; constructor <;> linarith
    have ha : |a| ≤ 1 := by rw [abs_of_neg h2]; linarith
    exact inv_chartX hb ha (Or.inr ⟨rfl, h2⟩)
  · have hb : |a| ≤ |b| := by rw [abs_of_neg h2, abs_le]; constructor <;> linarith
    have ha : |b| ≤ 1 := by rw [abs_of_neg h2]; linarith
    rcases lt_or_eq_of_le h4 with h5 | h5
    · exact inv_chartY (by rw [abs_of_neg h2, abs_lt]; constructor <;> linarith) ha (Or.inr ⟨rfl, h2⟩)
    · subst h5
      rw [inv_chartX (c := 0) (by rw [abs_neg]) (by rw [abs_neg]; exact ha) (Or.inl ⟨rfl, by linarith⟩)]
      simp only [chart, chartX, chartY]
      have e1 : b / -b = -1 := by rw [div_neg, div_self h2.ne]
      have e2 : -b / b = -1 := by rw [neg_div, div_self h2.ne]
      rw [e1, e2, neg_sq]
      unfold atHeight
      have e3 : Real.pi / 2 + Real.pi - Real.pi / 4 * -1 = 0 + Real.pi / 4 * -1 + 2 * Real.pi := by ring
      rw [e3, Real.cos_add_two_pi, Real.sin_add_two_pi]

theorem sector_convex (k : Fin 4) : Convex ℝ (sector k) := by
  have l1 : IsLinearMap ℝ fun p : ℝ × ℝ => p.1 := (LinearMap.fst ℝ ℝ ℝ).isLinear
  have l2 : IsLinearMap ℝ fun p : ℝ × ℝ => p.2 := (LinearMap.snd ℝ ℝ ℝ).isLinear
  have l3 : IsLinearMap ℝ fun p : ℝ × ℝ => p.1 + p.2 := (LinearMap.fst ℝ ℝ ℝ + LinearMap.snd ℝ ℝ ℝ).isLinear
  have l4 : IsLinearMap ℝ fun p : ℝ × ℝ => p.1 - p.2 := (LinearMap.fst ℝ ℝ ℝ - LinearMap.snd ℝ ℝ ℝ).isLinear
  fin_cases k
  · have : sector 0 = (({p | 0 < p.1} ∩ {p | p.1 < 1}) ∩ ({p | 0 < p.1 + p.2} ∩ {p | 0 ≤ p.1 - p.2}) : Set (ℝ × ℝ)) := by
      ext p; simp only [sector, Set.mem_ofPred_eq, Set.mem_inter_iff]
      constructor
      · rintro ⟨a, b, c, d⟩; exact ⟨⟨a, b⟩, by linarith, by linarith⟩
      · rintro ⟨⟨a, b⟩, c, d⟩; exact ⟨a, b, by linarith, by linarith⟩
    show Convex ℝ (sector 0)
    rw [this]
    exact ((convex_halfSpace_gt l1 0).inter (convex_halfSpace_lt l1 1)).inter ((convex_halfSpace_gt l3 0).inter (convex_halfSpace_ge l4 0))
  · have : sector 1 = (({p | 0 < p.2} ∩ {p | p.2 < 1}) ∩ ({p | 0 ≤ p.1 + p.2} ∩ {p | p.1 - p.2 < 0}) : Set (ℝ × ℝ)) := by
      ext p; simp only [sector, Set.mem_ofPred_eq, Set.mem_inter_iff]
      constructor
      · rintro ⟨a, b, c, d⟩; exact ⟨⟨a, b⟩, by linarith, by linarith⟩
      · rintro ⟨⟨a, b⟩, c, d⟩; exact ⟨a, b, by linarith, by linarith⟩
    show Convex ℝ (sector 1)
    rw [this]
    exact ((convex_halfSpace_gt l2 0).inter (convex_halfSpace_lt l2 1)).inter ((convex_halfSpace_ge l3 0).inter (convex_halfSpace_lt l4 0))
  · have : sector 2 = (({p | -1 < p.1} ∩ {p | p.1 < 0}) ∩ ({p | p.1 + p.2 < 0} ∩ {p | p.1 - p.2 ≤ 0}) : Set (ℝ × ℝ)) := by
      ext p; simp only [sector, Set.mem_ofPred_eq, Set.mem_inter_iff]
      constructor
      · rintro ⟨a, b, c, d⟩; exact ⟨⟨a, b⟩, by linarith, by linarith⟩
      · rintro ⟨⟨a, b⟩, c, d⟩; exact ⟨a, b, by linarith, by linarith⟩
    show Convex ℝ (sector 2)
    rw [this]
    exact ((convex_halfSpace_gt l1 (-1)).inter (convex_halfSpace_lt l1 0)).inter ((convex_halfSpace_lt l3 0).inter (convex_halfSpace_le l4 0))
  · have : sector 3 = (({p | -1 < p.2} ∩ {p | p.2 < 0}) ∩ ({p | p.1 + p.2 ≤ 0} ∩ {p | 0 < p.1 - p.2}) : Set (ℝ × ℝ)) := by
      ext p; simp only [sector, Set.mem_ofPred_eq, Set.mem_inter_iff]
      constructor
      · rintro ⟨a, b, c, d⟩; exact ⟨⟨a, b⟩, by linarith, by linarith⟩
      · rintro ⟨⟨a, b⟩, c, d⟩; exact ⟨a, b, by linarith, by linarith⟩
    show Convex ℝ (sector 3)
    rw [this]
    exact ((convex_halfSpace_gt l2 (-1)).inter (convex_halfSpace_lt l2 0)).inter ((convex_halfSpace_le l3 0).inter (convex_halfSpace_gt l4 0))

theorem chart_cont (k : Fin 4) : ContinuousOn (chart k) (sector k) := by
  fin_cases k
  · refine ContinuousOn.prodMk (by fun_prop) ?_
    refine continuousOn_const.add (continuousOn_const.mul (continuousOn_snd.div continuousOn_fst fun p hp => ?_))
    exact hp.1.ne'
  · refine ContinuousOn.prodMk (by fun_prop) ?_
    refine continuousOn_const.sub (continuousOn_const.mul (continuousOn_fst.div continuousOn_snd fun p hp => ?_))
    exact hp.1.ne'
  · refine ContinuousOn.prodMk (by fun_prop) ?_
    refine continuousOn_const.add (continuousOn_const.mul (continuousOn_snd.div continuousOn_fst fun p hp => ?_))
    exact hp.2.1.ne
  · refine ContinuousOn.prodMk (by fun_prop) ?_
    refine continuousOn_const.sub (continuousOn_const.mul (continuousOn_fst.div continuousOn_snd fun p hp => ?_))
    exact hp.2.1.ne

/-- The part of the square over a set of directions, off the diagonals. -/
def over (S : Set V) : Set (ℝ × ℝ) := ⋃ k : Fin 4, interior (sector k) ∩ chart k ⁻¹' coords S

theorem over_open {S : Set V} (hS : IsOpen {x : Fin 3 → ℝ | ofComp x ∈ S}) : IsOpen (over S) :=
  isOpen_iUnion fun k => ((chart_cont k).mono interior_subset).isOpen_inter_preimage isOpen_interior (coords_open hS)

theorem over_inv {S : Set V} {p : ℝ × ℝ} (hp : p ∈ over S) : ∃ v ∈ S, IsUnit3 v ∧ invRoscaLambert p = some v := by
  obtain ⟨k, hk, hS⟩ := Set.mem_iUnion.mp hp
  have hs := interior_subset hk
  refine ⟨_, hS, ?_, inv_chart k p hs⟩
  obtain ⟨h0, h1, -, -⟩ := chart_range k p hs
  obtain ⟨z, hz⟩ : ∃ z, z = (chart k p).1 := ⟨_, rfl⟩
  obtain ⟨f, hf⟩ : ∃ f, f = (chart k p).2 := ⟨_, rfl⟩
  rw [← hz] at h0 h1
  rw [← hz, ← hf]
  unfold IsUnit3 atHeight
  simp only
  have s1 := sin_sq_add_cos_sq f
  have s2 : √(1 - z ^ 2) ^ 2 = 1 - z ^ 2 := sq_sqrt (by nlinarith)
  linear_combination √(1 - z ^ 2) ^ 2 * s1 + s2

theorem sector_sub (k : Fin 4) : sector k ⊆ openSquare := by
  rintro ⟨a, b⟩ h
  fin_cases k <;> obtain ⟨h1, h2, h3, h4⟩ := h <;> exact ⟨⟨by linarith, by linarith⟩, by linarith, by linarith⟩

theorem over_area (S : Set V) (hS : IsOpen {x : Fin 3 → ℝ | ofComp x ∈ S}) :
    solidAngle {v | v ∈ S ∧ 0 < v.z} ≤ ENNReal.ofReal (π / 2) * volume (over S) := by
  have hfr : ∀ k, volume (sector k \ interior (sector k)) = 0 := fun k =>
    measure_mono_null (μ := volume) (t := frontier (sector k)) (Set.sdiff_subset_sdiff_left subset_closure) ((sector_convex k).addHaar_frontier volume)
  let A : Set (ℝ × ℝ) := over S ∪ ⋃ k : Fin 4, sector k \ interior (sector k)
  have hA : MeasurableSet A := (over_open hS).measurableSet.union (MeasurableSet.iUnion fun k => (sector_measurable k).diff isOpen_interior.measurableSet)
  have hsub : solidAngle {v | v ∈ S ∧ 0 < v.z} ≤ solidAngle {v | 0 < v.z ∧ roscaLambert v ∈ A} := by
    apply measure_mono
    rintro ⟨z, φ⟩ ⟨h1, h2, h3, h4, h5, h6⟩
    refine ⟨h1, h2, h3, h4, h6, ?_⟩
    have h6' : 0 < z := h6
    have : ∃ k : Fin 4, startOf k < φ ∧ φ ≤ startOf k + π / 2 := by
      have h3' : -(π / 4) < φ := h3
      have h4' : φ ≤ 2 * π - π / 4 := h4
      by_cases c0 : φ ≤ π / 4
      · exact ⟨0, by simp [startOf]; linarith, by simp [startOf]; linarith⟩
      by_cases c1 : φ ≤ 3 * π / 4
      · exact ⟨1, by simp [startOf]; linarith, by simp [startOf]; linarith⟩
      by_cases c2 : φ ≤ 5 * π / 4
      · exact ⟨2, by simp [startOf]; linarith, by simp [startOf]; linarith⟩
      · exact ⟨3, by simp [startOf]; linarith, by simp [startOf]; linarith⟩
    obtain ⟨k, k1, k2⟩ := this
    obtain ⟨p, hp, e⟩ := chart_onto k z φ h6' h2 k1 k2
    have hf := chart_forward k p hp
    rw [e] at hf
    show roscaLambert (atHeight z φ) ∈ A
    simp only at hf
    rw [hf]
    by_cases hin : p ∈ interior (sector k)
    · left
      refine Set.mem_iUnion.mpr ⟨k, hin, ?_⟩
      show atHeight (chart k p).1 (chart k p).2 ∈ S
      rw [e]; exact h5
    · right
      exact Set.mem_iUnion.mpr ⟨k, hp, hin⟩
  refine hsub.trans ?_
  rw [C155_upper A hA]
  refine mul_le_mul' le_rfl ?_
  refine (measure_mono (μ := volume) (t := A) Set.inter_subset_left).trans ((measure_union_le _ _).trans ?_)
  rw [measure_iUnion_null hfr, add_zero]

theorem flat_over (S : Set V) (hS : IsOpen {x : Fin 3 → ℝ | ofComp x ∈ S}) : 2 * share {v | v ∈ S ∧ 0 < v.z} ≤ flat.real (over S) := by
  have hp := pi_pos
  have h := over_area S hS
  have hss : over S ⊆ sq := by
    intro p hp
    obtain ⟨k, hk, -⟩ := Set.mem_iUnion.mp hp
    have := sector_sub k (interior_subset hk)
    exact ⟨⟨this.1.1.le, this.1.2⟩, this.2.1.le, this.2.2⟩
  have hfin : volume (over S) ≠ ⊤ := ne_top_of_le_ne_top (by rw [sq_volume]; norm_num) (measure_mono (μ := volume) hss)
  have h' := ENNReal.toReal_mono (ENNReal.mul_ne_top ENNReal.ofReal_ne_top hfin) h
  rw [ENNReal.toReal_mul, ENNReal.toReal_ofReal (by linarith)] at h'
  have e : flat.real (over S) = (volume (over S)).toReal / 4 := by
    rw [Measure.real, flat, Measure.smul_apply, Measure.restrict_apply (over_open hS).measurableSet, Set.inter_eq_left.mpr hss, smul_eq_mul, ENNReal.toReal_mul,
      ENNReal.toReal_inv]
    norm_num
    ring
  rw [e, share, ← mul_div_assoc, div_le_div_iff₀ (by positivity) (by norm_num)]
  nlinarith

/-! ### The sampler -/

/-- The nodes as the code builds them. -/
noncomputable def squares (E : ℕ) : List (ℝ × ℝ) := (linspace (-1) 1 E).flatMap fun x => (linspace (-1) 1 E).map fun y => (x, y)

theorem squares_eq (N : ℕ) (hN : 0 < N) : linspace (-1) 1 (N + 1) = (List.range (N + 1)).map fun i : ℕ => node N i := by
  unfold linspace
  rw [if_neg (by omega)]
  refine List.map_congr_left fun i _ => ?_
  unfold node
  push_cast
  rw [show (1 : ℝ) - -1 = 2 by norm_num, show (N : ℝ) + 1 - 1 = N by ring]

theorem squares_length (E : ℕ) : (squares E).length = E * E := by
  have : (linspace (-1) 1 E).length = E := by
    unfold linspace; split
    · simp_all
    · simp
  simp [squares, List.length_flatMap, this]

theorem range_sum (n : ℕ) (f : ℕ → ℕ) : ((List.range n).map f).sum = ∑ i ∈ Finset.range n, f i := rfl

/-- At least the nodes without the last row and column. -/
theorem squares_count (N : ℕ) (hN : 0 < N) (U : Set (ℝ × ℝ)) (q : ℝ × ℝ → Bool) (hq : ∀ p ∈ U, q p = true) : inGrid N U ≤ (squares (N + 1)).countP q := by
  classical
  have hrow : ∀ x : ℝ, ((linspace (-1) 1 (N + 1)).map fun y => (x, y)).countP q = ∑ j ∈ Finset.range (N + 1), if q (x, node N j) then 1 else 0 := by
    intro x
    rw [squares_eq N hN, List.map_map, List.countP_map, List.countP_eq_length_filter, ← List.toFinset_card_of_nodup (List.Nodup.filter _ List.nodup_range), ← Finset.card_filter]
    congr 1
    ext j
    simp
  have htot : (squares (N + 1)).countP q = ∑ i ∈ Finset.range (N + 1), ∑ j ∈ Finset.range (N + 1), if q (node N i, node N j) then 1 else 0 := by
    unfold squares
    rw [List.countP_flatMap, ← range_sum]
    congr 1
    conv_lhs => rw [squares_eq N hN, List.map_map]
    refine List.map_congr_left fun i _ => ?_
    simp only [Function.comp]
    have := hrow (node N i)
    rw [squares_eq N hN] at this
    exact this
  rw [htot, inGrid, Finset.card_filter, Finset.sum_product]
  calc _ ≤ ∑ i ∈ Finset.range N, ∑ j ∈ Finset.range N, (if q (node N i, node N j) then 1 else 0) := by
        refine Finset.sum_le_sum fun i _ => Finset.sum_le_sum fun j _ => ?_
        by_cases h : (node N i, node N j) ∈ U
        · rw [if_pos h, if_pos (hq _ h)]
        · rw [if_neg h]; exact Nat.zero_le _
    _ ≤ ∑ i ∈ Finset.range N, ∑ j ∈ Finset.range (N + 1), (if q (node N i, node N j) then 1 else 0) := by
        refine Finset.sum_le_sum fun i _ => Finset.sum_le_sum_of_subset (Finset.range_mono (Nat.le_succ N))
    _ ≤ _ := Finset.sum_le_sum_of_subset (Finset.range_mono (Nat.le_succ N))

theorem rosca_eq' {n : ℕ} (h1 : 1 ≤ n) (h2 : n ≤ 11) (single : Bool) (t : ℕ) :
    sampleRosca (s2Eps single) n t = some (((squares (Nat.sqrt (t * laueOrder n))).filterMap invRoscaLambert).filter fun q => (s2InFz (s2Eps single) n q).getD false) := by
  obtain ⟨G, -, -, -, -, -, -, hm, -, -⟩ := C06_group n h1 h2
  unfold sampleRosca
  rw [hm, Option.bind_some, inFz_isNone h1 h2]
  rfl

theorem hits_rosca (S : Set V) (f : V → Bool) (E : ℕ) : hits S (((squares E).filterMap invRoscaLambert).filter f) =
    open Classical in (squares E).countP fun p => decide (∃ v ∈ S, invRoscaLambert p = some v ∧ f v = true) := by
  classical
  unfold hits
  rw [List.countP_filter, List.countP_filterMap]
  congr 1
  funext p
  cases h : invRoscaLambert p with
  | none => simp
  | some v => 
    by_cases hv : v ∈ S <;> cases hf : f v <;> simp [hv, hf]

theorem inside_upper {n : ℕ} (h1 : 1 ≤ n) (h2 : n ≤ 11) {v : V} (h : Inside n 0 v) : 0 < v.z := by
  interval_cases n
  · rw [inside1] at h; exact h
  · rw [inside2] at h; exact h.2
  · rw [inside3] at h; exact h.2.2
  · rw [inside4] at h; exact h.2.2
  · rw [inside5] at h; exact h.2.2
  · rw [inside6] at h; exact h.2.2
  · rw [inside7] at h; exact h.2.2
  · rw [inside8] at h; exact h.2.2
  · rw [inside9] at h; exact h.2.2
  · rw [inside10] at h; linarith [h.1, h.2.1, h.2.2.1]
  · rw [inside11] at h; linarith [h.1, h.2.1, h.2.2]

/-- The side of the grid grows like the square root of the requested number. -/
theorem side_bounds {m : ℕ} (t : ℕ) : ((Nat.sqrt (t * m) : ℕ) : ℝ) ^ 2 ≤ t * m ∧ (t : ℝ) * m < ((Nat.sqrt (t * m) : ℕ) + 1 : ℝ) ^ 2 := by
  constructor
  · exact_mod_cast Nat.sqrt_le' (t * m)
  · exact_mod_cast Nat.lt_succ_sqrt' (t * m)

/-- The smaller grid holds nearly the requested number. -/
theorem side_large {m : ℕ} (hm : 0 < m) {δ : ℝ} (hδ : 0 < δ) :
    ∀ᶠ t : ℕ in atTop, (t : ℝ) * m * (1 - δ) ≤ ((Nat.sqrt (t * m) - 1 : ℕ) : ℝ) ^ 2 := by
  have hs : Tendsto (fun t : ℕ => Nat.sqrt (t * m)) atTop atTop := by
    refine tendsto_atTop.mpr fun b => ?_
    filter_upwards [eventually_ge_atTop (b * b)] with t ht
    rw [Nat.le_sqrt]
    nlinarith
  obtain ⟨K, hK⟩ := exists_nat_ge (4 / δ + 4)
  filter_upwards [hs.eventually (eventually_ge_atTop (K + 1))] with t ht
  obtain ⟨b1, b2⟩ := side_bounds (m := m) t
  obtain ⟨E, hE⟩ : ∃ E, E = Nat.sqrt (t * m) := ⟨_, rfl⟩
  rw [← hE] at b1 b2 ht ⊢
  have hK' : (K : ℝ) + 1 ≤ E := by exact_mod_cast ht
  have h4 : 0 < 4 / δ := by positivity
  rw [Nat.cast_sub (by omega)]
  push_cast
  have hEd : 4 ≤ E * δ := by
    have : 4 / δ ≤ E := by linarith
    rwa [div_le_iff₀ hδ] at this
  have hE0 : (0 : ℝ) < E := by linarith
  by_cases hd1 : 1 ≤ δ
  · have hle : (t : ℝ) * m * (1 - δ) ≤ 0 := mul_nonpos_of_nonneg_of_nonpos (by positivity) (by linarith)
    exact hle.trans (sq_nonneg _)
  · have hd1' := not_le.mp hd1
    have : (t : ℝ) * m * (1 - δ) ≤ (E + 1) ^ 2 * (1 - δ) := by
      apply mul_le_mul_of_nonneg_right b2.le; linarith
    nlinarith

theorem side_top {m : ℕ} (hm : 0 < m) : Tendsto (fun t : ℕ => Nat.sqrt (t * m) - 1) atTop atTop := by
  refine tendsto_atTop.mpr fun b => ?_
  filter_upwards [eventually_ge_atTop ((b + 1) * (b + 1))] with t ht
  have : b + 1 ≤ Nat.sqrt (t * m) := by rw [Nat.le_sqrt]; nlinarith
  omega

theorem share_nonneg (S : Set V) : 0 ≤ share S := by
  have := pi_pos
  exact div_nonneg ENNReal.toReal_nonneg (by linarith)

theorem solid_finite (S : Set V) : solidAngle S ≠ ⊤ := by
  refine ne_top_of_le_ne_top ?_ (measure_mono (μ := volume) (t := Set.Icc (-1 : ℝ) 1 ×ˢ Set.Icc (-(π / 4)) (2 * π - π / 4)) ?_)
  · exact (isCompact_Icc.prod isCompact_Icc).measure_lt_top.ne
  · rintro p ⟨a, b, c, d, -⟩
    exact ⟨⟨a.le, b.le⟩, c.le, d⟩

theorem share_mono {S T : Set V} (h : S ⊆ T) : share S ≤ share T := by
  have hp := pi_pos
  unfold share
  have : solidAngle S ≤ solidAngle T := measure_mono fun p ⟨a, b, c, d, e⟩ => ⟨a, b, c, d, h e⟩
  have := ENNReal.toReal_mono (solid_finite T) this
  gcongr

/-- The rest of the hemisphere. -/
theorem share_rest (S : Set V) : 1 / 2 - share S ≤ share {v | v ∈ Sᶜ ∧ 0 < v.z} := by
  have hp := pi_pos
  have h : solidAngle {v | 0 < v.z} ≤ solidAngle S + solidAngle {v | v ∈ Sᶜ ∧ 0 < v.z} := by
    refine le_trans (measure_mono ?_) (measure_union_le _ _)
    rintro p ⟨a, b, c, d, e⟩
    by_cases hs : atHeight p.1 p.2 ∈ S
    · exact Or.inl ⟨a, b, c, d, hs⟩
    · exact Or.inr ⟨a, b, c, d, hs, e⟩
  have h' := ENNReal.toReal_mono (ENNReal.add_ne_top.mpr ⟨solid_finite _, solid_finite _⟩) h
  rw [ENNReal.toReal_add (solid_finite _) (solid_finite _)] at h'
  rw [← share_cap]
  unfold share
  rw [sub_le_iff_le_add, ← add_div]
  gcongr
  linarith

/-- **C168**: the sample is spread evenly, with twice the requested density: an open part of the sector gets at least twice its share of the requested
number, a closed set of directions at most twice its share, up to any `δ`, once enough are requested. -/
theorem C168_even (n : ℕ) (h1 : 1 ≤ n) (h2 : n ≤ 11) (single : Bool) (S : Set V) (δ : ℝ) (hδ : 0 < δ) :
    (IsOpen {x : Fin 3 → ℝ | ofComp x ∈ S} → (∀ v ∈ S, Inside n 0 v) →
        ∀ᶠ t : ℕ in atTop, ∃ l, sampleRosca (s2Eps single) n t = some l ∧ 2 * t * (laueOrder n * share S - δ) ≤ hits S l) ∧
      (IsClosed {x : Fin 3 → ℝ | ofComp x ∈ S} →
        ∀ᶠ t : ℕ in atTop, ∃ l, sampleRosca (s2Eps single) n t = some l ∧ hits S l ≤ 2 * t * (laueOrder n * share S + δ)) := by
  classical
  have ho := order_pos h1 h2
  have ho' : 0 < laueOrder n := by exact_mod_cast ho
  obtain ⟨d, hd⟩ : ∃ d, d = δ / laueOrder n := ⟨_, rfl⟩
  have hd0 : 0 < d := by rw [hd]; exact div_pos hδ ho
  have hdm : d * laueOrder n = δ := by rw [hd]; field_simp
  constructor
  · intro hO hS
    have hup : {v | v ∈ S ∧ 0 < v.z} = S := by
      ext v; exact ⟨fun h => h.1, fun h => ⟨h, inside_upper h1 h2 (hS v h)⟩⟩
    have hfl := flat_over S hO
    rw [hup] at hfl
    filter_upwards [(side_top ho').eventually (grid_open (over S) (over_open hO) hd0), side_large ho' (δ := d / (2 * (share S + 1))) (div_pos hd0 (by linarith [share_nonneg S])),
      (side_top ho').eventually (eventually_ge_atTop 1)] with t hg hl hN
    refine ⟨_, rosca_eq' h1 h2 single t, ?_⟩
    obtain ⟨b1, -⟩ := side_bounds (m := laueOrder n) t
    obtain ⟨N, hNe⟩ : ∃ N, N = Nat.sqrt (t * laueOrder n) - 1 := ⟨_, rfl⟩
    have hE : Nat.sqrt (t * laueOrder n) = N + 1 := by omega
    rw [← hNe] at hg hl hN
    rw [hE] at b1 ⊢
    rw [hits_rosca]
    have hc : inGrid N (over S) ≤ (squares (N + 1)).countP fun p => decide (∃ v ∈ S, invRoscaLambert p = some v ∧ ((s2InFz (s2Eps single) n v).getD false) = true) := by
      refine squares_count N hN _ _ fun p hp => ?_
      obtain ⟨v, hv, hu, hi⟩ := over_inv hp
      rw [decide_eq_true_eq]
      refine ⟨v, hv, hi, ?_⟩
      rw [inside_acc h1 h2 single hu (hS v hv)]
      rfl
    have hc' : (inGrid N (over S) : ℝ) ≤ _ := Nat.cast_le.mpr hc
    refine le_trans ?_ hc'
    refine le_trans ?_ hg
    have s0 := share_nonneg S
    obtain ⟨s, hs⟩ : ∃ s, s = share S := ⟨_, rfl⟩
    obtain ⟨M, hM⟩ : ∃ M : ℝ, M = t * laueOrder n := ⟨_, rfl⟩
    rw [← hs] at s0 hfl hl
    rw [← hM] at hl b1
    rw [← hs]
    have hM0 : 0 ≤ M := by rw [hM]; positivity
    have hNM : (N : ℝ) ^ 2 ≤ M := by
      refine le_trans ?_ b1
      have : (0 : ℝ) ≤ N := Nat.cast_nonneg N
      push_cast
      nlinarith
    have hη : 2 * s * (d / (2 * (s + 1))) ≤ d := by
      rw [← mul_div_assoc, div_le_iff₀ (by linarith)]
      nlinarith
    have e1 : 2 * (t : ℝ) * (laueOrder n * s - δ) = M * (2 * s - 2 * d) := by
      rw [hM, ← hdm]; ring
    have k1 : (N : ℝ) ^ 2 * (2 * s - d) ≤ (N : ℝ) ^ 2 * (flat.real (over S) - d) := by
      apply mul_le_mul_of_nonneg_left _ (sq_nonneg _); linarith
    have k2 := mul_le_mul_of_nonneg_left hl (by linarith : 0 ≤ 2 * s)
    have k3 := mul_le_mul_of_nonneg_left hη hM0
    have k4 := mul_le_mul_of_nonneg_right hNM hd0.le
    rw [e1]
    generalize d / (2 * (s + 1)) = η at k2 k3
    refine le_trans ?_ k1
    linarith
  · intro hC
    have hO : IsOpen {x : Fin 3 → ℝ | ofComp x ∈ Sᶜ} := hC.isOpen_compl
    have hfl := flat_over Sᶜ hO
    have hre := share_rest S
    filter_upwards [(side_top ho').eventually (grid_open (over Sᶜ) (over_open hO) hd0), side_large ho' hd0,
      (side_top ho').eventually (eventually_ge_atTop 1)] with t hg hl hN
    refine ⟨_, rosca_eq' h1 h2 single t, ?_⟩
    obtain ⟨b1, -⟩ := side_bounds (m := laueOrder n) t
    obtain ⟨N, hNe⟩ : ∃ N, N = Nat.sqrt (t * laueOrder n) - 1 := ⟨_, rfl⟩
    have hE : Nat.sqrt (t * laueOrder n) = N + 1 := by omega
    rw [← hNe] at hg hl hN
    rw [hE] at b1 ⊢
    rw [hits_rosca]
    obtain ⟨q, hq⟩ : ∃ q : ℝ × ℝ → Bool, q = fun p => decide (∃ v ∈ S, invRoscaLambert p = some v ∧ ((s2InFz (s2Eps single) n v).getD false) = true) := ⟨_, rfl⟩
    have hc : inGrid N (over Sᶜ) ≤ (squares (N + 1)).countP fun p => !q p := by
      refine squares_count N hN _ _ fun p hp => ?_
      obtain ⟨v, hv, hu, hi⟩ := over_inv hp
      rw [hq, Bool.not_eq_true', decide_eq_false_iff_not]
      rintro ⟨w, hw, hi', -⟩
      rw [hi, Option.some.injEq] at hi'
      exact hv (hi' ▸ hw)
    have htot := List.length_eq_countP_add_countP q (l := squares (N + 1))
    rw [squares_length] at htot
    have hneg : (squares (N + 1)).countP (fun a => decide (¬ q a = true)) = (squares (N + 1)).countP fun p => !q p := by
      congr 1; funext p; simp
    rw [hneg] at htot
    have hcast : (((squares (N + 1)).countP q : ℕ) : ℝ) + inGrid N (over Sᶜ) ≤ ((N + 1 : ℕ) : ℝ) ^ 2 := by
      have : (squares (N + 1)).countP q + inGrid N (over Sᶜ) ≤ (N + 1) ^ 2 := by rw [_root_.sq]; omega
      exact_mod_cast this
    rw [← hq]
    have s0 := share_nonneg S
    obtain ⟨s, hs⟩ : ∃ s, s = share S := ⟨_, rfl⟩
    obtain ⟨M, hM⟩ : ∃ M : ℝ, M = t * laueOrder n := ⟨_, rfl⟩
    rw [← hs] at s0 hre
    rw [← hM] at hl b1
    rw [← hs]
    have hM0 : 0 ≤ M := by rw [hM]; positivity
    have e1 : 2 * (t : ℝ) * (laueOrder n * s + δ) = M * (2 * s + 2 * d) := by
      rw [hM, ← hdm]; ring
    have k1 : (N : ℝ) ^ 2 * (1 - 2 * s - d) ≤ (N : ℝ) ^ 2 * (flat.real (over Sᶜ) - d) := by
      apply mul_le_mul_of_nonneg_left _ (sq_nonneg _); linarith
    rw [e1]
    by_cases hneg' : 0 ≤ 1 - 2 * s - d
    · have k2 := mul_le_mul_of_nonneg_right hl hneg'
      have k3 : M * (1 - 2 * s - 2 * d) ≤ M * (1 - d) * (1 - 2 * s - d) := by
        rw [mul_assoc]
        apply mul_le_mul_of_nonneg_left _ hM0
        nlinarith
      linarith
    · have hn := not_le.mp hneg'
      have k2 : M * 1 ≤ M * (2 * s + 2 * d) := by
        apply mul_le_mul_of_nonneg_left _ hM0; linarith
      have : (0 : ℝ) ≤ inGrid N (over Sᶜ) := by positivity
      linarith

/-- **C168**: the sample holds twice the requested number: at least `2 (1 - δ)` of it and at most `2 (1 + 36 order EPS / π + δ)` of it, once enough are
requested. -/
theorem C168_count (n : ℕ) (h1 : 1 ≤ n) (h2 : n ≤ 11) (single : Bool) (δ : ℝ) (hδ : 0 < δ) :
    ∀ᶠ t : ℕ in atTop, ∃ l, sampleRosca (s2Eps single) n t = some l ∧ 2 * t * (1 - δ) ≤ l.length ∧
      l.length ≤ 2 * t * (1 + 36 * laueOrder n * s2Eps single / π + δ) := by
  obtain ⟨he, he1⟩ := eps_facts single
  have ho := order_pos h1 h2
  have hp := pi_pos
  filter_upwards [(C168_even n h1 h2 single {v | Inside n 0 v} δ hδ).1 (inside_open n 0) fun v hv => hv,
    (C168_even n h1 h2 single {v | Above n (-(2 * s2Eps single)) v} δ hδ).2 (above_closed n _)] with t ha hb
  obtain ⟨l, hl, ha⟩ := ha
  obtain ⟨l', hl', hb⟩ := hb
  rw [hl] at hl'
  rw [Option.some.injEq] at hl'
  subst hl'
  refine ⟨l, hl, ?_, ?_⟩
  · rw [share_inside h1 h2, mul_one_div_cancel ho.ne'] at ha
    refine ha.trans ?_
    exact_mod_cast List.countP_le_length
  · have hall : hits {v | Above n (-(2 * s2Eps single)) v} l = l.length := by
      unfold hits
      rw [List.countP_eq_length]
      intro v hv
      rw [rosca_eq' h1 h2 single t, Option.some.injEq] at hl
      rw [← hl, List.mem_filter] at hv
      have hacc : s2InFz (s2Eps single) n v = some true := by
        have := hv.2
        cases h : s2InFz (s2Eps single) n v with
        | none => rw [h] at this; simp at this
        | some b => rw [h] at this; simpa using this
      obtain ⟨p, hp1, hp2⟩ := List.mem_filterMap.mp hv.1
      have hu : IsUnit3 v := by
        have hlin : ∀ E : ℕ, ∀ x ∈ linspace (-1) 1 E, |x| ≤ 1 := by
          intro E x hx
          unfold linspace at hx
          split at hx
          · simp at hx; rw [hx]; simp
          · rename_i hE1
            simp only [List.mem_map, List.mem_range] at hx
            obtain ⟨i, hi, rfl⟩ := hx
            have hE2 : (2 : ℝ) ≤ E := by
              have : 2 ≤ E := by omega
              exact_mod_cast this
            have hi' : (i : ℝ) + 1 ≤ E := by exact_mod_cast hi
            have hi0 : (0 : ℝ) ≤ i := by positivity
            have hE0 : 0 < (E : ℝ) - 1 := by linarith
            have h3 : (i : ℝ) * ((1 - -1) / (E - 1)) ≤ 2 := by
              rw [← mul_div_assoc, div_le_iff₀ hE0]; linarith
            have h4 : 0 ≤ (i : ℝ) * ((1 - -1) / ((E : ℝ) - 1)) := mul_nonneg hi0 (div_nonneg (by norm_num) hE0.le)
            rw [abs_le]; constructor <;> linarith
        simp only [squares, List.mem_flatMap, List.mem_map] at hp1
        obtain ⟨x, hx, y, hy, rfl⟩ := hp1
        have h0 : ((x, y) : ℝ × ℝ) ≠ (0, 0) := by
          intro h
          rw [h] at hp2
          simp [invRoscaLambert] at hp2
        obtain ⟨w, hw, hwu, -, -⟩ := C20_forward (x, y) (hlin _ x hx) (hlin _ y hy) h0
        rw [hp2, Option.some.injEq] at hw
        rw [hw]; exact hwu
      simpa using above_of_acc h1 h2 he.le (by linarith) hu hacc
    rw [hall] at hb
    refine hb.trans ?_
    have hs := mul_le_mul_of_nonneg_left (share_wide h1 h2 he.le) ho.le
    have e2 : (laueOrder n : ℝ) * (1 / laueOrder n + 36 * s2Eps single / π) = 1 + 36 * laueOrder n * s2Eps single / π := by
      field_simp
    rw [e2] at hs
    have ht : (0 : ℝ) ≤ t := by positivity
    gcongr

/-! ### Non-vacuity -/

/-- Double precision, cubic class: between 198 % and 202 % of the request. -/
example : ∀ᶠ t : ℕ in atTop, ∃ l, sampleRosca (s2Eps false) (11 : ℕ) t = some l ∧ t * (1.98 : ℝ) ≤ l.length ∧ l.length ≤ t * (2.02 : ℝ) := by
  have hp := pi_gt_three
  filter_upwards [C168_count 11 (by norm_num) le_rfl false 0.009 (by norm_num)] with t h
  obtain ⟨l, h1, h2, h3⟩ := h
  have ht : (0 : ℝ) ≤ t := by positivity
  have hs : 36 * (laueOrder 11 : ℝ) * s2Eps false / π ≤ 0.001 := by
    rw [div_le_iff₀ pi_pos]
    norm_num [laueOrder, s2Eps]
    linarith
  refine ⟨l, h1, ?_, h3.trans ?_⟩
  · refine le_trans ?_ h2
    norm_num at hs ⊢
    nlinarith
  · generalize 36 * (laueOrder 11 : ℝ) * s2Eps false / π = r at hs
    norm_num at hs ⊢
    nlinarith

end Verif.S2
