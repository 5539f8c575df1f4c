import Verif.Props.FibWeak
import Verif.Props.S2Area
import Verif.Props.S2ToFz
/-! C167: the Fibonacci sample of a fundamental sector of directions is spread evenly and of the requested size. -/
namespace Verif.S2
open Verif Verif.Cubo Verif.Samp Real MeasureTheory Filter Topology
open Verif.Spec

/-- Directions strictly inside the sector are accepted. -/
theorem inside_acc {n : ℕ} (h1 : 1 ≤ n) (h2 : n ≤ 11) (single : Bool) {v : V} (hu : IsUnit3 v) (h : Inside n 0 v) : s2InFz (s2Eps single) n v = some true := by
  obtain ⟨he, he1⟩ := eps_facts single
  rcases Nat.lt_or_eq_of_le h2 with h' | rfl
  · refine acc_of_above h1 (by omega) he.le hu (inside_above le_rfl h) ?_
    rintro rfl ⟨hx, hy⟩
    rw [inside7] at h
    rw [hx] at h
    linarith [h.1]
  · rw [inside11] at h
    exact acc11 he hu (by linarith) (by linarith) (by linarith)

/-- The area of the sector widened by the tolerance. -/
theorem wide_area {n : ℕ} (h1 : 1 ≤ n) (h2 : n ≤ 11) {e : ℝ} (he : 0 ≤ e) :
    dirArea {v | Above n (-(2 * e)) v} ≤ ENNReal.ofReal (4 * π / laueOrder n + 144 * e) := by
  classical
  have hsub : cone3 {v | Above n (-(2 * e)) v} ⊆ cone3 {v | Inside n 0 v} ∪
      ⋃ m ∈ (wallNormals n).toFinset, {x : Fin 3 → ℝ | norm3 x < 1 ∧ -(2 * e) ≤ m.x * x 0 + m.y * x 1 + m.z * x 2 ∧ m.x * x 0 + m.y * x 1 + m.z * x 2 ≤ 0} := by
    rintro x ⟨a1, a2, hb⟩
    rw [Set.mem_ofPred_eq] at hb
    by_cases hin : Inside n 0 (dirOf x)
    · exact Or.inl ⟨a1, a2, hin⟩
    · right
      unfold Inside at hin
      push Not at hin
      obtain ⟨m, hm, hle⟩ := hin
      have hge := hb m hm
      simp only [Set.mem_iUnion]
      have e' : m.x * (dirOf x).x + m.y * (dirOf x).y + m.z * (dirOf x).z = (m.x * x 0 + m.y * x 1 + m.z * x 2) / norm3 x := by
        simp only [dirOf]; ring
      rw [e'] at hle hge
      rw [le_div_iff₀ a1] at hge
      rw [div_le_iff₀ a1] at hle
      refine ⟨m, by simpa using hm, a2, ?_, by linarith⟩
      nlinarith
  have hcard : (wallNormals n).toFinset.card ≤ 4 := by
    refine (List.toFinset_card_le _).trans ?_
    interval_cases n <;> simp [wallNormals]
  have hN : volume (⋃ m ∈ (wallNormals n).toFinset, {x : Fin 3 → ℝ | norm3 x < 1 ∧ -(2 * e) ≤ m.x * x 0 + m.y * x 1 + m.z * x 2 ∧ m.x * x 0 + m.y * x 1 + m.z * x 2 ≤ 0}) ≤
      ENNReal.ofReal (48 * e) := by
    refine (measure_biUnion_finset_le _ _).trans ?_
    refine (Finset.sum_le_card_nsmul _ _ (ENNReal.ofReal (6 * (2 * e))) fun m hm => slab_wall (by simpa using hm) (by linarith)).trans ?_
    rw [nsmul_eq_mul, ← ENNReal.ofReal_natCast, ← ENNReal.ofReal_mul (by positivity)]
    apply ENNReal.ofReal_le_ofReal
    have : ((wallNormals n).toFinset.card : ℝ) ≤ 4 := by exact_mod_cast hcard
    nlinarith
  have ho := order_pos h1 h2
  have hpi := pi_pos
  rw [ENNReal.ofReal_add (by positivity) (by linarith), ← C161_sector n h1 h2]
  unfold dirArea
  calc _ ≤ 3 * (volume (cone3 {v | Inside n 0 v}) + ENNReal.ofReal (48 * e)) := by
        gcongr
        exact (measure_mono hsub).trans ((measure_union_le _ _).trans (by gcongr))
    _ = _ := by
        rw [mul_add]
        congr 1
        rw [show (3 : ENNReal) = ENNReal.ofReal 3 by norm_num, ← ENNReal.ofReal_mul (by norm_num)]
        congr 1; ring

theorem inside_open (n : ℕ) (d : ℝ) : IsOpen {x : Fin 3 → ℝ | ofComp x ∈ {v | Inside n d v}} := by
  have : {x : Fin 3 → ℝ | ofComp x ∈ {v | Inside n d v}} = ⋂ m ∈ {m | m ∈ wallNormals n}, {x : Fin 3 → ℝ | d < m.x * x 0 + m.y * x 1 + m.z * x 2} := by
    ext x
    simp only [Set.mem_iInter, Set.mem_ofPred_eq]
    rfl
  rw [this]
  exact (List.finite_toSet _).isOpen_biInter fun m _ => isOpen_lt continuous_const (by fun_prop)

theorem above_closed (n : ℕ) (d : ℝ) : IsClosed {x : Fin 3 → ℝ | ofComp x ∈ {v | Above n d v}} := by
  have : {x : Fin 3 → ℝ | ofComp x ∈ {v | Above n d v}} = ⋂ m ∈ {m | m ∈ wallNormals n}, {x : Fin 3 → ℝ | d ≤ m.x * x 0 + m.y * x 1 + m.z * x 2} := by
    ext x
    simp only [Set.mem_iInter, Set.mem_ofPred_eq]
    rfl
  rw [this]
  exact isClosed_biInter fun m _ => isClosed_le continuous_const (by fun_prop)

theorem share_inside {n : ℕ} (h1 : 1 ≤ n) (h2 : n ≤ 11) : share {v | Inside n 0 v} = 1 / laueOrder n := by
  have hp := pi_pos
  have ho := order_pos h1 h2
  rw [share, ← C163_area _ (inside_meas' n 0), C161_sector n h1 h2, ENNReal.toReal_ofReal (by positivity)]
  field_simp

theorem share_wide {n : ℕ} (h1 : 1 ≤ n) (h2 : n ≤ 11) {e : ℝ} (he : 0 ≤ e) : share {v | Above n (-(2 * e)) v} ≤ 1 / laueOrder n + 36 * e / π := by
  have hp := pi_pos
  have ho := order_pos h1 h2
  rw [share, ← C163_area _ (above_closed n _).measurableSet, div_le_iff₀ (by positivity)]
  have := ENNReal.toReal_le_of_le_ofReal (by positivity) (wide_area h1 h2 he)
  refine this.trans (le_of_eq ?_)
  field_simp
  ring

theorem fibPts_unit {e : ℝ} {n : ℕ} {v : V} (h : v ∈ fibPts e n) : IsUnit3 v := by
  simp only [fibPts, List.mem_map] at h
  obtain ⟨i, -, rfl⟩ := h
  unfold IsUnit3 thetaPhiToXyz
  obtain ⟨a, ha⟩ : ∃ a, a = 2 * π * (i : ℝ) / ((1 + (5 : ℝ) ^ (0.5 : ℝ)) / 2) := ⟨_, rfl⟩
  obtain ⟨b, hb⟩ : ∃ b, b = arccos (fibArg e n i) := ⟨_, rfl⟩
  simp only [← ha, ← hb]
  have s1 := sin_sq_add_cos_sq a
  have s2 := sin_sq_add_cos_sq b
  linear_combination sin b ^ 2 * s1 + s2

/-- What the sampler keeps. -/
theorem sample_eq {n : ℕ} (h1 : 1 ≤ n) (h2 : n ≤ 11) (single : Bool) (t : ℕ) :
    sampleFibonacci (s2Eps single) n t = some ((fibPts 0.36 (t * laueOrder n)).filter fun q => (s2InFz (s2Eps single) n q).getD false) := by
  obtain ⟨G, -, -, -, -, -, -, hm, -, -⟩ := C06_group n h1 h2
  unfold sampleFibonacci
  rw [hm]
  simp only [Option.bind_some]
  change (some (fibPts 0.36 (t * laueOrder n))).bind _ = _
  simp only [Option.bind_some]
  rw [if_neg]
  interval_cases n <;> simp [s2InFz]

theorem hits_filter_ge {n : ℕ} (h1 : 1 ≤ n) (h2 : n ≤ 11) (single : Bool) (S : Set V) (hS : ∀ v ∈ S, Inside n 0 v) (e : ℝ) (k : ℕ) :
    hits S (fibPts e k) ≤ hits S ((fibPts e k).filter fun q => (s2InFz (s2Eps single) n q).getD false) := by
  classical
  unfold hits
  rw [List.countP_filter]
  refine (List.countP_mono_left fun v hv h => ?_)
  have hv' : v ∈ S := by simpa using h
  rw [inside_acc h1 h2 single (fibPts_unit hv) (hS v hv')]
  simpa using hv'

theorem hits_filter_le (S : Set V) (p : V → Bool) (l : List V) : hits S (l.filter p) ≤ hits S l := by
  unfold hits
  exact List.Sublist.countP_le (List.filter_sublist)

/-- **C167**: the sample is spread evenly: an open part of the sector gets at least its share of the requested number, a closed set of directions at
most its share, up to any `δ`, once enough are requested. -/
theorem C167_even (n : ℕ) (h1 : 1 ≤ n) (h2 : n ≤ 11) (single : Bool) (S : Set V) (δ : ℝ) (hδ : 0 < δ) :
    (IsOpen {x : Fin 3 → ℝ | ofComp x ∈ S} → (∀ v ∈ S, Inside n 0 v) →
        ∀ᶠ t : ℕ in atTop, ∃ l, sampleFibonacci (s2Eps single) n t = some l ∧ t * (laueOrder n * share S - δ) ≤ hits S l) ∧
      (IsClosed {x : Fin 3 → ℝ | ofComp x ∈ S} →
        ∀ᶠ t : ℕ in atTop, ∃ l, sampleFibonacci (s2Eps single) n t = some l ∧ hits S l ≤ t * (laueOrder n * share S + δ)) := by
  have ho := order_pos h1 h2
  have ho' : 0 < laueOrder n := by exact_mod_cast ho
  have ht : Tendsto (fun t : ℕ => t * laueOrder n) atTop atTop := tendsto_id.atTop_mul_const' ho'
  constructor
  · intro hO hS
    filter_upwards [ht.eventually (count_ge (e := 0.36) (by norm_num) S hO (div_pos hδ ho))] with t h
    refine ⟨_, sample_eq h1 h2 single t, ?_⟩
    have hg : (hits S (fibPts 0.36 (t * laueOrder n)) : ℝ) ≤ _ := Nat.cast_le.mpr (hits_filter_ge h1 h2 single S hS 0.36 (t * laueOrder n))
    refine le_trans ?_ hg
    refine le_trans (le_of_eq ?_) h
    push_cast
    field_simp
  · intro hC
    filter_upwards [ht.eventually (count_le (e := 0.36) (by norm_num) S hC (div_pos hδ ho))] with t h
    refine ⟨_, sample_eq h1 h2 single t, ?_⟩
    have hg := Nat.cast_le (α := ℝ) |>.mpr (hits_filter_le S (fun q => (s2InFz (s2Eps single) n q).getD false) (fibPts 0.36 (t * laueOrder n)))
    refine hg.trans (h.trans (le_of_eq ?_))
    push_cast
    field_simp

/-- **C167**: the sample has the requested size: at least `1 - δ` of it and at most `1 + 36 order EPS / π + δ` of it, once enough are requested. -/
theorem C167_count (n : ℕ) (h1 : 1 ≤ n) (h2 : n ≤ 11) (single : Bool) (δ : ℝ) (hδ : 0 < δ) :
    ∀ᶠ t : ℕ in atTop, ∃ l, sampleFibonacci (s2Eps single) n t = some l ∧ t * (1 - δ) ≤ l.length ∧
      l.length ≤ t * (1 + 36 * laueOrder n * s2Eps single / π + δ) := by
  obtain ⟨he, he1⟩ := eps_facts single
  have ho := order_pos h1 h2
  have hp := pi_pos
  filter_upwards [(C167_even n h1 h2 single {v | Inside n 0 v} δ hδ).1 (inside_open n 0) fun v hv => hv,
    (C167_even n h1 h2 single {v | Above n (-(2 * s2Eps single)) v} δ hδ).2 (above_closed n _)] with t ha hb
  obtain ⟨l, hl, ha⟩ := ha
  obtain ⟨l', hl', hb⟩ := hb
  rw [hl] at hl'
  rw [Option.some.injEq] at hl'
  subst hl'
  refine ⟨l, hl, ?_, ?_⟩
  · rw [share_inside h1 h2, mul_one_div_cancel ho.ne'] at ha
    refine ha.trans ?_
    exact_mod_cast List.countP_le_length
  · have hall : hits {v | Above n (-(2 * s2Eps single)) v} l = l.length := by
      unfold hits
      rw [List.countP_eq_length]
      intro v hv
      rw [sample_eq h1 h2 single t, Option.some.injEq] at hl
      rw [← hl, List.mem_filter] at hv
      have hacc : s2InFz (s2Eps single) n v = some true := by
        have := hv.2
        cases h : s2InFz (s2Eps single) n v with
        | none => rw [h] at this; simp at this
        | some b => rw [h] at this; simpa using this
      simpa using above_of_acc h1 h2 he.le (by linarith) (fibPts_unit hv.1) hacc
    rw [hall] at hb
    refine hb.trans ?_
    have hs := mul_le_mul_of_nonneg_left (share_wide h1 h2 he.le) ho.le
    have e2 : (laueOrder n : ℝ) * (1 / laueOrder n + 36 * s2Eps single / π) = 1 + 36 * laueOrder n * s2Eps single / π := by
      field_simp
    rw [e2] at hs
    have ht : (0 : ℝ) ≤ t := by positivity
    gcongr

/-! ### Non-vacuity -/

/-- Double precision, cubic class: between 99 % and 101 % of the request. -/
example : ∀ᶠ t : ℕ in atTop, ∃ l, sampleFibonacci (s2Eps false) (11 : ℕ) t = some l ∧ t * (0.99 : ℝ) ≤ l.length ∧ l.length ≤ t * (1.01 : ℝ) := by
  have hp := pi_gt_three
  filter_upwards [C167_count 11 (by norm_num) le_rfl false 0.009 (by norm_num)] with t h
  obtain ⟨l, h1, h2, h3⟩ := h
  have ht : (0 : ℝ) ≤ t := by positivity
  refine ⟨l, h1, ?_, h3.trans ?_⟩
  · refine le_trans ?_ h2
    gcongr; norm_num
  · gcongr
    have : 36 * (laueOrder 11 : ℝ) * s2Eps false / π ≤ 0.001 := by
      rw [div_le_iff₀ pi_pos]
      norm_num [laueOrder, s2Eps]
      linarith
    linarith

end Verif.S2
