import Verif.Props.S2Solid
/-! C164: a uniformly distributed orientation turns every direction into a uniformly distributed direction. -/
namespace Verif.S2
open Verif Verif.Cubo Real MeasureTheory
open Verif.Spec

/-- Half-turn about the bisector. -/
theorem half_turn {v w : V} (hv : IsUnit3 v) (hw : IsUnit3 w) (h : w ≠ vneg v) : ∃ g : Q, IsUnit4 g ∧ quApply g v = w := by
  unfold IsUnit3 at hv hw
  have hd : 0 < 1 + (v.x * w.x + v.y * w.y + v.z * w.z) := by
    have h1 : 0 ≤ (v.x + w.x) ^ 2 + (v.y + w.y) ^ 2 + (v.z + w.z) ^ 2 := by positivity
    have h2 : (v.x + w.x) ^ 2 + (v.y + w.y) ^ 2 + (v.z + w.z) ^ 2 = 2 * (1 + (v.x * w.x + v.y * w.y + v.z * w.z)) := by linear_combination hv + hw
    rcases lt_or_eq_of_le h1 with h3 | h3
    · linarith
    · exfalso
      apply h
      have a := sq_nonneg (v.x + w.x)
      have b := sq_nonneg (v.y + w.y)
      have c := sq_nonneg (v.z + w.z)
      have ea := pow_eq_zero_iff (two_ne_zero) |>.mp (show (v.x + w.x) ^ 2 = 0 by linarith)
      have eb := pow_eq_zero_iff (two_ne_zero) |>.mp (show (v.y + w.y) ^ 2 = 0 by linarith)
      have ec := pow_eq_zero_iff (two_ne_zero) |>.mp (show (v.z + w.z) ^ 2 = 0 by linarith)
      ext <;> simp only [vneg] <;> linarith
  obtain ⟨k, hk⟩ : ∃ k, k = √(2 * (1 + (v.x * w.x + v.y * w.y + v.z * w.z))) := ⟨_, rfl⟩
  have k0 : 0 < k := by rw [hk]; exact sqrt_pos.mpr (by linarith)
  have k2 : k ^ 2 = 2 * (1 + (v.x * w.x + v.y * w.y + v.z * w.z)) := by rw [hk]; exact sq_sqrt (by linarith)
  refine ⟨⟨0, (v.x + w.x) / k, (v.y + w.y) / k, (v.z + w.z) / k⟩, ?_, ?_⟩
  · unfold IsUnit4
    field_simp
    linear_combination hv + hw - k2
  · ext <;> simp only [quApply] <;> field_simp
    · linear_combination (v.x + 2 * w.x) * hv - v.x * hw - w.x * k2
    · linear_combination (v.y + 2 * w.y) * hv - v.y * hw - w.y * k2
    · linear_combination (v.z + 2 * w.z) * hv - v.z * hw - w.z * k2

/-- The share of the orientations that turn a direction into a set. -/
noncomputable def hits (S : Set V) (v : V) : ENNReal := volume (coneOf {q | quApply q v ∈ S})

theorem hits_turn (S : Set V) {g : Q} (hg : IsUnit4 g) (v : V) : hits S (quApply g v) = hits S v := by
  unfold hits
  rw [← volume_right hg {q | quApply q v ∈ S}, ]
  simp only [quApply_prodRaw, Set.mem_ofPred_eq]

theorem hits_const (S : Set V) {v w : V} (hv : IsUnit3 v) (hw : IsUnit3 w) : hits S v = hits S w := by
  have step : ∀ {v w : V}, IsUnit3 v → IsUnit3 w → w ≠ vneg v → hits S v = hits S w := by
    intro v w hv hw h
    obtain ⟨g, hg, e⟩ := half_turn hv hw h
    rw [← e, hits_turn S hg]
  by_cases h : w = vneg v
  · have hx : IsUnit3 ⟨1, 0, 0⟩ := by norm_num [IsUnit3]
    have hy : IsUnit3 ⟨0, 1, 0⟩ := by norm_num [IsUnit3]
    by_cases h1 : v.y = 0 ∧ v.z = 0
    · refine (step hv hy ?_).trans (step hy hw ?_)
      · intro e
        have := congrArg V.y e
        simp only [vneg, h1.1] at this
        norm_num at this
      · intro e
        have := congrArg V.y e
        rw [h] at this
        simp only [vneg, h1.1] at this
        norm_num at this
    · refine (step hv hx ?_).trans (step hx hw ?_)
      · intro e
        refine h1 ⟨?_, ?_⟩
        · have := congrArg V.y e; simp only [vneg] at this; linarith
        · have := congrArg V.z e; simp only [vneg] at this; linarith
      · intro e
        rw [h] at e
        refine h1 ⟨?_, ?_⟩
        · have := congrArg V.y e; simp only [vneg] at this; linarith
        · have := congrArg V.z e; simp only [vneg] at this; linarith
  · exact step hv hw h

theorem unitQ_unit4 {x : Fin 4 → ℝ} (h : 0 < norm4 x) : IsUnit4 (unitQ x) := by
  have hs : norm4 x ^ 2 = x 0 ^ 2 + x 1 ^ 2 + x 2 ^ 2 + x 3 ^ 2 := sq_sqrt (by positivity)
  unfold IsUnit4 unitQ
  field_simp
  linarith

/-- **C164**: if an orientation is uniformly distributed then `qu_apply` turns any fixed direction into a uniformly distributed one. -/
theorem C164_uniform (S : Set V) (hS : MeasurableSet {x : Fin 3 → ℝ | ofComp x ∈ S}) (v : V) (hv : v.x ^ 2 + v.y ^ 2 + v.z ^ 2 = 1) :
    haar {q | quApply q v ∈ S} = ENNReal.ofReal (π / 2) * dirArea S := by
  have mn4 : Measurable norm4 := by
    unfold norm4; fun_prop
  let T : Set ((Fin 4 → ℝ) × (Fin 3 → ℝ)) := {p | (0 < norm4 p.1 ∧ norm4 p.1 < 1) ∧ (0 < norm3 p.2 ∧ norm3 p.2 < 1) ∧ quApply (unitQ p.1) (dirOf p.2) ∈ S}
  have mT : MeasurableSet T := by
    refine MeasurableSet.inter ?_ (MeasurableSet.inter ?_ ?_)
    · exact (measurableSet_lt measurable_const (mn4.comp measurable_fst)).inter (measurableSet_lt (mn4.comp measurable_fst) measurable_const)
    · exact (measurableSet_lt measurable_const (norm3_meas.comp measurable_snd)).inter (measurableSet_lt (norm3_meas.comp measurable_snd) measurable_const)
    · have hc : Measurable fun p : (Fin 4 → ℝ) × (Fin 3 → ℝ) => (![(quApply (unitQ p.1) (dirOf p.2)).x, (quApply (unitQ p.1) (dirOf p.2)).y,
          (quApply (unitQ p.1) (dirOf p.2)).z] : Fin 3 → ℝ) := by
        have a : ∀ i, Measurable fun p : (Fin 4 → ℝ) × (Fin 3 → ℝ) => p.1 i / norm4 p.1 := fun i =>
          ((measurable_pi_apply i).comp measurable_fst).div (mn4.comp measurable_fst)
        have b : ∀ i, Measurable fun p : (Fin 4 → ℝ) × (Fin 3 → ℝ) => p.2 i / norm3 p.2 := fun i =>
          ((measurable_pi_apply i).comp measurable_snd).div (norm3_meas.comp measurable_snd)
        have a0 := a 0
        have a1 := a 1
        have a2 := a 2
        have a3 := a 3
        have b0 := b 0
        have b1 := b 1
        have b2 := b 2
        refine measurable_pi_lambda _ fun i => ?_
        fin_cases i <;> simp only [quApply, unitQ, dirOf] <;> measurability
      exact hc hS
  have h1 := Measure.prod_apply (μ := (volume : Measure (Fin 4 → ℝ))) (ν := (volume : Measure (Fin 3 → ℝ))) mT
  have h2 := Measure.prod_apply_symm (μ := (volume : Measure (Fin 4 → ℝ))) (ν := (volume : Measure (Fin 3 → ℝ))) mT
  have m4 : MeasurableSet (coneOf Set.univ) := by
    refine (measurableSet_lt measurable_const mn4).inter ((measurableSet_lt mn4 measurable_const).inter ?_)
    exact MeasurableSet.univ
  have m3 : MeasurableSet (cone3 Set.univ) := by
    refine (measurableSet_lt measurable_const norm3_meas).inter ((measurableSet_lt norm3_meas measurable_const).inter ?_)
    exact MeasurableSet.univ
  have e1 : ∀ y : Fin 4 → ℝ, volume (Prod.mk y ⁻¹' T) = (coneOf Set.univ).indicator (fun _ => volume (cone3 S)) y := by
    intro y
    by_cases hy : y ∈ coneOf Set.univ
    · rw [Set.indicator_of_mem hy, ← volume_move (unitQ_unit4 hy.1) (show (1 : ℝ) ^ 2 = 1 by norm_num) S]
      congr 1
      ext x
      have h1 := hy.1
      have h2 := hy.2.1
      simp only [T, cone3, Set.mem_preimage, Set.mem_ofPred_eq, move_one, h1, h2, true_and, and_assoc]
    · rw [Set.indicator_of_notMem hy]
      have : Prod.mk y ⁻¹' T = ∅ := by
        ext x
        simp only [T, Set.mem_preimage, Set.mem_ofPred_eq, Set.mem_empty_iff_false, iff_false]
        rintro ⟨⟨a, b⟩, -⟩
        exact hy ⟨a, b, trivial⟩
      rw [this, measure_empty]
  have e2 : ∀ x : Fin 3 → ℝ, volume ((fun y => Prod.mk y x) ⁻¹' T) = (cone3 Set.univ).indicator (fun _ => hits S v) x := by
    intro x
    by_cases hx : x ∈ cone3 Set.univ
    · rw [Set.indicator_of_mem hx, hits_const S hv (dirOf_unit hx.1)]
      unfold hits
      congr 1
      ext y
      have h1 := hx.1
      have h2 := hx.2.1
      simp only [T, coneOf, Set.mem_preimage, Set.mem_ofPred_eq, h1, h2, true_and, and_assoc]
    · rw [Set.indicator_of_notMem hx]
      have : (fun y => Prod.mk y x) ⁻¹' T = ∅ := by
        ext y
        simp only [T, Set.mem_preimage, Set.mem_ofPred_eq, Set.mem_empty_iff_false, iff_false]
        rintro ⟨-, ⟨a, b⟩, -⟩
        exact hx ⟨a, b, trivial⟩
      rw [this, measure_empty]
  rw [lintegral_congr e1, lintegral_indicator_const m4] at h1
  rw [lintegral_congr e2, lintegral_indicator_const m3] at h2
  rw [h1] at h2
  have ha := haar_all
  have hd := dirArea_all
  rw [haar_cone] at ha
  unfold dirArea at hd ⊢
  rw [haar_cone]
  change volume (cone3 S) * volume (coneOf Set.univ) = volume (coneOf {q | quApply q v ∈ S}) * volume (cone3 Set.univ) at h2
  have hne : ENNReal.ofReal (4 * π) ≠ 0 := by
    rw [Ne, ENNReal.ofReal_eq_zero]; linarith [pi_pos]
  have key : (4 * volume (coneOf {q | quApply q v ∈ S})) * ENNReal.ofReal (4 * π) = (ENNReal.ofReal (π / 2) * (3 * volume (cone3 S))) * ENNReal.ofReal (4 * π) := by
    have hk : ENNReal.ofReal (π / 2) * ENNReal.ofReal (4 * π) = ENNReal.ofReal (2 * π ^ 2) := by
      rw [← ENNReal.ofReal_mul (by positivity)]; congr 1; ring
    calc _ = 4 * 3 * (volume (coneOf {q | quApply q v ∈ S}) * volume (cone3 Set.univ)) := by rw [← hd]; ring
      _ = 3 * volume (cone3 S) * (4 * volume (coneOf Set.univ)) := by rw [← h2]; ring
      _ = _ := by rw [ha, ← hk]; ring
  exact (ENNReal.mul_left_inj hne ENNReal.ofReal_ne_top).mp key

/-- **C164**: a direction turned by an orientation drawn with `so3_uniform_quat` hits every set with probability its area over `4π`. -/
theorem C164_draw (S : Set V) (hS : MeasurableSet {x : Fin 3 → ℝ | ofComp x ∈ S}) (v : V) (hv : v.x ^ 2 + v.y ^ 2 + v.z ^ 2 = 1) :
    ENNReal.ofReal (4 * π) * volume {d : Fin 3 → ℝ | (∀ i, 0 ≤ d i ∧ d i < 1) ∧ ∀ q ∈ Samp.so3UniformQuat [ofComp d], quApply q v ∈ S} = solidAngle S := by
  have hB : MeasurableSet {y : Fin 4 → ℝ | quApply ⟨y 0, y 1, y 2, y 3⟩ v ∈ S} := by
    have hc : Continuous fun y : Fin 4 → ℝ => (![(quApply ⟨y 0, y 1, y 2, y 3⟩ v).x, (quApply ⟨y 0, y 1, y 2, y 3⟩ v).y,
        (quApply ⟨y 0, y 1, y 2, y 3⟩ v).z] : Fin 3 → ℝ) := by
      refine continuous_pi fun i => ?_
      fin_cases i <;> simp [quApply] <;> fun_prop
    exact hc.measurable hS
  have h := (C162_uniform _ hB).trans (C164_uniform S hS v hv)
  rw [C163_area S hS] at h
  have hpi := pi_pos
  have hne : ENNReal.ofReal (π / 2) ≠ 0 := by
    rw [Ne, ENNReal.ofReal_eq_zero]; linarith
  refine (ENNReal.mul_right_inj hne ENNReal.ofReal_ne_top).mp ?_
  rw [← h, ← mul_assoc, ← ENNReal.ofReal_mul (by positivity)]
  congr 2
  ring

/-! ### Non-vacuity -/

/-- A random orientation turns the `x` axis into the upper hemisphere with probability one half. -/
example : ENNReal.ofReal (4 * π) * volume {d : Fin 3 → ℝ | (∀ i, 0 ≤ d i ∧ d i < 1) ∧ ∀ q ∈ Samp.so3UniformQuat [ofComp d], quApply q ⟨1, 0, 0⟩ ∈ {v : V | 0 < v.z}} =
    ENNReal.ofReal (2 * π) := by
  have hS : MeasurableSet {x : Fin 3 → ℝ | ofComp x ∈ {v : V | 0 < v.z}} :=
    show MeasurableSet {x : Fin 3 → ℝ | 0 < x 2} from measurableSet_lt measurable_const (measurable_pi_apply 2)
  exact (C164_draw {v : V | 0 < v.z} hS ⟨1, 0, 0⟩ (by norm_num)).trans C155_hemisphere

end Verif.S2
