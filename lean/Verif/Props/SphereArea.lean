import Verif.Props.SphereInverse
import Verif.Model.MonteCarlo
import Mathlib.Analysis.SpecialFunctions.PolarCoord
import Mathlib.MeasureTheory.Measure.Haar.Unique
/-! C155: the square Lambert projection preserves areas. -/
namespace Verif
open Spec MeasureTheory

/-! ### Specification -/

/-- The point of the unit sphere at height `z` and longitude `φ`. -/
noncomputable def atHeight (z φ : ℝ) : V := ⟨√(1 - z ^ 2) * Real.cos φ, √(1 - z ^ 2) * Real.sin φ, z⟩

/-- Solid angle of a set of directions (Archimedes: the area element of the unit sphere is that of height and longitude; one turn of
longitude). -/
noncomputable def solidAngle (S : Set V) : ENNReal :=
  volume {p : ℝ × ℝ | -1 < p.1 ∧ p.1 < 1 ∧ -(Real.pi / 4) < p.2 ∧ p.2 ≤ 2 * Real.pi - Real.pi / 4 ∧ atHeight p.1 p.2 ∈ S}

/-! ### The charts -/

/-- Height and longitude from the square, where the first coordinate is the larger one. -/
noncomputable def chartX (c : ℝ) (p : ℝ × ℝ) : ℝ × ℝ := (1 - p.1 ^ 2, c + Real.pi / 4 * (p.2 / p.1))

/-- Height and longitude from the square, where the second coordinate is the larger one. -/
noncomputable def chartY (c : ℝ) (p : ℝ × ℝ) : ℝ × ℝ := (1 - p.2 ^ 2, c - Real.pi / 4 * (p.1 / p.2))

theorem chartX_area (c : ℝ) (B : Set (ℝ × ℝ)) (hB : MeasurableSet B) (h : (∀ p ∈ B, 0 < p.1) ∨ ∀ p ∈ B, p.1 < 0) :
    volume (chartX c '' B) = ENNReal.ofReal (Real.pi / 2) * volume B := by
  have hpi := Real.pi_pos
  have hne : ∀ p ∈ B, p.1 ≠ 0 := by
    rcases h with h | h
    · exact fun p hp => (h p hp).ne'
    · exact fun p hp => (h p hp).ne
  let M : ℝ × ℝ → Matrix (Fin 2) (Fin 2) ℝ := fun p => !![-(2 * p.1), 0; -(Real.pi / 4 * (p.2 / p.1 ^ 2)), Real.pi / 4 * (1 / p.1)]
  have hd : ∀ p ∈ B, HasFDerivWithinAt (chartX c) (Matrix.toLin (.finTwoProd ℝ) (.finTwoProd ℝ) (M p)).toContinuousLinearMap B p := by
    intro p hp
    apply HasFDerivAt.hasFDerivWithinAt
    rw [Matrix.toLin_finTwoProd_toContinuousLinearMap]
    have e1 : HasFDerivAt (fun q : ℝ × ℝ => 1 - q.1 ^ 2) (((-(2 * p.1)) • ContinuousLinearMap.fst ℝ ℝ ℝ) + (0 : ℝ) • ContinuousLinearMap.snd ℝ ℝ ℝ) p := by
      have := ((hasFDerivAt_fst (𝕜 := ℝ) (p := p)).pow 2).const_sub 1
      refine this.congr_fderiv ?_
      ext <;> simp
    have e2 : HasFDerivAt (fun q : ℝ × ℝ => c + Real.pi / 4 * (q.2 / q.1))
        ((-(Real.pi / 4 * (p.2 / p.1 ^ 2))) • ContinuousLinearMap.fst ℝ ℝ ℝ + (Real.pi / 4 * (1 / p.1)) • ContinuousLinearMap.snd ℝ ℝ ℝ) p := by
      have := (((hasFDerivAt_snd (𝕜 := ℝ) (p := p)).mul ((hasDerivAt_inv (hne p hp)).comp_hasFDerivAt p (hasFDerivAt_fst (𝕜 := ℝ) (p := p)))).const_mul (Real.pi / 4)).const_add c
      refine this.congr_fderiv ?_
      have := hne p hp
      ext <;> (simp; try field_simp)
    exact e1.prodMk e2
  have hdet : ∀ p ∈ B, abs (ContinuousLinearMap.det (Matrix.toLin (.finTwoProd ℝ) (.finTwoProd ℝ) (M p)).toContinuousLinearMap) = Real.pi / 2 := by
    intro p hp
    have := hne p hp
    simp only [LinearMap.det_toContinuousLinearMap, LinearMap.det_toLin, M, Matrix.det_fin_two_of]
    rw [show -(2 * p.1) * (Real.pi / 4 * (1 / p.1)) - 0 * -(Real.pi / 4 * (p.2 / p.1 ^ 2)) = -(Real.pi / 2) by field_simp; ring, abs_neg,
      abs_of_pos (by positivity)]
  have hinj : Set.InjOn (chartX c) B := by
    intro p hp q hq hpq
    obtain ⟨a, b⟩ := p
    obtain ⟨a', b'⟩ := q
    simp only [chartX, Prod.mk.injEq] at hpq
    have h1 : a ^ 2 = a' ^ 2 := by linarith [hpq.1]
    have ha : a = a' := by
      rcases sq_eq_sq_iff_eq_or_eq_neg.mp h1 with h2 | h2
      · exact h2
      · rcases h with h | h
        · have := h _ hp; have := h _ hq; simp only at *; linarith
        · have := h _ hp; have := h _ hq; simp only at *; linarith
    subst ha
    have ha0 := hne _ hp
    simp only at ha0
    have h2 : b / a = b' / a := by
      have : Real.pi / 4 * (b / a) = Real.pi / 4 * (b' / a) := by linarith [hpq.2]
      exact mul_left_cancel₀ (by positivity) this
    rw [div_left_inj' ha0] at h2
    rw [h2]
  rw [← lintegral_abs_det_fderiv_eq_addHaar_image volume hB hd hinj, setLIntegral_congr_fun hB (fun p hp => by rw [hdet p hp]), setLIntegral_const]

theorem chartY_area (c : ℝ) (B : Set (ℝ × ℝ)) (hB : MeasurableSet B) (h : (∀ p ∈ B, 0 < p.2) ∨ ∀ p ∈ B, p.2 < 0) :
    volume (chartY c '' B) = ENNReal.ofReal (Real.pi / 2) * volume B := by
  have hpi := Real.pi_pos
  have hne : ∀ p ∈ B, p.2 ≠ 0 := by
    rcases h with h | h
    · exact fun p hp => (h p hp).ne'
    · exact fun p hp => (h p hp).ne
  let M : ℝ × ℝ → Matrix (Fin 2) (Fin 2) ℝ := fun p => !![0, -(2 * p.2); -(Real.pi / 4 * (1 / p.2)), Real.pi / 4 * (p.1 / p.2 ^ 2)]
  have hd : ∀ p ∈ B, HasFDerivWithinAt (chartY c) (Matrix.toLin (.finTwoProd ℝ) (.finTwoProd ℝ) (M p)).toContinuousLinearMap B p := by
    intro p hp
    apply HasFDerivAt.hasFDerivWithinAt
    rw [Matrix.toLin_finTwoProd_toContinuousLinearMap]
    have e1 : HasFDerivAt (fun q : ℝ × ℝ => 1 - q.2 ^ 2) (((0 : ℝ) • ContinuousLinearMap.fst ℝ ℝ ℝ) + (-(2 * p.2)) • ContinuousLinearMap.snd ℝ ℝ ℝ) p := by
      have := ((hasFDerivAt_snd (𝕜 := ℝ) (p := p)).pow 2).const_sub 1
      refine this.congr_fderiv ?_
      ext <;> simp
    have e2 : HasFDerivAt (fun q : ℝ × ℝ => c - Real.pi / 4 * (q.1 / q.2))
        ((-(Real.pi / 4 * (1 / p.2))) • ContinuousLinearMap.fst ℝ ℝ ℝ + (Real.pi / 4 * (p.1 / p.2 ^ 2)) • ContinuousLinearMap.snd ℝ ℝ ℝ) p := by
      have := (((hasFDerivAt_fst (𝕜 := ℝ) (p := p)).mul ((hasDerivAt_inv (hne p hp)).comp_hasFDerivAt p (hasFDerivAt_snd (𝕜 := ℝ) (p := p)))).const_mul (Real.pi / 4)).const_sub c
      refine this.congr_fderiv ?_
      have := hne p hp
      ext <;> (simp; try field_simp)
    exact e1.prodMk e2
  have hdet : ∀ p ∈ B, abs (ContinuousLinearMap.det (Matrix.toLin (.finTwoProd ℝ) (.finTwoProd ℝ) (M p)).toContinuousLinearMap) = Real.pi / 2 := by
    intro p hp
    have := hne p hp
    simp only [LinearMap.det_toContinuousLinearMap, LinearMap.det_toLin, M, Matrix.det_fin_two_of]
    rw [show 0 * (Real.pi / 4 * (p.1 / p.2 ^ 2)) - -(2 * p.2) * -(Real.pi / 4 * (1 / p.2)) = -(Real.pi / 2) by field_simp; ring, abs_neg,
      abs_of_pos (by positivity)]
  have hinj : Set.InjOn (chartY c) B := by
    intro p hp q hq hpq
    obtain ⟨b, a⟩ := p
    obtain ⟨b', a'⟩ := q
    simp only [chartY, Prod.mk.injEq] at hpq
    have h1 : a ^ 2 = a' ^ 2 := by linarith [hpq.1]
    have ha : a = a' := by
      rcases sq_eq_sq_iff_eq_or_eq_neg.mp h1 with h2 | h2
      · exact h2
      · rcases h with h | h
        · have := h _ hp; have := h _ hq; simp only at *; linarith
        · have := h _ hp; have := h _ hq; simp only at *; linarith
    subst ha
    have ha0 := hne _ hp
    simp only at ha0
    have h2 : b / a = b' / a := by
      have : Real.pi / 4 * (b / a) = Real.pi / 4 * (b' / a) := by linarith [hpq.2]
      exact mul_left_cancel₀ (by positivity) this
    rw [div_left_inj' ha0] at h2
    rw [h2]
  rw [← lintegral_abs_det_fderiv_eq_addHaar_image volume hB hd hinj, setLIntegral_congr_fun hB (fun p hp => by rw [hdet p hp]), setLIntegral_const]

/-! ### The charts invert the projection -/

theorem height_sq (a : ℝ) : √(1 - (1 - a ^ 2) ^ 2) = |a| * √(2 - a ^ 2) := by
  have : 1 - (1 - a ^ 2) ^ 2 = a ^ 2 * (2 - a ^ 2) := by ring
  rw [this, Real.sqrt_mul (sq_nonneg a), Real.sqrt_sq_eq_abs]

/-- Components of the inverse projection, without absolute values. -/
theorem invCore_signed {a b : ℝ} (ha : a ≠ 0) (hb : |b| ≤ |a|) :
    copysign (invCore a b).1 a = negOne a * (|a| * √(2 - a ^ 2) * Real.cos (Real.pi / 4 * (b / a))) ∧
    copysign (invCore a b).2 b = negOne a * (|a| * √(2 - a ^ 2) * Real.sin (Real.pi / 4 * (b / a))) := by
  have hpi := Real.pi_pos
  have hap := abs_pos.mpr ha
  have hq : |b| / |a| ≤ 1 := (div_le_one hap).mpr hb
  have hq0 : 0 ≤ |b| / |a| := by positivity
  have t0 : 0 ≤ Real.pi / 4 * (|b| / |a|) := by positivity
  have t1 : Real.pi / 4 * (|b| / |a|) ≤ Real.pi / 4 := by nlinarith
  have ct : 0 ≤ Real.cos (Real.pi / 4 * (|b| / |a|)) := Real.cos_nonneg_of_mem_Icc ⟨by linarith, by linarith⟩
  have st : 0 ≤ Real.sin (Real.pi / 4 * (|b| / |a|)) := Real.sin_nonneg_of_nonneg_of_le_pi t0 (by linarith)
  have hr : 0 ≤ |a| * √(2 - a ^ 2) := by positivity
  unfold invCore
  simp only
  generalize |a| * √(2 - a ^ 2) = r at *
  rw [copysign_negOne, copysign_negOne, abs_of_nonneg (mul_nonneg hr ct), abs_of_nonneg (mul_nonneg hr st)]
  unfold negOne
  rcases lt_or_gt_of_ne ha with h | h <;> rcases lt_or_ge b 0 with h' | h'
  · rw [if_pos h, if_pos h', abs_of_neg h, abs_of_neg h', neg_div_neg_eq]; simp
  · rw [if_pos h, if_neg (not_lt.mpr h'), abs_of_neg h, abs_of_nonneg h', div_neg, mul_neg, Real.cos_neg, Real.sin_neg]; constructor <;> ring
  · rw [if_neg (not_lt.mpr h.le), if_pos h', abs_of_pos h, abs_of_neg h', neg_div, mul_neg, Real.cos_neg, Real.sin_neg]; constructor <;> ring
  · rw [if_neg (not_lt.mpr h.le), if_neg (not_lt.mpr h'), abs_of_pos h, abs_of_nonneg h']; simp

theorem inv_chartX {a b c : ℝ} (hb : |b| ≤ |a|) (_h1 : |a| ≤ 1) (hc : c = 0 ∧ 0 < a ∨ c = Real.pi ∧ a < 0) :
    invRoscaLambert (a, b) = some (atHeight (chartX c (a, b)).1 (chartX c (a, b)).2) := by
  have ha : a ≠ 0 := by rcases hc with h | h <;> [exact h.2.ne'; exact h.2.ne]
  rw [inv_eq a b (Or.inl ha), if_pos hb]
  obtain ⟨e1, e2⟩ := invCore_signed ha hb
  rw [e1, e2]
  simp only [atHeight, chartX, height_sq]
  unfold negOne
  rcases hc with ⟨rfl, h⟩ | ⟨rfl, h⟩
  · rw [if_neg (not_lt.mpr h.le), zero_add, one_mul, one_mul]
  · rw [if_pos h, add_comm Real.pi, Real.cos_add_pi, Real.sin_add_pi]
    congr 2 <;> ring

theorem inv_chartY {a b c : ℝ} (hb : |a| < |b|) (_h1 : |b| ≤ 1) (hc : c = Real.pi / 2 ∧ 0 < b ∨ c = Real.pi / 2 + Real.pi ∧ b < 0) :
    invRoscaLambert (a, b) = some (atHeight (chartY c (a, b)).1 (chartY c (a, b)).2) := by
  have ha : b ≠ 0 := by rcases hc with h | h <;> [exact h.2.ne'; exact h.2.ne]
  rw [inv_eq a b (Or.inr ha), if_neg (not_le.mpr hb)]
  obtain ⟨e1, e2⟩ := invCore_signed ha hb.le
  rw [e1, e2]
  simp only [atHeight, chartY, height_sq]
  unfold negOne
  rcases hc with ⟨rfl, h⟩ | ⟨rfl, h⟩
  · rw [if_neg (not_lt.mpr h.le), Real.cos_pi_div_two_sub, Real.sin_pi_div_two_sub, one_mul, one_mul]
  · rw [if_pos h, show Real.pi / 2 + Real.pi - Real.pi / 4 * (a / b) = Real.pi / 2 - Real.pi / 4 * (a / b) + Real.pi by ring,
      Real.cos_add_pi, Real.sin_add_pi, Real.cos_pi_div_two_sub, Real.sin_pi_div_two_sub]
    congr 2 <;> ring

theorem forward_of_inv {p : ℝ × ℝ} {v : V} (h1 : |p.1| ≤ 1) (h2 : |p.2| ≤ 1) (h0 : p ≠ (0, 0)) (h : invRoscaLambert p = some v) :
    roscaLambert v = p := by
  obtain ⟨w, hw, -, -, e⟩ := C20_forward p h1 h2 h0
  rw [h] at hw
  rw [Option.some.inj hw, e]

/-! ### The four sectors of the square -/

/-- Sectors of the open square, counter-clockwise from `+x`. -/
def sector : Fin 4 → Set (ℝ × ℝ)
  | 0 => {p | 0 < p.1 ∧ p.1 < 1 ∧ -p.1 < p.2 ∧ p.2 ≤ p.1}
  | 1 => {p | 0 < p.2 ∧ p.2 < 1 ∧ -p.2 ≤ p.1 ∧ p.1 < p.2}
  | 2 => {p | -1 < p.1 ∧ p.1 < 0 ∧ p.1 ≤ p.2 ∧ p.2 < -p.1}
  | 3 => {p | -1 < p.2 ∧ p.2 < 0 ∧ p.2 < p.1 ∧ p.1 ≤ -p.2}

/-- Height and longitude on a sector. -/
noncomputable def chart : Fin 4 → ℝ × ℝ → ℝ × ℝ
  | 0 => chartX 0
  | 1 => chartY (Real.pi / 2)
  | 2 => chartX Real.pi
  | 3 => chartY (Real.pi / 2 + Real.pi)

theorem sector_measurable (k : Fin 4) : MeasurableSet (sector k) := by
  have f : Measurable (fun p : ℝ × ℝ => p.1) := measurable_fst
  have g : Measurable (fun p : ℝ × ℝ => p.2) := measurable_snd
  fin_cases k <;> simp only [sector]
  · exact (measurableSet_lt measurable_const f).inter ((measurableSet_lt f measurable_const).inter ((measurableSet_lt f.neg g).inter (measurableSet_le g f)))
  · exact (measurableSet_lt measurable_const g).inter ((measurableSet_lt g measurable_const).inter ((measurableSet_le g.neg f).inter (measurableSet_lt f g)))
  · exact (measurableSet_lt measurable_const f).inter ((measurableSet_lt f measurable_const).inter ((measurableSet_le f g).inter (measurableSet_lt g f.neg)))
  · exact (measurableSet_lt measurable_const g).inter ((measurableSet_lt g measurable_const).inter ((measurableSet_lt g f).inter (measurableSet_le f g.neg)))

theorem chart_forward (k : Fin 4) (p : ℝ × ℝ) (hp : p ∈ sector k) : roscaLambert (atHeight (chart k p).1 (chart k p).2) = p := by
  obtain ⟨a, b⟩ := p
  have hpi := Real.pi_pos
  fin_cases k <;> simp only [sector, Set.mem_ofPred_eq] at hp <;> obtain ⟨h1, h2, h3, h4⟩ := hp
  · have hb : |b| ≤ |a| := by rw [abs_of_pos h1, abs_le]; constructor <;> linarith
    have ha : |a| ≤ 1 := by rw [abs_of_pos h1]; linarith
    exact forward_of_inv ha (hb.trans ha) (fun e => by have := congrArg Prod.fst e; simp only at this; linarith) (inv_chartX hb ha (Or.inl ⟨rfl, h1⟩))
  · have hb : |a| ≤ |b| := by rw [abs_of_pos h1, abs_le]; constructor <;> linarith
    have ha : |b| ≤ 1 := by rw [abs_of_pos h1]; linarith
    refine forward_of_inv (hb.trans ha) ha (fun e => by have := congrArg Prod.snd e; simp only at this; linarith) ?_
    rcases lt_or_eq_of_le h3 with h5 | h5
    · exact inv_chartY (by rw [abs_of_pos h1, abs_lt]; constructor <;> linarith) ha (Or.inl ⟨rfl, h1⟩)
    · subst h5
      rw [inv_chartX (c := Real.pi) (by rw [abs_neg]) (by rw [abs_neg]; exact ha) (Or.inr ⟨rfl, by linarith⟩)]
      simp only [chart, chartX, chartY]
      have e1 : b / -b = -1 := by rw [div_neg, div_self h1.ne']
      have e2 : -b / b = -1 := by rw [neg_div, div_self h1.ne']
      rw [e1, e2, neg_sq]
      congr 2
      ring
  · have hb : |b| ≤ |a| := by rw [abs_of_neg h2, abs_le]; constructor <;> linarith
    have ha : |a| ≤ 1 := by rw [abs_of_neg h2]; linarith
    exact forward_of_inv ha (hb.trans ha) (fun e => by have := congrArg Prod.fst e; simp only at this; linarith) (inv_chartX hb ha (Or.inr ⟨rfl, h2⟩))
  · have hb : |a| ≤ |b| := by rw [abs_of_neg h2, abs_le]; constructor <;> linarith
    have ha : |b| ≤ 1 := by rw [abs_of_neg h2]; linarith
    refine forward_of_inv (hb.trans ha) ha (fun e => by have := congrArg Prod.snd e; simp only at this; linarith) ?_
    rcases lt_or_eq_of_le h4 with h5 | h5
    · exact inv_chartY (by rw [abs_of_neg h2, abs_lt]; constructor <;> linarith) ha (Or.inr ⟨rfl, h2⟩)
    · subst h5
      rw [inv_chartX (c := 0) (by rw [abs_neg]) (by rw [abs_neg]; exact ha) (Or.inl ⟨rfl, by linarith⟩)]
      simp only [chart, chartX, chartY]
      have e1 : b / -b = -1 := by rw [div_neg, div_self h2.ne]
      have e2 : -b / b = -1 := by rw [neg_div, div_self h2.ne]
      rw [e1, e2, neg_sq]
      unfold atHeight
      have e3 : Real.pi / 2 + Real.pi - Real.pi / 4 * -1 = 0 + Real.pi / 4 * -1 + 2 * Real.pi := by ring
      rw [e3, Real.cos_add_two_pi, Real.sin_add_two_pi]

/-- First longitude of a sector. -/
noncomputable def startOf (k : Fin 4) : ℝ := k.val * (Real.pi / 2) - Real.pi / 4

theorem chart_range (k : Fin 4) (p : ℝ × ℝ) (hp : p ∈ sector k) :
    0 < (chart k p).1 ∧ (chart k p).1 < 1 ∧ startOf k < (chart k p).2 ∧ (chart k p).2 ≤ startOf k + Real.pi / 2 := by
  obtain ⟨a, b⟩ := p
  have hpi := Real.pi_pos
  fin_cases k <;> simp only [sector, Set.mem_ofPred_eq] at hp <;> obtain ⟨h1, h2, h3, h4⟩ := hp <;>
    simp only [chart, chartX, chartY, startOf]
  · have e1 : -1 < b / a := by rw [lt_div_iff₀ h1]; linarith
    have e2 : b / a ≤ 1 := by rw [div_le_iff₀ h1]; linarith
    refine ⟨by nlinarith, by nlinarith, ?_, ?_⟩ <;> norm_num <;> nlinarith
  · have e1 : -1 ≤ a / b := by rw [le_div_iff₀ h1]; linarith
    have e2 : a / b < 1 := by rw [div_lt_iff₀ h1]; linarith
    refine ⟨by nlinarith, by nlinarith, ?_, ?_⟩ <;> norm_num <;> nlinarith
  · have e1 : -1 < b / a := by rw [lt_div_iff_of_neg h2]; linarith
    have e2 : b / a ≤ 1 := by rw [div_le_iff_of_neg h2]; linarith
    refine ⟨by nlinarith, by nlinarith, ?_, ?_⟩ <;> norm_num <;> nlinarith
  · have e1 : -1 ≤ a / b := by rw [le_div_iff_of_neg h2]; linarith
    have e2 : a / b < 1 := by rw [div_lt_iff_of_neg h2]; linarith
    refine ⟨by nlinarith, by nlinarith, ?_, ?_⟩ <;> norm_num <;> nlinarith

theorem chart_onto (k : Fin 4) (z φ : ℝ) (h0 : 0 < z) (h1 : z < 1) (h2 : startOf k < φ) (h3 : φ ≤ startOf k + Real.pi / 2) :
    ∃ p ∈ sector k, chart k p = (z, φ) := by
  have hpi := Real.pi_pos
  obtain ⟨X, X0, X1, X2⟩ : ∃ X : ℝ, 0 < X ∧ X < 1 ∧ X ^ 2 = 1 - z := by
    refine ⟨√(1 - z), Real.sqrt_pos.mpr (by linarith), ?_, Real.sq_sqrt (by linarith)⟩
    rw [Real.sqrt_lt' one_pos]; linarith
  obtain ⟨t, ht⟩ : ∃ t : ℝ, φ = startOf k + Real.pi / 4 + Real.pi / 4 * t := ⟨(φ - startOf k - Real.pi / 4) * (4 / Real.pi), by field_simp; ring⟩
  have t1 : -1 < t := by nlinarith
  have t2 : t ≤ 1 := by nlinarith
  have u1 : -X < t * X := by nlinarith
  have u2 : t * X ≤ X := by nlinarith
  have d1 : t * X / X = t := by field_simp
  have d2 : -(t * X) / X = -t := by field_simp
  have d3 : -(t * X) / -X = t := by field_simp
  have d4 : t * X / -X = -t := by field_simp
  fin_cases k <;> simp only [startOf] at ht <;> norm_num at ht
  · refine ⟨(X, t * X), ⟨X0, X1, u1, u2⟩, ?_⟩
    simp only [chart, chartX]
    rw [d1, X2, ht]; exact Prod.ext (by simp only; ring) (by simp only; ring)
  · refine ⟨(-(t * X), X), ⟨X0, X1, by simp only; linarith, by simp only; linarith⟩, ?_⟩
    simp only [chart, chartY]
    rw [d2, X2, ht]; exact Prod.ext (by simp only; ring) (by simp only; ring)
  · refine ⟨(-X, -(t * X)), ⟨by simp only; linarith, by simp only; linarith, by simp only; linarith, by simp only; linarith⟩, ?_⟩
    simp only [chart, chartX]
    rw [d3, neg_sq, X2, ht]; exact Prod.ext (by simp only; ring) (by simp only; ring)
  · refine ⟨(t * X, -X), ⟨by simp only; linarith, by simp only; linarith, by simp only; linarith, by simp only; linarith⟩, ?_⟩
    simp only [chart, chartY]
    rw [d4, neg_sq, X2, ht]; exact Prod.ext (by simp only; ring) (by simp only; ring)

theorem chart_area (k : Fin 4) (B : Set (ℝ × ℝ)) (hB : MeasurableSet B) (h : B ⊆ sector k) :
    volume (chart k '' B) = ENNReal.ofReal (Real.pi / 2) * volume B := by
  fin_cases k
  · exact chartX_area _ B hB (Or.inl fun p hp => (h hp).1)
  · exact chartY_area _ B hB (Or.inl fun p hp => (h hp).1)
  · exact chartX_area _ B hB (Or.inr fun p hp => (h hp).2.1)
  · exact chartY_area _ B hB (Or.inr fun p hp => (h hp).2.1)

/-- The part of the sphere over one sector. -/
def slice (k : Fin 4) (A : Set (ℝ × ℝ)) : Set (ℝ × ℝ) :=
  {p | 0 < p.1 ∧ p.1 < 1 ∧ (startOf k < p.2 ∧ p.2 ≤ startOf k + Real.pi / 2) ∧ roscaLambert (atHeight p.1 p.2) ∈ A}

theorem slice_area (k : Fin 4) (A : Set (ℝ × ℝ)) (hA : MeasurableSet A) :
    volume (slice k A) = ENNReal.ofReal (Real.pi / 2) * volume (A ∩ sector k) := by
  rw [← chart_area k (A ∩ sector k) (hA.inter (sector_measurable k)) Set.inter_subset_right]
  congr 1
  apply Set.ext
  rintro ⟨z, φ⟩
  constructor
  · rintro ⟨h0, h1, ⟨h2, h3⟩, h4⟩
    obtain ⟨p, hp, e⟩ := chart_onto k z φ h0 h1 h2 h3
    refine ⟨p, ⟨?_, hp⟩, e⟩
    have := chart_forward k p hp
    rw [e] at this
    rw [← this]; exact h4
  · rintro ⟨p, ⟨hpA, hp⟩, e⟩
    have h := chart_range k p hp
    have f := chart_forward k p hp
    rw [e] at h f
    exact ⟨h.1, h.2.1, h.2.2, by simp only at f ⊢; rw [f]; exact hpA⟩

/-! ### Equal area -/

/-- The open square. -/
def openSquare : Set (ℝ × ℝ) := Set.Ioo (-1) 1 ×ˢ Set.Ioo (-1) 1

theorem sectors_cover (A : Set (ℝ × ℝ)) (hA : MeasurableSet A) :
    volume (A ∩ openSquare) = volume (A ∩ sector 0) + volume (A ∩ sector 1) + volume (A ∩ sector 2) + volume (A ∩ sector 3) := by
  have hm : ∀ k, MeasurableSet (A ∩ sector k) := fun k => hA.inter (sector_measurable k)
  have d01 : Disjoint (A ∩ sector 0) (A ∩ sector 1) := by
    rw [Set.disjoint_left]; rintro ⟨a, b⟩ ⟨-, h1, h2, h3, h4⟩ ⟨-, g1, g2, g3, g4⟩; simp only at *; linarith
  have d2 : Disjoint (A ∩ sector 0 ∪ A ∩ sector 1) (A ∩ sector 2) := by
    rw [Set.disjoint_left]; rintro ⟨a, b⟩ (⟨-, h1, h2, h3, h4⟩ | ⟨-, h1, h2, h3, h4⟩) ⟨-, g1, g2, g3, g4⟩ <;> simp only at * <;> linarith
  have d3 : Disjoint (A ∩ sector 0 ∪ A ∩ sector 1 ∪ A ∩ sector 2) (A ∩ sector 3) := by
    rw [Set.disjoint_left]
    rintro ⟨a, b⟩ ((⟨-, h1, h2, h3, h4⟩ | ⟨-, h1, h2, h3, h4⟩) | ⟨-, h1, h2, h3, h4⟩) ⟨-, g1, g2, g3, g4⟩ <;> simp only at * <;> linarith
  rw [← measure_union d01 (hm 1), ← measure_union d2 (hm 2), ← measure_union d3 (hm 3)]
  have e : A ∩ sector 0 ∪ A ∩ sector 1 ∪ A ∩ sector 2 ∪ A ∩ sector 3 = (A ∩ openSquare) \ {((0 : ℝ), (0 : ℝ))} := by
    apply Set.ext
    rintro ⟨a, b⟩
    constructor
    · rintro (((⟨hA, h1, h2, h3, h4⟩ | ⟨hA, h1, h2, h3, h4⟩) | ⟨hA, h1, h2, h3, h4⟩) | ⟨hA, h1, h2, h3, h4⟩) <;> simp only at h1 h2 h3 h4 <;>
        refine ⟨⟨hA, ⟨?_, ?_⟩, ?_, ?_⟩, ?_⟩ <;> (try simp only) <;> (try linarith) <;>
        (intro e; have e1 := congrArg Prod.fst e; have e2 := congrArg Prod.snd e; simp only at e1 e2; linarith)
    · rintro ⟨⟨hA, ⟨h1, h2⟩, h3, h4⟩, h0⟩
      simp only at h1 h2 h3 h4
      have hne : a ≠ 0 ∨ b ≠ 0 := by
        by_contra h
        push Not at h
        exact h0 (by rw [h.1, h.2]; rfl)
      by_cases c0 : 0 < a ∧ -a < b ∧ b ≤ a
      · exact Or.inl (Or.inl (Or.inl ⟨hA, c0.1, h2, c0.2.1, c0.2.2⟩))
      by_cases c1 : 0 < b ∧ -b ≤ a ∧ a < b
      · exact Or.inl (Or.inl (Or.inr ⟨hA, c1.1, h4, c1.2.1, c1.2.2⟩))
      by_cases c2 : a < 0 ∧ a ≤ b ∧ b < -a
      · exact Or.inl (Or.inr ⟨hA, h1, c2.1, c2.2.1, c2.2.2⟩)
      refine Or.inr ⟨hA, h3, ?_⟩
      simp only
      by_contra c3
      rcases lt_trichotomy a 0 with ha | ha | ha <;> rcases lt_trichotomy b 0 with hb | hb | hb
      · by_cases h : a ≤ b
        · exact c2 ⟨ha, h, by linarith⟩
        · exact c3 ⟨hb, by linarith, by linarith⟩
      · exact c2 ⟨ha, by linarith, by linarith⟩
      · by_cases h : b < -a
        · exact c2 ⟨ha, by linarith, h⟩
        · exact c1 ⟨hb, by linarith, by linarith⟩
      · exact c3 ⟨hb, by linarith, by linarith⟩
      · exact hne.elim (fun h => h ha) (fun h => h hb)
      · exact c1 ⟨hb, by linarith, by linarith⟩
      · by_cases h : -a < b
        · exact c0 ⟨ha, h, by linarith⟩
        · exact c3 ⟨hb, by linarith, by linarith⟩
      · exact c0 ⟨ha, by linarith, by linarith⟩
      · by_cases h : b ≤ a
        · exact c0 ⟨ha, by linarith, h⟩
        · exact c1 ⟨hb, by linarith, by linarith⟩
  rw [e, measure_sdiff_null]
  exact measure_singleton _

theorem slices_cover (A : Set (ℝ × ℝ)) :
    volume {p : ℝ × ℝ | 0 < p.1 ∧ p.1 < 1 ∧ -(Real.pi / 4) < p.2 ∧ p.2 ≤ 2 * Real.pi - Real.pi / 4 ∧ roscaLambert (atHeight p.1 p.2) ∈ A} =
      volume (slice 0 A) + volume (slice 1 A) + volume (slice 2 A) + volume (slice 3 A) := by
  have hpi := Real.pi_pos
  set P : Set (ℝ × ℝ) := {p | 0 < p.1 ∧ p.1 < 1 ∧ -(Real.pi / 4) < p.2 ∧ p.2 ≤ 2 * Real.pi - Real.pi / 4 ∧ roscaLambert (atHeight p.1 p.2) ∈ A} with hP
  have hM : ∀ c : ℝ, MeasurableSet {p : ℝ × ℝ | p.2 ≤ c} := fun c => measurableSet_le measurable_snd measurable_const
  have s0 : startOf 0 = -(Real.pi / 4) := by simp [startOf]
  have s1 : startOf 1 = Real.pi / 4 := by simp only [startOf]; norm_num; ring
  have s2 : startOf 2 = 3 * (Real.pi / 4) := by simp only [startOf]; norm_num; ring
  have s3 : startOf 3 = 5 * (Real.pi / 4) := by simp only [startOf]; norm_num; ring
  rw [← measure_inter_add_sdiff P (hM (Real.pi / 4)), ← measure_inter_add_sdiff (P \ {p | p.2 ≤ Real.pi / 4}) (hM (3 * (Real.pi / 4))),
    ← measure_inter_add_sdiff ((P \ {p | p.2 ≤ Real.pi / 4}) \ {p | p.2 ≤ 3 * (Real.pi / 4)}) (hM (5 * (Real.pi / 4)))]
  rw [← add_assoc, ← add_assoc]
  congr 1
  · congr 1
    · congr 1
      · congr 1
        ext ⟨z, φ⟩
        simp only [hP, slice, s0, Set.mem_inter_iff, Set.mem_ofPred_eq]
        constructor
        · rintro ⟨⟨h1, h2, h3, h4, h5⟩, h6⟩; exact ⟨h1, h2, ⟨h3, by linarith⟩, h5⟩
        · rintro ⟨h1, h2, ⟨h3, h4⟩, h5⟩; exact ⟨⟨h1, h2, h3, by linarith, h5⟩, by linarith⟩
      · congr 1
        ext ⟨z, φ⟩
        simp only [hP, slice, s1, Set.mem_inter_iff, Set.mem_sdiff, Set.mem_ofPred_eq, not_le]
        constructor
        · rintro ⟨⟨⟨h1, h2, h3, h4, h5⟩, h6⟩, h7⟩; exact ⟨h1, h2, ⟨h6, by linarith⟩, h5⟩
        · rintro ⟨h1, h2, ⟨h3, h4⟩, h5⟩; exact ⟨⟨⟨h1, h2, by linarith, by linarith, h5⟩, h3⟩, by linarith⟩
    · congr 1
      ext ⟨z, φ⟩
      simp only [hP, slice, s2, Set.mem_inter_iff, Set.mem_sdiff, Set.mem_ofPred_eq, not_le]
      constructor
      · rintro ⟨⟨⟨⟨h1, h2, h3, h4, h5⟩, h6⟩, h7⟩, h8⟩; exact ⟨h1, h2, ⟨h7, by linarith⟩, h5⟩
      · rintro ⟨h1, h2, ⟨h3, h4⟩, h5⟩; exact ⟨⟨⟨⟨h1, h2, by linarith, by linarith, h5⟩, by linarith⟩, h3⟩, by linarith⟩
  · congr 1
    ext ⟨z, φ⟩
    simp only [hP, slice, s3, Set.mem_sdiff, Set.mem_ofPred_eq, not_le]
    constructor
    · rintro ⟨⟨⟨⟨h1, h2, h3, h4, h5⟩, h6⟩, h7⟩, h8⟩; exact ⟨h1, h2, ⟨h8, by linarith⟩, h5⟩
    · rintro ⟨h1, h2, ⟨h3, h4⟩, h5⟩; exact ⟨⟨⟨⟨h1, h2, by linarith, by linarith, h5⟩, by linarith⟩, by linarith⟩, h3⟩

/-- **C155**: the projection of the upper hemisphere preserves areas up to the factor `π/2`: the directions that are mapped into a
region of the square have `π/2` times the area of the region as their solid angle. -/
theorem C155_upper (A : Set (ℝ × ℝ)) (hA : MeasurableSet A) :
    solidAngle {v | 0 < v.z ∧ roscaLambert v ∈ A} = ENNReal.ofReal (Real.pi / 2) * volume (A ∩ Set.Ioo (-1) 1 ×ˢ Set.Ioo (-1) 1) := by
  have h := sectors_cover A hA
  unfold openSquare at h
  rw [h, mul_add, mul_add, mul_add, ← slice_area 0 A hA, ← slice_area 1 A hA, ← slice_area 2 A hA, ← slice_area 3 A hA, ← slices_cover]
  unfold solidAngle
  congr 1
  ext ⟨z, φ⟩
  simp only [atHeight, Set.mem_ofPred_eq]
  constructor
  · rintro ⟨h1, h2, h3, h4, h5, h6⟩; exact ⟨h5, h2, h3, h4, h6⟩
  · rintro ⟨h1, h2, h3, h4, h5⟩; exact ⟨by linarith, h2, h3, h4, h1, h5⟩

/-- **C155**: so does that of the lower hemisphere. -/
theorem C155_lower (A : Set (ℝ × ℝ)) (hA : MeasurableSet A) :
    solidAngle {v | v.z < 0 ∧ roscaLambert v ∈ A} = ENNReal.ofReal (Real.pi / 2) * volume (A ∩ Set.Ioo (-1) 1 ×ˢ Set.Ioo (-1) 1) := by
  rw [← C155_upper A hA]
  unfold solidAngle
  have mp : MeasurePreserving (Prod.map (fun x : ℝ => -x) (id : ℝ → ℝ)) (volume : Measure (ℝ × ℝ)) volume :=
    (Measure.measurePreserving_neg (volume : Measure ℝ)).prod (MeasurePreserving.id volume)
  have me : MeasurableEmbedding (Prod.map (fun x : ℝ => -x) (id : ℝ → ℝ)) :=
    ((MeasurableEquiv.neg ℝ).prodCongr (MeasurableEquiv.refl ℝ)).measurableEmbedding
  rw [← mp.measure_preimage_emb me]
  congr 1
  ext ⟨z, φ⟩
  have hr : roscaLambert (atHeight (-z) φ) = roscaLambert (atHeight z φ) := by
    rw [rosca_eq, rosca_eq]; simp only [atHeight, abs_neg, neg_sq]; congr!
  simp only [Set.mem_preimage, Prod.map_apply, id, Set.mem_ofPred_eq, hr]
  simp only [atHeight]
  constructor
  · rintro ⟨h1, h2, h3, h4, h5, h6⟩; exact ⟨by linarith, by linarith, h3, h4, by linarith, h6⟩
  · rintro ⟨h1, h2, h3, h4, h5, h6⟩; exact ⟨by linarith, by linarith, h3, h4, by linarith, h6⟩

/-- The solid angle of the upper hemisphere is `2π`. -/
theorem C155_hemisphere : solidAngle {v | 0 < v.z} = ENNReal.ofReal (2 * Real.pi) := by
  have hpi := Real.pi_pos
  have := C155_upper Set.univ MeasurableSet.univ
  simp only [Set.mem_univ, and_true, Set.univ_inter] at this
  rw [this, Measure.volume_eq_prod, Measure.prod_prod, Real.volume_Ioo, ← ENNReal.ofReal_mul (by norm_num), ← ENNReal.ofReal_mul (by positivity)]
  congr 1; ring

/-- **C155**: every pixel of a hemisphere of `h` by `w` pixels covers the same solid angle, `2π / (h w)`. -/
theorem C155_pixel (h w i j : ℕ) (hi : i < h) (hj : j < w) :
    solidAngle {v | 0 < v.z ∧ (2 * (j : ℝ) / w - 1 < (roscaLambert v).1 ∧ (roscaLambert v).1 < 2 * ((j : ℝ) + 1) / w - 1) ∧
      2 * (i : ℝ) / h - 1 < (roscaLambert v).2 ∧ (roscaLambert v).2 < 2 * ((i : ℝ) + 1) / h - 1} = ENNReal.ofReal (2 * Real.pi / (h * w)) := by
  have hpi := Real.pi_pos
  have hh : (0 : ℝ) < h := by exact_mod_cast (by omega : 0 < h)
  have hw : (0 : ℝ) < w := by exact_mod_cast (by omega : 0 < w)
  have := C155_upper (Set.Ioo (2 * (j : ℝ) / w - 1) (2 * ((j : ℝ) + 1) / w - 1) ×ˢ Set.Ioo (2 * (i : ℝ) / h - 1) (2 * ((i : ℝ) + 1) / h - 1))
    (measurableSet_Ioo.prod measurableSet_Ioo)
  have sub : ∀ k l : ℕ, k < l → Set.Ioo (2 * (k : ℝ) / l - 1) (2 * ((k : ℝ) + 1) / l - 1) ⊆ Set.Ioo (-1) 1 := by
    intro k l hk
    have hl : (0 : ℝ) < l := by exact_mod_cast (by omega : 0 < l)
    have h1 : 2 * ((k : ℝ) + 1) / l ≤ 2 := by
      rw [div_le_iff₀ hl]
      have : (k : ℝ) + 1 ≤ l := by exact_mod_cast hk
      linarith
    have h2 : 0 ≤ 2 * (k : ℝ) / l := by positivity
    intro x hx
    exact ⟨by linarith [hx.1], by linarith [hx.2]⟩
  rw [Set.inter_eq_left.mpr (Set.prod_mono (sub j w hj) (sub i h hi)), Measure.volume_eq_prod, Measure.prod_prod, Real.volume_Ioo, Real.volume_Ioo,
    ← ENNReal.ofReal_mul (by have : 2 * ((j : ℝ) + 1) / w - 1 - (2 * (j : ℝ) / w - 1) = 2 / w := by field_simp; ring
                             rw [this]; positivity), ← ENNReal.ofReal_mul (by positivity)] at this
  rw [show 2 * Real.pi / ((h : ℝ) * w) = Real.pi / 2 * ((2 * ((j : ℝ) + 1) / w - 1 - (2 * (j : ℝ) / w - 1)) *
    (2 * ((i : ℝ) + 1) / h - 1 - (2 * (i : ℝ) / h - 1))) by field_simp; ring, ← this]
  rfl

theorem trunc_nonneg {x : ℝ} (hx : 0 ≤ x) (n : ℤ) : truncInt x = n ↔ (n : ℝ) ≤ x ∧ x < n + 1 := by
  unfold truncInt
  rw [if_pos hx, Int.floor_eq_iff]

/-- Extent in the square of one row or column of the direction bins of the Monte Carlo simulation: the whole square is
`[0.000001, 0.999999]`, the bin `[i/n, (i+1)/n]`. -/
noncomputable def binExtent (n i : ℕ) : ℝ := (min (((i : ℝ) + 1) / n) 0.999999 - max ((i : ℝ) / n) 0.000001) / 0.499999

/-- **C155**: the solid angle of the directions (of the lower hemisphere, in which electrons leave) that are counted in the
direction bin `(i, j)`. -/
theorem C155_bins (p : McParams) (hn : 0 < p.nDir) (i j : ℕ) (m : V → Moved)
    (hm : ∀ v, (m v).dir = v) :
    solidAngle {v | v.z < 0 ∧ (mcBin p (m v)).2.2 = ((i : ℤ), (j : ℤ))} =
      ENNReal.ofReal (Real.pi / 2) * (ENNReal.ofReal (binExtent p.nDir i) * ENNReal.ofReal (binExtent p.nDir j)) := by
  have hnr : (0 : ℝ) < p.nDir := by exact_mod_cast hn
  let I : ℕ → Set ℝ := fun k => Set.Ico (((k : ℝ) / p.nDir - 0.5) / 0.499999) ((((k : ℝ) + 1) / p.nDir - 0.5) / 0.499999)
  have key : ∀ (r : ℝ) (k : ℕ), |r| ≤ 1 → (truncInt ((r * 0.499999 + 0.5) * p.nDir) = (k : ℤ) ↔ r ∈ I k) := by
    intro r k hr
    obtain ⟨r1, r2⟩ := abs_le.mp hr
    have h0 : 0 ≤ (r * 0.499999 + 0.5) * p.nDir := mul_nonneg (by norm_num; linarith) hnr.le
    rw [trunc_nonneg h0]
    simp only [I, Set.mem_Ico]
    rw [div_le_iff₀ (by norm_num), lt_div_iff₀ (by norm_num), Int.cast_natCast, sub_le_iff_le_add, lt_sub_iff_add_lt, div_le_iff₀ hnr,
      lt_div_iff₀ hnr]
  have hset : {v : V | v.z < 0 ∧ (mcBin p (m v)).2.2 = ((i : ℤ), (j : ℤ))} = {v | v.z < 0 ∧ roscaLambert v ∈ I i ×ˢ I j} := by
    ext v
    have hb := C20_range v
    simp only [Set.mem_ofPred_eq, mcBin, hm, Prod.mk.injEq, key _ i hb.1, key _ j hb.2, Set.mem_prod]
  have vol : ∀ k : ℕ, volume (I k ∩ Set.Ioo (-1) 1) = ENNReal.ofReal (binExtent p.nDir k) := by
    intro k
    have e : (I k ∩ Set.Ioo (-1) 1 : Set ℝ) =ᵐ[volume] (I k ∩ Set.Ico (-1) 1 : Set ℝ) := by
      exact (ae_eq_refl _).inter Ioo_ae_eq_Ico
    rw [measure_congr e]
    simp only [I]
    rw [Set.Ico_inter_Ico, Real.volume_Ico]
    congr 1
    unfold binExtent
    have mn : ∀ x : ℝ, min ((x - 0.5) / 0.499999) 1 = (min x 0.999999 - 0.5) / 0.499999 := by
      intro x
      rcases le_total x 0.999999 with h | h
      · rw [min_eq_left h, min_eq_left]
        rw [div_le_one (by norm_num)]; norm_num at h ⊢; linarith
      · rw [min_eq_right h, min_eq_right]
        · norm_num
        · rw [one_le_div (by norm_num)]; norm_num at h ⊢; linarith
    have mx : ∀ x : ℝ, max ((x - 0.5) / 0.499999) (-1) = (max x 0.000001 - 0.5) / 0.499999 := by
      intro x
      rcases le_total x 0.000001 with h | h
      · rw [max_eq_right h, max_eq_right]
        · norm_num
        · rw [div_le_iff₀ (by norm_num)]; norm_num at h ⊢; linarith
      · rw [max_eq_left h, max_eq_left]
        rw [le_div_iff₀ (by norm_num)]; norm_num at h ⊢; linarith
    rw [mn, mx]
    ring
  rw [hset, C155_lower _ (measurableSet_Ico.prod measurableSet_Ico), Set.prod_inter_prod, Measure.volume_eq_prod, Measure.prod_prod, vol, vol]

/-- **C155**: all the bins that do not touch the border of the square have the same extent. -/
theorem C155_interior (n i : ℕ) (h1 : 1 ≤ i) (h2 : i + 2 ≤ n) (h3 : n ≤ 1000000) : binExtent n i = 1 / (0.499999 * n) := by
  have hn : (0 : ℝ) < n := by exact_mod_cast (by omega : 0 < n)
  have a1 : (1 : ℝ) ≤ i := by exact_mod_cast h1
  have a2 : (i : ℝ) + 2 ≤ n := by exact_mod_cast h2
  have a3 : (n : ℝ) ≤ 1000000 := by exact_mod_cast h3
  unfold binExtent
  rw [min_eq_left, max_eq_left]
  · field_simp; ring
  · rw [le_div_iff₀ hn]; norm_num; linarith
  · rw [div_le_iff₀ hn]; norm_num; linarith

/-! ### Non-vacuity -/

/-- The cap above the height `3/4`: the image is the square of half the size, and the solid angle `π/2`. -/
example : solidAngle {v | 0 < v.z ∧ roscaLambert v ∈ Set.Ioo (-1 / 2) (1 / 2) ×ˢ Set.Ioo (-1 / 2) (1 / 2)} = ENNReal.ofReal (Real.pi / 2) := by
  rw [C155_upper _ (measurableSet_Ioo.prod measurableSet_Ioo), Set.prod_inter_prod, Set.Ioo_inter_Ioo]
  norm_num [Measure.volume_eq_prod, Measure.prod_prod, Real.volume_Ioo]

example : binExtent 500 3 = binExtent 500 400 := by
  rw [C155_interior 500 3 (by norm_num) (by norm_num) (by norm_num), C155_interior 500 400 (by norm_num) (by norm_num) (by norm_num)]

example (p : McParams) (hn : p.nDir = 501) : solidAngle {v | v.z < 0 ∧ (mcBin p ⟨v, 1, 1, 10⟩).2.2 = (((7 : ℕ) : ℤ), ((250 : ℕ) : ℤ))} ≠ 0 := by
  rw [C155_bins p (by omega) 7 250 (fun v => ⟨v, 1, 1, 10⟩) (fun _ => rfl), hn,
    C155_interior 501 7 (by norm_num) (by norm_num) (by norm_num), C155_interior 501 250 (by norm_num) (by norm_num) (by norm_num)]
  norm_num [Real.pi_pos]

end Verif
