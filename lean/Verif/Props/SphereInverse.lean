import Verif.Props.Sphere
/-! C20, the other direction: `rosca_lambert ∘ inv_rosca_lambert` is the identity of the square. -/
namespace Verif
open Spec

theorem copysign_abs (m s : ℝ) : |copysign m s| = |m| := by
  unfold copysign; split <;> simp

theorem copysign_negOne (m s : ℝ) : copysign m s = negOne s * |m| := by
  unfold copysign negOne; split <;> ring

/-- One case of the forward map after the inverse one. -/
theorem rosca_invCore {a b : ℝ} (ha : a ≠ 0) (hb : |b| ≤ |a|) (h1 : |a| ≤ 1) :
    copysign (invCore a b).1 a ≠ 0 ∧
    |copysign (invCore a b).2 b| ≤ |copysign (invCore a b).1 a| ∧
    (|b| < |a| → |copysign (invCore a b).2 b| < |copysign (invCore a b).1 a|) ∧
    copysign (invCore a b).1 a ^ 2 + copysign (invCore a b).2 b ^ 2 + (1 - a ^ 2) ^ 2 = 1 ∧
    negOne (copysign (invCore a b).1 a) * |a| = a ∧
    a * (4 / Real.pi * rlAngle (copysign (invCore a b).1 a) (copysign (invCore a b).2 b)) = b := by
  have hpi := Real.pi_pos
  have hap := abs_pos.mpr ha
  have ha2 : a ^ 2 ≤ 1 := by rw [← sq_abs]; nlinarith
  have hs0 : 0 < 2 - a ^ 2 := by linarith
  have hs := Real.sqrt_pos.mpr hs0
  have hs2 := Real.sq_sqrt hs0.le
  unfold invCore
  simp only
  set ρ : ℝ := |a| * Real.sqrt (2 - a ^ 2) with hρ
  have ρ0 : 0 < ρ := mul_pos hap hs
  have ρ2 : ρ ^ 2 = a ^ 2 * (2 - a ^ 2) := by rw [hρ, mul_pow, hs2, sq_abs]
  set t : ℝ := Real.pi / 4 * (|b| / |a|) with ht
  have hq : |b| / |a| ≤ 1 := (div_le_one hap).mpr hb
  have hq0 : 0 ≤ |b| / |a| := by positivity
  have t0 : 0 ≤ t := by positivity
  have t1 : t ≤ Real.pi / 4 := by
    calc t ≤ Real.pi / 4 * 1 := by rw [ht]; gcongr
      _ = _ := mul_one _
  have ct : 0 < Real.cos t := Real.cos_pos_of_mem_Ioo ⟨by linarith, by linarith⟩
  have st : 0 ≤ Real.sin t := Real.sin_nonneg_of_nonneg_of_le_pi t0 (by linarith)
  have s4 : Real.sin (Real.pi / 4) = Real.cos (Real.pi / 4) := by rw [Real.sin_pi_div_four, Real.cos_pi_div_four]
  have sc : Real.sin t ≤ Real.cos t := by
    have h1 : Real.sin t ≤ Real.sin (Real.pi / 4) := Real.sin_le_sin_of_le_of_le_pi_div_two (by linarith) (by linarith) t1
    have h2 : Real.cos (Real.pi / 4) ≤ Real.cos t := Real.cos_le_cos_of_nonneg_of_le_pi t0 (by linarith) t1
    linarith
  have sclt : t < Real.pi / 4 → Real.sin t < Real.cos t := by
    intro h
    have h1 : Real.sin t < Real.sin (Real.pi / 4) := Real.sin_lt_sin_of_lt_of_le_pi_div_two (by linarith) (by linarith) h
    have h2 : Real.cos (Real.pi / 4) < Real.cos t := Real.cos_lt_cos_of_nonneg_of_le_pi t0 (by linarith) h
    linarith
  have ax : |ρ * Real.cos t| = ρ * Real.cos t := abs_of_pos (mul_pos ρ0 ct)
  have ay : |ρ * Real.sin t| = ρ * Real.sin t := abs_of_nonneg (mul_nonneg ρ0.le st)
  have ex := copysign_negOne (ρ * Real.cos t) a
  have ey := copysign_negOne (ρ * Real.sin t) b
  have exa := copysign_abs (ρ * Real.cos t) a
  have eya := copysign_abs (ρ * Real.sin t) b
  rw [ax] at ex exa
  rw [ay] at ey eya
  generalize copysign (ρ * Real.cos t) a = x at *
  generalize copysign (ρ * Real.sin t) b = y at *
  have hc := Real.sin_sq_add_cos_sq t
  have xx : x ^ 2 + y ^ 2 = ρ ^ 2 := by
    rw [← sq_abs x, ← sq_abs y, exa, eya]
    linear_combination ρ ^ 2 * hc
  have x0 : x ≠ 0 := by rw [← abs_pos, exa]; exact mul_pos ρ0 ct
  have hn : negOne x = negOne a := by
    rw [ex]
    unfold negOne
    have := mul_pos ρ0 ct
    by_cases h : a < 0
    · rw [if_pos h, if_pos (by linarith)]
    · rw [if_neg h, if_neg (by linarith)]
  refine ⟨x0, ?_, ?_, ?_, ?_, ?_⟩
  · rw [exa, eya]; exact mul_le_mul_of_nonneg_left sc ρ0.le
  · intro h
    rw [exa, eya]
    refine mul_lt_mul_of_pos_left (sclt ?_) ρ0
    calc t < Real.pi / 4 * 1 := by rw [ht]; have := (div_lt_one hap).mpr h; gcongr
      _ = _ := mul_one _
  · rw [xx, ρ2]; ring
  · rw [hn, ← negOne_mul_self, ← mul_assoc, negOne_sq, one_mul]
  · have hang : rlAngle x y = negOne a * negOne b * t := by
      unfold rlAngle atan2
      rw [hn, exa, ey]
      have key : ∀ u : ℝ, u = t ∨ u = -t → Complex.arg ⟨ρ * Real.cos u, ρ * Real.sin u⟩ = u := by
        intro u hu
        have e : (⟨ρ * Real.cos u, ρ * Real.sin u⟩ : ℂ) = ρ * (Complex.cos u + Complex.sin u * Complex.I) := by
          apply Complex.ext
          · simp [← Complex.ofReal_cos, ← Complex.ofReal_sin]
          · simp [← Complex.ofReal_cos, ← Complex.ofReal_sin]
        rw [e]
        apply Complex.arg_mul_cos_add_sin_mul_I ρ0
        rcases hu with rfl | rfl <;> constructor <;> linarith
      have hpm : negOne a * negOne b = 1 ∨ negOne a * negOne b = -1 := by
        unfold negOne; split <;> split <;> norm_num
      rcases hpm with h | h
      · have := key t (Or.inl rfl)
        rw [h, one_mul, show negOne b * (ρ * Real.sin t) * negOne a = ρ * Real.sin t by linear_combination ρ * Real.sin t * h]
        exact this
      · have := key (-t) (Or.inr rfl)
        rw [Real.cos_neg, Real.sin_neg] at this
        rw [h, show negOne b * (ρ * Real.sin t) * negOne a = ρ * -Real.sin t by linear_combination ρ * Real.sin t * h, neg_one_mul]
        exact this
    rw [hang, ht]
    have e1 := negOne_mul_self a
    have e2 := negOne_mul_self b
    have e3 := negOne_sq b
    have : a * (4 / Real.pi * (negOne a * negOne b * (Real.pi / 4 * (|b| / |a|)))) = (negOne a * a) * (negOne b * (|b| / |a|)) := by
      field_simp
    rw [this, e1, ← e2]
    field_simp
    linear_combination b * e3

/-- **C20**, from the square: every point of `[-1, 1]²` but the centre is mapped to a unit vector of the upper hemisphere which
the projection maps back to the point. -/
theorem C20_forward (p : ℝ × ℝ) (h1 : |p.1| ≤ 1) (h2 : |p.2| ≤ 1) (h0 : p ≠ (0, 0)) :
    ∃ v, invRoscaLambert p = some v ∧ IsUnit3 v ∧ 0 ≤ v.z ∧ roscaLambert v = p := by
  obtain ⟨a, b⟩ := p
  simp only at h1 h2
  have hne : a ≠ 0 ∨ b ≠ 0 := by
    by_contra h
    push Not at h
    exact h0 (by rw [h.1, h.2])
  have zz : ∀ c : ℝ, |c| ≤ 1 → 0 ≤ 1 - c ^ 2 ∧ √(max (1 - |1 - c ^ 2|) 0) = |c| := by
    intro c hc
    have : c ^ 2 ≤ 1 := by rw [← sq_abs]; nlinarith [abs_nonneg c]
    refine ⟨by linarith, ?_⟩
    rw [abs_of_nonneg (by linarith), show 1 - (1 - c ^ 2) = c ^ 2 by ring, max_eq_left (sq_nonneg c), Real.sqrt_sq_eq_abs]
  rw [inv_eq a b hne]
  by_cases hab : |b| ≤ |a|
  · have ha : a ≠ 0 := by
      rintro rfl
      have : b = 0 := by simpa using hab
      exact hne.elim (fun h => h rfl) (fun h => h this)
    obtain ⟨x0, c1, -, u, e1, e2⟩ := rosca_invCore ha hab h1
    rw [if_pos hab]
    refine ⟨_, rfl, ?_, (zz a h1).1, ?_⟩
    · exact u
    · rw [rosca_eq]
      simp only
      rw [if_pos c1, (zz a h1).2, e1, e2]
  · have hb : b ≠ 0 := by rintro rfl; simp at hab
    have hlt := not_le.mp hab
    obtain ⟨x0, -, c1, u, e1, e2⟩ := rosca_invCore hb hlt.le h2
    rw [if_neg hab]
    refine ⟨_, rfl, ?_, (zz b h2).1, ?_⟩
    · unfold IsUnit3 at *
      simp only
      linarith
    · rw [rosca_eq]
      simp only
      rw [if_neg (not_le.mpr (c1 hlt)), (zz b h2).2, e1, e2]

/-- A corner, an edge and an interior point. -/
example : (∃ v, invRoscaLambert (1, -1) = some v ∧ IsUnit3 v ∧ 0 ≤ v.z ∧ roscaLambert v = (1, -1)) ∧
    (∃ v, invRoscaLambert (-1, 0) = some v ∧ IsUnit3 v ∧ 0 ≤ v.z ∧ roscaLambert v = (-1, 0)) ∧
    ∃ v, invRoscaLambert (1 / 3, -1 / 2) = some v ∧ IsUnit3 v ∧ 0 ≤ v.z ∧ roscaLambert v = (1 / 3, -1 / 2) :=
  ⟨C20_forward _ (by norm_num) (by norm_num) (by norm_num), C20_forward _ (by norm_num) (by norm_num) (by norm_num),
    C20_forward _ (by norm_num [abs_le]) (by norm_num [abs_le]) (by norm_num)⟩

end Verif
