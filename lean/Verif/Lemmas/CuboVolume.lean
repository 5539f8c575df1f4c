import Verif.Lemmas.Cubo
import Mathlib.MeasureTheory.Function.Jacobian
import Mathlib.MeasureTheory.Measure.Haar.OfBasis
import Mathlib.Analysis.Calculus.FDeriv.Pi
import Mathlib.Analysis.SpecialFunctions.Sqrt
import Mathlib.Analysis.SpecialFunctions.Trigonometric.Deriv
/-! Jacobian of the sorted cubochoric map. -/
namespace Verif.Cubo
open Verif Real MeasureTheory

/-- gradient of a function of three variables -/
def D3 (g : (Fin 3 → ℝ) → ℝ) (a : Fin 3 → ℝ) (u : Fin 3 → ℝ) : Prop :=
  HasFDerivAt g (∑ j, a j • (ContinuousLinearMap.proj j : (Fin 3 → ℝ) →L[ℝ] ℝ)) u

theorem D3.congr {g : (Fin 3 → ℝ) → ℝ} {a b u : Fin 3 → ℝ} (h : D3 g a u) (e : ∀ j, a j = b j) : D3 g b u := by
  rw [← funext e]; exact h

theorem D3.coord (i : Fin 3) (u : Fin 3 → ℝ) : D3 (fun v => v i) (fun j => if j = i then 1 else 0) u := by
  refine (hasFDerivAt_apply (𝕜 := ℝ) i u).congr_fderiv ?_
  ext v
  simp

theorem D3.mul {f g : (Fin 3 → ℝ) → ℝ} {a b u : Fin 3 → ℝ} (hf : D3 f a u) (hg : D3 g b u) :
    D3 (fun v => f v * g v) (fun j => f u * b j + g u * a j) u := by
  refine (HasFDerivAt.mul hf hg).congr_fderiv ?_
  ext v
  simp [Fin.sum_univ_three]
  ring

theorem D3.sub {f g : (Fin 3 → ℝ) → ℝ} {a b u : Fin 3 → ℝ} (hf : D3 f a u) (hg : D3 g b u) :
    D3 (fun v => f v - g v) (fun j => a j - b j) u := by
  refine (HasFDerivAt.sub hf hg).congr_fderiv ?_
  ext v
  simp [Fin.sum_univ_three]
  ring

theorem D3.add {f g : (Fin 3 → ℝ) → ℝ} {a b u : Fin 3 → ℝ} (hf : D3 f a u) (hg : D3 g b u) :
    D3 (fun v => f v + g v) (fun j => a j + b j) u := by
  refine (HasFDerivAt.add hf hg).congr_fderiv ?_
  ext v
  simp [Fin.sum_univ_three]
  ring

theorem D3.comp {φ : ℝ → ℝ} {φ' : ℝ} {g : (Fin 3 → ℝ) → ℝ} {a u : Fin 3 → ℝ} (hφ : HasDerivAt φ φ' (g u)) (hg : D3 g a u) :
    D3 (fun v => φ (g v)) (fun j => φ' * a j) u := by
  refine (hφ.comp_hasFDerivAt u hg).congr_fderiv ?_
  ext v
  simp [Fin.sum_univ_three]
  ring

theorem D3.const_mul {g : (Fin 3 → ℝ) → ℝ} {a u : Fin 3 → ℝ} (c : ℝ) (hg : D3 g a u) : D3 (fun v => c * g v) (fun j => c * a j) u :=
  D3.comp (φ := fun x => c * x) (by simpa using (hasDerivAt_id (g u)).const_mul c) hg

theorem D3.inv {g : (Fin 3 → ℝ) → ℝ} {a u : Fin 3 → ℝ} (hg : D3 g a u) (h : g u ≠ 0) :
    D3 (fun v => (g v)⁻¹) (fun j => (-(g u ^ 2)⁻¹) * a j) u := D3.comp (hasDerivAt_inv h) hg

/-- the derivative of a map from its gradients -/
theorem hasFDerivAt_of_rows {F : (Fin 3 → ℝ) → Fin 3 → ℝ} {M : Matrix (Fin 3) (Fin 3) ℝ} {u : Fin 3 → ℝ}
    (h : ∀ i, D3 (fun v => F v i) (M i) u) : HasFDerivAt F (LinearMap.toContinuousLinearMap (Matrix.toLin' M)) u := by
  rw [hasFDerivAt_pi']
  intro i
  refine (h i).congr_fderiv ?_
  ext v
  simp [Matrix.mulVec, dotProduct]

theorem volume_of_rows {F : (Fin 3 → ℝ) → Fin 3 → ℝ} {M : (Fin 3 → ℝ) → Matrix (Fin 3) (Fin 3) ℝ} {B : Set (Fin 3 → ℝ)} {c : ℝ}
    (hc : 0 ≤ c) (hB : MeasurableSet B) (h : ∀ u ∈ B, ∀ i, D3 (fun v => F v i) (M u i) u) (hdet : ∀ u ∈ B, (M u).det = c)
    (hinj : Set.InjOn F B) : MeasurableSet (F '' B) ∧ volume (F '' B) = ENNReal.ofReal c * volume B := by
  have hd : ∀ u ∈ B, HasFDerivWithinAt F (LinearMap.toContinuousLinearMap (Matrix.toLin' (M u))) B u :=
    fun u hu => (hasFDerivAt_of_rows (h u hu)).hasFDerivWithinAt
  refine ⟨measurable_image_of_fderivWithin hB hd hinj, ?_⟩
  rw [← lintegral_abs_det_fderiv_eq_addHaar_image volume hB hd hinj, setLIntegral_congr_fun hB (g := fun _ => ENNReal.ofReal c), setLIntegral_const]
  intro u hu
  simp only [LinearMap.det_toContinuousLinearMap, LinearMap.det_toLin', hdet u hu, abs_of_nonneg hc]

theorem rows3 {F : (Fin 3 → ℝ) → Fin 3 → ℝ} {a b c u : Fin 3 → ℝ} (h0 : D3 (fun v => F v 0) a u) (h1 : D3 (fun v => F v 1) b u)
    (h2 : D3 (fun v => F v 2) c u) {x : ℝ}
    (hx : a 0 * (b 1 * c 2 - b 2 * c 1) - a 1 * (b 0 * c 2 - b 2 * c 0) + a 2 * (b 0 * c 1 - b 1 * c 0) = x) :
    ∃ M : Matrix (Fin 3) (Fin 3) ℝ, (∀ i, D3 (fun v => F v i) (M i) u) ∧ M.det = x := by
  refine ⟨Matrix.of ![a, b, c], fun i => ?_, ?_⟩
  · fin_cases i
    exacts [h0, h1, h2]
  · rw [Matrix.det_fin_three, ← hx]
    simp only [Matrix.of_apply, Matrix.cons_val_zero, Matrix.cons_val_one, Matrix.cons_val]
    ring

/-! ### The two stages -/

/-- square to curved square, in a layer of constant height -/
noncomputable def stage1 (u : Fin 3 → ℝ) : Fin 3 → ℝ :=
  ![u 1 * (sin (π / 12 * (u 0 * (u 1)⁻¹)) * (√(√2 - cos (π / 12 * (u 0 * (u 1)⁻¹))))⁻¹),
    u 1 * ((cos (π / 12 * (u 0 * (u 1)⁻¹)) - 1 / √2) * (√(√2 - cos (π / 12 * (u 0 * (u 1)⁻¹))))⁻¹), u 2]

/-- layer to spherical shell -/
noncomputable def stage2 (L k : ℝ) (p : Fin 3 → ℝ) : Fin 3 → ℝ :=
  ![L * (p 0 * √(1 - (√2)⁻¹ * ((p 0 * p 0 + p 1 * p 1) * (p 2 * p 2)⁻¹))),
    L * (p 1 * √(1 - (√2)⁻¹ * ((p 0 * p 0 + p 1 * p 1) * (p 2 * p 2)⁻¹))),
    k * (p 2 - √2 * ((p 0 * p 0 + p 1 * p 1) * (p 2)⁻¹))]

/-- the open cone of sorted components -/
def cone : Set (Fin 3 → ℝ) := {u | 0 < u 0 ∧ u 0 < u 1 ∧ u 1 < u 2}

theorem stage1_deriv (u : Fin 3 → ℝ) (h : u ∈ cone) :
    ∃ M : Matrix (Fin 3) (Fin 3) ℝ, (∀ i, D3 (fun v => stage1 v i) (M i) u) ∧ M.det = π / (12 * √2) := by
  obtain ⟨h0, h1, h2⟩ := h
  have hm : 0 < u 1 := h0.trans h1
  obtain ⟨r0, r2, r3, r4⟩ := sqrt2_facts
  have dt : D3 (fun v => π / 12 * (v 0 * (v 1)⁻¹)) _ u := ((D3.coord 0 u).mul ((D3.coord 1 u).inv hm.ne')).const_mul (π / 12)
  set t := π / 12 * (u 0 * (u 1)⁻¹) with ht
  have hd : 0 < √2 - cos t := by linarith [cos_le_one t]
  obtain ⟨e, he⟩ : ∃ e, e = √(√2 - cos t) := ⟨_, rfl⟩
  have e0 : 0 < e := by rw [he]; exact sqrt_pos.mpr hd
  have e2 : e ^ 2 = √2 - cos t := by rw [he]; exact sq_sqrt hd.le
  have ds : HasDerivAt (fun t => (√(√2 - cos t))⁻¹) (-(sin t / (2 * e)) / e ^ 2) t := by
    have a : HasDerivAt (fun t => √2 - cos t) (sin t) t := by simpa using (hasDerivAt_cos t).const_sub (√2)
    have := (a.sqrt hd.ne').fun_inv (by rw [← he]; exact e0.ne')
    rw [← he] at this
    exact this
  have dg : HasDerivAt (fun t => sin t * (√(√2 - cos t))⁻¹) (cos t * e⁻¹ + sin t * (-(sin t / (2 * e)) / e ^ 2)) t := by
    have := (hasDerivAt_sin t).mul ds
    rw [← he] at this
    exact this
  have dh : HasDerivAt (fun t => (cos t - 1 / √2) * (√(√2 - cos t))⁻¹) (-sin t * e⁻¹ + (cos t - 1 / √2) * (-(sin t / (2 * e)) / e ^ 2)) t := by
    have := ((hasDerivAt_cos t).sub_const (1 / √2)).mul ds
    rw [← he] at this
    exact this
  have key : (cos t * e⁻¹ + sin t * (-(sin t / (2 * e)) / e ^ 2)) * ((cos t - 1 / √2) * e⁻¹) -
      (-sin t * e⁻¹ + (cos t - 1 / √2) * (-(sin t / (2 * e)) / e ^ 2)) * (sin t * e⁻¹) = 1 / √2 := by
    have hs : sin t ^ 2 = 1 - cos t ^ 2 := by linarith [sin_sq_add_cos_sq t]
    have : (cos t * e⁻¹ + sin t * (-(sin t / (2 * e)) / e ^ 2)) * ((cos t - 1 / √2) * e⁻¹) -
      (-sin t * e⁻¹ + (cos t - 1 / √2) * (-(sin t / (2 * e)) / e ^ 2)) * (sin t * e⁻¹) = (cos t * (cos t - 1 / √2) + sin t ^ 2) / e ^ 2 := by
      field_simp; ring
    rw [this, hs, e2, div_eq_iff hd.ne']
    field_simp
    ring
  have r1 := (D3.coord 1 u).mul (D3.comp (φ := fun t => sin t * (√(√2 - cos t))⁻¹) dg dt)
  have r2' := (D3.coord 1 u).mul (D3.comp (φ := fun t => (cos t - 1 / √2) * (√(√2 - cos t))⁻¹) dh dt)
  refine rows3 (F := stage1) r1 r2' (D3.coord 2 u) ?_
  · simp only [] 
    rw [← ht, ← he]
    generalize (cos t * e⁻¹ + sin t * (-(sin t / (2 * e)) / e ^ 2)) = g' at *
    generalize (-sin t * e⁻¹ + (cos t - 1 / √2) * (-(sin t / (2 * e)) / e ^ 2)) = h' at *
    generalize (cos t - 1 / √2) * e⁻¹ = hh at *
    generalize sin t * e⁻¹ = gg at *
    simp
    field_simp
    have k2 : √2 * (g' * hh - h' * gg) = 1 := by rw [key]; field_simp
    linear_combination (12 * u 1) * k2

theorem stage2_deriv (L k : ℝ) (p : Fin 3 → ℝ) (h2 : 0 < p 2) (hq : (√2)⁻¹ * ((p 0 * p 0 + p 1 * p 1) * (p 2 * p 2)⁻¹) < 1) :
    ∃ M : Matrix (Fin 3) (Fin 3) ℝ, (∀ i, D3 (fun v => stage2 L k v i) (M i) p) ∧ M.det = L ^ 2 * k := by
  obtain ⟨r0, r2, r3, r4⟩ := sqrt2_facts
  have dq : D3 (fun v => v 0 * v 0 + v 1 * v 1) _ p := ((D3.coord 0 p).mul (D3.coord 0 p)).add ((D3.coord 1 p).mul (D3.coord 1 p))
  have dw0 := (dq.mul (((D3.coord 2 p).mul (D3.coord 2 p)).inv (by positivity))).const_mul (√2)⁻¹
  have hw : 0 < 1 - (√2)⁻¹ * ((p 0 * p 0 + p 1 * p 1) * (p 2 * p 2)⁻¹) := by linarith
  have ds : HasDerivAt (fun x => √(1 - x)) (-1 / (2 * √(1 - (√2)⁻¹ * ((p 0 * p 0 + p 1 * p 1) * (p 2 * p 2)⁻¹))))
      ((√2)⁻¹ * ((p 0 * p 0 + p 1 * p 1) * (p 2 * p 2)⁻¹)) := by
    have := ((hasDerivAt_id ((√2)⁻¹ * ((p 0 * p 0 + p 1 * p 1) * (p 2 * p 2)⁻¹))).const_sub 1).sqrt hw.ne'
    simpa using this
  have dw := D3.comp (φ := fun x => √(1 - x)) ds dw0
  have r1 := ((D3.coord 0 p).mul dw).const_mul L
  have r2' := ((D3.coord 1 p).mul dw).const_mul L
  have r3' := ((D3.coord 2 p).sub ((dq.mul ((D3.coord 2 p).inv h2.ne')).const_mul √2)).const_mul k
  refine rows3 (F := stage2 L k) r1 r2' r3' ?_
  · obtain ⟨w, hwd⟩ : ∃ w, w = √(1 - (√2)⁻¹ * ((p 0 * p 0 + p 1 * p 1) * (p 2 * p 2)⁻¹)) := ⟨_, rfl⟩
    have w0 : 0 < w := by rw [hwd]; exact sqrt_pos.mpr hw
    have w2 : w ^ 2 = 1 - (√2)⁻¹ * ((p 0 * p 0 + p 1 * p 1) * (p 2 * p 2)⁻¹) := by rw [hwd]; exact sq_sqrt hw.le
    rw [← hwd]
    simp
    generalize p 0 = a at *
    generalize p 1 = b at *
    generalize p 2 = c at *
    generalize √2 = r at *
    have w3 : r * c ^ 2 * w ^ 2 = r * c ^ 2 - (a ^ 2 + b ^ 2) := by rw [w2]; field_simp
    field_simp
    linear_combination (4 * L ^ 2 * k * (r * c ^ 2 * w ^ 2)) * ((c ^ 2 + r * (a ^ 2 + b ^ 2)) * w3 + c ^ 2 * (a ^ 2 + b ^ 2) * r2)

/-! ### The sorted map as the composition of the stages -/

/-- the sorted map as a function of a vector -/
noncomputable def sortedMap (u : Fin 3 → ℝ) : Fin 3 → ℝ := cu2hoSorted (u 0) (u 1) (u 2)

/-- in-plane factor of the second stage -/
noncomputable def L : ℝ := √(2 * √2) * K

theorem sorted_eq (u : Fin 3 → ℝ) (hu : u ∈ cone) : sortedMap u = stage2 L K (stage1 u) ∧
    (√2)⁻¹ * ((stage1 u 0 * stage1 u 0 + stage1 u 1 * stage1 u 1) * (stage1 u 2 * stage1 u 2)⁻¹) < 1 := by
  obtain ⟨h0, h1, h2⟩ := hu
  have hm : 0 < u 1 := h0.trans h1
  have hb : 0 < u 2 := hm.trans h2
  obtain ⟨θ, f, v, d, c, hθ, hc, hd, hv, hf, hv0, hvb, hf2, e0, e1, e2⟩ := fwd h0.le h1.le hm h2.le
  obtain ⟨r0, r2, r3, r4⟩ := sqrt2_facts
  have hK := K_pos
  have ht : π / 12 * (u 0 * (u 1)⁻¹) = θ := by rw [hθ]; field_simp
  have hd0 : 0 < d := by rw [hd, hc]; linarith [cos_le_one θ]
  have hsin : sin θ ^ 2 = 1 - c ^ 2 := by rw [hc]; linarith [sin_sq_add_cos_sq θ]
  have hsd : √d ^ 2 = d := sq_sqrt hd0.le
  have hsd0 : 0 < √d := sqrt_pos.mpr hd0
  have s0 : stage1 u 0 = u 1 * (sin θ * (√d)⁻¹) := by simp only [stage1, Matrix.cons_val_zero]; rw [ht, hd, hc]
  have s1 : stage1 u 1 = u 1 * ((c - 1 / √2) * (√d)⁻¹) := by simp only [stage1, Matrix.cons_val_one, Matrix.cons_val_zero]; rw [ht, hd, hc]
  have s2 : stage1 u 2 = u 2 := rfl
  have hq : stage1 u 0 * stage1 u 0 + stage1 u 1 * stage1 u 1 = u 2 * v / √2 := by
    have e : stage1 u 0 * stage1 u 0 + stage1 u 1 * stage1 u 1 = (u 1) ^ 2 * (sin θ ^ 2 + (c - 1 / √2) ^ 2) / (√d ^ 2) := by
      rw [s0, s1]; field_simp
    rw [e, hsd, hsin, hv]
    field_simp
    linear_combination r2
  have hw : 1 - (√2)⁻¹ * ((stage1 u 0 * stage1 u 0 + stage1 u 1 * stage1 u 1) * (stage1 u 2 * stage1 u 2)⁻¹) = 1 - v / (2 * u 2) := by
    rw [hq, s2]
    field_simp
    rw [r2]; ring
  have hwp : 0 < 1 - v / (2 * u 2) := by
    rw [sub_pos, div_lt_one (by positivity)]; linarith
  refine ⟨?_, by linarith⟩
  have hff : f = L * (u 1 * (√d)⁻¹ * √(1 - v / (2 * u 2))) := by
    rw [← sq_eq_sq₀ hf.le (by unfold L; positivity), hf2]
    unfold L
    rw [mul_pow, mul_pow _ K, sq_sqrt (by positivity), mul_pow, mul_pow, sq_sqrt hwp.le, inv_pow, hsd]
    field_simp
    linear_combination (v - 2 * u 2) * r2
  funext i
  fin_cases i
  · change cu2hoSorted (u 0) (u 1) (u 2) 0 = stage2 L K (stage1 u) 0
    simp only [stage2, Matrix.cons_val_zero]
    rw [e0, hw, s0, hff]; ring
  · change cu2hoSorted (u 0) (u 1) (u 2) 1 = stage2 L K (stage1 u) 1
    simp only [stage2, Matrix.cons_val_one, Matrix.cons_val_zero]
    rw [e1, hw, s1, hff]; field_simp
  · change cu2hoSorted (u 0) (u 1) (u 2) 2 = stage2 L K (stage1 u) 2
    have : stage2 L K (stage1 u) 2 = K * (stage1 u 2 - √2 * ((stage1 u 0 * stage1 u 0 + stage1 u 1 * stage1 u 1) * (stage1 u 2)⁻¹)) := rfl
    rw [e2, this, hq, s2]
    field_simp

theorem cone_measurable : MeasurableSet cone := by
  have f : ∀ i : Fin 3, Measurable (fun u : Fin 3 → ℝ => u i) := fun i => measurable_pi_apply i
  exact (measurableSet_lt measurable_const (f 0)).inter ((measurableSet_lt (f 0) (f 1)).inter (measurableSet_lt (f 1) (f 2)))

theorem stage1_measurable : Measurable stage1 := by
  rw [measurable_pi_iff]
  have f : ∀ i : Fin 3, Measurable (fun u : Fin 3 → ℝ => u i) := fun i => measurable_pi_apply i
  have ht : Measurable (fun u : Fin 3 → ℝ => π / 12 * (u 0 * (u 1)⁻¹)) := ((f 0).mul (f 1).inv).const_mul _
  have hs := (continuous_sqrt.measurable.comp ((measurable_cos.comp ht).const_sub (√2))).inv
  intro i
  fin_cases i
  · exact (f 1).mul ((measurable_sin.comp ht).mul hs)
  · exact (f 1).mul (((measurable_cos.comp ht).sub_const _).mul hs)
  · exact f 2

theorem stage2_measurable (L k : ℝ) : Measurable (stage2 L k) := by
  rw [measurable_pi_iff]
  have f : ∀ i : Fin 3, Measurable (fun u : Fin 3 → ℝ => u i) := fun i => measurable_pi_apply i
  have hq : Measurable (fun u : Fin 3 → ℝ => u 0 * u 0 + u 1 * u 1) := ((f 0).mul (f 0)).add ((f 1).mul (f 1))
  have hw := continuous_sqrt.measurable.comp (((hq.mul ((f 2).mul (f 2)).inv).const_mul (√2)⁻¹).const_sub 1)
  intro i
  fin_cases i
  · exact ((f 0).mul hw).const_mul L
  · exact ((f 1).mul hw).const_mul L
  · exact ((f 2).sub ((hq.mul (f 2).inv).const_mul √2)).const_mul k

end Verif.Cubo
