import Verif.Props.ScatterLimit
import Mathlib.Tactic.Positivity
/-!
C111: the error of the rational approximation of the exponential integral is amplified without bound at small scattering.
-/
namespace Verif.Scat
open Real Verif.Spec.Scatter Filter Topology

private lemma horner_cont (c : List ℝ) : Continuous fun x => horner c x := by
  unfold horner
  induction c with
  | nil => exact continuous_const
  | cons a t ih =>
    simp only [List.foldr_cons]
    exact (ih.mul continuous_id).add continuous_const

/-- `expi(-y) - log y` on `(0, 1]`. -/
private noncomputable def u (y : ℝ) : ℝ := -(horner e1P y / horner e1Q y + y - 0.66373538970947265625)

/-- `expi(y) - log y` on `(0, 6]`. -/
private noncomputable def v (y : ℝ) : ℝ := horner eiP (y / 3 - 1) / horner eiQ (y / 3 - 1) * (y - eiRoot) - log eiRoot

private lemma u_zero : u 0 = 0.66373538970947265625 - 0.0865197248079397976498 := by
  unfold u horner e1P e1Q
  norm_num

private lemma u_cont : ContinuousAt u 0 := by
  have : horner e1Q 0 ≠ 0 := by unfold horner e1Q; norm_num
  exact ((((horner_cont e1P).continuousAt.div (horner_cont e1Q).continuousAt this).add continuousAt_id).sub
    continuousAt_const).neg

private lemma v_cont : ContinuousAt v 0 := by
  have h : horner eiQ (0 / 3 - 1) ≠ 0 := by unfold horner eiQ; norm_num
  have hl : Continuous fun y : ℝ => y / 3 - 1 := by fun_prop
  exact (((((horner_cont eiP).comp hl).continuousAt).div (((horner_cont eiQ).comp hl).continuousAt) h).mul
    (continuousAt_id.sub continuousAt_const)).sub continuousAt_const

private lemma expi_neg {y : ℝ} (h0 : 0 < y) (h1 : y ≤ 1) : expi (-y) = log y + u y := by
  unfold expi u
  rw [if_pos (by linarith), neg_neg]
  unfold exp1
  rw [if_pos h1]
  ring

private lemma expi_pos {y : ℝ} (h0 : 0 < y) (h1 : y ≤ 6) : expi y = log y + v y := by
  unfold expi v
  rw [if_neg (by linarith), if_pos h1, log_div h0.ne' (by unfold eiRoot; norm_num)]
  ring

private lemma expi_neg' {β x : ℝ} (hβ : 0 < β) (hx : 0 < x) (h : β * x ≤ 1) : expi (-β * x) = log β + log x + u (β * x) := by
  rw [neg_mul, expi_neg (mul_pos hβ hx) h, log_mul hβ.ne' hx.ne']

private noncomputable def rv (b α β x : ℝ) : ℝ := exp (-(b * x)) * (log α - log β + (v (α * x) - v (β * x)))

private lemma rih1_v (b : ℝ) {α β x : ℝ} (hα : 0 < α) (hβ : 0 < β) (hx : 0 < x) (h1 : α * x ≤ 1) (h2 : β * x ≤ 1) :
    rih1 expi (b * x) (α * x) (β * x) = rv b α β x := by
  unfold rih1 rv
  rw [if_pos ⟨by linarith, by linarith⟩, expi_pos (mul_pos hα hx) (by linarith), expi_pos (mul_pos hβ hx) (by linarith),
    log_mul hα.ne' hx.ne', log_mul hβ.ne' hx.ne']
  ring

private lemma scale_tendsto {f : ℝ → ℝ} (hf : ContinuousAt f 0) (a : ℝ) : Tendsto (fun x => f (a * x)) (𝓝 0) (𝓝 (f 0)) := by
  have h : Tendsto (fun x : ℝ => a * x) (𝓝 0) (𝓝 0) := by
    have := (continuous_const_mul a).tendsto (0 : ℝ)
    rwa [mul_zero] at this
  exact hf.tendsto.comp h

private lemma rv_tendsto (b α β : ℝ) : Tendsto (rv b α β) (𝓝 0) (𝓝 (log α - log β)) := by
  have h1 : Tendsto (fun x : ℝ => exp (-(b * x))) (𝓝 0) (𝓝 1) := by
    have : Continuous fun x : ℝ => exp (-(b * x)) := by fun_prop
    have := this.tendsto 0
    simpa using this
  have h2 := h1.mul (((scale_tendsto v_cont α).sub (scale_tendsto v_cont β)).const_add (log α - log β))
  have e : (1 : ℝ) * (log α - log β + (v 0 - v 0)) = log α - log β := by ring
  rw [e] at h2
  exact h2

/-- Bracket of `I1_g`. -/
private noncomputable def k1 (bi bj x : ℝ) : ℝ :=
  2 * 0.57721566490153286060651209008240243 + log bi + log bj - 2 * log (bi * bj / (bi + bj)) - 2 * u (bi * bj / (bi + bj) * x)
    + rv bi (bi * bi / (bi + bj)) bi x + rv bj (bj * bj / (bi + bj)) bj x

/-- Bracket of `I2_g`. -/
private noncomputable def k2 (bi bj M x : ℝ) : ℝ :=
  2 * (log (M * (bi + M) / (bi + 2 * M)) + log (M * (bj + M) / (bj + 2 * M))
      - log ((bi + M) * (bj + M) / (bi + bj + 2 * M)) - log (0.5 * M))
    + 2 * (u (M * (bi + M) / (bi + 2 * M) * x) + u (M * (bj + M) / (bj + 2 * M) * x)
      - u ((bi + M) * (bj + M) / (bi + bj + 2 * M) * x) - u (0.5 * M * x))
    + rv M (0.5 * M) (M * M / (bi + 2 * M)) x + rv M (0.5 * M) (M * M / (bj + 2 * M)) x
    + rv (bi + M) ((bi + M) * (bi + M) / (bi + bj + 2 * M)) ((bi + M) * (bi + M) / (bi + 2 * M)) x
    + rv (bj + M) ((bj + M) * (bj + M) / (bi + bj + 2 * M)) ((bj + M) * (bj + M) / (bj + 2 * M)) x

private lemma log_sqd (c d : ℝ) (hc : 0 < c) (hd : 0 < d) : log (c * c / d) = log c + log c - log d := by
  rw [log_div (by positivity) (by positivity), log_mul (by positivity) (by positivity)]

private lemma log_prd (b c d : ℝ) (hb : 0 < b) (hc : 0 < c) (hd : 0 < d) : log (b * c / d) = log b + log c - log d := by
  rw [log_div (by positivity) (by positivity), log_mul (by positivity) (by positivity)]

private lemma k1_tendsto {bi bj : ℝ} (hi : 0 < bi) (hj : 0 < bj) :
    Tendsto (k1 bi bj) (𝓝 0) (𝓝 (2 * (0.57721566490153286060651209008240243 - u 0))) := by
  have h := ((((scale_tendsto u_cont (bi * bj / (bi + bj))).const_mul 2).const_sub
    (2 * 0.57721566490153286060651209008240243 + log bi + log bj - 2 * log (bi * bj / (bi + bj)))).add
    (rv_tendsto bi (bi * bi / (bi + bj)) bi)).add (rv_tendsto bj (bj * bj / (bi + bj)) bj)
  have h' : Tendsto (k1 bi bj) (𝓝 0) _ := h
  convert h' using 2
  rw [log_sqd _ _ hi (by positivity), log_sqd _ _ hj (by positivity), log_prd _ _ _ hi hj (by positivity)]
  ring

private lemma k2_tendsto {bi bj M : ℝ} (hi : 0 < bi) (hj : 0 < bj) (hM : 0 < M) : Tendsto (k2 bi bj M) (𝓝 0) (𝓝 0) := by
  have h := ((((((((scale_tendsto u_cont (M * (bi + M) / (bi + 2 * M))).add (scale_tendsto u_cont (M * (bj + M) / (bj + 2 * M)))).sub
    (scale_tendsto u_cont ((bi + M) * (bj + M) / (bi + bj + 2 * M)))).sub (scale_tendsto u_cont (0.5 * M))).const_mul 2).const_add
    (2 * (log (M * (bi + M) / (bi + 2 * M)) + log (M * (bj + M) / (bj + 2 * M))
      - log ((bi + M) * (bj + M) / (bi + bj + 2 * M)) - log (0.5 * M)))).add
    (rv_tendsto M (0.5 * M) (M * M / (bi + 2 * M)))).add (rv_tendsto M (0.5 * M) (M * M / (bj + 2 * M)))).add
    (rv_tendsto (bi + M) ((bi + M) * (bi + M) / (bi + bj + 2 * M)) ((bi + M) * (bi + M) / (bi + 2 * M)))
  have h := h.add (rv_tendsto (bj + M) ((bj + M) * (bj + M) / (bi + bj + 2 * M)) ((bj + M) * (bj + M) / (bj + 2 * M)))
  have h' : Tendsto (k2 bi bj M) (𝓝 0) _ := h
  convert h' using 2
  have e : (0.5 : ℝ) * M = M / 2 := by norm_num; ring
  have a4 : log (M / 2) = log M - log 2 := log_div (by positivity) (by positivity)
  rw [e, a4, log_prd _ _ _ hM (by positivity) (by positivity), log_prd _ _ _ hM (by positivity) (by positivity),
    log_prd (bi + M) (bj + M) _ (by positivity) (by positivity) (by positivity), log_sqd M _ hM (by positivity),
    log_sqd M _ hM (by positivity), log_sqd (bi + M) _ (by positivity) (by positivity),
    log_sqd (bi + M) _ (by positivity) (by positivity), log_sqd (bj + M) _ (by positivity) (by positivity),
    log_sqd (bj + M) _ (by positivity) (by positivity)]
  ring

private lemma i1g_k {bi bj x : ℝ} (hi : 0 < bi) (hj : 0 < bj) (hx : 0 < x) (h : (bi + bj) * x ≤ 1) :
    i1g expi bi bj x = π / x * k1 bi bj x := by
  have hij : 0 < bi + bj := by positivity
  have le : ∀ a, 0 < a → a ≤ bi + bj → a * x ≤ 1 := fun a _ ha => (mul_le_mul_of_nonneg_right ha hx.le).trans h
  have b1 : bi * bj / (bi + bj) ≤ bi + bj := by rw [div_le_iff₀ hij]; nlinarith [mul_pos hi hj]
  have b2 : bi * bi / (bi + bj) ≤ bi + bj := by rw [div_le_iff₀ hij]; nlinarith [mul_pos hi hj]
  have b3 : bj * bj / (bi + bj) ≤ bi + bj := by rw [div_le_iff₀ hij]; nlinarith [mul_pos hi hj]
  unfold i1g k1
  rw [show -bi * bj * x / (bi + bj) = -(bi * bj / (bi + bj)) * x by ring,
    show bi * bi * x / (bi + bj) = bi * bi / (bi + bj) * x by ring,
    show bj * bj * x / (bi + bj) = bj * bj / (bi + bj) * x by ring,
    expi_neg' (by positivity) hx (le _ (by positivity) b1),
    rih1_v bi (by positivity) hi hx (le _ (by positivity) b2) (le _ hi (by linarith)),
    rih1_v bj (by positivity) hj hx (le _ (by positivity) b3) (le _ hj (by linarith)), log_mul hi.ne' hx.ne', log_mul hj.ne' hx.ne']
  ring

private lemma i2g_k {bi bj M x : ℝ} (hi : 0 < bi) (hj : 0 < bj) (hM : 0 < M) (hx : 0 < x) (h : (bi + bj + 2 * M) * x ≤ 1) :
    i2g expi bi bj M x = π / x * k2 bi bj M x := by
  have hs : 0 < bi + bj + 2 * M := by positivity
  have le : ∀ a, a ≤ bi + bj + 2 * M → a * x ≤ 1 := fun a ha => (mul_le_mul_of_nonneg_right ha hx.le).trans h
  have p1 := mul_pos hi hM
  have p2 := mul_pos hj hM
  have p3 := mul_pos hi hj
  have b1 : M * (bi + M) / (bi + 2 * M) ≤ bi + bj + 2 * M := by rw [div_le_iff₀ (by positivity)]; nlinarith
  have b2 : M * (bj + M) / (bj + 2 * M) ≤ bi + bj + 2 * M := by rw [div_le_iff₀ (by positivity)]; nlinarith
  have b3 : (bi + M) * (bj + M) / (bi + bj + 2 * M) ≤ bi + bj + 2 * M := by rw [div_le_iff₀ hs]; nlinarith
  have b4 : 0.5 * M ≤ bi + bj + 2 * M := by linarith
  have b5 : M * M / (bi + 2 * M) ≤ bi + bj + 2 * M := by rw [div_le_iff₀ (by positivity)]; nlinarith
  have b6 : M * M / (bj + 2 * M) ≤ bi + bj + 2 * M := by rw [div_le_iff₀ (by positivity)]; nlinarith
  have b7 : (bi + M) * (bi + M) / (bi + bj + 2 * M) ≤ bi + bj + 2 * M := by rw [div_le_iff₀ hs]; nlinarith
  have b8 : (bi + M) * (bi + M) / (bi + 2 * M) ≤ bi + bj + 2 * M := by rw [div_le_iff₀ (by positivity)]; nlinarith
  have b9 : (bj + M) * (bj + M) / (bi + bj + 2 * M) ≤ bi + bj + 2 * M := by rw [div_le_iff₀ hs]; nlinarith
  have b10 : (bj + M) * (bj + M) / (bj + 2 * M) ≤ bi + bj + 2 * M := by rw [div_le_iff₀ (by positivity)]; nlinarith
  unfold i2g k2
  dsimp only
  rw [show -M * (bi + M) * x / (bi + 2 * M) = -(M * (bi + M) / (bi + 2 * M)) * x by ring,
    show -M * (bj + M) * x / (bj + 2 * M) = -(M * (bj + M) / (bj + 2 * M)) * x by ring,
    show -(bi + M) * (bj + M) * x / (bi + bj + 2 * M) = -((bi + M) * (bj + M) / (bi + bj + 2 * M)) * x by ring,
    show (-0.5 : ℝ) * M * x = -(0.5 * M) * x by ring,
    show M * M * x / (bi + 2 * M) = M * M / (bi + 2 * M) * x by ring,
    show M * M * x / (bj + 2 * M) = M * M / (bj + 2 * M) * x by ring,
    show (bi + M) * (bi + M) * x / (bi + bj + 2 * M) = (bi + M) * (bi + M) / (bi + bj + 2 * M) * x by ring,
    show (bi + M) * (bi + M) * x / (bi + 2 * M) = (bi + M) * (bi + M) / (bi + 2 * M) * x by ring,
    show (bj + M) * (bj + M) * x / (bi + bj + 2 * M) = (bj + M) * (bj + M) / (bi + bj + 2 * M) * x by ring,
    show (bj + M) * (bj + M) * x / (bj + 2 * M) = (bj + M) * (bj + M) / (bj + 2 * M) * x by ring,
    expi_neg' (by positivity) hx (le _ b1), expi_neg' (by positivity) hx (le _ b2), expi_neg' (by positivity) hx (le _ b3),
    expi_neg' (by positivity) hx (le _ b4), rih1_v M (by positivity) (by positivity) hx (le _ b4) (le _ b5),
    rih1_v M (by positivity) (by positivity) hx (le _ b4) (le _ b6),
    rih1_v (bi + M) (by positivity) (by positivity) hx (le _ b7) (le _ b8),
    rih1_v (bj + M) (by positivity) (by positivity) hx (le _ b9) (le _ b10)]
  ring

private lemma pair_scaled {f : Fit} (hB : ∀ k, 0 < f.B k) {M : ℝ} (hM : 0 < M) (ij : Fin 4 × Fin 4) :
    Tendsto (fun G => G ^ 2 * pairTerm expi f M G ij) (𝓝[≠] 0) (𝓝 ((if ij.1 = ij.2 then 1 else 2) * (f.A ij.1 * f.A ij.2) *
      ((4 * π) ^ 4 * (π * (2 * (0.57721566490153286060651209008240243 - u 0)))))) := by
  have hp : (0 : ℝ) < (4 * π) ^ 2 := by positivity
  obtain ⟨bi, hbi⟩ : ∃ b, b = f.B ij.1 / (4 * π) ^ 2 := ⟨_, rfl⟩
  obtain ⟨bj, hbj⟩ : ∃ b, b = f.B ij.2 / (4 * π) ^ 2 := ⟨_, rfl⟩
  have hi : 0 < bi := hbi ▸ div_pos (hB _) hp
  have hj : 0 < bj := hbj ▸ div_pos (hB _) hp
  have sq : Tendsto (fun G : ℝ => G ^ 2) (𝓝[≠] 0) (𝓝 0) := by
    have : Continuous fun G : ℝ => G ^ 2 := by fun_prop
    have := (this.tendsto 0).mono_left (nhdsWithin_le_nhds (s := {0}ᶜ))
    simpa using this
  have t1 := (k1_tendsto hi hj).comp sq
  have t2 := (k2_tendsto hi hj hM).comp sq
  have t3 : Tendsto (fun G : ℝ => exp (-M * G ^ 2)) (𝓝[≠] 0) (𝓝 1) := by
    have : Continuous fun x : ℝ => exp (-M * x) := by fun_prop
    have := (this.tendsto 0).comp sq
    simp only [mul_zero, exp_zero] at this
    exact this
  have lim := (((t3.mul t1).sub t2).const_mul π).const_mul
    ((if ij.1 = ij.2 then 1 else 2) * (f.A ij.1 * (4 * π) ^ 2) * (f.A ij.2 * (4 * π) ^ 2))
  have small : ∀ᶠ G in 𝓝[≠] (0 : ℝ), (bi + bj + 2 * M) * G ^ 2 ≤ 1 := by
    have := (sq.const_mul (bi + bj + 2 * M))
    rw [mul_zero] at this
    exact this.eventually_le_const (by norm_num)
  have lim' := lim.congr' (f₂ := fun G => G ^ 2 * pairTerm expi f M G ij) ?_
  · convert lim' using 2
    ring
  · filter_upwards [small, self_mem_nhdsWithin] with G hs hG
    have hG : G ≠ 0 := hG
    have hx : 0 < G ^ 2 := by positivity
    unfold pairTerm
    simp only [if_neg hG, ← hbi, ← hbj]
    rw [i1g_k hi hj hx (le_trans (by nlinarith) hs), i2g_k hi hj hM hx hs]
    simp only [Function.comp]
    field_simp

/-- C111 fails for the code as it is: the constant of the rational approximation of the exponential integral near zero differs
from the Euler constant used next to it by 2e-18, and the difference is divided by `G²`: for every element 1-98 and every nonzero
displacement the computed thermal diffuse term grows beyond all bounds as the scattering magnitude tends to zero, in place
of approaching its value at zero. -/
theorem C111_continuous_fails (Z : ℤ) (h1 : 1 ≤ Z) (h2 : Z ≤ 98) (σ : ℝ) (hσ : σ ≠ 0) :
    ∃ F : ℝ → ℝ, (∀ G, fPhon expi (wkRow (Z - 1).toNat) σ G = some (F G)) ∧ Tendsto F (𝓝[≠] 0) atTop ∧ ¬ ContinuousAt F 0 := by
  have hAB : (∀ k, 0 < (wkRow (Z - 1).toNat).B k) ∧ ∑ k, (wkRow (Z - 1).toNat).A k ≠ 0 := by
    by_cases h : Z = 2
    · subst h
      have hB : (wkRow 1).B = ![1.83008, 7.20225, 16.13585, 18.75551] := by
        funext k; fin_cases k <;> simp [wkRow, wkB] <;> norm_num
      have hA : (wkRow 1).A = ![0.01217, 0.02616, -0.00884, 0.01841] := by
        funext k; fin_cases k <;> simp [wkRow, wkA] <;> norm_num
      constructor
      · intro k
        change 0 < (wkRow 1).B k
        rw [hB]
        fin_cases k <;> simp <;> norm_num
      · change ∑ k, (wkRow 1).A k ≠ 0
        rw [hA]
        simp [Fin.sum_univ_four]
        norm_num
    · obtain ⟨ha, hb⟩ := rows_pos (i := (Z - 1).toNat) (by omega) (by omega)
      exact ⟨hb, (Finset.sum_pos (fun k _ => ha k) ⟨0, Finset.mem_univ _⟩).ne'⟩
  obtain ⟨hB, hA⟩ := hAB
  generalize wkRow (Z - 1).toNat = f at *
  obtain ⟨F, hF⟩ : ∃ F : ℝ → ℝ, F = fun G => (pairs.map (pairTerm expi f (0.5 * σ ^ 2) G)).sum := ⟨_, rfl⟩
  have key := fun ij => pair_scaled (f := f) hB (show 0 < 0.5 * σ ^ 2 by positivity) ij
  have gap : 0 < 0.57721566490153286060651209008240243 - u 0 := by rw [u_zero]; norm_num
  obtain ⟨L, hL⟩ : ∃ L, L = (∑ k, f.A k) ^ 2 * ((4 * π) ^ 4 * (π * (2 * (0.57721566490153286060651209008240243 - u 0)))) := ⟨_, rfl⟩
  have hLpos : 0 < L := by
    have := pi_pos
    have : 0 < (∑ k, f.A k) ^ 2 := by positivity
    rw [hL]; positivity
  have hlim : Tendsto (fun G => G ^ 2 * F G) (𝓝[≠] 0) (𝓝 L) := by
    have := ((key (0, 0)).add ((key (0, 1)).add ((key (0, 2)).add ((key (0, 3)).add ((key (1, 1)).add ((key (1, 2)).add
      ((key (1, 3)).add ((key (2, 2)).add ((key (2, 3)).add (key (3, 3)))))))))))
    convert this using 2
    · rw [hF]
      simp only [pairs, List.map_cons, List.map_nil, List.sum_cons, List.sum_nil]
      ring
    · have i1 : ¬ ((0 : Fin 4) = 1) := by decide
      have i2 : ¬ ((0 : Fin 4) = 2) := by decide
      have i3 : ¬ ((0 : Fin 4) = 3) := by decide
      have i4 : ¬ ((1 : Fin 4) = 2) := by decide
      have i5 : ¬ ((1 : Fin 4) = 3) := by decide
      have i6 : ¬ ((2 : Fin 4) = 3) := by decide
      simp only [if_true, if_neg i1, if_neg i2, if_neg i3, if_neg i4, if_neg i5, if_neg i6]
      rw [hL, Fin.sum_univ_four]
      ring
  have inv : Tendsto (fun G : ℝ => (G ^ 2)⁻¹) (𝓝[≠] 0) atTop := by
    apply tendsto_inv_nhdsGT_zero.comp
    rw [tendsto_nhdsWithin_iff]
    constructor
    · have : Continuous fun G : ℝ => G ^ 2 := by fun_prop
      have := (this.tendsto 0).mono_left (nhdsWithin_le_nhds (s := {0}ᶜ))
      simpa using this
    · filter_upwards [self_mem_nhdsWithin] with G hG
      have hG : G ≠ 0 := hG
      exact Set.mem_Ioi.mpr (by positivity)
  have top : Tendsto F (𝓝[≠] 0) atTop := by
    have := hlim.pos_mul_atTop hLpos inv
    refine this.congr' ?_
    filter_upwards [self_mem_nhdsWithin] with G hG
    have hG : G ≠ 0 := hG
    field_simp
  refine ⟨F, fun G => by unfold fPhon; rw [if_neg hσ, hF], top, ?_⟩
  intro hc
  exact not_tendsto_nhds_of_tendsto_atTop top _ (hc.tendsto.mono_left nhdsWithin_le_nhds)

/-- The hypotheses hold for iron at a displacement of 0.08. -/
example : ∃ F : ℝ → ℝ, (∀ G, fPhon expi (wkRow 25) 0.08 G = some (F G)) ∧ Tendsto F (𝓝[≠] 0) atTop ∧ ¬ ContinuousAt F 0 :=
  C111_continuous_fails 26 (by norm_num) (by norm_num) 0.08 (by norm_num)

end Verif.Scat
