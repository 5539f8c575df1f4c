import Verif.Props.Scatter
import Verif.Lemmas.Ei
/-!
C111: the two formulas for thermal absorption (zero and nonzero scattering) fit together.
-/
namespace Verif.Scat
open Real Verif.Spec.Scatter Verif.Ei Filter Topology

private lemma ein_lin (a : ℝ) : HasDerivAt (fun x => ein (a * x)) a 0 := by
  have h1 : HasDerivAt (fun x : ℝ => a * x) a 0 := by simpa using (hasDerivAt_id (0 : ℝ)).const_mul a
  have h2 : HasDerivAt ein 1 (a * 0) := by rw [mul_zero]; exact hasDerivAt_ein_zero
  have h := h2.comp (0 : ℝ) h1
  rw [one_mul] at h
  exact h

private lemma exp_lin (b : ℝ) : HasDerivAt (fun x => exp (-(b * x))) (-b) 0 := by
  have h1 : HasDerivAt (fun x : ℝ => -(b * x)) (-b) 0 := by
    have h := ((hasDerivAt_id (0 : ℝ)).const_mul b).neg
    rw [mul_one] at h
    exact h
  have := h1.exp
  simpa using this

/-- The smooth form of `RIH1`. -/
private noncomputable def rs (b α β x : ℝ) : ℝ := exp (-(b * x)) * (log α - log β + ein (α * x) - ein (β * x))

private lemma rs_zero (b α β : ℝ) : rs b α β 0 = log α - log β := by
  unfold rs; simp [ein_zero]

private lemma rs_deriv (b α β : ℝ) : HasDerivAt (rs b α β) (-b * (log α - log β) + (α - β)) 0 := by
  have h := (exp_lin b).mul ((((ein_lin α).const_add (log α - log β))).sub (ein_lin β))
  have e : -b * (log α - log β + ein (α * 0) - ein (β * 0)) + exp (-(b * 0)) * (α - β) = -b * (log α - log β) + (α - β) := by
    simp [ein_zero]
  have h' : HasDerivAt (rs b α β) (-b * (log α - log β + ein (α * 0) - ein (β * 0)) + exp (-(b * 0)) * (α - β)) 0 := h
  rwa [e] at h'

private lemma rih1_eq (c b : ℝ) {α β x : ℝ} (hα : 0 < α) (hβ : 0 < β) (hx : 0 < x) (h1 : α * x ≤ 20) (h2 : β * x ≤ 20) :
    rih1 (eiWith c) (b * x) (α * x) (β * x) = rs b α β x := by
  unfold rih1 rs
  rw [if_pos ⟨h1, h2⟩, eiWith_eq, eiWith_eq, abs_of_pos (mul_pos hα hx), abs_of_pos (mul_pos hβ hx), log_mul hα.ne' hx.ne',
    log_mul hβ.ne' hx.ne']
  ring

private lemma ei_neg (c : ℝ) {β x : ℝ} (hβ : 0 < β) (hx : 0 < x) : eiWith c (-β * x) = c + log β + log x + ein (-β * x) := by
  rw [eiWith_eq, neg_mul, abs_neg, abs_of_pos (mul_pos hβ hx), log_mul hβ.ne' hx.ne']
  ring

/-- Smooth form of the bracket of `I1_g`. -/
private noncomputable def h1 (bi bj x : ℝ) : ℝ :=
  log bi + log bj - 2 * log (bi * bj / (bi + bj)) - 2 * ein (-(bi * bj / (bi + bj)) * x)
    + rs bi (bi * bi / (bi + bj)) bi x + rs bj (bj * bj / (bi + bj)) bj x

/-- Smooth form of the bracket of `I2_g`. -/
private noncomputable def h2 (bi bj M x : ℝ) : ℝ :=
  2 * (log (M * (bi + M) / (bi + 2 * M)) + log (M * (bj + M) / (bj + 2 * M))
      - log ((bi + M) * (bj + M) / (bi + bj + 2 * M)) - log (0.5 * M))
    + 2 * (ein (-(M * (bi + M) / (bi + 2 * M)) * x) + ein (-(M * (bj + M) / (bj + 2 * M)) * x)
      - ein (-((bi + M) * (bj + M) / (bi + bj + 2 * M)) * x) - ein (-(0.5 * M) * x))
    + rs M (0.5 * M) (M * M / (bi + 2 * M)) x + rs M (0.5 * M) (M * M / (bj + 2 * M)) x
    + rs (bi + M) ((bi + M) * (bi + M) / (bi + bj + 2 * M)) ((bi + M) * (bi + M) / (bi + 2 * M)) x
    + rs (bj + M) ((bj + M) * (bj + M) / (bi + bj + 2 * M)) ((bj + M) * (bj + M) / (bj + 2 * M)) x

private lemma h1_zero {bi bj : ℝ} (hi : 0 < bi) (hj : 0 < bj) : h1 bi bj 0 = 0 := by
  unfold h1
  rw [rs_zero, rs_zero, mul_zero, ein_zero, log_div (by positivity) (by positivity), log_div (by positivity) (by positivity),
    log_div (by positivity) (by positivity), log_mul hi.ne' hj.ne', log_mul hi.ne' hi.ne', log_mul hj.ne' hj.ne']
  ring

private lemma h1_deriv {bi bj : ℝ} (hi : 0 < bi) (hj : 0 < bj) : HasDerivAt (h1 bi bj) (i1zero bi bj / π) 0 := by
  have h := ((((ein_lin (-(bi * bj / (bi + bj)))).const_mul 2).const_sub
    (log bi + log bj - 2 * log (bi * bj / (bi + bj)))).add (rs_deriv bi (bi * bi / (bi + bj)) bi)).add
    (rs_deriv bj (bj * bj / (bi + bj)) bj)
  have h' : HasDerivAt (h1 bi bj) _ 0 := h
  convert h' using 1
  unfold i1zero
  rw [mul_div_cancel_left₀ _ pi_ne_zero, log_div (by positivity) (by positivity), log_div (by positivity) (by positivity),
    log_div (by positivity) (by positivity), log_div (by positivity) (by positivity), log_mul hi.ne' hi.ne',
    log_mul hj.ne' hj.ne']
  field_simp
  ring

private lemma h2_zero {bi bj M : ℝ} (hi : 0 < bi) (hj : 0 < bj) (hM : 0 < M) : h2 bi bj M 0 = 0 := by
  unfold h2
  have e : (0.5 : ℝ) * M = M / 2 := by norm_num; ring
  rw [e]
  simp only [rs_zero, mul_zero, ein_zero]
  have a1 : log (M * (bi + M) / (bi + 2 * M)) = log M + log (bi + M) - log (bi + 2 * M) := by
    rw [log_div (by positivity) (by positivity), log_mul (by positivity) (by positivity)]
  have a2 : log (M * (bj + M) / (bj + 2 * M)) = log M + log (bj + M) - log (bj + 2 * M) := by
    rw [log_div (by positivity) (by positivity), log_mul (by positivity) (by positivity)]
  have a3 : log ((bi + M) * (bj + M) / (bi + bj + 2 * M)) = log (bi + M) + log (bj + M) - log (bi + bj + 2 * M) := by
    rw [log_div (by positivity) (by positivity), log_mul (by positivity) (by positivity)]
  have a4 : log (M / 2) = log M - log 2 := log_div (by positivity) (by positivity)
  have a5 : log (M * M / (bi + 2 * M)) = log M + log M - log (bi + 2 * M) := by
    rw [log_div (by positivity) (by positivity), log_mul (by positivity) (by positivity)]
  have a6 : log (M * M / (bj + 2 * M)) = log M + log M - log (bj + 2 * M) := by
    rw [log_div (by positivity) (by positivity), log_mul (by positivity) (by positivity)]
  have a7 : ∀ c d : ℝ, 0 < c → 0 < d → log (c * c / d) = log c + log c - log d := by
    intro c d hc hd
    rw [log_div (by positivity) (by positivity), log_mul (by positivity) (by positivity)]
  rw [a1, a2, a3, a4, a5, a6, a7 _ _ (by positivity) (by positivity), a7 _ _ (by positivity) (by positivity),
    a7 _ _ (by positivity) (by positivity), a7 _ _ (by positivity) (by positivity)]
  ring

set_option maxHeartbeats 1600000 in
private lemma h2_deriv {bi bj M : ℝ} (hi : 0 < bi) (hj : 0 < bj) (hM : 0 < M) :
    HasDerivAt (h2 bi bj M) (i2zero bi bj M / π) 0 := by
  have h := ((((((((ein_lin (-(M * (bi + M) / (bi + 2 * M)))).add (ein_lin (-(M * (bj + M) / (bj + 2 * M))))).sub
    (ein_lin (-((bi + M) * (bj + M) / (bi + bj + 2 * M))))).sub (ein_lin (-(0.5 * M)))).const_mul 2).const_add
    (2 * (log (M * (bi + M) / (bi + 2 * M)) + log (M * (bj + M) / (bj + 2 * M))
      - log ((bi + M) * (bj + M) / (bi + bj + 2 * M)) - log (0.5 * M)))).add
    (rs_deriv M (0.5 * M) (M * M / (bi + 2 * M)))).add (rs_deriv M (0.5 * M) (M * M / (bj + 2 * M)))).add
    (rs_deriv (bi + M) ((bi + M) * (bi + M) / (bi + bj + 2 * M)) ((bi + M) * (bi + M) / (bi + 2 * M)))
  have h := h.add (rs_deriv (bj + M) ((bj + M) * (bj + M) / (bi + bj + 2 * M)) ((bj + M) * (bj + M) / (bj + 2 * M)))
  have h' : HasDerivAt (h2 bi bj M) _ 0 := h
  convert h' using 1
  have e : (0.5 : ℝ) * M = M / 2 := by norm_num; ring
  rw [e]
  unfold i2zero
  have a4 : log (M / 2) = log M - log 2 := log_div (by positivity) (by positivity)
  have a7 : ∀ c d : ℝ, 0 < c → 0 < d → log (c * c / d) = log c + log c - log d := by
    intro c d hc hd
    rw [log_div (by positivity) (by positivity), log_mul (by positivity) (by positivity)]
  rw [mul_div_cancel_left₀ _ pi_ne_zero, a4, a7 _ _ hM (by positivity), a7 _ _ hM (by positivity),
    a7 _ _ (by positivity) (by positivity), a7 _ _ (by positivity) (by positivity),
    a7 _ _ (by positivity) (by positivity), a7 _ _ (by positivity) (by positivity),
    log_div (by positivity) (by positivity), log_div (by positivity) (by positivity), log_div (by positivity) (by positivity),
    log_mul (by positivity) (by positivity)]
  have r : 2 * (-(M * (bi + M) / (bi + 2 * M)) + -(M * (bj + M) / (bj + 2 * M)) - -((bi + M) * (bj + M) / (bi + bj + 2 * M))
      - -(M / 2)) + (M / 2 - M * M / (bi + 2 * M)) + (M / 2 - M * M / (bj + 2 * M))
      + ((bi + M) * (bi + M) / (bi + bj + 2 * M) - (bi + M) * (bi + M) / (bi + 2 * M))
      + ((bj + M) * (bj + M) / (bi + bj + 2 * M) - (bj + M) * (bj + M) / (bj + 2 * M)) = 0 := by
    have d1 : bi + 2 * M ≠ 0 := by positivity
    have d2 : bj + 2 * M ≠ 0 := by positivity
    have d3 : bi + bj + 2 * M ≠ 0 := by positivity
    field_simp
    ring
  linear_combination -r

private lemma i1g_eq {bi bj x : ℝ} (hi : 0 < bi) (hj : 0 < bj) (hx : 0 < x) (s1 : bi * x ≤ 20) (s2 : bj * x ≤ 20) :
    i1g (eiWith 0.57721566490153286060651209008240243) bi bj x = π * (h1 bi bj x / x) := by
  have hs : 0 < bi + bj := by positivity
  have r1 : bi * bi / (bi + bj) * x ≤ 20 := by
    refine le_trans (mul_le_mul_of_nonneg_right ?_ hx.le) s1
    rw [div_le_iff₀ hs]; nlinarith
  have r2 : bj * bj / (bi + bj) * x ≤ 20 := by
    refine le_trans (mul_le_mul_of_nonneg_right ?_ hx.le) s2
    rw [div_le_iff₀ hs]; nlinarith
  unfold i1g h1
  rw [show -bi * bj * x / (bi + bj) = -(bi * bj / (bi + bj)) * x by ring, ei_neg _ (by positivity) hx,
    show bi * bi * x / (bi + bj) = bi * bi / (bi + bj) * x by ring, show bj * bj * x / (bi + bj) = bj * bj / (bi + bj) * x by ring,
    rih1_eq _ _ (by positivity) hi hx r1 s1, rih1_eq _ _ (by positivity) hj hx r2 s2, log_mul hi.ne' hx.ne', log_mul hj.ne' hx.ne']
  ring

private lemma i2g_eq {bi bj M x c : ℝ} (hi : 0 < bi) (hj : 0 < bj) (hM : 0 < M) (hx : 0 < x) (s : (bi + bj + 2 * M) * x ≤ 20) :
    i2g (eiWith c) bi bj M x = π * (h2 bi bj M x / x) := by
  have le : ∀ {a : ℝ}, a ≤ bi + bj + 2 * M → a * x ≤ 20 := fun ha => le_trans (mul_le_mul_of_nonneg_right ha hx.le) s
  have fr : ∀ {a d : ℝ}, 0 < a → a ≤ d → d ≤ bi + bj + 2 * M → a * a / d ≤ bi + bj + 2 * M := by
    intro a d ha hd h
    rw [div_le_iff₀ (by linarith)]
    nlinarith
  unfold i2g h2
  dsimp only
  rw [show -M * (bi + M) * x / (bi + 2 * M) = -(M * (bi + M) / (bi + 2 * M)) * x by ring,
    show -M * (bj + M) * x / (bj + 2 * M) = -(M * (bj + M) / (bj + 2 * M)) * x by ring,
    show -(bi + M) * (bj + M) * x / (bi + bj + 2 * M) = -((bi + M) * (bj + M) / (bi + bj + 2 * M)) * x by ring,
    show -0.5 * M * x = -(0.5 * M) * x by ring, ei_neg _ (by positivity) hx, ei_neg _ (by positivity) hx,
    ei_neg _ (by positivity) hx, ei_neg _ (by positivity) hx,
    show M * M * x / (bi + 2 * M) = M * M / (bi + 2 * M) * x by ring,
    show M * M * x / (bj + 2 * M) = M * M / (bj + 2 * M) * x by ring,
    show (bi + M) * (bi + M) * x / (bi + bj + 2 * M) = (bi + M) * (bi + M) / (bi + bj + 2 * M) * x by ring,
    show (bj + M) * (bj + M) * x / (bi + bj + 2 * M) = (bj + M) * (bj + M) / (bi + bj + 2 * M) * x by ring,
    show (bi + M) * (bi + M) * x / (bi + 2 * M) = (bi + M) * (bi + M) / (bi + 2 * M) * x by ring,
    show (bj + M) * (bj + M) * x / (bj + 2 * M) = (bj + M) * (bj + M) / (bj + 2 * M) * x by ring,
    rih1_eq _ _ (by positivity) (by positivity) hx (le (by norm_num; linarith)) (le (fr hM (by linarith) (by linarith))),
    rih1_eq _ _ (by positivity) (by positivity) hx (le (by norm_num; linarith)) (le (fr hM (by linarith) (by linarith))),
    rih1_eq _ _ (by positivity) (by positivity) hx (le (fr (by positivity) (by linarith) (by linarith)))
      (le (fr (by positivity) (by linarith) (by linarith))),
    rih1_eq _ _ (by positivity) (by positivity) hx (le (fr (by positivity) (by linarith) (by linarith)))
      (le (fr (by positivity) (by linarith) (by linarith)))]
  ring

private lemma sq_tendsto : Tendsto (fun G : ℝ => G ^ 2) (𝓝[≠] 0) (𝓝[>] 0) := by
  apply tendsto_nhdsWithin_of_tendsto_nhds_of_eventually_within
  · have : Tendsto (fun G : ℝ => G ^ 2) (𝓝 0) (𝓝 (0 ^ 2)) := (continuous_pow 2).tendsto 0
    rw [zero_pow (by norm_num)] at this
    exact this.mono_left nhdsWithin_le_nhds
  · filter_upwards [self_mem_nhdsWithin] with G hG
    have : G ≠ 0 := hG
    exact (by positivity : 0 < G ^ 2)

private lemma slope_tendsto {h : ℝ → ℝ} {d : ℝ} (h0 : h 0 = 0) (hd : HasDerivAt h d 0) :
    Tendsto (fun x => h x / x) (𝓝[>] 0) (𝓝 d) := by
  have := hasDerivAt_iff_tendsto_slope.mp hd
  have t : Tendsto (slope h 0) (𝓝[>] 0) (𝓝 d) := this.mono_left (nhdsWithin_mono _ fun x hx => ne_of_gt hx)
  refine t.congr fun x => ?_
  rw [slope_def_field, h0, sub_zero, sub_zero]

private lemma pair_tendsto {f : Fit} (hB : ∀ k, 0 < f.B k) {M : ℝ} (hM : 0 < M) (ij : Fin 4 × Fin 4) :
    ContinuousAt (fun G => pairTerm (eiWith 0.57721566490153286060651209008240243) f M G ij) 0 := by
  rw [continuousAt_iff_punctured_nhds]
  set c : ℝ := 0.57721566490153286060651209008240243 with hc
  have hp : (0 : ℝ) < (4 * π) ^ 2 := by positivity
  set bi := f.B ij.1 / (4 * π) ^ 2 with hbi
  set bj := f.B ij.2 / (4 * π) ^ 2 with hbj
  have hi : 0 < bi := div_pos (hB _) hp
  have hj : 0 < bj := div_pos (hB _) hp
  have t1 := ((slope_tendsto (h1_zero hi hj) (h1_deriv hi hj)).const_mul π).comp sq_tendsto
  have t2 := ((slope_tendsto (h2_zero hi hj hM) (h2_deriv hi hj hM)).const_mul π).comp sq_tendsto
  rw [mul_div_cancel₀ _ pi_ne_zero] at t1 t2
  have t3 : Tendsto (fun G : ℝ => exp (-M * G ^ 2)) (𝓝[≠] 0) (𝓝 1) := by
    have : Continuous fun G : ℝ => exp (-M * G ^ 2) := by fun_prop
    have := this.tendsto 0
    simp only [ne_eq, OfNat.ofNat_ne_zero, not_false_eq_true, zero_pow, mul_zero, exp_zero] at this
    exact this.mono_left nhdsWithin_le_nhds
  have small : ∀ᶠ G : ℝ in 𝓝[≠] 0, (bi + bj + 2 * M) * G ^ 2 ≤ 20 := by
    have : Continuous fun G : ℝ => (bi + bj + 2 * M) * G ^ 2 := by fun_prop
    have ev : ∀ᶠ G : ℝ in 𝓝 0, (bi + bj + 2 * M) * G ^ 2 < 20 :=
      this.continuousAt.eventually_lt continuousAt_const (by simp)
    exact (ev.filter_mono nhdsWithin_le_nhds).mono fun G h => h.le
  have lim := ((t3.mul t1).sub t2).const_mul
    ((if ij.1 = ij.2 then 1 else 2) * (f.A ij.1 * (4 * π) ^ 2) * (f.A ij.2 * (4 * π) ^ 2))
  have e0 : pairTerm (eiWith c) f M 0 ij = (if ij.1 = ij.2 then 1 else 2) * (f.A ij.1 * (4 * π) ^ 2) * (f.A ij.2 * (4 * π) ^ 2) *
      (1 * i1zero bi bj - i2zero bi bj M) := by
    unfold pairTerm
    simp only [if_true, ne_eq, OfNat.ofNat_ne_zero, not_false_eq_true, zero_pow, mul_zero, exp_zero, ← hbi, ← hbj]
  rw [e0]
  refine lim.congr' ?_
  filter_upwards [small, self_mem_nhdsWithin] with G hs hG
  have hG : G ≠ 0 := hG
  have hx : 0 < G ^ 2 := by positivity
  unfold pairTerm
  simp only [if_neg hG, ← hbi, ← hbj]
  rw [i1g_eq hi hj hx (le_trans (by nlinarith) hs) (le_trans (by nlinarith) hs), i2g_eq hi hj hM hx hs]
  rfl

/-- C111, what holds: with the exact exponential integral in the place of its rational approximation, the thermal diffuse absorption of every
element 1-98 and every nonzero displacement is continuous at zero scattering: the separate formula used for `g = 0` is the
limit of the formula used for `g ≠ 0`. -/
theorem C111_continuous_partial (Z : ℤ) (h1 : 1 ≤ Z) (h2 : Z ≤ 98) (σ : ℝ) (hσ : σ ≠ 0) :
    ∃ F : ℝ → ℝ, (∀ G, fPhon (eiWith 0.57721566490153286060651209008240243) (wkRow (Z - 1).toNat) σ G = some (F G)) ∧
      ContinuousAt F 0 := by
  have hB : ∀ k, 0 < (wkRow (Z - 1).toNat).B k := by
    by_cases h : Z = 2
    · subst h
      have hB : (wkRow 1).B = ![1.83008, 7.20225, 16.13585, 18.75551] := by
        funext k; fin_cases k <;> simp [wkRow, wkB] <;> norm_num
      intro k
      change 0 < (wkRow 1).B k
      rw [hB]
      fin_cases k <;> simp <;> norm_num
    · exact (rows_pos (i := (Z - 1).toNat) (by omega) (by omega)).2
  refine ⟨fun G => (pairs.map (pairTerm (eiWith 0.57721566490153286060651209008240243) (wkRow (Z - 1).toNat) (0.5 * σ ^ 2) G)).sum,
    fun G => by unfold fPhon; rw [if_neg hσ], ?_⟩
  have key := fun ij => pair_tendsto hB (show 0 < 0.5 * σ ^ 2 by positivity) ij
  simp only [pairs, List.map_cons, List.map_nil, List.sum_cons, List.sum_nil]
  exact (key _).add ((key _).add ((key _).add ((key _).add ((key _).add ((key _).add ((key _).add ((key _).add ((key _).add
    ((key _).add continuousAt_const)))))))))

/-- The hypotheses hold for iron at a displacement of 0.08. -/
example : ∃ F : ℝ → ℝ, (∀ G, fPhon (eiWith 0.57721566490153286060651209008240243) (wkRow 25) 0.08 G = some (F G)) ∧
    ContinuousAt F 0 := C111_continuous_partial 26 (by norm_num) (by norm_num) 0.08 (by norm_num)

end Verif.Scat
