import Verif.Lemmas.EiFit3
import Verif.Props.ScatterRih
/-!
C116: accuracy of the rational approximations of the exponential integral, /repo
ebsdtorch/crystallography/scattering_factors/scattering_factors_WK.py `exp1`, `expi`.
C117: accuracy of `RIH1_torch_where` where it does not use the table of `RIH2_torch`.
-/
namespace Verif.Scat
open Real Filter Verif.Spec.Scatter Verif.EiFit
open scoped Topology

/-- What the specification is: an antiderivative of `e^x / x` on both half lines that vanishes at minus infinity. -/
theorem expInt_spec : (∀ x : ℝ, x ≠ 0 → HasDerivAt expInt (exp x / x) x) ∧ Tendsto expInt atBot (𝓝 0) := by
  refine ⟨fun x hx => Verif.Ei.hasDerivAt_eiWith _ hx, ?_⟩
  have h := Verif.Ei.tendsto_eiWith_neg.comp tendsto_neg_atBot_atTop
  refine h.congr fun x => ?_
  simp [expInt]

/-- C116, what holds: up to 20 the value returned is the exponential integral, to `1e-15 e^x` below -1, to `6e-15` on [-1, 6]
and to 15 parts in `10^15` on (6, 20]. -/
theorem C116_expi_partial (x : ℝ) (h0 : x ≠ 0) (h20 : x ≤ 20) :
    (x < -1 → |expi x - expInt x| ≤ 1e-15 * exp x) ∧
    (-1 ≤ x → x ≤ 6 → |expi x - expInt x| ≤ 6e-15) ∧
    (6 < x → |expi x - expInt x| ≤ 15e-15 * expInt x) := by
  refine ⟨fun h => ?_, fun h h' => ?_, fun h => ?_⟩
  · refine (expi_below h).trans (le_of_eq ?_); norm_num
  · rcases h0.lt_or_gt with hn | hp
    · refine (expi_small_neg h hn).trans ?_; norm_num
    · refine (expi_mid hp h').trans ?_; norm_num
  · refine (expi_large h h20).trans (le_of_eq ?_); norm_num [expInt]

/-- C116 fails above 20 (the branch of Boost for (20, 40] is missing and the one for arguments above 40 is used in its place):
next to 20 the value returned is too large by more than eight parts in ten million. -/
theorem C116_expi_fails : ∃ x : ℝ, 20 < x ∧ x < 21 ∧ 8e-7 * expInt x < expi x - expInt x := by
  have hc : ContinuousAt (fun x => last x - expInt x - 8 / 10 ^ 7 * expInt x) 20 := by
    have h1 : ContinuousAt expInt 20 := (Verif.Ei.hasDerivAt_eiWith _ (by norm_num : (20 : ℝ) ≠ 0)).continuousAt
    have hh : ∀ c : List ℝ, Continuous fun x => horner c x := by
      intro c
      unfold horner
      induction c with
      | nil => exact continuous_const
      | cons a c ih => exact (ih.mul continuous_id).add continuous_const
    have hi : ContinuousAt (fun x : ℝ => 1 / x) 20 := continuousAt_const.div continuousAt_id (by norm_num)
    have hq : horner eiQ4 (1 / 20) ≠ 0 := by simp only [horner, eiQ4, List.foldr]; norm_num
    have h2 : ContinuousAt last 20 := by
      unfold last
      exact ((continuousAt_const.add (((hh eiP4).continuousAt.comp hi).div ((hh eiQ4).continuousAt.comp hi) hq)).mul
        (continuous_exp.continuousAt.div continuousAt_id (by norm_num))).add continuousAt_id
    exact (h2.sub h1).sub (continuousAt_const.mul h1)
  have hp : 0 < last 20 - expInt 20 - 8 / 10 ^ 7 * expInt 20 := by
    have := last_twenty
    unfold expInt
    linarith
  obtain ⟨δ, hδ, hb⟩ := Metric.eventually_nhds_iff.mp (hc.eventually (lt_mem_nhds hp))
  have hx : dist (20 + min (δ / 2) (1 / 2)) (20 : ℝ) < δ := by
    rw [dist_eq, add_sub_cancel_left, abs_of_pos (by positivity)]
    exact (min_le_left _ _).trans_lt (by linarith)
  have h := hb hx
  have h3 : 0 < min (δ / 2) (1 / 2) := by positivity
  have h4 : min (δ / 2) (1 / 2) ≤ 1 / 2 := min_le_right _ _
  refine ⟨20 + min (δ / 2) (1 / 2), by linarith, by linarith, ?_⟩
  rw [expi, if_neg (by linarith), if_neg (by linarith), if_neg (by linarith), if_neg (by linarith)]
  unfold last at h
  norm_num at h ⊢
  linarith

example : |expi (-3) - expInt (-3)| ≤ 1e-15 * exp (-3) := (C116_expi_partial (-3) (by norm_num) (by norm_num)).1 (by norm_num)
example : |expi 2 - expInt 2| ≤ 6e-15 := (C116_expi_partial 2 (by norm_num) (by norm_num)).2.1 (by norm_num) (by norm_num)
example : |expi 15 - expInt 15| ≤ 15e-15 * expInt 15 := (C116_expi_partial 15 (by norm_num) (by norm_num)).2.2 (by norm_num)

/-- The exponential integral increases on the positive half line. -/
lemma expInt_mono {x y : ℝ} (hx : 0 < x) (hxy : x ≤ y) : expInt x ≤ expInt y := by
  have : MonotoneOn expInt (Set.Ici x) := by
    apply monotoneOn_of_deriv_nonneg (convex_Ici x)
    · intro z hz
      exact (expInt_spec.1 z (by have : x ≤ z := hz; linarith)).continuousAt.continuousWithinAt
    · intro z hz
      rw [interior_Ici] at hz
      exact (expInt_spec.1 z (by have : x < z := hz; linarith)).differentiableAt.differentiableWithinAt
    · intro z hz
      rw [interior_Ici] at hz
      have hz : x < z := hz
      rw [(expInt_spec.1 z (by linarith)).deriv]
      exact div_nonneg (exp_pos z).le (by linarith)
  exact this (Set.mem_Ici.mpr le_rfl) (Set.mem_Ici.mpr hxy) hxy

private lemma pos_err {x : ℝ} (h0 : 0 < x) (h20 : x ≤ 20) : |expi x - expInt x| ≤ 15e-15 * max 1 (expInt x) := by
  obtain ⟨_, h2, h3⟩ := C116_expi_partial x h0.ne' h20
  rcases le_or_gt x 6 with h | h
  · refine (h2 (by linarith) h).trans ?_
    have := le_max_left 1 (expInt x)
    linarith
  · refine (h3 h).trans ?_
    have := le_max_right 1 (expInt x)
    linarith

/-- C117, what holds: as long as neither argument exceeds 20, `RIH1(X1, X2, X3)` is `e^{-X1} (Ei(X2) - Ei(X3))` to 3 parts in
`10^14` of `e^{-X1} max(1, Ei(max(X2, X3)))`. -/
theorem C117_rih1_partial (X1 X2 X3 : ℝ) (h2 : 0 < X2) (h2' : X2 ≤ 20) (h3 : 0 < X3) (h3' : X3 ≤ 20) :
    |rih1 expi X1 X2 X3 - exp (-X1) * (expInt X2 - expInt X3)|
      ≤ 3e-14 * (exp (-X1) * max 1 (expInt (max X2 X3))) := by
  rw [rih1, if_pos ⟨h2', h3'⟩, ← mul_sub, abs_mul, abs_of_pos (exp_pos _)]
  have a2 := pos_err h2 h2'
  have a3 := pos_err h3 h3'
  have m2 := expInt_mono h2 (le_max_left X2 X3)
  have m3 := expInt_mono h3 (le_max_right X2 X3)
  have b2 : max 1 (expInt X2) ≤ max 1 (expInt (max X2 X3)) := max_le_max le_rfl m2
  have b3 : max 1 (expInt X3) ≤ max 1 (expInt (max X2 X3)) := max_le_max le_rfl m3
  have e : expi X2 - expi X3 - (expInt X2 - expInt X3) = (expi X2 - expInt X2) - (expi X3 - expInt X3) := by ring
  have h : |expi X2 - expi X3 - (expInt X2 - expInt X3)| ≤ 3e-14 * max 1 (expInt (max X2 X3)) := by
    rw [e]
    refine (abs_sub _ _).trans ?_
    linarith
  have := mul_le_mul_of_nonneg_left h (exp_pos (-X1)).le
  linarith

example : |rih1 expi 3 8 5 - exp (-3) * (expInt 8 - expInt 5)| ≤ 3e-14 * (exp (-3) * max 1 (expInt (max 8 5))) :=
  C117_rih1_partial 3 8 5 (by norm_num) (by norm_num) (by norm_num) (by norm_num)

/-- C117 fails as soon as the second argument exceeds 20 (and up to 200): the result is too large by more than 3 parts in a
thousand of its leading term. -/
theorem C117_rih1_fails (X1 X2 X3 : ℝ) (h2 : 20 < X2) (h2' : X2 ≤ 200) (h3 : 0 < X3) (h3' : X3 ≤ 20) :
    0.003 * (exp (-X1) * expInt X2) < rih1 expi X1 X2 X3 - exp (-X1) * (expInt X2 - expInt X3) := by
  have hX0 : 0 < X2 := by linarith
  rw [rih1, if_neg (by intro h; linarith [h.1]), if_pos ⟨h2, h3'⟩]
  have ht := C115_table_fails X2 h2 h2'
  obtain ⟨hl, hu⟩ := scaled_bounds h2.le
  have h1x : 1 / X2 ≤ 1 / 20 := one_div_le_one_div_of_le (by norm_num) h2.le
  have h1p : 0 < 1 / X2 := by positivity
  have h8 : 8 / X2 ^ 2 = 8 * (1 / X2 * (1 / X2)) := by field_simp
  have h9 : 1 / X2 * (1 / X2) ≤ 1 / 20 * (1 / 20) := mul_le_mul h1x h1x h1p.le (by norm_num)
  have hs1 : scaledEi X2 ≤ 1.08 := by rw [h8] at hu; norm_num at *; linarith
  have hs0 : 1 ≤ scaledEi X2 + 1e-5 := by linarith
  have hE : expInt X2 = exp X2 / X2 * scaledEi X2 := by
    have : exp X2 * exp (-X2) = 1 := by rw [← exp_add]; simp
    rw [scaledEi, expInt]
    field_simp
    linear_combination -(eiWith eulerMascheroniConstant X2) * this
  have hbig : 50 ≤ exp X2 / X2 := by
    rw [le_div_iff₀ hX0]
    have := Real.pow_div_factorial_le_exp X2 hX0.le 3
    norm_num [Nat.factorial] at this
    have hsq : 20 * 20 ≤ X2 * X2 := mul_le_mul h2.le h2.le (by norm_num) hX0.le
    have := mul_le_mul_of_nonneg_right hsq hX0.le
    linarith [show X2 ^ 3 = X2 * X2 * X2 by ring]
  have a3 := pos_err h3 h3'
  have m3 := expInt_mono h3 (h3'.trans h2.le)
  have hI : 1 ≤ expInt X2 := by rw [hE]; nlinarith
  have b3 : max 1 (expInt X3) ≤ expInt X2 := max_le hI m3
  have hd : exp (X2 - X1) * rih2 X2 / X2 = exp (-X1) * (exp X2 / X2 * rih2 X2) := by
    rw [sub_eq_add_neg, exp_add]; ring
  rw [hd, ← sub_pos]
  have e : exp (-X1) * (exp X2 / X2 * rih2 X2) - exp (-X1) * expi X3 - exp (-X1) * (expInt X2 - expInt X3)
      - 0.003 * (exp (-X1) * expInt X2)
      = exp (-X1) * (exp X2 / X2 * rih2 X2 - (expi X3 - expInt X3) - 1.003 * expInt X2) := by ring
  rw [e]
  refine mul_pos (exp_pos _) ?_
  have h4 : expi X3 - expInt X3 ≤ 15e-15 * expInt X2 :=
    (le_abs_self _).trans (a3.trans (mul_le_mul_of_nonneg_left b3 (by norm_num)))
  have h5 : exp X2 / X2 * (scaledEi X2 + 0.0035) ≤ exp X2 / X2 * rih2 X2 :=
    mul_le_mul_of_nonneg_left ht.le (by linarith)
  have h6 : exp X2 / X2 * scaledEi X2 ≤ exp X2 / X2 * 1.08 := mul_le_mul_of_nonneg_left hs1 (by linarith)
  rw [hE] at *
  generalize exp X2 / X2 = A at *
  generalize scaledEi X2 = σ at *
  have h7 : A * (σ + 0.0035) = A * σ + 0.0035 * A := by ring
  norm_num at *
  linarith

example : 0.003 * (exp (-9) * expInt 30) < rih1 expi 9 30 5 - exp (-9) * (expInt 30 - expInt 5) :=
  C117_rih1_fails 9 30 5 (by norm_num) (by norm_num) (by norm_num) (by norm_num)

end Verif.Scat
