import Verif.Spec.Optical
import Verif.Lemmas.EiGamma
import Verif.Props.ScatterZero
/-!
C142: the thermal diffuse absorption in the forward direction obeys the optical theorem.
-/
namespace Verif.Scat
open Real Set Filter Topology MeasureTheory Spec.Scatter Verif.Ei

/-- the second difference of `x log x` -/
noncomputable def dphi (a b m : ℝ) : ℝ :=
  (a + b) * log (a + b) - a * log a - b * log b - ((a + b + m) * log (a + b + m) - (a + m) * log (a + m) - (b + m) * log (b + m) + m * log m)

/-- the integrand `(1 - e^{-at}) (1 - e^{-bt}) (1 - e^{-mt})` -/
noncomputable def gfun (a b m t : ℝ) : ℝ := (1 - exp (-(a * t))) * (1 - exp (-(b * t))) * (1 - exp (-(m * t)))

/-- its derivative -/
noncomputable def gder (a b m t : ℝ) : ℝ :=
  a * exp (-(a * t)) + b * exp (-(b * t)) + m * exp (-(m * t)) - (a + b) * exp (-((a + b) * t)) - (a + m) * exp (-((a + m) * t))
    - (b + m) * exp (-((b + m) * t)) + (a + b + m) * exp (-((a + b + m) * t))

/-- an antiderivative of `gfun / t²` -/
noncomputable def hfun (a b m t : ℝ) : ℝ :=
  -(gfun a b m t / t) - dphi a b m + (a * ein (-(a * t)) + b * ein (-(b * t)) + m * ein (-(m * t)) - (a + b) * ein (-((a + b) * t))
    - (a + m) * ein (-((a + m) * t)) - (b + m) * ein (-((b + m) * t)) + (a + b + m) * ein (-((a + b + m) * t)))

theorem exp_der (a t : ℝ) : HasDerivAt (fun t => exp (-(a * t))) (-(a * exp (-(a * t)))) t := by
  have h := ((hasDerivAt_id t).const_mul a).neg.exp
  simp only [id, mul_one] at h
  rw [show -(a * exp (-(a * t))) = exp (-(a * t)) * -a by ring]
  exact h

theorem gfun_der (a b m t : ℝ) : HasDerivAt (gfun a b m) (gder a b m t) t := by
  have h := (((exp_der a t).const_sub 1).mul ((exp_der b t).const_sub 1)).mul ((exp_der m t).const_sub 1)
  refine h.congr_deriv ?_
  unfold gder
  have e1 : exp (-((a + b) * t)) = exp (-(a * t)) * exp (-(b * t)) := by rw [← exp_add]; congr 1; ring
  have e2 : exp (-((a + m) * t)) = exp (-(a * t)) * exp (-(m * t)) := by rw [← exp_add]; congr 1; ring
  have e3 : exp (-((b + m) * t)) = exp (-(b * t)) * exp (-(m * t)) := by rw [← exp_add]; congr 1; ring
  have e4 : exp (-((a + b + m) * t)) = exp (-(a * t)) * exp (-(b * t)) * exp (-(m * t)) := by rw [← exp_add, ← exp_add]; congr 1; ring
  rw [e1, e2, e3, e4]
  simp only [Pi.mul_apply]
  ring

theorem ein_der {a t : ℝ} (ha : a ≠ 0) (ht : t ≠ 0) : HasDerivAt (fun t => ein (-(a * t))) ((exp (-(a * t)) - 1) / t) t := by
  have hx : -(a * t) ≠ 0 := neg_ne_zero.mpr (mul_ne_zero ha ht)
  have h1 := hasDerivAt_ein (-(a * t))
  rw [step_eq hx] at h1
  have h := h1.comp t ((hasDerivAt_id t).const_mul a).neg
  refine h.congr_deriv ?_
  field_simp

theorem hfun_der {a b m t : ℝ} (ha : 0 < a) (hb : 0 < b) (hm : 0 < m) (ht : t ≠ 0) :
    HasDerivAt (hfun a b m) (gfun a b m t / t ^ 2) t := by
  have h1 := ((gfun_der a b m t).div (hasDerivAt_id t) ht).neg.sub_const (dphi a b m)
  have h2 := (((((((ein_der ha.ne' ht).const_mul a).add ((ein_der hb.ne' ht).const_mul b)).add ((ein_der hm.ne' ht).const_mul m)).sub
    ((ein_der (by positivity : a + b ≠ 0) ht).const_mul (a + b))).sub ((ein_der (by positivity : a + m ≠ 0) ht).const_mul (a + m))).sub
    ((ein_der (by positivity : b + m ≠ 0) ht).const_mul (b + m))).add
    ((ein_der (by positivity : a + b + m ≠ 0) ht).const_mul (a + b + m))
  refine (h1.add h2).congr_deriv ?_
  unfold gder
  simp only [id]
  field_simp
  ring

theorem gfun_div (a b m : ℝ) : Tendsto (fun t => gfun a b m t / t) (𝓝 0) (𝓝 0) := by
  have h := hasDerivAt_iff_tendsto_slope.mp (gfun_der a b m 0)
  have h0 : gder a b m 0 = 0 := by unfold gder; simp; ring
  have g0 : gfun a b m 0 = 0 := by unfold gfun; simp
  rw [h0] at h
  have e : (fun t => gfun a b m t / t) = slope (gfun a b m) 0 := by
    funext t; rw [slope_def_field, g0, sub_zero, sub_zero]
  have key : Tendsto (slope (gfun a b m) 0) (𝓝[≠] 0 ⊔ pure 0) (𝓝 0) := by
    refine tendsto_sup.mpr ⟨h, ?_⟩
    rw [tendsto_pure_left]
    intro s hs
    rw [slope_same]
    exact mem_of_mem_nhds hs
  rw [nhdsNE_sup_pure] at key
  rw [e]; exact key

theorem ein_cont (a : ℝ) : Continuous fun t => ein (-(a * t)) := by
  have h : Continuous ein := continuous_iff_continuousAt.mpr fun x => (hasDerivAt_ein x).continuousAt
  exact h.comp (by fun_prop)

theorem hfun_cont (a b m : ℝ) : ContinuousAt (hfun a b m) 0 := by
  unfold hfun
  refine ContinuousAt.add (ContinuousAt.sub (ContinuousAt.neg ?_) continuousAt_const) ?_
  · change Tendsto _ (𝓝 0) (𝓝 (gfun a b m 0 / 0))
    rw [div_zero]
    exact gfun_div a b m
  · have c := fun a => (ein_cont a).continuousAt (x := (0 : ℝ))
    exact ((((((continuousAt_const.mul (c _)).add (continuousAt_const.mul (c _))).add (continuousAt_const.mul (c _))).sub
      (continuousAt_const.mul (c _))).sub (continuousAt_const.mul (c _))).sub (continuousAt_const.mul (c _))).add
      (continuousAt_const.mul (c _))

theorem hfun_zero (a b m : ℝ) : hfun a b m 0 = -dphi a b m := by
  unfold hfun
  simp [ein_zero]

theorem ein_eq {a t : ℝ} (ha : 0 < a) (ht : 0 < t) : ein (-(a * t)) = eiWith eulerMascheroniConstant (-(a * t)) - eulerMascheroniConstant - log a - log t := by
  rw [eiWith_eq, abs_neg, abs_of_pos (mul_pos ha ht), log_mul ha.ne' ht.ne']; ring

theorem hfun_top {a b m : ℝ} (ha : 0 < a) (hb : 0 < b) (hm : 0 < m) : Tendsto (hfun a b m) atTop (𝓝 0) := by
  have lim : ∀ c : ℝ, 0 < c → Tendsto (fun t : ℝ => eiWith eulerMascheroniConstant (-(c * t))) atTop (𝓝 0) := fun c hc =>
    tendsto_eiWith_neg.comp (tendsto_id.const_mul_atTop hc)
  have l := fun (c : ℝ) (hc : 0 < c) => (lim c hc).const_mul c
  have hsum := ((((((l a ha).add (l b hb)).add (l m hm)).sub (l (a + b) (by positivity))).sub (l (a + m) (by positivity))).sub
    (l (b + m) (by positivity))).add (l (a + b + m) (by positivity))
  have hg : Tendsto (fun t => gfun a b m t / t) atTop (𝓝 0) := by
    refine squeeze_zero' (g := fun t => 1 / t) ?_ ?_ (by simpa using tendsto_inv_atTop_zero)
    · filter_upwards [eventually_gt_atTop (0 : ℝ)] with t ht
      have p := fun (c : ℝ) (hc : 0 < c) => sub_nonneg.mpr (exp_le_one_iff.mpr (neg_nonpos.mpr (mul_pos hc ht).le))
      exact div_nonneg (mul_nonneg (mul_nonneg (p a ha) (p b hb)) (p m hm)) ht.le
    · filter_upwards [eventually_gt_atTop (0 : ℝ)] with t ht
      have p := fun (c : ℝ) (hc : 0 < c) => sub_nonneg.mpr (exp_le_one_iff.mpr (neg_nonpos.mpr (mul_pos hc ht).le))
      have q := fun c : ℝ => sub_le_self (1 : ℝ) (exp_pos (-(c * t))).le
      apply div_le_div_of_nonneg_right _ ht.le
      unfold gfun
      have := mul_le_mul (mul_le_mul (q a) (q b) (p b hb) zero_le_one) (q m) (p m hm) (by norm_num)
      simpa using this
  have h := hg.neg.add hsum
  simp only [mul_zero, add_zero, sub_zero, neg_zero] at h
  refine h.congr' ?_
  filter_upwards [eventually_gt_atTop (0 : ℝ)] with t ht
  unfold hfun dphi
  rw [ein_eq ha ht, ein_eq hb ht, ein_eq hm ht, ein_eq (by positivity : 0 < a + b) ht, ein_eq (by positivity : 0 < a + m) ht,
    ein_eq (by positivity : 0 < b + m) ht, ein_eq (by positivity : 0 < a + b + m) ht]
  ring

/-- the formula of the code at zero scattering -/
theorem zero_dphi {bi bj M : ℝ} (hi : 0 < bi) (hj : 0 < bj) (hM : 0 < M) : i1zero bi bj - i2zero bi bj M = π * dphi bi bj (2 * M) := by
  unfold i1zero i2zero dphi
  rw [log_div (by positivity) (by positivity), log_div (by positivity) (by positivity), log_div (by positivity) (by positivity),
    log_div (by positivity) (by positivity), log_div (by positivity) (by positivity)]
  ring

theorem dphi_symm (a b m : ℝ) : dphi a b m = dphi b a m := by
  unfold dphi
  rw [add_comm b a]; ring

theorem pair_zero (ei : ℝ → ℝ) (f : Fit) {M : ℝ} (hB : ∀ k, 0 < f.B k) (hM : 0 < M) (ij : Fin 4 × Fin 4) : pairTerm ei f M 0 ij =
    (if ij.1 = ij.2 then 1 else 2) * (f.A ij.1 * f.A ij.2 * ((4 * π) ^ 2 * (4 * π) ^ 2) *
      (π * dphi (f.B ij.1 / (4 * π) ^ 2) (f.B ij.2 / (4 * π) ^ 2) (2 * M))) := by
  have hp : (0 : ℝ) < (4 * π) ^ 2 := by positivity
  rw [← zero_dphi (div_pos (hB _) hp) (div_pos (hB _) hp) hM]
  unfold pairTerm
  simp only [if_true, ne_eq, OfNat.ofNat_ne_zero, not_false_eq_true, zero_pow, mul_zero, exp_zero, one_mul]
  ring

/-- the phonon term of the code as a double sum -/
theorem phon_sum (ei : ℝ → ℝ) (f : Fit) {M : ℝ} (hB : ∀ k, 0 < f.B k) (hM : 0 < M) : (pairs.map (pairTerm ei f M 0)).sum =
    ∑ i, ∑ j, f.A i * f.A j * ((4 * π) ^ 2 * (4 * π) ^ 2) * (π * dphi (f.B i / (4 * π) ^ 2) (f.B j / (4 * π) ^ 2) (2 * M)) := by
  simp only [pairs, List.map_cons, List.map_nil, List.sum_cons, List.sum_nil, pair_zero ei f hB hM, Fin.sum_univ_four]
  rw [dphi_symm (f.B 1 / _) (f.B 0 / _), dphi_symm (f.B 2 / _) (f.B 0 / _), dphi_symm (f.B 3 / _) (f.B 0 / _),
    dphi_symm (f.B 2 / _) (f.B 1 / _), dphi_symm (f.B 3 / _) (f.B 1 / _), dphi_symm (f.B 3 / _) (f.B 2 / _)]
  simp
  ring

/-- the cross section in closed form -/
theorem cross_closed (f : Fit) (hB : ∀ k, 0 < f.B k) {σ : ℝ} (hσ : σ ≠ 0) (γ k : ℝ) :
    tdsCrossSection (fun q => wkExact f.A f.B (q / (4 * π))) σ γ k =
      γ ^ 2 * (∑ i, ∑ j, f.A i * f.A j * ((4 * π) ^ 2 * (4 * π) ^ 2) * (π * dphi (f.B i / (4 * π) ^ 2) (f.B j / (4 * π) ^ 2) (σ ^ 2))) / k ^ 2 := by
  unfold tdsCrossSection
  congr 1
  have hp : (0 : ℝ) < (4 * π) ^ 2 := by positivity
  have hm : 0 < σ ^ 2 := by positivity
  have hb : ∀ i, 0 < f.B i / (4 * π) ^ 2 := fun i => div_pos (hB i) hp
  set K : ℝ → ℝ := fun q => γ ^ 2 * ∑ i, ∑ j, f.A i * f.A j * ((4 * π) ^ 2 * (4 * π) ^ 2) *
    (π * hfun (f.B i / (4 * π) ^ 2) (f.B j / (4 * π) ^ 2) (σ ^ 2) (q ^ 2)) with hK
  have hder : ∀ q ∈ Ioi (0 : ℝ), HasDerivAt K (2 * π * q * ((γ * wkExact f.A f.B (q / (4 * π))) ^ 2 * (1 - debyeWaller σ q ^ 2))) q := by
    intro q hq
    have hq : 0 < q := hq
    have h2 : HasDerivAt (fun q : ℝ => q ^ 2) (2 * q) q := by simpa using hasDerivAt_pow 2 q
    have hd : HasDerivAt K (γ ^ 2 * ∑ i, ∑ j, f.A i * f.A j * ((4 * π) ^ 2 * (4 * π) ^ 2) *
        (π * (gfun (f.B i / (4 * π) ^ 2) (f.B j / (4 * π) ^ 2) (σ ^ 2) (q ^ 2) / (q ^ 2) ^ 2 * (2 * q)))) q := by
      refine HasDerivAt.const_mul _ (HasDerivAt.fun_sum fun i _ => HasDerivAt.fun_sum fun j _ => ?_)
      exact ((HasDerivAt.comp (h := fun q : ℝ => q ^ 2) q (hfun_der (hb i) (hb j) hm (by positivity : q ^ 2 ≠ 0)) h2).const_mul π).const_mul _
    refine hd.congr_deriv ?_
    have e1 : wkExact f.A f.B (q / (4 * π)) = (4 * π) ^ 2 * (∑ k, f.A k * (1 - exp (-(f.B k / (4 * π) ^ 2 * q ^ 2)))) / q ^ 2 := by
      unfold wkExact
      rw [if_neg (by positivity)]
      have : ∀ k, f.B k * (q / (4 * π)) ^ 2 = f.B k / (4 * π) ^ 2 * q ^ 2 := fun k => by ring
      simp only [this]
      rw [div_pow]
      generalize (∑ k, f.A k * (1 - exp (-(f.B k / (4 * π) ^ 2 * q ^ 2)))) = S
      field_simp
    have e2 : debyeWaller σ q ^ 2 = exp (-(σ ^ 2 * q ^ 2)) := by
      unfold debyeWaller
      rw [pow_two, ← exp_add]; congr 1; ring
    have e3 : ∀ S : ℝ, 2 * π * q * ((γ * ((4 * π) ^ 2 * S / q ^ 2)) ^ 2 * (1 - exp (-(σ ^ 2 * q ^ 2)))) =
        γ ^ 2 * (S * S * (((4 * π) ^ 2 * (4 * π) ^ 2) * (π * ((1 - exp (-(σ ^ 2 * q ^ 2))) / (q ^ 2) ^ 2 * (2 * q))))) := fun S => by
      field_simp
    rw [e1, e2, e3, Finset.sum_mul_sum]
    congr 1
    simp only [Finset.sum_mul]
    refine Finset.sum_congr rfl fun i _ => Finset.sum_congr rfl fun j _ => ?_
    unfold gfun
    ring
  have hpos : ∀ q ∈ Ioi (0 : ℝ), 0 ≤ 2 * π * q * ((γ * wkExact f.A f.B (q / (4 * π))) ^ 2 * (1 - debyeWaller σ q ^ 2)) := by
    intro q hq
    have hq : 0 < q := hq
    have : debyeWaller σ q ^ 2 ≤ 1 := by
      apply pow_le_one₀ (exp_pos _).le
      exact exp_le_one_iff.mpr (by have : 0 ≤ σ ^ 2 * q ^ 2 / 2 := by positivity
                                   linarith)
    have := sub_nonneg.mpr this
    positivity
  have hcont : ContinuousWithinAt K (Ici 0) 0 := by
    refine ContinuousAt.continuousWithinAt ?_
    refine continuousAt_const.mul (tendsto_finsetSum _ fun i _ => tendsto_finsetSum _ fun j _ => ?_)
    refine Tendsto.const_mul _ (Tendsto.const_mul _ ?_)
    have h0 : ContinuousAt (fun q : ℝ => q ^ 2) 0 := by fun_prop
    have := ContinuousAt.comp (f := fun q : ℝ => q ^ 2) (g := hfun (f.B i / (4 * π) ^ 2) (f.B j / (4 * π) ^ 2) (σ ^ 2)) (x := 0)
      (by simpa using hfun_cont _ _ _) h0
    exact this
  have htop : Tendsto K atTop (𝓝 0) := by
    have h : Tendsto K atTop (𝓝 (γ ^ 2 * ∑ i, ∑ j, f.A i * f.A j * ((4 * π) ^ 2 * (4 * π) ^ 2) * (π * 0))) := by
      refine Tendsto.const_mul _ (tendsto_finsetSum _ fun i _ => tendsto_finsetSum _ fun j _ => ?_)
      refine Tendsto.const_mul _ (Tendsto.const_mul _ ?_)
      exact (hfun_top (hb i) (hb j) hm).comp (tendsto_pow_atTop (by norm_num))
    simpa using h
  rw [integral_Ioi_of_hasDerivAt_of_nonneg hcont hder hpos htop, hK]
  simp only [ne_eq, OfNat.ofNat_ne_zero, not_false_eq_true, zero_pow, hfun_zero, mul_neg, Finset.sum_neg_distrib, sub_neg_eq_add, zero_add]

/-- all widths of the default table are positive -/
theorem wk_B_pos {Z : ℤ} (h1 : 1 ≤ Z) (h2 : Z ≤ 98) : ∀ k, 0 < (wkRow (Z - 1).toNat).B k := by
  by_cases h : Z = 2
  · subst h
    have hB : (wkRow 1).B = ![1.83008, 7.20225, 16.13585, 18.75551] := by
      funext k; fin_cases k <;> simp [wkRow, wkB] <;> norm_num
    intro k
    change 0 < (wkRow 1).B k
    rw [hB]
    fin_cases k <;> simp <;> norm_num
  · exact (rows_pos (i := (Z - 1).toNat) (by omega) (by omega)).2

/-- C142: for every element 1-98, nonzero displacement and positive voltage the forward (`g = 0`) imaginary part returned by
`scatter_factor_WK` with the phonon channel alone is given by the optical theorem from the cross section of thermal diffuse scattering of the
Weickenmeier-Kohl atom, at the mass ratio and the wave number of the electron; the real part at the same place is the amplitude. -/
theorem C142_optical (Z : ℤ) (h1 : 1 ≤ Z) (h2 : Z ≤ 98) (σ V : ℝ) (hσ : σ ≠ 0) (hV : 0 < V) :
    let row := wkRow (Z - 1).toNat
    let k := 0.5068 * sqrt (V ^ 2 + 2 * 511 * V)
    ∃ out, scatterWK wkRow false true "EMsoft" [0] [Z] [σ] [V] = some out ∧
      (out.at_ 0 0 0).im = some (opticalTheorem k (tdsCrossSection (fun q => wkExact row.A row.B (q / (4 * π))) σ (massRatio V) k)) := by
  intro row k
  have hB := wk_B_pos h1 h2
  have hany : ¬ ([Z].any fun z => (rowOf 98 z).isNone) = true := by simp [rowOf_valid h1 h2]
  refine ⟨_, by unfold scatterWK; rw [if_neg hany, if_neg (by simp)], ?_⟩
  have hr := rowOf_valid h1 h2
  have hM : (0 : ℝ) < 0.5 * σ ^ 2 := by positivity
  have hk : 0 < k := by
    have : 0 < V ^ 2 + 2 * 511 * V := by positivity
    have := Real.sqrt_pos.mpr this
    positivity
  have e0 : 0.5068 * sqrt (1022 * V + V * V) = k := by
    have : 1022 * V + V * V = V ^ 2 + 2 * 511 * V := by ring
    rw [this]
  simp only [List.getD_cons_zero, wkEntry, hr, Option.getD_some, if_true]
  rw [if_neg (by decide : ¬ "EMsoft" = "ITC"), e0, cross_closed _ hB hσ]
  unfold imagPart fPhon
  simp only [Bool.false_eq_true, if_false, if_true, Option.bind_some]
  rw [if_neg hσ, Option.map_some, phon_sum expi _ hB hM]
  have e2 : 2 * (0.5 * σ ^ 2) = σ ^ 2 := by ring
  rw [e2]
  unfold opticalTheorem massRatio
  rw [zero_mul, zero_add]
  generalize (∑ i : Fin 4, ∑ j : Fin 4, _ : ℝ) = S
  congr 1
  have : (V + 511) / 511 = 1 + V / 511 := by ring
  rw [this]
  field_simp

/-- silicon, displacement 0.08, 20 kV -/
example := C142_optical 14 (by norm_num) (by norm_num) 0.08 20 (by norm_num) (by norm_num)

end Verif.Scat
