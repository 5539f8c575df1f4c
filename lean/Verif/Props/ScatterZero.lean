import Verif.Props.Scatter
import Mathlib.Analysis.SpecialFunctions.Log.NegMulLog
import Mathlib.Analysis.Calculus.Deriv.MeanValue
/-!
C110: absorption at zero scattering.
-/
namespace Verif.Scat
open Real Verif.Spec.Scatter

/-- Difference of `x log x` between two arguments. -/
private noncomputable def phi (m x : ℝ) : ℝ := x * log x - (x + m) * log (x + m)

private lemma phi_cont {m : ℝ} (k : ℝ) : Continuous fun x => phi m (x + k) - phi m x := by
  have h := continuous_mul_log
  unfold phi
  exact ((h.comp (continuous_id.add continuous_const)).sub
    (h.comp ((continuous_id.add continuous_const).add continuous_const))).sub
    (h.sub (h.comp (continuous_id.add continuous_const)))

private lemma phi_deriv {m x : ℝ} (hm : 0 < m) (hx : 0 < x) : HasDerivAt (phi m) (log x - log (x + m)) x := by
  unfold phi
  have h1 := hasDerivAt_mul_log hx.ne'
  have h2 := (hasDerivAt_mul_log (x := x + m) (by positivity)).comp_add_const x m
  have := h1.sub h2
  rw [show log x + 1 - (log (x + m) + 1) = log x - log (x + m) by ring] at this
  exact this

/-- The mixed second difference of `phi` is positive. -/
private lemma phi_mixed {m a h k : ℝ} (hm : 0 < m) (ha : 0 ≤ a) (hh : 0 < h) (hk : 0 < k) :
    0 < phi m (a + h + k) - phi m (a + h) - phi m (a + k) + phi m a := by
  have mono : StrictMonoOn (fun x => phi m (x + k) - phi m x) (Set.Ici 0) := by
    apply strictMonoOn_of_deriv_pos (convex_Ici 0) (phi_cont k).continuousOn
    intro x hx
    rw [interior_Ici] at hx
    have hx : 0 < x := hx
    have h1 := (phi_deriv hm (show 0 < x + k by positivity)).comp_add_const x k
    have h2 := h1.sub (phi_deriv hm hx)
    have e := h2.deriv
    have e' : deriv (fun x => phi m (x + k) - phi m x) x = log (x + k) - log (x + k + m) - (log x - log (x + m)) := e
    rw [e', ← log_div (by positivity) (by positivity), ← log_div (by positivity) (by positivity)]
    rw [sub_pos]
    apply log_lt_log (by positivity)
    rw [div_lt_div_iff₀ (by positivity) (by positivity)]
    have := mul_pos hk hm
    linarith
  have := mono (show a ∈ Set.Ici 0 from ha) (show a + h ∈ Set.Ici 0 from Set.mem_Ici.mpr (by linarith)) (by linarith)
  dsimp only at this
  linarith

private lemma zero_diff {bi bj M : ℝ} (hi : 0 < bi) (hj : 0 < bj) (hM : 0 < M) :
    i1zero bi bj - i2zero bi bj M = π * (phi (2 * M) (bi + bj) - phi (2 * M) bi - phi (2 * M) bj + phi (2 * M) 0) := by
  unfold i1zero i2zero phi
  rw [log_div (by positivity) (by positivity), log_div (by positivity) (by positivity), log_div (by positivity) (by positivity),
    log_div (by positivity) (by positivity), log_div (by positivity) (by positivity)]
  simp only [zero_mul, zero_add]
  ring

private lemma pairTerm_zero (ei : ℝ → ℝ) (f : Fit) (M : ℝ) (ij : Fin 4 × Fin 4) : pairTerm ei f M 0 ij =
    (if ij.1 = ij.2 then 1 else 2) * (f.A ij.1 * f.A ij.2) * ((4 * π) ^ 2 * (4 * π) ^ 2) *
      (i1zero (f.B ij.1 / (4 * π) ^ 2) (f.B ij.2 / (4 * π) ^ 2) - i2zero (f.B ij.1 / (4 * π) ^ 2) (f.B ij.2 / (4 * π) ^ 2) M) := by
  unfold pairTerm
  simp only [if_true, ne_eq, OfNat.ofNat_ne_zero, not_false_eq_true, zero_pow, mul_zero, exp_zero, one_mul]
  ring

/-- Elements with positive weights absorb. -/
private lemma phon_pos_weights (ei : ℝ → ℝ) {f : Fit} (hA : ∀ k, 0 < f.A k) (hB : ∀ k, 0 < f.B k) {M : ℝ} (hM : 0 < M) :
    0 < (pairs.map (pairTerm ei f M 0)).sum := by
  have hp : (0 : ℝ) < (4 * π) ^ 2 := by positivity
  have key : ∀ ij, 0 < pairTerm ei f M 0 ij := by
    intro ij
    rw [pairTerm_zero, zero_diff (div_pos (hB _) hp) (div_pos (hB _) hp) hM]
    have := phi_mixed (m := 2 * M) (a := 0) (by positivity) le_rfl (div_pos (hB ij.1) hp) (div_pos (hB ij.2) hp)
    simp only [zero_add] at this
    have h1 := hA ij.1
    have h2 := hA ij.2
    have h3 : (0 : ℝ) < if ij.1 = ij.2 then 1 else 2 := by split_ifs <;> norm_num
    have h4 := pi_pos
    exact mul_pos (by positivity) (mul_pos h4 this)
  simp only [pairs, List.map_cons, List.map_nil, List.sum_cons, List.sum_nil]
  have := key (0, 0); have := key (0, 1); have := key (0, 2); have := key (0, 3); have := key (1, 1)
  have := key (1, 2); have := key (1, 3); have := key (2, 2); have := key (2, 3); have := key (3, 3)
  linarith

private lemma phon_helium (ei : ℝ → ℝ) {M : ℝ} (hM : 0 < M) : 0 < (pairs.map (pairTerm ei (wkRow 1) M 0)).sum := by
  have hA : (wkRow 1).A = ![0.01217, 0.02616, -0.00884, 0.01841] := by
    funext k; fin_cases k <;> simp [wkRow, wkA] <;> norm_num
  have hB : (wkRow 1).B = ![1.83008, 7.20225, 16.13585, 18.75551] := by
    funext k; fin_cases k <;> simp [wkRow, wkB] <;> norm_num
  have hp : (0 : ℝ) < (4 * π) ^ 2 := by positivity
  simp only [pairs, List.map_cons, List.map_nil, List.sum_cons, List.sum_nil, pairTerm_zero, hA, hB,
    Matrix.cons_val_zero, Matrix.cons_val_one, Matrix.cons_val]
  generalize hpd : (4 * π) ^ 2 = p at *
  have b1 : 0 < 1.83008 / p := by positivity
  have b2 : 0 < 7.20225 / p := by positivity
  have b3 : 0 < 16.13585 / p := by positivity
  have b4 : 0 < 18.75551 / p := by positivity
  have b34 : 16.13585 / p < 18.75551 / p := div_lt_div_of_pos_right (by norm_num) hp
  generalize 1.83008 / p = x1 at *
  generalize 7.20225 / p = x2 at *
  generalize 16.13585 / p = x3 at *
  generalize 18.75551 / p = x4 at *
  rw [zero_diff b1 b1 hM, zero_diff b1 b2 hM, zero_diff b1 b3 hM, zero_diff b1 b4 hM, zero_diff b2 b2 hM, zero_diff b2 b3 hM,
    zero_diff b2 b4 hM, zero_diff b3 b3 hM, zero_diff b3 b4 hM, zero_diff b4 b4 hM]
  have hm : 0 < 2 * M := by positivity
  have q11 := phi_mixed hm le_rfl b1 b1
  have q12 := phi_mixed hm le_rfl b1 b2
  have q14 := phi_mixed hm le_rfl b1 b4
  have q22 := phi_mixed hm le_rfl b2 b2
  have q24 := phi_mixed hm le_rfl b2 b4
  have q44 := phi_mixed hm le_rfl b4 b4
  have hd : 0 < x4 - x3 := by linarith
  have r1 := phi_mixed hm b3.le hd b1
  have r2 := phi_mixed hm b3.le hd b2
  have r4 := phi_mixed hm b3.le hd b4
  have r3 := phi_mixed hm (show 0 ≤ x3 + x3 by positivity) hd hd
  rw [show x3 + (x4 - x3) + x1 = x1 + x4 by ring, show x3 + (x4 - x3) = x4 by ring, add_comm x3 x1] at r1
  rw [show x3 + (x4 - x3) + x2 = x2 + x4 by ring, show x3 + (x4 - x3) = x4 by ring, add_comm x3 x2] at r2
  rw [show x3 + (x4 - x3) + x4 = x4 + x4 by ring, show x3 + (x4 - x3) = x4 by ring] at r4
  rw [show x3 + x3 + (x4 - x3) + (x4 - x3) = x4 + x4 by ring, show x3 + x3 + (x4 - x3) = x3 + x4 by ring] at r3
  simp only [zero_add] at q11 q12 q14 q22 q24 q44
  have i1 : ¬ ((0 : Fin 4) = 1) := by decide
  have i2 : ¬ ((0 : Fin 4) = 2) := by decide
  have i3 : ¬ ((0 : Fin 4) = 3) := by decide
  have i4 : ¬ ((1 : Fin 4) = 2) := by decide
  have i5 : ¬ ((1 : Fin 4) = 3) := by decide
  have i6 : ¬ ((2 : Fin 4) = 3) := by decide
  simp only [if_true, if_neg i1, if_neg i2, if_neg i3, if_neg i4, if_neg i5, if_neg i6]
  have hc : 0 < p * p * π := mul_pos (mul_pos hp hp) pi_pos
  generalize phi (2 * M) (x1 + x1) = f11 at *
  generalize phi (2 * M) (x1 + x2) = f12 at *
  generalize phi (2 * M) (x1 + x3) = f13 at *
  generalize phi (2 * M) (x1 + x4) = f14 at *
  generalize phi (2 * M) (x2 + x2) = f22 at *
  generalize phi (2 * M) (x2 + x3) = f23 at *
  generalize phi (2 * M) (x2 + x4) = f24 at *
  generalize phi (2 * M) (x3 + x3) = f33 at *
  generalize phi (2 * M) (x3 + x4) = f34 at *
  generalize phi (2 * M) (x4 + x4) = f44 at *
  generalize phi (2 * M) x1 = f1 at *
  generalize phi (2 * M) x2 = f2 at *
  generalize phi (2 * M) x3 = f3 at *
  generalize phi (2 * M) x4 = f4 at *
  generalize phi (2 * M) 0 = f0 at *
  have total : 0 < 0.01217 * 0.01217 * (f11 - f1 - f1 + f0) + 2 * (0.01217 * 0.02616) * (f12 - f1 - f2 + f0)
      + 2 * (0.01217 * -0.00884) * (f13 - f1 - f3 + f0) + 2 * (0.01217 * 0.01841) * (f14 - f1 - f4 + f0)
      + 0.02616 * 0.02616 * (f22 - f2 - f2 + f0) + 2 * (0.02616 * -0.00884) * (f23 - f2 - f3 + f0)
      + 2 * (0.02616 * 0.01841) * (f24 - f2 - f4 + f0) + -0.00884 * -0.00884 * (f33 - f3 - f3 + f0)
      + 2 * (-0.00884 * 0.01841) * (f34 - f3 - f4 + f0) + 0.01841 * 0.01841 * (f44 - f4 - f4 + f0) := by
    norm_num at *
    linarith
  have := mul_pos hc total
  calc 0 < _ := this
    _ = _ := by ring

private lemma phon_pos (ei : ℝ → ℝ) {Z : ℤ} (h1 : 1 ≤ Z) (h2 : Z ≤ 98) {σ : ℝ} (hσ : σ ≠ 0) :
    ∃ y, 0 < y ∧ fPhon ei (wkRow (Z - 1).toNat) σ 0 = some y := by
  have hM : 0 < 0.5 * σ ^ 2 := by positivity
  unfold fPhon
  rw [if_neg hσ]
  refine ⟨_, ?_, rfl⟩
  by_cases h : Z = 2
  · subst h; exact phon_helium ei hM
  · obtain ⟨ha, hb⟩ := rows_pos (i := (Z - 1).toNat) (by omega) (by omega)
    exact phon_pos_weights ei ha hb hM

private lemma core_pos {k0 Z V : ℝ} (hk : 0 < k0) (hZ : 0 < Z) (hV : 0 < V) : 0 < fCore k0 Z V 0 := by
  unfold fCore
  dsimp only
  have hR : 0 < 0.885 * 0.5289 / Z ^ ((1 : ℝ) / 3) := by positivity
  generalize 0.885 * 0.5289 / Z ^ ((1 : ℝ) / 3) = R at *
  have hTA : 0 < 1 / (k0 * R) := by positivity
  generalize 1 / (k0 * R) = TA at *
  have hK : 0 < 6.0e-3 * Z / (2 * V) * (2 * V + 1022) / (V + 1022) / TA := by positivity
  generalize 6.0e-3 * Z / (2 * V) * (2 * V + 1022) / (V + 1022) / TA = K at *
  have hΩ : 2 * (0 / (2 * k0)) / TA = 0 := by simp
  rw [hΩ, if_neg (by norm_num)]
  have hs : 0 < sqrt (1 + K ^ 2) := sqrt_pos.mpr (by positivity)
  have hsq : sqrt (1 + K ^ 2) ^ 2 = 1 + K ^ 2 := sq_sqrt (by positivity)
  have e1 : ((1 : ℝ) + 0 ^ 2) * (1 + 0 ^ 2) + 4 * K ^ 2 * 0 ^ 2 = 1 := by ring
  have e2 : (1 + 2 * K ^ 2 + 0 ^ 2 + (1 : ℝ)) / (2 * K * sqrt (1 + K ^ 2)) = sqrt (1 + K ^ 2) / K := by
    rw [div_eq_div_iff (by positivity) (by positivity)]
    linear_combination (-2 * K) * hsq
  rw [e1, sqrt_one, e2]
  have hlog : 1 / (2 * (1 + K ^ 2)) ≤ log (sqrt (1 + K ^ 2) / K) := by
    have h := one_sub_inv_le_log_of_pos (show 0 < (sqrt (1 + K ^ 2) / K) ^ 2 by positivity)
    rw [log_pow, div_pow, hsq, inv_div] at h
    have h2 : 1 - K ^ 2 / (1 + K ^ 2) = 2 * (1 / (2 * (1 + K ^ 2))) := by field_simp; ring
    push_cast at h
    linarith
  have h4 : 1 / (4 * (1 + K ^ 2)) < 1 / (2 * (1 + K ^ 2)) := by
    apply one_div_lt_one_div_of_lt (by positivity)
    have : 0 < 1 + K ^ 2 := by positivity
    linarith
  have h5 : 0 < -(0 / ((1 + 0 ^ 2) * sqrt (0 ^ 2 + 4 * K ^ 2)) * log ((0 + sqrt (0 ^ 2 + 4 * K ^ 2)) / (2 * K)))
      + 1 / 1 * log (sqrt (1 + K ^ 2) / K) - 1 / (4 * (1 + K ^ 2)) := by
    rw [zero_div, zero_mul]; linarith
  have := pi_pos
  exact mul_pos (by positivity) (mul_pos (by positivity) h5)

private lemma imag_pos (core phonon : Bool) (hcp : core = true ∨ phonon = true) {k0 : ℝ} (hk : 0 < k0) {Z : ℤ} (h1 : 1 ≤ Z)
    (h2 : Z ≤ 98) {σ V : ℝ} (hσ : σ ≠ 0) (hV : 0 < V) :
    ∃ y, 0 < y ∧ imagPart core phonon (wkRow (Z - 1).toNat) k0 Z σ V 0 = some y := by
  have hZ : (0 : ℝ) < (Z : ℝ) := by exact_mod_cast h1
  have hc := core_pos hk hZ hV
  obtain ⟨p, hp, hpe⟩ := phon_pos expi h1 h2 hσ
  have hπ := pi_pos
  unfold imagPart
  dsimp only
  rw [if_neg (show ¬ Z ≤ 0 by omega), hpe]
  cases core <;> cases phonon
  · simp at hcp
  · refine ⟨_, ?_, rfl⟩
    have := exp_pos (-0.5 * σ ^ 2 * 0 ^ 2)
    have : 0 < 0 * exp (-0.5 * σ ^ 2 * 0 ^ 2) + p := by linarith
    positivity
  · refine ⟨_, ?_, rfl⟩
    have := exp_pos (-0.5 * σ ^ 2 * 0 ^ 2)
    have : 0 < fCore k0 Z V 0 * exp (-0.5 * σ ^ 2 * 0 ^ 2) + 0 := by positivity
    positivity
  · refine ⟨_, ?_, rfl⟩
    have := exp_pos (-0.5 * σ ^ 2 * 0 ^ 2)
    have : 0 < fCore k0 Z V 0 * exp (-0.5 * σ ^ 2 * 0 ^ 2) + p := by positivity
    positivity

/-- C110, what holds: for every element 1-98, every nonzero displacement and every positive voltage, both absorptive
parameterisations give a positive absorption at zero scattering as soon as one of the two loss channels is included. -/
theorem C110_forward_absorption_partial (L : ℕ → Lob) (core phonon : Bool) (hcp : core = true ∨ phonon = true) (g : List ℝ)
    (Z : List ℤ) (σ V : List ℝ) (hZ : ∀ z ∈ Z, 1 ≤ z ∧ z ≤ 98) (hσ : σ.length = Z.length) (hσ0 : ∀ s ∈ σ, s ≠ 0)
    (hV : ∀ v ∈ V, 0 < v) :
    ∃ wk hy, scatterWK wkRow core phonon "EMsoft" g Z σ V = some wk ∧
      scatterHybrid wkRow L core phonon "EMsoft" g Z σ V = some hy ∧
      ∀ (v z k : ℕ) (_ : v < V.length) (_ : z < Z.length) (hk : k < g.length), g[k] = 0 →
        (∃ y, (wk.at_ v z k).im = some y ∧ 0 < y) ∧ ∃ y, (hy.at_ v z k).im = some y ∧ 0 < y := by
  have hany : ¬ (Z.any fun z => (rowOf 98 z).isNone) = true := by
    rw [List.any_eq_true]
    rintro ⟨z, hz, h⟩
    rw [rowOf_valid (hZ z hz).1 (hZ z hz).2] at h
    exact absurd h (by simp)
  have hlen : ¬ σ.length * g.length ≠ Z.length * g.length := by rw [hσ]; simp
  refine ⟨_, _, by unfold scatterWK; rw [if_neg hany, if_neg hlen],
    by unfold scatterHybrid; rw [if_neg hany, if_neg hlen, if_neg (by simp)], ?_⟩
  intro v z k hv hz hk h0
  have e1 : g.getD k 0 = 0 := by simp [hk, h0]
  have e2 : Z.getD z 0 = Z[z] := by simp [hz]
  have e3 : σ.getD z 0 = σ[z] := by simp [hσ ▸ hz]
  have e4 : V.getD v 0 = V[v] := by simp [hv]
  have hz' := hZ Z[z] (List.getElem_mem hz)
  have hv' := hV V[v] (List.getElem_mem hv)
  have hs' := hσ0 σ[z] (List.getElem_mem (hσ ▸ hz))
  have hne : ("EMsoft" = "ITC") = False := by decide
  simp only [wkEntry, hybridEntry, e1, e2, e3, e4, rowOf_valid hz'.1 hz'.2, Option.getD_some, hne, if_false, if_true, zero_mul]
  have k1 : 0 < 0.5068 * sqrt (1022 * V[v] + V[v] * V[v]) := mul_pos (by norm_num) (sqrt_pos.mpr (by positivity))
  have k2 : 0 < 2 * π / wavelength (1000 * V[v]) := div_pos (by positivity) (exp_pos _)
  obtain ⟨y, y0, hy⟩ := imag_pos core phonon hcp k1 hz'.1 hz'.2 hs' hv'
  obtain ⟨w, w0, hw⟩ := imag_pos core phonon hcp k2 hz'.1 hz'.2 hs' hv'
  rw [hy, hw]
  exact ⟨⟨y, rfl, y0⟩, max w 0, rfl, lt_max_of_lt_left w0⟩

example : ∃ wk, scatterWK wkRow true true "EMsoft" [0, 1.5] [26, 2] [0.08, 0.1] [20, 30] = some wk ∧
    ∃ y, (wk.at_ 1 1 0).im = some y ∧ 0 < y := by
  obtain ⟨wk, hy, h, _, h2⟩ := C110_forward_absorption_partial (fun _ => ⟨fun _ => 1, fun _ => 1⟩) true true (Or.inl rfl) [0, 1.5]
    [26, 2] [0.08, 0.1] [20, 30] (by intro z hz; simp at hz; omega) rfl (by intro s hs; simp at hs; rcases hs with h | h <;> rw [h] <;> norm_num)
    (by intro v hv; simp at hv; rcases hv with h | h <;> rw [h] <;> norm_num)
  exact ⟨wk, h, (h2 1 1 0 (by simp) (by simp) (by simp) rfl).1⟩

/-- C110 fails: an atom without thermal motion (which scatters nothing diffusely) gets NaN as the phonon part, for every
element, scattering magnitude and voltage. -/
theorem C110_no_motion_fails (L : ℕ → Lob) (core : Bool) (g V : ℝ) (Z : ℤ) (h1 : 1 ≤ Z) (h2 : Z ≤ 98) :
    ∃ wk hy, scatterWK wkRow core true "EMsoft" [g] [Z] [0] [V] = some wk ∧
      scatterHybrid wkRow L core true "EMsoft" [g] [Z] [0] [V] = some hy ∧ (wk.at_ 0 0 0).im = none ∧ (hy.at_ 0 0 0).im = none := by
  have hany : ¬ ([Z].any fun z => (rowOf 98 z).isNone) = true := by
    simp [rowOf_valid h1 h2]
  refine ⟨_, _, by unfold scatterWK; rw [if_neg hany, if_neg (by simp)],
    by unfold scatterHybrid; rw [if_neg hany, if_neg (by simp), if_neg (by simp)], ?_⟩
  have hp : ∀ (f : Fit) (k0 V G : ℝ), imagPart core true f k0 Z 0 V G = none := by
    intro f k0 V G
    unfold imagPart fPhon
    cases core <;> simp
  constructor
  · simp only [wkEntry, List.getD_cons_zero, if_true, hp]
  · simp only [hybridEntry, List.getD_cons_zero, if_true, hp, Option.map_none]

end Verif.Scat
