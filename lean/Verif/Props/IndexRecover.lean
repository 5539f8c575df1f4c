import Verif.Props.Indexing
/-! C152: indexing a pattern that is an exact simulation of a dictionary orientation (ebsd/indexing.py). -/
namespace Verif
open Spec

/-- A pattern recorded without noise: the simulated pattern with a gain and an offset. -/
def Noiseless {d : ℕ} (gain offset : ℝ) (s e : Fin d → ℝ) : Prop := ∀ i, e i = gain * s i + offset

/-- Contrast of a pattern: sum of the squared deviations from its mean. -/
noncomputable def contrast {d : ℕ} (s : Fin d → ℝ) : ℝ := ∑ i, (s i - (∑ j, s j) / d) ^ 2

/-- Two patterns that differ by a constant. -/
def SameUpToOffset {d : ℕ} (a b : Fin d → ℝ) : Prop := ∃ c : ℝ, ∀ i, a i = b i + c

theorem centred_noiseless {d : ℕ} {gain offset : ℝ} {s e : Fin d → ℝ} (h : Noiseless gain offset s e) :
    centred e = fun i => gain * centred s i := by
  funext i
  have hd : (d : ℝ) ≠ 0 := by
    have : d ≠ 0 := by rintro rfl; exact i.elim0
    exact_mod_cast this
  unfold centred
  rw [h i, Finset.sum_congr rfl fun j _ => h j, Finset.sum_add_distrib, ← Finset.mul_sum]
  simp only [Finset.sum_const, Finset.card_univ, Fintype.card_fin, nsmul_eq_mul]
  field_simp
  ring

theorem sum_centred {d : ℕ} (s : Fin d → ℝ) : ∑ i, centred s i = 0 := by
  rcases Nat.eq_zero_or_pos d with rfl | hd
  · simp
  have : (d : ℝ) ≠ 0 := by exact_mod_cast hd.ne'
  unfold centred
  rw [Finset.sum_sub_distrib]
  simp only [Finset.sum_const, Finset.card_univ, Fintype.card_fin, nsmul_eq_mul]
  field_simp
  ring

theorem same_of_centred {d : ℕ} {a b : Fin d → ℝ} (h : centred a = centred b) : SameUpToOffset a b := by
  refine ⟨(∑ j, a j) / d - (∑ j, b j) / d, fun i => ?_⟩
  have := congrFun h i
  unfold centred at this
  linarith

/-- The dot product with a centred pattern does not see the offset. -/
theorem angular_noiseless {d : ℕ} {gain offset : ℝ} {s e : Fin d → ℝ} (h : Noiseless gain offset s e) (subMean : Bool) (chunkE n : ℕ) (x : Fin d → ℝ) :
    specScore .angular (prepared subMean chunkE n e) (centred x) = gain * ∑ i, centred s i * centred x i := by
  have key : ∑ i, centred e i * centred x i = gain * ∑ i, centred s i * centred x i := by
    rw [centred_noiseless h, Finset.mul_sum]
    exact Finset.sum_congr rfl fun i _ => by ring
  have hcent : ∑ i, e i * centred x i = ∑ i, centred e i * centred x i := by
    have : ∀ i, centred e i * centred x i = e i * centred x i - (∑ j, e j) / d * centred x i := fun i => by unfold centred; ring
    rw [Finset.sum_congr rfl fun i _ => this i, Finset.sum_sub_distrib, ← Finset.mul_sum, sum_centred, mul_zero, sub_zero]
  unfold prepared
  by_cases hc : subMean = true ∨ chunkE ≤ n
  · rw [if_pos hc]; exact key
  · rw [if_neg hc]; exact hcent.trans key

/-- **C152 (partial)**, default metric: when all simulated patterns of the dictionary have the same contrast, every pattern
recorded without noise from a dictionary orientation, with any positive gain and any offset, is indexed as an orientation whose
simulated pattern is the same up to an offset.  Missing: dictionaries of different contrast, see `C152_contrast_fails`. -/
theorem C152_angular_partial {d : ℕ} (quant : Bool) (garbage : ℕ → ℕ → ℤ) (tape : TopkTape) (tk : TopKSorted)
    (subMean : Bool) (chunkE chunkD : ℕ) (hE : 0 < chunkE) (hD : 0 < chunkD) (oris : List Q) (hN : oris ≠ [])
    (sim : Q → Fin d → ℝ) (K : ℝ) (hK : ∀ o ∈ oris, contrast (sim o) = K) (exps : List (Fin d → ℝ)) :
    ∃ out, dictionaryIndex 1 .angular quant garbage tape tk subMean chunkE chunkD [(oris, sim)] exps = some out ∧
      out.length = exps.length ∧
      ∀ r (hr : r < exps.length), ∀ t ∈ oris, ∀ gain offset, 0 < gain → Noiseless gain offset (sim t) exps[r] →
        ∃ o ∈ oris, ∃ v, out[r]? = some (0, o, v) ∧ SameUpToOffset (sim o) (sim t) := by
  have hl : 1 ≤ oris.length := List.length_pos_of_ne_nil hN
  obtain ⟨out, ho, hlen, hall⟩ := C45_best_match_partial 1 le_rfl .angular quant (Or.inr rfl) garbage tape tk subMean chunkE chunkD hE hD
    hD oris hl (by omega) sim exps
  refine ⟨out, ho, hlen, ?_⟩
  intro r hr t ht gain offset hg hn
  obtain ⟨o, hoo, v, h1, h2, h3⟩ := hall r hr
  refine ⟨o, hoo, v, h1, same_of_centred ?_⟩
  have h4 := h3 t ht
  simp only [specBig, if_true] at h4
  rw [h2, angular_noiseless hn, angular_noiseless hn] at h4
  have h5 : ∑ i, centred (sim t) i * centred (sim t) i ≤ ∑ i, centred (sim t) i * centred (sim o) i := le_of_mul_le_mul_left h4 hg
  have c1 : ∑ i, centred (sim t) i * centred (sim t) i = K := by
    rw [← hK t ht]; unfold contrast centred
    exact Finset.sum_congr rfl fun i _ => by ring
  have c2 : ∑ i, centred (sim o) i * centred (sim o) i = K := by
    rw [← hK o hoo]; unfold contrast centred
    exact Finset.sum_congr rfl fun i _ => by ring
  have h6 : ∑ i, (centred (sim o) i - centred (sim t) i) ^ 2 ≤ 0 := by
    have : ∀ i, (centred (sim o) i - centred (sim t) i) ^ 2 =
        centred (sim o) i * centred (sim o) i + centred (sim t) i * centred (sim t) i - 2 * (centred (sim t) i * centred (sim o) i) := fun i => by ring
    rw [Finset.sum_congr rfl fun i _ => this i, Finset.sum_sub_distrib, Finset.sum_add_distrib, ← Finset.mul_sum, c1, c2]
    linarith
  have h7 := (Finset.sum_eq_zero_iff_of_nonneg (fun i _ => sq_nonneg (centred (sim o) i - centred (sim t) i))).mp
    (le_antisymm h6 (Finset.sum_nonneg fun i _ => sq_nonneg _))
  funext i
  have := h7 i (Finset.mem_univ i)
  rw [sq_eq_zero_iff, sub_eq_zero] at this
  exact this

/-- **C152 (partial)**, distance metrics without quantisation, patterns centred: every pattern recorded without noise from a
dictionary orientation with gain 1 and any offset is indexed as an orientation whose simulated pattern is the same up to an
offset, whatever the contrasts.  Missing: other gains, see `C152_gain_fails`. -/
theorem C152_distance_partial {d : ℕ} (metric : Metric) (hm : metric ≠ .angular) (garbage : ℕ → ℕ → ℤ) (tape : TopkTape) (tk : TopKSorted)
    (chunkE chunkD : ℕ) (hE : 0 < chunkE) (hD : 0 < chunkD) (oris : List Q) (hN : oris ≠ [])
    (sim : Q → Fin d → ℝ) (exps : List (Fin d → ℝ)) :
    ∃ out, dictionaryIndex 1 metric false garbage tape tk true chunkE chunkD [(oris, sim)] exps = some out ∧
      out.length = exps.length ∧
      ∀ r (hr : r < exps.length), ∀ t ∈ oris, ∀ offset, Noiseless 1 offset (sim t) exps[r] →
        ∃ o ∈ oris, out[r]? = some (0, o, ((0 : ℝ) : EReal)) ∧ SameUpToOffset (sim o) (sim t) := by
  have hl : 1 ≤ oris.length := List.length_pos_of_ne_nil hN
  obtain ⟨out, ho, hlen, hall⟩ := C45_best_match_partial 1 le_rfl metric false (Or.inl rfl) garbage tape tk true chunkE chunkD hE hD
    hD oris hl (by omega) sim exps
  refine ⟨out, ho, hlen, ?_⟩
  intro r hr t ht offset hn
  obtain ⟨o, hoo, v, h1, h2, h3⟩ := hall r hr
  have hc : prepared true chunkE exps.length exps[r] = centred (sim t) := by
    unfold prepared
    rw [if_pos (Or.inl rfl), centred_noiseless hn]
    simp
  have h4 := h3 t ht
  rw [hc] at h2 h4
  have hv : v = 0 ∧ centred (sim o) = centred (sim t) := by
    cases metric with
    | angular => exact absurd rfl hm
    | euclidean =>
      simp only [specBig, specScore, Bool.false_eq_true, if_false, sub_self] at h2 h4
      have h0 : ∑ i : Fin d, (0 : ℝ) ^ 2 = 0 := by simp
      rw [h0] at h4
      have h5 : (0 : ℝ) ≤ ∑ i, (centred (sim t) i - centred (sim o) i) ^ 2 := Finset.sum_nonneg fun i _ => sq_nonneg _
      have hz : v = 0 := by linarith
      rw [hz] at h2
      have h7 := (Finset.sum_eq_zero_iff_of_nonneg (fun i _ => sq_nonneg (centred (sim t) i - centred (sim o) i))).mp h2.symm
      refine ⟨hz, funext fun i => ?_⟩
      have := h7 i (Finset.mem_univ i)
      rw [sq_eq_zero_iff, sub_eq_zero] at this
      exact this.symm
    | manhattan =>
      simp only [specBig, specScore, Bool.false_eq_true, if_false, sub_self] at h2 h4
      have h0 : ∑ i : Fin d, |(0 : ℝ)| = 0 := by simp
      rw [h0] at h4
      have h5 : (0 : ℝ) ≤ ∑ i, |centred (sim t) i - centred (sim o) i| := Finset.sum_nonneg fun i _ => abs_nonneg _
      have hz : v = 0 := by linarith
      rw [hz] at h2
      have h7 := (Finset.sum_eq_zero_iff_of_nonneg (fun i _ => abs_nonneg (centred (sim t) i - centred (sim o) i))).mp h2.symm
      refine ⟨hz, funext fun i => ?_⟩
      have := h7 i (Finset.mem_univ i)
      rw [abs_eq_zero, sub_eq_zero] at this
      exact this.symm
  refine ⟨o, hoo, ?_, same_of_centred hv.2⟩
  rw [h1, hv.1]

/-- **C152**, default metric, which patterns are recovered: a pattern recorded without noise from the dictionary orientation `t`
is never indexed as `t` when some dictionary orientation has a larger inner product with the pattern of `t` than `t` itself. -/
theorem C152_contrast_rule {d : ℕ} (quant : Bool) (garbage : ℕ → ℕ → ℤ) (tape : TopkTape) (tk : TopKSorted)
    (subMean : Bool) (chunkE chunkD : ℕ) (hE : 0 < chunkE) (hD : 0 < chunkD) (oris : List Q)
    (sim : Q → Fin d → ℝ) (exps : List (Fin d → ℝ)) (r : ℕ) (hr : r < exps.length) (t t' : Q) (ht' : t' ∈ oris) (gain offset : ℝ)
    (hg : 0 < gain) (hn : Noiseless gain offset (sim t) exps[r])
    (hbig : contrast (sim t) < ∑ i, centred (sim t) i * centred (sim t') i) :
    ∃ out, dictionaryIndex 1 .angular quant garbage tape tk subMean chunkE chunkD [(oris, sim)] exps = some out ∧
      ∃ o ∈ oris, ∃ v, out[r]? = some (0, o, v) ∧ o ≠ t := by
  have hl : 1 ≤ oris.length := List.length_pos_of_mem ht'
  obtain ⟨out, ho, -, hall⟩ := C45_best_match_partial 1 le_rfl .angular quant (Or.inr rfl) garbage tape tk subMean chunkE chunkD hE hD
    hD oris hl (by omega) sim exps
  obtain ⟨o, hoo, v, h1, h2, h3⟩ := hall r hr
  refine ⟨out, ho, o, hoo, v, h1, ?_⟩
  rintro rfl
  have h4 := h3 t' ht'
  simp only [specBig, if_true] at h4
  rw [h2, angular_noiseless hn, angular_noiseless hn] at h4
  have h5 := le_of_mul_le_mul_left h4 hg
  have : ∑ i, centred (sim o) i * centred (sim o) i = contrast (sim o) := by
    unfold contrast centred
    exact Finset.sum_congr rfl fun i _ => by ring
  linarith

/-! ### A crystal, a detector of three pixels and two orientations -/

/-- Rays to the three pixels. -/
def raysC : Fin 3 → V := ![⟨1, 0, 0⟩, ⟨0, 1, 0⟩, ⟨-1, 0, 0⟩]

/-- The identity and a rotation about `z`. -/
noncomputable def dictC : List Q := [⟨1, 0, 0, 0⟩, ⟨3 / 5, 0, 0, 4 / 5⟩]

/-- A master pattern: weak contrast on one part of the sphere, strong on another one. -/
noncomputable def masterC (w : Fin 3 → ℝ) : V → ℝ := fun v =>
  open Classical in
  if v = ⟨1, 0, 0⟩ then 1 else if v = ⟨0, 1, 0⟩ then -1 else if v = ⟨-1, 0, 0⟩ then 0
  else if v = ⟨-7 / 25, 24 / 25, 0⟩ then w 0 else if v = ⟨-24 / 25, -7 / 25, 0⟩ then w 1 else w 2

/-- The simulated pattern of an orientation: the master pattern at the rotated rays (indexing.py:112-128). -/
noncomputable def simC (w : Fin 3 → ℝ) (q : Q) : Fin 3 → ℝ := fun i => masterC w (quApply q (raysC i))

@[local simp] theorem vec3_two {α : Type} (a b c : α) : ![a, b, c] 2 = c := rfl

theorem simC_one (w : Fin 3 → ℝ) : simC w ⟨1, 0, 0, 0⟩ = ![1, -1, 0] := by
  funext i
  fin_cases i <;> norm_num [simC, masterC, raysC, quApply]

theorem simC_two (w : Fin 3 → ℝ) : simC w ⟨3 / 5, 0, 0, 4 / 5⟩ = w := by
  funext i
  fin_cases i <;> norm_num [simC, masterC, raysC, quApply]
  rfl

/-- **C152 fails** for the default metric: the inner products are not divided by the contrast of the simulated pattern.  The
pattern recorded without noise at the identity is indexed as the second orientation, although its correlation coefficient with
the first simulation is 1 and with the second 1/2. -/
theorem C152_contrast_fails (quant : Bool) (garbage : ℕ → ℕ → ℤ) (tape : TopkTape) (tk : TopKSorted)
    (subMean : Bool) (chunkE chunkD : ℕ) (hE : 0 < chunkE) (hD : 0 < chunkD) :
    ∃ out v, dictionaryIndex 1 .angular quant garbage tape tk subMean chunkE chunkD [(dictC, simC ![3, 0, -3])]
        [simC ![3, 0, -3] ⟨1, 0, 0, 0⟩] = some out ∧ out[0]? = some (0, ⟨3 / 5, 0, 0, 4 / 5⟩, v) ∧
      (∑ i, centred (simC ![3, 0, -3] ⟨1, 0, 0, 0⟩) i * centred (simC ![3, 0, -3] ⟨3 / 5, 0, 0, 4 / 5⟩) i) /
        √(contrast (simC ![3, 0, -3] ⟨1, 0, 0, 0⟩) * contrast (simC ![3, 0, -3] ⟨3 / 5, 0, 0, 4 / 5⟩)) = 1 / 2 := by
  have e1 : contrast (simC ![3, 0, -3] ⟨1, 0, 0, 0⟩) = 2 := by
    rw [simC_one]; norm_num [contrast, Fin.sum_univ_three]
  have e2 : contrast (simC ![3, 0, -3] ⟨3 / 5, 0, 0, 4 / 5⟩) = 18 := by
    rw [simC_two]; norm_num [contrast, Fin.sum_univ_three]
  have e3 : ∑ i, centred (simC ![3, 0, -3] ⟨1, 0, 0, 0⟩) i * centred (simC ![3, 0, -3] ⟨3 / 5, 0, 0, 4 / 5⟩) i = 3 := by
    rw [simC_one, simC_two]; norm_num [centred, Fin.sum_univ_three]
  obtain ⟨out, ho, o, hoo, v, h1, h2⟩ := C152_contrast_rule quant garbage tape tk subMean chunkE chunkD hE hD dictC (simC ![3, 0, -3])
    [simC ![3, 0, -3] ⟨1, 0, 0, 0⟩] 0 (by simp) ⟨1, 0, 0, 0⟩ ⟨3 / 5, 0, 0, 4 / 5⟩ (by simp [dictC]) 1 0 one_pos (fun i => by simp)
    (by rw [e1, e3]; norm_num)
  refine ⟨out, v, ho, ?_, ?_⟩
  · simp only [dictC, List.mem_cons, List.not_mem_nil, or_false] at hoo
    rcases hoo with h | h
    · exact absurd h h2
    · rw [h1, h]
  · rw [e1, e2, e3, show (2 : ℝ) * 18 = 6 ^ 2 by norm_num, Real.sqrt_sq (by norm_num)]
    norm_num

/-- **C152 fails** for the Euclidean metric when the detector has a gain: the pattern of the identity recorded with gain 10 is
indexed as the second orientation. -/
theorem C152_gain_fails (garbage : ℕ → ℕ → ℤ) (tape : TopkTape) (tk : TopKSorted) (chunkE chunkD : ℕ) (hE : 0 < chunkE) (hD : 0 < chunkD) :
    ∃ out v, dictionaryIndex 1 .euclidean false garbage tape tk true chunkE chunkD [(dictC, simC ![6, -3, -3])]
        [fun i => 10 * simC ![6, -3, -3] ⟨1, 0, 0, 0⟩ i] = some out ∧ out[0]? = some (0, ⟨3 / 5, 0, 0, 4 / 5⟩, v) := by
  obtain ⟨out, ho, -, hall⟩ := C45_best_match_partial 1 le_rfl .euclidean false (Or.inl rfl) garbage tape tk true chunkE chunkD hE hD
    hD dictC (by simp [dictC]) (by omega) (simC ![6, -3, -3]) [fun i => 10 * simC ![6, -3, -3] ⟨1, 0, 0, 0⟩ i]
  obtain ⟨o, hoo, v, h1, h2, h3⟩ := hall 0 (by simp)
  refine ⟨out, v, ho, ?_⟩
  have hoo' := hoo
  simp only [dictC, List.mem_cons, List.not_mem_nil, or_false] at hoo
  rcases hoo with h | h
  · exfalso
    have h4 := h3 ⟨3 / 5, 0, 0, 4 / 5⟩ (by simp [dictC])
    rw [h2, h] at h4
    simp only [specBig, specScore, prepared, Bool.false_eq_true, if_false, true_or, if_true, List.getElem_cons_zero] at h4
    rw [simC_one, simC_two] at h4
    norm_num [centred, Fin.sum_univ_three] at h4
  · rw [h1, h]

/-- Equal contrasts, different patterns: both orientations are recovered. -/
example (garbage : ℕ → ℕ → ℤ) (tape : TopkTape) (tk : TopKSorted) : ∃ out,
    dictionaryIndex 1 .angular true garbage tape tk true 256 256 [(dictC, simC ![0, 1, -1])]
      [fun i => 7 * simC ![0, 1, -1] ⟨3 / 5, 0, 0, 4 / 5⟩ i + 40] = some out ∧
    ∃ o ∈ dictC, ∃ v, out[0]? = some (0, o, v) ∧ SameUpToOffset (simC ![0, 1, -1] o) (simC ![0, 1, -1] ⟨3 / 5, 0, 0, 4 / 5⟩) := by
  obtain ⟨out, h, -, h2⟩ := C152_angular_partial true garbage tape tk true 256 256 (by norm_num) (by norm_num) dictC (by simp [dictC])
    (simC ![0, 1, -1]) 2 (by
      intro o ho
      simp only [dictC, List.mem_cons, List.not_mem_nil, or_false] at ho
      rcases ho with rfl | rfl
      · rw [simC_one]; norm_num [contrast, Fin.sum_univ_three]
      · rw [simC_two]; norm_num [contrast, Fin.sum_univ_three]) [fun i => 7 * simC ![0, 1, -1] ⟨3 / 5, 0, 0, 4 / 5⟩ i + 40]
  exact ⟨out, h, h2 0 (by simp) _ (by simp [dictC]) 7 40 (by norm_num) (fun i => rfl)⟩

example (garbage : ℕ → ℕ → ℤ) (tape : TopkTape) (tk : TopKSorted) :=
  C152_distance_partial .euclidean (by decide) garbage tape tk 256 256 (by norm_num) (by norm_num) dictC (by simp [dictC])
    (simC ![6, -3, -3]) [fun i => simC ![6, -3, -3] ⟨1, 0, 0, 0⟩ i + 40]

example : Noiseless 1 40 (simC ![6, -3, -3] ⟨1, 0, 0, 0⟩) (fun i => simC ![6, -3, -3] ⟨1, 0, 0, 0⟩ i + 40) := fun i => by simp

end Verif
