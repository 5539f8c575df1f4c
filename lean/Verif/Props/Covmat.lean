import Verif.Model.Covmat
import Verif.Spec.Stats
import Mathlib.Tactic.Ring
import Mathlib.Tactic.FieldSimp
import Mathlib.Tactic.Linarith
import Mathlib.Tactic.LinearCombination
import Mathlib.Algebra.BigOperators.Ring.Finset
import Mathlib.Tactic.FinCases
import Mathlib.Tactic.NormNum
import Mathlib.Data.Fin.VecNotation
import Mathlib.Algebra.Order.BigOperators.Ring.Finset
/-! Property C32 (utils/pca_covmat.py). -/
namespace Verif
open Spec

theorem sum_get {d : ℕ} (L : List (Fin d → ℝ)) (f : (Fin d → ℝ) → ℝ) :
    ∑ i : Fin L.length, f (L.get i) = (L.map f).sum := by
  rw [← List.sum_ofFn]
  congr 1
  apply List.ext_getElem <;> simp

theorem sum_prod_shift {d : ℕ} (L : List (Fin d → ℝ)) (j k : Fin d) (a b : ℝ) :
    (L.map fun x => (x j - a) * (x k - b)).sum =
      (L.map fun x => x j * x k).sum - a * (L.map fun x => x k).sum - b * (L.map fun x => x j).sum
        + L.length * (a * b) := by
  induction L with
  | nil => simp
  | cons x t ih =>
    simp only [List.map_cons, List.sum_cons, ih, List.length_cons]
    push_cast
    ring

/-- The internal invariant: mean and raw second moments of everything seen. -/
structure CovInv {d : ℕ} (s : Cov d) (L : List (Fin d → ℝ)) : Prop where
  obs : s.obs = L.length
  ex : ∃ m a, s.mean = some m ∧ s.agg = some a ∧
    (∀ j, m j * L.length = (L.map fun x => x j).sum) ∧
    (∀ j k, a j k = (L.map fun x => x j * x k).sum - L.length * (m j * m k)) ∧
    (L = [] → ∀ j, m j = 0)

theorem CovInv.step {d : ℕ} {s : Cov d} {L X : List (Fin d → ℝ)} (h : CovInv s L) (hX : X ≠ []) :
    CovInv (s.forward X) (L ++ X) := by
  obtain ⟨hobs, m, a, hm, ha, hmean, hagg, _⟩ := h
  have hN : X.length ≠ 0 := by simpa using hX
  have hNr : (X.length : ℝ) ≠ 0 := by exact_mod_cast hN
  have hsum : L.length + X.length ≠ 0 := by omega
  have hsr : ((L.length + X.length : ℕ) : ℝ) ≠ 0 := by exact_mod_cast hsum
  set m' : Fin d → ℝ := fun j => (m j * L.length + (X.map fun x => x j).sum / X.length * X.length) /
    ((L.length + X.length : ℕ) : ℝ) with hm'
  have hm'v : ∀ j, m' j * ((L.length + X.length : ℕ) : ℝ) =
      (L.map fun x => x j).sum + (X.map fun x => x j).sum := by
    intro j
    simp only [hm']
    rw [div_mul_cancel₀ _ hsr, hmean, div_mul_cancel₀ _ hNr]
  have hf : s.forward X = { s with
      mean := some m'
      agg := some fun j k => a j k + (X.map fun x => (x j - m j) * (x k - m' k)).sum
      obs := L.length + X.length } := by
    unfold Cov.forward batchMean
    simp [hm, ha, hobs, hN, hm']
  rw [hf]
  refine ⟨by simp, m', _, rfl, rfl, ?_, ?_, ?_⟩
  · intro j
    rw [List.length_append, hm'v, List.map_append, List.sum_append]
  · intro j k
    rw [hagg, sum_prod_shift, List.map_append, List.sum_append, List.length_append]
    have h1 := hm'v j
    have h2 := hm'v k
    have h3 := hmean j
    have h4 := hmean k
    push_cast at h1 h2 ⊢
    clear_value m'
    linear_combination (m' k) * h1 + (m j) * h2 - (m' k) * h3 - (m j) * h4
  · intro hc
    simp [hX] at hc

theorem CovInv.run {d : ℕ} (batches : List (List (Fin d → ℝ))) (hb : ∀ b ∈ batches, b ≠ []) :
    ∀ (s : Cov d) (L : List (Fin d → ℝ)), CovInv s L →
      CovInv (batches.foldl Cov.forward s) (L ++ batches.flatten) := by
  induction batches with
  | nil => intro s L h; simpa using h
  | cons b t ih =>
    intro s L h
    rw [List.foldl_cons, List.flatten_cons, ← List.append_assoc]
    exact ih (fun c hc => hb c (by simp [hc])) _ _ (h.step (hb b (by simp)))

theorem forward_correlation {d : ℕ} (batches : List (List (Fin d → ℝ))) :
    ∀ s : Cov d, (batches.foldl Cov.forward s).correlation = s.correlation := by
  induction batches with
  | nil => intro s; rfl
  | cons b t ih => intro s; rw [List.foldl_cons, ih]; rfl

theorem CovInv.spec {d : ℕ} {s : Cov d} {L : List (Fin d → ℝ)} (h : CovInv s L) (hL : L ≠ []) :
    s.mean = some (fun j => Spec.mean L.get j) ∧
    s.agg = some (fun j k => Spec.cov L.get j k * ((L.length : ℝ) - 1) ) ∨ L.length = 1 := by
  by_cases h1 : L.length = 1
  · right; exact h1
  left
  obtain ⟨hobs, m, a, hm, ha, hmean, hagg, _⟩ := h
  have hN : L.length ≠ 0 := by simpa using hL
  have hNr : (L.length : ℝ) ≠ 0 := by exact_mod_cast hN
  have h1r : (L.length : ℝ) - 1 ≠ 0 := by
    intro hc; apply h1; exact_mod_cast (sub_eq_zero.mp hc)
  have hmm : ∀ j, m j = Spec.mean L.get j := by
    intro j
    unfold Spec.mean
    rw [sum_get L (fun x => x j), ← hmean, mul_div_cancel_right₀ _ hNr]
  refine ⟨by rw [hm]; congr 1; funext j; exact hmm j, ?_⟩
  rw [ha]
  congr 1
  funext j k
  unfold Spec.cov
  rw [div_mul_cancel₀ _ h1r, ← hmm, ← hmm, sum_get L (fun x => (x j - m j) * (x k - m k)),
    sum_prod_shift, hagg, ← hmean, ← hmean]
  ring

/-- C32 (non-empty batches; see `C32_empty_batch_fails`): after any sequence of batches containing at
least two observations in total, the running mean is the sample mean and `get_covmat` returns the sample
covariance of the concatenation of all batches. -/
theorem C32_exact_partial {d : ℕ} (batches : List (List (Fin d → ℝ))) (hb : ∀ b ∈ batches, b ≠ [])
    (hn : 2 ≤ batches.flatten.length) :
    let s := batches.foldl Cov.forward (Cov.init d false)
    s.obs = batches.flatten.length ∧
    s.mean = some (fun j => Spec.mean batches.flatten.get j) ∧
    s.getCovmat = some (fun j k => Spec.cov batches.flatten.get j k) := by
  intro s
  have h0 : CovInv (Cov.init d false) [] := ⟨rfl, _, _, rfl, rfl, by simp, by simp, by simp⟩
  have hI := CovInv.run batches hb _ _ h0
  rw [List.nil_append] at hI
  have hne : batches.flatten ≠ [] := by intro hc; rw [hc] at hn; simp at hn
  have h1 : batches.flatten.length ≠ 1 := by omega
  rcases hI.spec hne with ⟨hm, ha⟩ | hc
  · refine ⟨hI.obs, hm, ?_⟩
    have hcor : s.correlation = false := forward_correlation batches _
    have hobs : s.obs = batches.flatten.length := hI.obs
    have h1r : (batches.flatten.length : ℝ) - 1 ≠ 0 := by
      intro hc; apply h1; exact_mod_cast (sub_eq_zero.mp hc)
    show s.getCovmat = _
    have ha' : s.agg = _ := ha
    unfold Cov.getCovmat
    rw [ha', hobs, hcor]
    simp only [Option.bind_eq_bind, Option.bind_some, if_neg h1, Bool.false_eq_true, if_false]
    congr 1
    funext j k
    rw [mul_div_cancel_right₀ _ h1r]
  · exact absurd hc h1

/-- C32, single observation: mean is the observation and the covariance is NaN (0/0). -/
theorem C32_single_observation {d : ℕ} (c : Bool) (x : Fin d → ℝ) :
    ((Cov.init d c).forward [x]).mean = some x ∧ ((Cov.init d c).forward [x]).getCovmat = none := by
  constructor
  · unfold Cov.forward batchMean Cov.init; simp
  · unfold Cov.getCovmat
    have : ((Cov.init d c).forward [x]).obs = 1 := by simp [Cov.forward, Cov.init]
    rw [this]
    cases ((Cov.init d c).forward [x]).agg <;> rfl

/-- C32: the result does not depend on how the observations were batched. -/
theorem C32_chunking_invariant_partial {d : ℕ} (c : Bool) (b1 b2 : List (List (Fin d → ℝ)))
    (h1 : ∀ b ∈ b1, b ≠ []) (h2 : ∀ b ∈ b2, b ≠ []) (h : b1.flatten = b2.flatten) :
    b1.foldl Cov.forward (Cov.init d c) = b2.foldl Cov.forward (Cov.init d c) := by
  have h0 : CovInv (Cov.init d c) [] := ⟨rfl, _, _, rfl, rfl, by simp, by simp, by simp⟩
  have hI1 := CovInv.run b1 h1 _ _ h0
  have hI2 := CovInv.run b2 h2 _ _ h0
  rw [List.nil_append] at hI1 hI2
  have hc1 := forward_correlation b1 (Cov.init d c)
  have hc2 := forward_correlation b2 (Cov.init d c)
  revert hI1 hI2 hc1 hc2
  generalize b1.foldl Cov.forward (Cov.init d c) = s1
  generalize b2.foldl Cov.forward (Cov.init d c) = s2
  intro hI1 hI2 hc1 hc2
  rw [← h] at hI2
  obtain ⟨ho1, m1, a1, hm1, ha1, he1, hg1, hz1⟩ := hI1
  obtain ⟨ho2, m2, a2, hm2, ha2, he2, hg2, hz2⟩ := hI2
  have hm : m1 = m2 := by
    funext j
    by_cases hL : b1.flatten = []
    · rw [hz1 hL, hz2 hL]
    · have hNr : (b1.flatten.length : ℝ) ≠ 0 := by
        have : b1.flatten.length ≠ 0 := fun hc => hL (List.length_eq_zero_iff.mp hc)
        exact_mod_cast this
      exact mul_right_cancel₀ hNr ((he1 j).trans (he2 j).symm)
  subst hm
  have ha : a1 = a2 := by
    funext j k
    rw [hg1, hg2]
  subst ha
  cases s1; cases s2
  simp_all

/-- C32, `correlation=True`: when every feature varies, `get_covmat` is the matrix of Pearson correlation
coefficients, with ones on the diagonal. -/
theorem C32_correlation_partial {d : ℕ} (batches : List (List (Fin d → ℝ)))
    (hb : ∀ b ∈ batches, b ≠ []) (hn : 2 ≤ batches.flatten.length)
    (hvar : ∀ j, ∃ i i', batches.flatten.get i j ≠ batches.flatten.get i' j) :
    ∃ R, (batches.foldl Cov.forward (Cov.init d true)).getCovmat = some R ∧
      (∀ j k, R j k = Spec.corr batches.flatten.get j k) ∧ ∀ j, R j j = 1 := by
  have h0 : CovInv (Cov.init d true) [] := ⟨rfl, _, _, rfl, rfl, by simp, by simp, by simp⟩
  have hI := CovInv.run batches hb _ _ h0
  rw [List.nil_append] at hI
  have hne : batches.flatten ≠ [] := by intro hc; rw [hc] at hn; simp at hn
  have h1 : batches.flatten.length ≠ 1 := by omega
  set L := batches.flatten
  set s := batches.foldl Cov.forward (Cov.init d true)
  have hcor : s.correlation = true := forward_correlation batches _
  have hobs : s.obs = L.length := hI.obs
  have h1p : 0 < (L.length : ℝ) - 1 := by
    have : (2 : ℝ) ≤ L.length := by exact_mod_cast hn
    linarith
  have hpos : ∀ j, 0 < Spec.cov L.get j j := by
    intro j
    unfold Spec.cov
    apply div_pos _ h1p
    obtain ⟨i, i', hii⟩ := hvar j
    have hnn : ∀ t : Fin L.length, 0 ≤ (L.get t j - Spec.mean L.get j) * (L.get t j - Spec.mean L.get j) :=
      fun t => mul_self_nonneg _
    rcases (Finset.sum_nonneg fun t _ => hnn t).lt_or_eq with hlt | heq
    · exact hlt
    · exfalso
      have hz := (Finset.sum_eq_zero_iff_of_nonneg fun t _ => hnn t).mp heq.symm
      have e1 := mul_self_eq_zero.mp (hz i (Finset.mem_univ _))
      have e2 := mul_self_eq_zero.mp (hz i' (Finset.mem_univ _))
      exact hii (by linarith)
  rcases hI.spec hne with ⟨hm, ha⟩ | hc
  · have hR : s.getCovmat = some fun j k => Spec.cov L.get j k *
        (1 / Real.sqrt (Spec.cov L.get j j)) * (1 / Real.sqrt (Spec.cov L.get k k)) := by
      unfold Cov.getCovmat
      rw [ha, hobs, hcor]
      simp only [Option.bind_eq_bind, Option.bind_some, if_neg h1, if_true]
      have hcc : (fun j k => Spec.cov L.get j k * ((L.length : ℝ) - 1) / ((L.length : ℝ) - 1)) =
          fun j k => Spec.cov L.get j k := by
        funext j k; rw [mul_div_cancel_right₀ _ h1p.ne']
      simp only [mul_div_cancel_right₀ _ h1p.ne']
      rw [if_pos fun j => (hpos j).ne']
    refine ⟨_, hR, ?_, ?_⟩
    · intro j k
      unfold Spec.corr
      rw [one_div, one_div, mul_assoc, ← mul_inv, ← div_eq_mul_inv]
    · intro j
      have hs := Real.mul_self_sqrt (hpos j).le
      have hs0 : Real.sqrt (Spec.cov L.get j j) ≠ 0 := (Real.sqrt_pos.mpr (hpos j)).ne'
      field_simp
      rw [← hs]; ring_nf
      try simp
  · exact absurd hc h1

/-- C32 fails for empty batches: one empty batch (for example the last chunk of a loop) turns the mean
into NaN for good, and with the next non-empty batch the covariance too. -/
theorem C32_empty_batch_fails {d : ℕ} (s : Cov d) (rest : List (List (Fin d → ℝ)))
    (b : List (Fin d → ℝ)) (hb : b ∈ rest) (hne : b ≠ []) :
    (([] :: rest).foldl Cov.forward s).mean = none ∧
    (([] :: rest).foldl Cov.forward s).getCovmat = none := by
  have hmean : ∀ (l : List (List (Fin d → ℝ))) (s : Cov d), s.mean = none →
      (l.foldl Cov.forward s).mean = none := by
    intro l
    induction l with
    | nil => intro s h; exact h
    | cons x t ih =>
      intro s h
      exact ih _ (by simp [Cov.forward, h])
  have hagg0 : ∀ (l : List (List (Fin d → ℝ))) (s : Cov d), s.agg = none →
      (l.foldl Cov.forward s).agg = none := by
    intro l
    induction l with
    | nil => intro s h; exact h
    | cons x t ih =>
      intro s h
      exact ih _ (by simp [Cov.forward, h])
  have hagg : ∀ (l : List (List (Fin d → ℝ))) (s : Cov d), s.mean = none → b ∈ l →
      (l.foldl Cov.forward s).agg = none := by
    intro l
    induction l with
    | nil => intro s _ h; simp at h
    | cons x t ih =>
      intro s h hm
      rw [List.foldl_cons]
      rcases List.mem_cons.mp hm with rfl | hm
      · apply hagg0
        have : b.length ≠ 0 := by simpa using hne
        unfold Cov.forward
        rw [h]
        cases s.agg <;> simp [hne]
      · exact ih _ (by simp [Cov.forward, h]) hm
  have hm0 : (s.forward []).mean = none := by
    unfold Cov.forward batchMean
    cases s.mean <;> simp
  rw [List.foldl_cons]
  refine ⟨hmean _ _ hm0, ?_⟩
  unfold Cov.getCovmat
  rw [hagg _ _ hm0 hb]
  rfl

/-! Non-vacuity: two batches of different sizes, both features varying. -/
example : ∃ batches : List (List (Fin 2 → ℝ)), (∀ b ∈ batches, b ≠ []) ∧
    2 ≤ batches.flatten.length ∧
    ∀ j, ∃ i i', batches.flatten.get i j ≠ batches.flatten.get i' j := by
  refine ⟨[[![1, 2]], [![3, 5], ![4, 4]]], by simp, by simp, ?_⟩
  intro j
  refine ⟨⟨0, by simp⟩, ⟨1, by simp⟩, ?_⟩
  fin_cases j <;> simp

end Verif
