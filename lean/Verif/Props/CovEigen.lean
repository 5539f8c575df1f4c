import Verif.Model.CovEigen
import Verif.Props.Covmat
import Mathlib.Data.Matrix.Mul
import Mathlib.LinearAlgebra.Matrix.NonsingularInverse
import Mathlib.Algebra.BigOperators.Fin
import Mathlib.Algebra.BigOperators.Field
/-! C174: the eigenvectors returned by `OnlineCovMatrix` are principal components. -/
namespace Verif.CovEigen
open Verif Matrix

/-! ### Specification -/

/-- Orthonormal rows. -/
def Orthonormal {k d : ℕ} (W : Fin k → Fin d → ℝ) : Prop := ∀ a b, ∑ i, W a i * W b i = if a = b then 1 else 0

/-- Deviation of an observation from the sample mean. -/
noncomputable def dev {d n : ℕ} (x : Fin n → Fin d → ℝ) (t : Fin n) (i : Fin d) : ℝ := x t i - Spec.mean x i

/-- Deviation in units of the sample standard deviation of the feature. -/
noncomputable def score {d n : ℕ} (x : Fin n → Fin d → ℝ) (t : Fin n) (i : Fin d) : ℝ := dev x t i / √(Spec.cov x i i)

/-- Sum over the deviations `z` of the squared coordinates along the rows of `W`. -/
noncomputable def captured {k d n : ℕ} (z : Fin n → Fin d → ℝ) (W : Fin k → Fin d → ℝ) : ℝ := ∑ t, ∑ j, (∑ i, W j i * z t i) ^ 2

/-- Sum over the deviations `z` of the squared distance to the space spanned by the rows of `W`. -/
noncomputable def residual {k d n : ℕ} (z : Fin n → Fin d → ℝ) (W : Fin k → Fin d → ℝ) : ℝ :=
  ∑ t, ∑ i, (z t i - ∑ j, W j i * ∑ l, W j l * z t l) ^ 2

/-- The last `k` columns of a matrix, last column last. -/
def lastCols {d k : ℕ} (h : k ≤ d) (E : Matrix (Fin d) (Fin d) ℝ) (j : Fin k) (i : Fin d) : ℝ := E i ⟨d - k + j, by omega⟩

/-! ### Proof -/

theorem orth_iff {k d : ℕ} {W : Fin k → Fin d → ℝ} : Orthonormal W ↔ Matrix.of W * (Matrix.of W).transpose = 1 := by
  constructor
  · intro h
    ext a b
    rw [Matrix.mul_apply, Matrix.one_apply]
    exact h a b
  · intro h a b
    have := congrFun (congrFun h a) b
    rw [Matrix.mul_apply, Matrix.one_apply] at this
    exact this

/-- Pythagoras for the projection on the rows of an orthonormal system. -/
theorem pythagoras {k d : ℕ} {W : Fin k → Fin d → ℝ} (h : Orthonormal W) (v : Fin d → ℝ) :
    ∑ i, (v i - ∑ j, W j i * ∑ l, W j l * v l) ^ 2 = ∑ i, v i ^ 2 - ∑ j, (∑ i, W j i * v i) ^ 2 := by
  set M := Matrix.of W with hM
  have hW : M * M.transpose = 1 := orth_iff.mp h
  set c := M *ᵥ v with hc
  have e1 : ∀ i, ∑ j, W j i * ∑ l, W j l * v l = (M.transpose *ᵥ c) i := fun i => rfl
  have e2 : ∑ i, (v i - ∑ j, W j i * ∑ l, W j l * v l) ^ 2 = (v - M.transpose *ᵥ c) ⬝ᵥ (v - M.transpose *ᵥ c) := by
    unfold dotProduct
    refine Finset.sum_congr rfl fun i _ => ?_
    rw [e1, Pi.sub_apply, sq]
  have e3 : ∑ i, v i ^ 2 = v ⬝ᵥ v := by
    unfold dotProduct
    exact Finset.sum_congr rfl fun i _ => sq _
  have e4 : ∑ j, (∑ i, W j i * v i) ^ 2 = c ⬝ᵥ c := by
    unfold dotProduct
    exact Finset.sum_congr rfl fun i _ => sq _
  have e5 : v ⬝ᵥ (M.transpose *ᵥ c) = c ⬝ᵥ c := by
    rw [dotProduct_mulVec, vecMul_transpose]
  have e6 : (M.transpose *ᵥ c) ⬝ᵥ (M.transpose *ᵥ c) = c ⬝ᵥ c := by
    rw [dotProduct_mulVec, vecMul_transpose, mulVec_mulVec, hW, one_mulVec]
  rw [e2, e3, e4, sub_dotProduct, dotProduct_sub, dotProduct_sub, e5, e6, dotProduct_comm (M.transpose *ᵥ c) v, e5]
  ring

theorem residual_eq {k d n : ℕ} (z : Fin n → Fin d → ℝ) {W : Fin k → Fin d → ℝ} (h : Orthonormal W) :
    residual z W = ∑ t, ∑ i, z t i ^ 2 - captured z W := by
  unfold residual captured
  rw [← Finset.sum_sub_distrib]
  exact Finset.sum_congr rfl fun t _ => pythagoras h _

/-- The captured variance by the eigenvalues. -/
theorem captured_eq {k d n : ℕ} (z : Fin n → Fin d → ℝ) {C E : Matrix (Fin d) (Fin d) ℝ} {lam : Fin d → ℝ}
    (hC : ∀ a b, (∑ t, z t a * z t b) = ((n : ℝ) - 1) * C a b) (h : IsEigh C E lam) (W : Fin k → Fin d → ℝ) :
    captured z W = ((n : ℝ) - 1) * ∑ j, ∑ l, lam l * (∑ i, W j i * E i l) ^ 2 := by
  set M : Matrix (Fin k) (Fin d) ℝ := Matrix.of W with hM
  have hEE : E * E.transpose = 1 := mul_eq_one_comm.mp h.orth
  have hCE : C = E * Matrix.diagonal lam * E.transpose := by
    rw [← h.eig, Matrix.mul_assoc, hEE, Matrix.mul_one]
  have e1 : ∀ j, ∑ t, (∑ i, W j i * z t i) ^ 2 = ((n : ℝ) - 1) * (M * C * M.transpose) j j := fun j => by
    calc ∑ t, (∑ i, W j i * z t i) ^ 2 = ∑ t, ∑ b, ∑ a, W j a * W j b * (z t a * z t b) := by
          refine Finset.sum_congr rfl fun t _ => ?_
          rw [sq, Finset.sum_mul_sum, Finset.sum_comm]
          exact Finset.sum_congr rfl fun b _ => Finset.sum_congr rfl fun a _ => by ring
      _ = ∑ b, ∑ a, W j a * W j b * ∑ t, z t a * z t b := by
          rw [Finset.sum_comm]
          refine Finset.sum_congr rfl fun b _ => ?_
          rw [Finset.sum_comm]
          exact Finset.sum_congr rfl fun a _ => by rw [Finset.mul_sum]
      _ = _ := by
          rw [Matrix.mul_apply, Finset.mul_sum]
          refine Finset.sum_congr rfl fun b _ => ?_
          rw [Matrix.mul_apply, Finset.sum_mul, Finset.mul_sum]
          refine Finset.sum_congr rfl fun a _ => ?_
          rw [hC, Matrix.transpose_apply, hM, Matrix.of_apply, Matrix.of_apply]
          ring
  have e2 : M * C * M.transpose = (M * E) * Matrix.diagonal lam * (M * E).transpose := by
    rw [hCE, Matrix.transpose_mul]
    simp only [Matrix.mul_assoc]
  unfold captured
  rw [Finset.sum_comm, Finset.mul_sum]
  refine Finset.sum_congr rfl fun j _ => ?_
  rw [e1 j, e2, Matrix.mul_apply]
  congr 1
  refine Finset.sum_congr rfl fun l _ => ?_
  rw [Matrix.mul_diagonal, Matrix.transpose_apply, Matrix.mul_apply, hM]
  simp only [Matrix.of_apply]
  ring

theorem lastCols_orth {d k : ℕ} (h : k ≤ d) {E : Matrix (Fin d) (Fin d) ℝ} (hE : E.transpose * E = 1) : Orthonormal (lastCols h E) := by
  intro a b
  have := congrFun (congrFun hE ⟨d - k + a, by omega⟩) ⟨d - k + b, by omega⟩
  rw [Matrix.mul_apply, Matrix.one_apply] at this
  simp only [Matrix.transpose_apply] at this
  unfold lastCols
  rw [this]
  congr 1
  simp [Fin.ext_iff]

theorem sum_last {d k : ℕ} (h : k ≤ d) (f : Fin d → ℝ) :
    ∑ j : Fin k, f ⟨d - k + j, by omega⟩ = ∑ l : Fin d, (if d - k ≤ (l : ℕ) then 1 else 0) * f l := by
  obtain ⟨m, rfl⟩ : ∃ m, d = m + k := ⟨d - k, by omega⟩
  have e : m + k - k = m := by omega
  rw [Fin.sum_univ_add]
  have z : ∑ i : Fin m, (if m + k - k ≤ ((Fin.castAdd k i : Fin (m + k)) : ℕ) then (1 : ℝ) else 0) * f (Fin.castAdd k i) = 0 := by
    refine Finset.sum_eq_zero fun i _ => ?_
    rw [if_neg (by rw [Fin.val_castAdd]; omega), zero_mul]
  rw [z, zero_add]
  refine Finset.sum_congr rfl fun j _ => ?_
  rw [if_pos (by rw [Fin.val_natAdd]; omega), one_mul]
  congr 1
  ext
  simp

/-- Ky Fan: a weighted sum of the eigenvalues is at most the sum of the `k` largest. -/
theorem ky_fan {d k : ℕ} (h : k ≤ d) {lam r : Fin d → ℝ} (hl : Monotone lam) (r0 : ∀ l, 0 ≤ r l) (r1 : ∀ l, r l ≤ 1) (rk : ∑ l, r l = k) :
    ∑ l, lam l * r l ≤ ∑ j : Fin k, lam ⟨d - k + j, by omega⟩ := by
  rcases Nat.eq_zero_or_pos k with rfl | hk
  · have : ∀ l, r l = 0 := fun l => by
      rw [Nat.cast_zero] at rk
      exact (Finset.sum_eq_zero_iff_of_nonneg fun l _ => r0 l).mp rk l (Finset.mem_univ _)
    simp [this]
  rw [sum_last h]
  set ind : Fin d → ℝ := fun l => if d - k ≤ (l : ℕ) then 1 else 0 with hind
  set μ := lam ⟨d - k, by omega⟩ with hμ
  have hi : ∑ l, ind l = k := by
    have := sum_last h fun _ => (1 : ℝ)
    simp only [mul_one] at this
    rw [hind, ← this]
    simp
  have key : ∀ l, lam l * r l - ind l * lam l ≤ μ * r l - μ * ind l := fun l => by
    by_cases hc : d - k ≤ (l : ℕ)
    · have h1 : μ ≤ lam l := hl (by rw [Fin.le_def]; exact hc)
      have h2 : ind l = 1 := if_pos hc
      rw [h2]
      nlinarith [r1 l]
    · have h1 : lam l ≤ μ := hl (by rw [Fin.le_def]; change (l : ℕ) ≤ d - k; omega)
      have h2 : ind l = 0 := if_neg hc
      rw [h2]
      nlinarith [r0 l]
  have s := Finset.sum_le_sum fun l (_ : l ∈ Finset.univ) => key l
  rw [Finset.sum_sub_distrib, Finset.sum_sub_distrib, ← Finset.mul_sum, ← Finset.mul_sum, rk, hi] at s
  change _ ≤ ∑ l, ind l * lam l
  linarith

theorem principal {d k n : ℕ} (hk : k ≤ d) (hn : 2 ≤ n) (z : Fin n → Fin d → ℝ) {C E : Matrix (Fin d) (Fin d) ℝ} {lam : Fin d → ℝ}
    (hC : ∀ a b, (∑ t, z t a * z t b) = ((n : ℝ) - 1) * C a b) (h : IsEigh C E lam) :
    Orthonormal (lastCols hk E) ∧ ∀ W : Fin k → Fin d → ℝ, Orthonormal W →
      captured z W ≤ captured z (lastCols hk E) ∧ residual z (lastCols hk E) ≤ residual z W := by
  have hO := lastCols_orth hk h.orth
  refine ⟨hO, fun W hW => ?_⟩
  have hEE : E * E.transpose = 1 := mul_eq_one_comm.mp h.orth
  have hcap : captured z W ≤ captured z (lastCols hk E) := by
    have hn1 : (0 : ℝ) ≤ (n : ℝ) - 1 := by
      have : (2 : ℝ) ≤ n := by exact_mod_cast hn
      linarith
    rw [captured_eq z hC h W, captured_eq z hC h]
    refine mul_le_mul_of_nonneg_left ?_ hn1
    have top : ∑ j, ∑ l, lam l * (∑ i, lastCols hk E j i * E i l) ^ 2 = ∑ j : Fin k, lam ⟨d - k + j, by omega⟩ := by
      refine Finset.sum_congr rfl fun j _ => ?_
      have e : ∀ l, ∑ i, lastCols hk E j i * E i l = if (⟨d - k + j, by omega⟩ : Fin d) = l then 1 else 0 := fun l => by
        have := congrFun (congrFun h.orth ⟨d - k + j, by omega⟩) l
        rw [Matrix.mul_apply, Matrix.one_apply] at this
        exact this
      simp only [e]
      simp
    rw [top, Finset.sum_comm]
    have e : ∀ l, ∑ j, lam l * (∑ i, W j i * E i l) ^ 2 = lam l * ∑ j, (∑ i, W j i * E i l) ^ 2 := fun l => by rw [Finset.mul_sum]
    simp only [e]
    refine ky_fan hk h.mono (fun l => Finset.sum_nonneg fun j _ => sq_nonneg _) (fun l => ?_) ?_
    · have p := pythagoras hW fun i => E i l
      have q : ∑ i, E i l ^ 2 = 1 := by
        have := congrFun (congrFun h.orth l) l
        rw [Matrix.mul_apply, Matrix.one_apply, if_pos rfl] at this
        rw [← this]
        exact Finset.sum_congr rfl fun i _ => sq _
      rw [q] at p
      have : 0 ≤ ∑ i, (E i l - ∑ j, W j i * ∑ l', W j l' * E l' l) ^ 2 := Finset.sum_nonneg fun i _ => sq_nonneg _
      linarith
    · rw [Finset.sum_comm]
      have : ∀ j, ∑ l, (∑ i, W j i * E i l) ^ 2 = 1 := fun j => by
        have e3 : (Matrix.of W * E) * (Matrix.of W * E).transpose = 1 := by
          rw [Matrix.transpose_mul, Matrix.mul_assoc, ← Matrix.mul_assoc E, hEE, Matrix.one_mul]
          exact orth_iff.mp hW
        have := congrFun (congrFun e3 j) j
        rw [Matrix.mul_apply, Matrix.one_apply, if_pos rfl] at this
        rw [← this]
        refine Finset.sum_congr rfl fun l _ => ?_
        rw [Matrix.transpose_apply, Matrix.mul_apply, sq]
        rfl
      simp [this]
  refine ⟨hcap, ?_⟩
  rw [residual_eq z hW, residual_eq z hO]
  linarith

/-- **C174**, for batches none of which is empty (see `C174_empty_batch_fails`): after any sequence of batches
with at least two observations, the last `k` columns of any result of `get_eigenvectors` are orthonormal, and among all systems of `k` orthonormal vectors
they capture the largest sum of squared deviations from the mean and leave the smallest squared distance of the observations. -/
theorem C174_principal_partial {d k : ℕ} (hk : k ≤ d) (batches : List (List (Fin d → ℝ))) (hb : ∀ b ∈ batches, b ≠ [])
    (hn : 2 ≤ batches.flatten.length) {E : Matrix (Fin d) (Fin d) ℝ} (hE : (batches.foldl Cov.forward (Cov.init d false)).GetEigenvectors E) :
    Orthonormal (lastCols hk E) ∧ ∀ W : Fin k → Fin d → ℝ, Orthonormal W →
      captured (dev batches.flatten.get) W ≤ captured (dev batches.flatten.get) (lastCols hk E) ∧
      residual (dev batches.flatten.get) (lastCols hk E) ≤ residual (dev batches.flatten.get) W := by
  obtain ⟨C, hC, lam, h⟩ := hE
  have hs := (C32_exact_partial batches hb hn).2.2
  rw [hC, Option.some.injEq] at hs
  subst hs
  refine principal hk hn _ (fun a b => ?_) h
  have hn1 : (batches.flatten.length : ℝ) - 1 ≠ 0 := by
    have : (2 : ℝ) ≤ batches.flatten.length := by exact_mod_cast hn
    linarith
  rw [Matrix.of_apply, Spec.cov, mul_div_cancel₀ _ hn1]
  rfl

/-- **C174** with `correlation=True`: the same for the deviations in units of the standard deviation of each feature.  Missing, besides empty batches:
features without variation, whose correlation is NaN. -/
theorem C174_correlation_partial {d k : ℕ} (hk : k ≤ d) (batches : List (List (Fin d → ℝ))) (hb : ∀ b ∈ batches, b ≠ [])
    (hn : 2 ≤ batches.flatten.length) (hvar : ∀ j, ∃ i i', batches.flatten.get i j ≠ batches.flatten.get i' j)
    {E : Matrix (Fin d) (Fin d) ℝ} (hE : (batches.foldl Cov.forward (Cov.init d true)).GetEigenvectors E) :
    Orthonormal (lastCols hk E) ∧ ∀ W : Fin k → Fin d → ℝ, Orthonormal W →
      captured (score batches.flatten.get) W ≤ captured (score batches.flatten.get) (lastCols hk E) ∧
      residual (score batches.flatten.get) (lastCols hk E) ≤ residual (score batches.flatten.get) W := by
  obtain ⟨C, hC, lam, h⟩ := hE
  obtain ⟨R, hR, hcorr, -⟩ := C32_correlation_partial batches hb hn hvar
  rw [hC, Option.some.injEq] at hR
  subst hR
  refine principal hk hn _ (fun a b => ?_) h
  have hn1 : (batches.flatten.length : ℝ) - 1 ≠ 0 := by
    have : (2 : ℝ) ≤ batches.flatten.length := by exact_mod_cast hn
    linarith
  have e : ∀ t, score batches.flatten.get t a * score batches.flatten.get t b =
      dev batches.flatten.get t a * dev batches.flatten.get t b / (√(Spec.cov batches.flatten.get a a) * √(Spec.cov batches.flatten.get b b)) := fun t => by
    unfold score
    rw [div_mul_div_comm]
  have e2 : ∑ t, dev batches.flatten.get t a * dev batches.flatten.get t b = ((batches.flatten.length : ℝ) - 1) * Spec.cov batches.flatten.get a b := by
    rw [Spec.cov, mul_div_cancel₀ _ hn1]
    rfl
  simp only [e]
  rw [← Finset.sum_div, e2, Matrix.of_apply, hcorr, Spec.corr, mul_div_assoc]

/-- C174 fails when a batch is empty: there is no covariance to decompose. -/
theorem C174_empty_batch_fails {d : ℕ} (s : Cov d) (rest : List (List (Fin d → ℝ))) (b : List (Fin d → ℝ)) (hb : b ∈ rest) (hne : b ≠ [])
    (E : Matrix (Fin d) (Fin d) ℝ) : ¬(([] :: rest).foldl Cov.forward s).GetEigenvectors E := by
  rintro ⟨C, hC, -⟩
  rw [(C32_empty_batch_fails s rest b hb hne).2] at hC
  simp at hC

/-! ### Non-vacuity -/

/-- Observations (0, 0) and (1, 3): a second batch with one observation; the last column is (1, 3) up to length. -/
theorem eigen_case : ([[![0, 0]], [![1, 3]]].foldl Cov.forward (Cov.init 2 false)).GetEigenvectors
    !![3 / √10, 1 / √10; -1 / √10, 3 / √10] := by
  have h10 : √10 * √10 = 10 := Real.mul_self_sqrt (by norm_num)
  have h0 : √10 ≠ 0 := by positivity
  refine ⟨_, (C32_exact_partial [[![0, 0]], [![1, 3]]] (by simp) (by simp)).2.2, ![0, 5], ?_, ?_, ?_⟩
  · ext i j
    fin_cases i <;> fin_cases j <;> simp [Matrix.mul_apply] <;> field_simp <;> nlinarith
  · ext i j
    fin_cases i <;> fin_cases j <;> simp [Matrix.mul_apply, Spec.cov, Spec.mean, Fin.sum_univ_two] <;> field_simp <;> norm_num
  · intro a b hab
    fin_cases a <;> fin_cases b <;> simp at hab ⊢

example := C174_principal_partial (k := 1) (by norm_num) [[![0, 0]], [![1, 3]]] (by simp) (by simp) eigen_case

/-- The correlation of the same data: all entries 1. -/
theorem corr_case : ([[![0, 0]], [![1, 3]]].foldl Cov.forward (Cov.init 2 true)).GetEigenvectors
    !![1 / √2, 1 / √2; -1 / √2, 1 / √2] := by
  have h2 : √2 * √2 = 2 := Real.mul_self_sqrt (by norm_num)
  have h0 : √2 ≠ 0 := by positivity
  have hv : ∀ j, ∃ i i', ([[![0, 0]], [![1, 3]]] : List (List (Fin 2 → ℝ))).flatten.get i j ≠ ([[![0, 0]], [![1, 3]]] : List (List (Fin 2 → ℝ))).flatten.get i' j :=
    fun j => ⟨⟨0, by simp⟩, ⟨1, by simp⟩, by fin_cases j <;> simp⟩
  obtain ⟨R, hR, hc, hd⟩ := C32_correlation_partial [[![0, 0]], [![1, 3]]] (by simp) (by simp) hv
  have h4 : (√(9 / 2) : ℝ) = 3 * √(1 / 2) := by
    rw [show (9 / 2 : ℝ) = 3 ^ 2 * (1 / 2) by norm_num, Real.sqrt_mul (by norm_num), Real.sqrt_sq (by norm_num)]
  have h5 : √(1 / 2) * √(1 / 2) = (1 / 2 : ℝ) := Real.mul_self_sqrt (by norm_num)
  have c11 : Spec.cov ([[![0, 0]], [![1, 3]]] : List (List (Fin 2 → ℝ))).flatten.get 0 0 = 1 / 2 := by
    simp [Spec.cov, Spec.mean, Fin.sum_univ_two]; norm_num
  have c22 : Spec.cov ([[![0, 0]], [![1, 3]]] : List (List (Fin 2 → ℝ))).flatten.get 1 1 = 9 / 2 := by
    simp [Spec.cov, Spec.mean, Fin.sum_univ_two]; norm_num
  have c12 : Spec.cov ([[![0, 0]], [![1, 3]]] : List (List (Fin 2 → ℝ))).flatten.get 0 1 = 3 / 2 := by
    simp [Spec.cov, Spec.mean, Fin.sum_univ_two]; norm_num
  have c21 : Spec.cov ([[![0, 0]], [![1, 3]]] : List (List (Fin 2 → ℝ))).flatten.get 1 0 = 3 / 2 := by
    simp [Spec.cov, Spec.mean, Fin.sum_univ_two]; norm_num
  have r12 : R 0 1 = 1 := by
    rw [hc, Spec.corr, c11, c22, c12, h4, show √(1 / 2) * (3 * √(1 / 2)) = 3 * (√(1 / 2) * √(1 / 2)) by ring, h5]; norm_num
  have r21 : R 1 0 = 1 := by
    rw [hc, Spec.corr, c11, c22, c21, h4, show 3 * √(1 / 2) * √(1 / 2) = 3 * (√(1 / 2) * √(1 / 2)) by ring, h5]; norm_num
  refine ⟨R, hR, ![0, 2], ?_, ?_, ?_⟩
  · ext i j
    fin_cases i <;> fin_cases j <;> simp [Matrix.mul_apply] <;> field_simp <;> nlinarith
  · ext i j
    fin_cases i <;> fin_cases j <;> simp [Matrix.mul_apply, hd, r12, r21] <;> field_simp <;> norm_num
  · intro a b hab
    fin_cases a <;> fin_cases b <;> simp at hab ⊢

example := C174_correlation_partial (k := 1) (by norm_num) [[![0, 0]], [![1, 3]]] (by simp) (by simp)
  (fun j => ⟨⟨0, by simp⟩, ⟨1, by simp⟩, by fin_cases j <;> simp⟩) corr_case

example (E : Matrix (Fin 2) (Fin 2) ℝ) := C174_empty_batch_fails (Cov.init 2 false) [[![0, 0]], [![1, 3]]] _ (List.mem_cons_self ..) (by simp) E

end Verif.CovEigen
