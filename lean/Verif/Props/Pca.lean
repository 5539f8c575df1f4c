import Verif.Model.Pca
import Mathlib.LinearAlgebra.Matrix.DotProduct
import Mathlib.LinearAlgebra.Matrix.ToLinearEquiv
import Mathlib.LinearAlgebra.Matrix.Notation
import Mathlib.Tactic.Linarith
import Mathlib.Tactic.LinearCombination
import Mathlib.Tactic.FinCases
import Mathlib.Tactic.NormNum
/-!
C90: online PCA.
-/
namespace Verif.Pca
open Matrix

/-- linearly independent columns -/
def FullRank {n k : ℕ} (C : Matrix (Fin n) (Fin k) ℝ) : Prop := ∀ v : Fin k → ℝ, C *ᵥ v = 0 → v = 0

/-- squared Euclidean length -/
def sq {n : ℕ} (v : Fin n → ℝ) : ℝ := v ⬝ᵥ v

theorem sq_nonneg' {n : ℕ} (v : Fin n → ℝ) : 0 ≤ sq v := by
  unfold sq dotProduct; exact Finset.sum_nonneg fun i _ => mul_self_nonneg _

theorem sq_eq_zero {n : ℕ} {v : Fin n → ℝ} (h : sq v = 0) : v = 0 := dotProduct_self_eq_zero.mp h

theorem gram_dot {n k : ℕ} (C : Matrix (Fin n) (Fin k) ℝ) (u v : Fin k → ℝ) : u ⬝ᵥ ((Cᵀ * C) *ᵥ v) = (C *ᵥ u) ⬝ᵥ (C *ᵥ v) := by
  rw [← mulVec_mulVec, dotProduct_mulVec, vecMul_transpose]

theorem gram_unit {n k : ℕ} {C : Matrix (Fin n) (Fin k) ℝ} (h : FullRank C) : IsUnit (Cᵀ * C).det := by
  rw [isUnit_iff_ne_zero]
  intro hd
  obtain ⟨v, hv, hz⟩ := exists_mulVec_eq_zero_iff.mpr hd
  apply hv
  apply h
  apply sq_eq_zero
  unfold sq
  rw [← gram_dot, hz, dotProduct_zero]

theorem cross_left {n k : ℕ} {C : Matrix (Fin n) (Fin k) ℝ} (h : FullRank C) : cross C * C = 1 := by
  unfold cross
  rw [Matrix.mul_assoc, nonsing_inv_mul _ (gram_unit h)]

theorem ct_cross {n k : ℕ} {C : Matrix (Fin n) (Fin k) ℝ} (h : FullRank C) : Cᵀ * (C * cross C) = Cᵀ := by
  unfold cross
  rw [← Matrix.mul_assoc, ← Matrix.mul_assoc, mul_nonsing_inv _ (gram_unit h), Matrix.one_mul]

/-- the increment of one update is orthogonal to the old columns -/
theorem step_orth {n k : ℕ} {C : Matrix (Fin n) (Fin k) ℝ} (h : FullRank C) (d : Batch n) (alpha : Fin d.b → ℝ) :
    Cᵀ * ((Matrix.of fun i j => alpha j * (d.xᵀ - C * (cross C * d.xᵀ)) i j) * (cross C * d.xᵀ)ᵀ) = 0 := by
  rw [← Matrix.mul_assoc]
  have e : (Matrix.of fun i j => alpha j * (d.xᵀ - C * (cross C * d.xᵀ)) i j) = (d.xᵀ - C * (cross C * d.xᵀ)) * Matrix.diagonal alpha := by
    ext i j
    rw [mul_diagonal]; simp [mul_comm]
  have z : Cᵀ * (d.xᵀ - C * (cross C * d.xᵀ)) = 0 := by
    rw [Matrix.mul_sub, ← Matrix.mul_assoc C, ← Matrix.mul_assoc, ct_cross h, sub_self]
  rw [e, ← Matrix.mul_assoc Cᵀ, z, Matrix.zero_mul, Matrix.zero_mul]

theorem add_orth {n k : ℕ} {C D : Matrix (Fin n) (Fin k) ℝ} (h : Cᵀ * D = 0) (v : Fin k → ℝ) :
    sq ((C + D) *ᵥ v) = sq (C *ᵥ v) + sq (D *ᵥ v) := by
  have c : (C *ᵥ v) ⬝ᵥ (D *ᵥ v) = 0 := by
    have : (C *ᵥ v) ⬝ᵥ (D *ᵥ v) = v ⬝ᵥ ((Cᵀ * D) *ᵥ v) := by
      rw [← mulVec_mulVec, dotProduct_mulVec v, vecMul_transpose]
    rw [this, h, zero_mulVec, dotProduct_zero]
  unfold sq
  rw [add_mulVec, add_dotProduct, dotProduct_add, dotProduct_add, c, dotProduct_comm (D *ᵥ v) (C *ᵥ v), c]
  ring

/-- one update keeps the invariant and lengthens every combination of columns -/
theorem kras_step {n k : ℕ} (eta : ℝ) {s : Kras n k} (h : FullRank s.C) (hx : s.Cx = cross s.C) (d : Batch n) :
    FullRank (krasForward eta s d).C ∧ (krasForward eta s d).Cx = cross (krasForward eta s d).C ∧
    ∀ v, sq (s.C *ᵥ v) ≤ sq ((krasForward eta s d).C *ᵥ v) := by
  have key : ∀ v, sq (s.C *ᵥ v) ≤ sq ((krasForward eta s d).C *ᵥ v) := by
    intro v
    unfold krasForward
    simp only [hx]
    rw [add_orth (step_orth h d _)]
    linarith [sq_nonneg' (((Matrix.of fun i j => (eta / (1 + eta * Real.sqrt (∑ i, (cross s.C * d.xᵀ) i j ^ 2))) *
      (d.xᵀ - s.C * (cross s.C * d.xᵀ)) i j) * (cross s.C * d.xᵀ)ᵀ) *ᵥ v)]
  refine ⟨fun v hv => ?_, rfl, key⟩
  apply h
  apply sq_eq_zero
  have := key v
  rw [hv] at this
  have h0 : sq (0 : Fin n → ℝ) = 0 := by simp [sq]
  rw [h0] at this
  exact le_antisymm this (sq_nonneg' _)

/-- C90 (Krasulina): after any sequence of batches of any sizes the components are linearly independent, `C_cross` is their
left inverse, and no linear combination of the columns has become shorter than it was at the start. -/
theorem C90_kras_invariant {n k : ℕ} (eta : ℝ) (C0 : Matrix (Fin n) (Fin k) ℝ) (h : FullRank C0) (ds : List (Batch n)) :
    FullRank (krasRun eta (krasInit C0) ds).C ∧
    (krasRun eta (krasInit C0) ds).Cx * (krasRun eta (krasInit C0) ds).C = 1 ∧
    ∀ v, sq (C0 *ᵥ v) ≤ sq ((krasRun eta (krasInit C0) ds).C *ᵥ v) := by
  have gen : ∀ (ds : List (Batch n)) (s : Kras n k), FullRank s.C → s.Cx = cross s.C →
      FullRank (krasRun eta s ds).C ∧ (krasRun eta s ds).Cx = cross (krasRun eta s ds).C ∧
      ∀ v, sq (s.C *ᵥ v) ≤ sq ((krasRun eta s ds).C *ᵥ v) := by
    intro ds
    induction ds with
    | nil => intro s h hx; exact ⟨h, hx, fun v => le_refl _⟩
    | cons d ds ih =>
      intro s h hx
      obtain ⟨a, b, c⟩ := kras_step eta h hx d
      obtain ⟨a', b', c'⟩ := ih _ a b
      exact ⟨a', b', fun v => (c v).trans (c' v)⟩
  obtain ⟨a, b, c⟩ := gen ds (krasInit C0) h rfl
  exact ⟨a, by rw [b]; exact cross_left a, c⟩

/-- two independent columns in three dimensions -/
example : FullRank (!![1, 0; 1, 1; 0, 2] : Matrix (Fin 3) (Fin 2) ℝ) := by
  intro v h
  have h0 := congrFun h 0
  have h2 := congrFun h 2
  simp [mulVec, dotProduct, Fin.sum_univ_two] at h0 h2
  ext i; fin_cases i <;> simp [h0, h2]

/-- C90 (Krasulina): projecting a reconstruction returns the latent coordinates. -/
theorem C90_kras_roundtrip {n k b : ℕ} (eta : ℝ) (C0 : Matrix (Fin n) (Fin k) ℝ) (h : FullRank C0) (ds : List (Batch n))
    (z : Matrix (Fin k) (Fin b) ℝ) :
    krasTransform (krasRun eta (krasInit C0) ds) ⟨b, (krasInverse (krasRun eta (krasInit C0) ds) z)ᵀ⟩ = z := by
  have := (C90_kras_invariant eta C0 h ds).2.1
  unfold krasTransform krasInverse
  simp only [transpose_transpose]
  rw [← Matrix.mul_assoc, this, Matrix.one_mul]

theorem run_cross {n k : ℕ} (eta : ℝ) (C0 : Matrix (Fin n) (Fin k) ℝ) (ds : List (Batch n)) :
    (krasRun eta (krasInit C0) ds).Cx = cross (krasRun eta (krasInit C0) ds).C := by
  unfold krasRun
  rcases List.eq_nil_or_concat ds with rfl | ⟨l, d, rfl⟩
  · rfl
  · simp only [List.concat_eq_append, List.foldl_append, List.foldl_cons, List.foldl_nil]; rfl

theorem mulVec_sub' {n k : ℕ} (A : Matrix (Fin n) (Fin k) ℝ) (u v : Fin k → ℝ) : A *ᵥ (u - v) = A *ᵥ u - A *ᵥ v :=
  Matrix.mulVec_sub A u v

/-- C90 (Krasulina): the reconstruction of the projection is the best approximation of every data row by the components. -/
theorem C90_kras_best {n k : ℕ} (eta : ℝ) (C0 : Matrix (Fin n) (Fin k) ℝ) (h : FullRank C0) (ds : List (Batch n)) (d : Batch n)
    (j : Fin d.b) (z : Fin k → ℝ) :
    let s := krasRun eta (krasInit C0) ds
    sq (fun i => d.x j i - krasInverse s (krasTransform s d) i j) ≤ sq (d.x.row j - s.C *ᵥ z) := by
  intro s
  obtain ⟨hf, _, _⟩ := C90_kras_invariant eta C0 h ds
  have hx : s.Cx = cross s.C := run_cross eta C0 ds
  have e : (fun i => krasInverse s (krasTransform s d) i j) = s.C *ᵥ (cross s.C *ᵥ d.x.row j) := by
    rw [mulVec_mulVec]
    unfold krasInverse krasTransform
    rw [hx, ← Matrix.mul_assoc]
    ext i
    simp [Matrix.mul_apply, mulVec, dotProduct]
  set y := cross s.C *ᵥ d.x.row j
  have o : s.Cᵀ *ᵥ (d.x.row j - s.C *ᵥ y) = 0 := by
    rw [mulVec_sub', mulVec_mulVec, mulVec_mulVec, Matrix.mul_assoc, ct_cross hf, sub_self]
  have ort : ∀ u, (d.x.row j - s.C *ᵥ y) ⬝ᵥ (s.C *ᵥ u) = 0 := by
    intro u
    rw [dotProduct_mulVec, ← mulVec_transpose, o, zero_dotProduct]
  have hl : (fun i => d.x j i - krasInverse s (krasTransform s d) i j) = d.x.row j - s.C *ᵥ y := by
    rw [← e]; rfl
  rw [hl]
  have split : d.x.row j - s.C *ᵥ z = (d.x.row j - s.C *ᵥ y) + s.C *ᵥ (y - z) := by rw [mulVec_sub']; abel
  rw [split]
  unfold sq
  rw [add_dotProduct, dotProduct_add, dotProduct_add, ort, dotProduct_comm (s.C *ᵥ (y - z)), ort]
  have := sq_nonneg' (s.C *ᵥ (y - z))
  unfold sq at this
  linarith

/-- C90 (Krasulina): a batch that already lies in the span of the components leaves them unchanged. -/
theorem C90_kras_fixed {n k : ℕ} (eta : ℝ) (C0 : Matrix (Fin n) (Fin k) ℝ) (h : FullRank C0) (ds : List (Batch n)) (d : Batch n)
    (hd : ∀ j, ∃ z, d.x.row j = (krasRun eta (krasInit C0) ds).C *ᵥ z) :
    krasRun eta (krasInit C0) (ds ++ [d]) = krasRun eta (krasInit C0) ds := by
  obtain ⟨hf, _, _⟩ := C90_kras_invariant eta C0 h ds
  have hx := run_cross eta C0 ds
  have e : krasRun eta (krasInit C0) (ds ++ [d]) = krasForward eta (krasRun eta (krasInit C0) ds) d := by
    unfold krasRun; rw [List.foldl_append]; rfl
  rw [e]
  set s := krasRun eta (krasInit C0) ds
  have r : d.xᵀ - s.C * (cross s.C * d.xᵀ) = 0 := by
    rw [sub_eq_zero, ← Matrix.mul_assoc]
    have : ∀ j, (s.C * cross s.C) *ᵥ d.x.row j = d.x.row j := by
      intro j
      obtain ⟨z, hz⟩ := hd j
      rw [hz, mulVec_mulVec, Matrix.mul_assoc, cross_left hf, Matrix.mul_one]
    ext i j
    have := congrFun (this j) i
    have h2 : d.xᵀ i j = d.x.row j i := rfl
    rw [h2, ← this]
    simp [Matrix.mul_apply, mulVec, dotProduct]
  have hC : (krasForward eta s d).C = s.C := by
    unfold krasForward
    simp only [hx, r]
    have : (Matrix.of fun (i : Fin n) (j : Fin d.b) => eta / (1 + eta * Real.sqrt (∑ i, (cross s.C * d.xᵀ) i j ^ 2)) *
        (0 : Matrix (Fin n) (Fin d.b) ℝ) i j) = 0 := by ext i j; simp
    rw [this, Matrix.zero_mul, add_zero]
  have hCx : (krasForward eta s d).Cx = s.Cx := by
    have : (krasForward eta s d).Cx = cross (krasForward eta s d).C := rfl
    rw [this, hC, hx]
  cases hs : krasForward eta s d
  rw [hs] at hC hCx
  simp only at hC hCx
  cases hs' : s
  rw [hs'] at hC hCx
  simp_all

example : ∀ j, ∃ z, (⟨1, !![0, 0, 0]⟩ : Batch 3).x.row j = (krasRun (1/2) (krasInit (!![1, 0; 1, 1; 0, 2] : Matrix (Fin 3) (Fin 2) ℝ)) []).C *ᵥ z := by
  intro j; refine ⟨0, ?_⟩
  rw [mulVec_zero]
  ext i; fin_cases j; fin_cases i <;> simp

/-- C90 (Krasulina): the returned components are orthonormal and span the same space as the learned matrix. -/
theorem C90_kras_components {n k : ℕ} (eta : ℝ) (C0 : Matrix (Fin n) (Fin k) ℝ) (h : FullRank C0) (ds : List (Batch n))
    (U : Matrix (Fin n) (Fin k) ℝ) (S : Fin k → ℝ) (W : Matrix (Fin k) (Fin k) ℝ)
    (hs : IsSvd (krasRun eta (krasInit C0) ds).Cxᵀ U S W) :
    (krasComponents U)ᵀ * krasComponents U = 1 ∧
    ∀ y : Fin n → ℝ, (∃ v, y = krasComponents U *ᵥ v) ↔ ∃ v, y = (krasRun eta (krasInit C0) ds).C *ᵥ v := by
  obtain ⟨hf, hl, _⟩ := C90_kras_invariant eta C0 h ds
  have hx := run_cross eta C0 ds
  set s := krasRun eta (krasInit C0) ds
  have g := gram_unit hf
  have hxt : s.Cxᵀ = s.C * ((s.Cᵀ * s.C)⁻¹)ᵀ := by rw [hx]; unfold cross; rw [transpose_mul, transpose_transpose]
  -- the columns of U and of Cxᵀ span the same space
  have hW : W * Wᵀ = 1 := mul_eq_one_comm.mp hs.v
  -- the singular values are positive
  have hS : ∀ i, S i ≠ 0 := by
    intro i hi
    have : s.Cxᵀ *ᵥ (W *ᵥ Pi.single i 1) = 0 := by
      rw [hs.eq, mulVec_mulVec, Matrix.mul_assoc, hs.v, Matrix.mul_one, ← mulVec_mulVec, diagonal_mulVec_single, hi]
      simp
    have h1 : s.Cᵀ *ᵥ (s.Cxᵀ *ᵥ (W *ᵥ Pi.single i 1)) = W *ᵥ Pi.single i 1 := by
      rw [mulVec_mulVec, ← transpose_mul, hl, transpose_one, one_mulVec]
    rw [this, mulVec_zero] at h1
    have h2 : Wᵀ *ᵥ (W *ᵥ Pi.single i 1) = Pi.single i 1 := by rw [mulVec_mulVec, hs.v, one_mulVec]
    rw [← h1, mulVec_zero] at h2
    have := congrFun h2 i
    simp at this
  have hrev : ∀ (U : Matrix (Fin n) (Fin k) ℝ) (v : Fin k → ℝ), krasComponents U *ᵥ v = U *ᵥ (fun j => v j.rev) := by
    intro U v
    ext i
    simp only [krasComponents, mulVec, dotProduct, Matrix.of_apply]
    exact Fintype.sum_equiv Fin.revPerm _ _ (by intro j; simp)
  constructor
  · ext i j
    have := congrFun (congrFun hs.u i.rev) j.rev
    simp only [Matrix.mul_apply, transpose_apply, krasComponents, Matrix.of_apply] at this ⊢
    rw [this]
    simp [Matrix.one_apply]
  · intro y
    constructor
    · rintro ⟨v, rfl⟩
      rw [hrev]
      set v' : Fin k → ℝ := fun j => v j.rev
      refine ⟨((s.Cᵀ * s.C)⁻¹)ᵀ *ᵥ (W *ᵥ (fun i => v' i / S i)), ?_⟩
      rw [mulVec_mulVec, ← hxt, hs.eq, mulVec_mulVec, Matrix.mul_assoc, hs.v, Matrix.mul_one, ← mulVec_mulVec]
      congr 1
      ext i
      rw [mulVec_diagonal, mul_div_cancel₀ _ (hS i)]
    · rintro ⟨v, rfl⟩
      have gt : IsUnit ((s.Cᵀ * s.C)ᵀ).det := by rwa [det_transpose]
      refine ⟨fun j => (Matrix.diagonal S *ᵥ (Wᵀ *ᵥ ((s.Cᵀ * s.C)ᵀ *ᵥ v))) j.rev, ?_⟩
      rw [hrev]
      simp only [Fin.rev_rev]
      have : (fun j => (Matrix.diagonal S *ᵥ (Wᵀ *ᵥ ((s.Cᵀ * s.C)ᵀ *ᵥ v))) j) = Matrix.diagonal S *ᵥ (Wᵀ *ᵥ ((s.Cᵀ * s.C)ᵀ *ᵥ v)) := rfl
      rw [this, mulVec_mulVec, mulVec_mulVec, ← hs.eq, hxt, mulVec_mulVec, Matrix.mul_assoc, transpose_nonsing_inv,
        nonsing_inv_mul _ gt, Matrix.mul_one]

/-- C90 fails: the step size is not that of the implicit update named in the module's documentation.  With one row whose latent
coordinates have length 2, the new matrix does not solve `C' = C + η (x - C' y) yᵀ`. -/
theorem C90_kras_implicit_fails :
    ∃ (C0 : Matrix (Fin 2) (Fin 1) ℝ) (d : Batch 2), FullRank C0 ∧ d.b = 1 ∧
      (krasForward 1 (krasInit C0) d).C ≠
        C0 + (1:ℝ) • ((d.xᵀ - (krasForward 1 (krasInit C0) d).C * (cross C0 * d.xᵀ)) * (cross C0 * d.xᵀ)ᵀ) := by
  have hc : cross (!![1; 0] : Matrix (Fin 2) (Fin 1) ℝ) = !![1, 0] := by
    have hf : FullRank (!![1; 0] : Matrix (Fin 2) (Fin 1) ℝ) := by
      intro v h
      have h0 := congrFun h 0
      simp [mulVec, dotProduct] at h0
      ext i; fin_cases i; simpa using h0
    unfold cross
    have : (!![1; 0] : Matrix (Fin 2) (Fin 1) ℝ)ᵀ * (!![1; 0] : Matrix (Fin 2) (Fin 1) ℝ) = 1 := by
      ext i j; fin_cases i; fin_cases j; simp [Matrix.mul_apply, Fin.sum_univ_two]
    rw [this, inv_one, Matrix.one_mul]
    ext i j; fin_cases i; fin_cases j <;> simp
  refine ⟨!![1; 0], ⟨1, !![2, 3]⟩, ?_, rfl, ?_⟩
  · intro v h
    have h0 := congrFun h 0
    simp [mulVec, dotProduct] at h0
    ext i; fin_cases i; simpa using h0
  · intro h
    have hl : cross (!![1; 0] : Matrix (Fin 2) (Fin 1) ℝ) * (!![2, 3] : Matrix (Fin 1) (Fin 2) ℝ)ᵀ = !![2] := by
      rw [hc]; ext i j; fin_cases i; fin_cases j; simp [Matrix.mul_apply, Fin.sum_univ_two]
    have hq : Real.sqrt 4 = 2 := by rw [show (4:ℝ) = 2 ^ 2 by norm_num]; exact Real.sqrt_sq (by norm_num)
    have e : (krasForward 1 (krasInit (!![1; 0] : Matrix (Fin 2) (Fin 1) ℝ)) ⟨1, !![2, 3]⟩).C = !![1; 2] := by
      unfold krasForward krasInit
      simp only [hl]
      ext i j; fin_cases j; fin_cases i
      · simp [Matrix.mul_apply]
      · simp [Matrix.mul_apply]
        norm_num [hq]
    rw [e] at h
    simp only [hl] at h
    have := congrFun (congrFun h 1) 0
    simp [Matrix.mul_apply] at this
    norm_num at this

/-! ### Oja -/

/-- C90 (Oja): after every update that draws no random column the components are orthonormal; without `use_oja_plus` this is
every update. -/
theorem C90_oja_orthonormal {n k : ℕ} (eta : ℝ) (plus : Bool) (s s' : Oja n k) (d : Batch n) (h : OjaForward eta plus s d s')
    (hd : ¬ ojaDraws plus s) : s'.Qᵀ * s'.Q = 1 := by
  obtain ⟨_, Q, R, hq, _, h | h⟩ := h
  · exact absurd h.1 hd
  · rw [h.2.2]; exact hq.orth

theorem oja_run_last {n k : ℕ} {eta : ℝ} {plus : Bool} {s s' : Oja n k} {ds : List (Batch n)} (h : OjaRun eta plus s ds s')
    (hne : ds ≠ []) : ∃ t d, OjaForward eta plus t d s' := by
  induction h with
  | nil => exact absurd rfl hne
  | cons hf hr ih =>
    rename_i ds
    by_cases h0 : ds = []
    · subst h0; cases hr; exact ⟨_, _, hf⟩
    · exact ih h0

/-- C90 (Oja): for the plain algorithm, after any non-empty sequence of batches, the components are orthonormal, projecting a
reconstruction returns the latent coordinates, and the reconstruction error of a row is orthogonal to every component. -/
theorem C90_oja_roundtrip {n k b : ℕ} (eta : ℝ) (s s' : Oja n k) (ds : List (Batch n)) (h : OjaRun eta false s ds s') (hne : ds ≠ [])
    (z : Matrix (Fin b) (Fin k) ℝ) (x : Matrix (Fin b) (Fin n) ℝ) :
    s'.Qᵀ * s'.Q = 1 ∧ ojaTransform s' (ojaInverse s' z) = z ∧
    (x - ojaInverse s' (ojaTransform s' x)) * s'.Q = 0 := by
  obtain ⟨t, d, hf⟩ := oja_run_last h hne
  have o := C90_oja_orthonormal eta false t s' d hf (by simp [ojaDraws])
  refine ⟨o, ?_, ?_⟩
  · unfold ojaTransform ojaInverse
    rw [Matrix.mul_assoc, o, Matrix.mul_one]
  · unfold ojaTransform ojaInverse
    rw [Matrix.sub_mul, Matrix.mul_assoc, o, Matrix.mul_one, sub_self]

/-- the operator of one batch: `1 + η XᵀX` -/
noncomputable def gain {n : ℕ} (eta : ℝ) (d : Batch n) : Matrix (Fin n) (Fin n) ℝ := 1 + eta • (d.xᵀ * d.x)

/-- the operators of a sequence of batches, the last one outermost -/
noncomputable def gains {n : ℕ} (eta : ℝ) (ds : List (Batch n)) : Matrix (Fin n) (Fin n) ℝ :=
  ds.foldl (fun P d => gain eta d * P) 1

theorem gains_cons {n : ℕ} (eta : ℝ) (d : Batch n) (ds : List (Batch n)) : gains eta (d :: ds) = gains eta ds * gain eta d := by
  unfold gains
  have gen : ∀ (ds : List (Batch n)) (A B : Matrix (Fin n) (Fin n) ℝ),
      ds.foldl (fun P d => gain eta d * P) (A * B) = ds.foldl (fun P d => gain eta d * P) A * B := by
    intro ds
    induction ds with
    | nil => intro A B; rfl
    | cons d ds ih => intro A B; simp only [List.foldl_cons]; rw [← Matrix.mul_assoc, ih]
  simp only [List.foldl_cons, Matrix.mul_one]
  rw [← gen ds 1 (gain eta d), Matrix.one_mul]

theorem gain_inj {n : ℕ} {eta : ℝ} (he : 0 ≤ eta) (d : Batch n) : FullRank (gain eta d) := by
  intro v h
  apply sq_eq_zero
  have h1 : v ⬝ᵥ (gain eta d *ᵥ v) = sq v + eta * sq (d.x *ᵥ v) := by
    unfold gain
    rw [add_mulVec, one_mulVec, dotProduct_add, smul_mulVec, dotProduct_smul, gram_dot]
    rfl
  rw [h, dotProduct_zero] at h1
  have := sq_nonneg' v
  have := mul_nonneg he (sq_nonneg' (d.x *ᵥ v))
  linarith

theorem fullRank_mul {n k : ℕ} {A : Matrix (Fin n) (Fin n) ℝ} {B : Matrix (Fin n) (Fin k) ℝ} (ha : FullRank A) (hb : FullRank B) :
    FullRank (A * B) := by
  intro v h
  rw [← mulVec_mulVec] at h
  exact hb v (ha _ h)

/-- C90 (Oja): the learned components are the orthonormalisation of `∏ (1 + η XᵢᵀXᵢ) Q₀`: the two differ by an upper triangular
matrix (so the leading `j` columns span the same space for every `j`), and independent starting columns stay independent. -/
theorem C90_oja_power {n k : ℕ} (eta : ℝ) (he : 0 ≤ eta) (s s' : Oja n k) (ds : List (Batch n)) (h : OjaRun eta false s ds s')
    (hr : FullRank s.Q) :
    ∃ R : Matrix (Fin k) (Fin k) ℝ, s'.Q * R = gains eta ds * s.Q ∧ (∀ i j, j < i → R i j = 0) ∧ R.det ≠ 0 ∧ FullRank s'.Q := by
  induction h with
  | nil s => exact ⟨1, by simp [gains], fun i j h => by simp [Matrix.one_apply, (ne_of_gt h)], by simp, hr⟩
  | cons hf hrun ih =>
    rename_i s t u d ds
    obtain ⟨_, Q, R, hq, _, hc | hc⟩ := hf
    · exact absurd hc.1 (by simp [ojaDraws])
    · have hA : s.Q + eta • (d.xᵀ * (d.x * s.Q)) = gain eta d * s.Q := by
        unfold gain; rw [Matrix.add_mul, Matrix.one_mul, Matrix.smul_mul, Matrix.mul_assoc]
      have hQR : t.Q * R = gain eta d * s.Q := by rw [hc.2.2, hq.eq, hA]
      have hfull : FullRank (t.Q * R) := by rw [hQR]; exact fullRank_mul (gain_inj he d) hr
      have hRdet : R.det ≠ 0 := by
        intro hd
        obtain ⟨v, hv, hz⟩ := exists_mulVec_eq_zero_iff.mpr hd
        apply hv; apply hfull; rw [← mulVec_mulVec, hz, mulVec_zero]
      have htf : FullRank t.Q := by
        intro v hv
        have hu : IsUnit R.det := isUnit_iff_ne_zero.mpr hRdet
        have : (t.Q * R) *ᵥ (R⁻¹ *ᵥ v) = 0 := by
          rw [mulVec_mulVec, Matrix.mul_assoc, mul_nonsing_inv _ hu, Matrix.mul_one, hv]
        have := hfull _ this
        have h2 : R *ᵥ (R⁻¹ *ᵥ v) = v := by rw [mulVec_mulVec, mul_nonsing_inv _ hu, one_mulVec]
        rw [← h2, this, mulVec_zero]
      obtain ⟨R', h1, h2, h3, h4⟩ := ih htf
      refine ⟨R' * R, ?_, ?_, ?_, h4⟩
      · rw [← Matrix.mul_assoc, h1, Matrix.mul_assoc, hQR, gains_cons, Matrix.mul_assoc]
      · intro i j hij
        rw [Matrix.mul_apply]
        refine Finset.sum_eq_zero fun l _ => ?_
        rcases lt_or_ge l i with hl | hl
        · rw [h2 i l hl, zero_mul]
        · rw [hq.upper l j (lt_of_lt_of_le hij hl), mul_zero]
      · rw [det_mul]; exact mul_ne_zero h3 hRdet

/-- a run of one update exists: two orthonormal columns and a zero batch -/
example : OjaRun (n := 2) (k := 2) (1/2) false ⟨1, 0, 0⟩ [⟨1, 0⟩] ⟨1, 1, 0⟩ := by
  refine .cons ?_ (.nil _)
  exact ⟨by simp [ojaRaises], 1, 1, ⟨by simp, by simp, fun i j h => by simp [Matrix.one_apply, ne_of_gt h]⟩, rfl,
    .inr ⟨by simp [ojaDraws], rfl, rfl⟩⟩

/-- C90 fails with `use_oja_plus`: whenever the update draws a column that is not a unit vector, the components are not
orthonormal and a projected reconstruction differs from the latent coordinates. -/
theorem C90_oja_plus_fails {n k : ℕ} (s' : Oja n k) (j : Fin k) (v : Fin n → ℝ) (hv : sq v ≠ 1)
    (h : ∀ i, s'.Q i j = v i) : s'.Qᵀ * s'.Q ≠ 1 ∧ ∃ z : Matrix (Fin 1) (Fin k) ℝ, ojaTransform s' (ojaInverse s' z) ≠ z := by
  have e : (s'.Qᵀ * s'.Q) j j = sq v := by
    simp [Matrix.mul_apply, h, sq, dotProduct]
  constructor
  · intro hc
    rw [hc] at e
    simp at e
    exact hv e.symm
  · refine ⟨Matrix.of fun _ i => if i = j then 1 else 0, fun hc => ?_⟩
    unfold ojaTransform ojaInverse at hc
    rw [Matrix.mul_assoc] at hc
    have := congrFun (congrFun hc 0) j
    rw [Matrix.mul_apply] at this
    simp at this
    rw [e] at this
    exact hv this

/-- such an update is possible: two components, the first step, the drawn column `(2, 0)` -/
example : ∃ s', OjaForward (n := 2) (k := 2) (1/2) true (ojaInit 1) ⟨1, 0⟩ s' ∧ (∀ i, s'.Q i 0 = (![2, 0] : Fin 2 → ℝ) i) ∧
    sq (![2, 0] : Fin 2 → ℝ) ≠ 1 := by
  refine ⟨⟨Matrix.of fun i j => if (j : ℕ) = 0 then (![2, 0] : Fin 2 → ℝ) i else (1 : Matrix (Fin 2) (Fin 2) ℝ) i j, 1, 1⟩,
    ⟨by simp [ojaRaises], 1, 1, ⟨by simp [ojaInit], by simp, fun i j h => by simp [Matrix.one_apply, ne_of_gt h]⟩, rfl,
      .inl ⟨by simp [ojaDraws, ojaInit], rfl, ![2, 0], fun i j => rfl⟩⟩, fun i => rfl, by norm_num [sq, dotProduct, Fin.sum_univ_two]⟩

/-- C90 fails with `use_oja_plus` and one component: the first update divides by zero, so no update is possible. -/
theorem C90_oja_single_fails {n : ℕ} (eta : ℝ) (Q : Matrix (Fin n) (Fin 1) ℝ) (d : Batch n) (s' : Oja n 1) :
    ¬ OjaForward eta true (ojaInit Q) d s' := by
  rintro ⟨h, _⟩
  exact h ⟨rfl, by simp [ojaInit], rfl⟩

end Verif.Pca
