import Verif.Model.Cell
import Verif.Spec.Crystal
import Mathlib.Tactic.FieldSimp
import Mathlib.Tactic.NormNum
import Mathlib.Tactic.FinCases
import Mathlib.Tactic.Linarith
import Mathlib.Tactic.LinearCombination
import Mathlib.Tactic.Positivity
/-!
C53, C54, C55, C77, C78: the geometry of a unit cell.
-/
namespace Verif.Cryst
open Matrix

/-- Determinant of the metric tensor. -/
lemma det_dmt (l : Lattice) : l.dmt.det = (l.a * l.b * l.c) ^ 2 *
    (1 - Real.cos l.α ^ 2 - Real.cos l.β ^ 2 - Real.cos l.γ ^ 2
      + 2 * Real.cos l.α * Real.cos l.β * Real.cos l.γ) := by
  simp [Lattice.dmt, Matrix.det_fin_three]; ring

lemma det_form (l : Lattice) : l.dmt.det = (l.a * l.b * l.c) ^ 2 *
    (Real.sin l.γ ^ 2 * Real.sin l.β ^ 2 - (Real.cos l.β * Real.cos l.γ - Real.cos l.α) ^ 2) := by
  rw [det_dmt]
  have h1 := Real.sin_sq_add_cos_sq l.γ
  have h2 := Real.sin_sq_add_cos_sq l.β
  have e1 : Real.sin l.γ ^ 2 = 1 - Real.cos l.γ ^ 2 := by linarith
  have e2 : Real.sin l.β ^ 2 = 1 - Real.cos l.β ^ 2 := by linarith
  rw [e1, e2]; ring

lemma pos_facts {l : Lattice} (h : 0 < l.dmt.det) : l.a ≠ 0 ∧ l.b ≠ 0 ∧ l.c ≠ 0 ∧ Real.sin l.γ ≠ 0 := by
  rw [det_form] at h
  refine ⟨?_, ?_, ?_, ?_⟩
  · intro e; rw [e] at h; simp at h
  · intro e; rw [e] at h; simp at h
  · intro e; rw [e] at h; simp at h
  · intro e
    rw [e] at h
    have h1 : 0 ≤ (l.a * l.b * l.c) ^ 2 := sq_nonneg _
    have h2 : 0 ≤ (Real.cos l.β * Real.cos l.γ - Real.cos l.α) ^ 2 := sq_nonneg _
    nlinarith [mul_nonneg h1 h2]

lemma vol_sq {l : Lattice} (h : 0 < l.dmt.det) : l.vol ^ 2 = l.dmt.det := Real.sq_sqrt h.le

lemma vol_pos {l : Lattice} (h : 0 < l.dmt.det) : 0 < l.vol := Real.sqrt_pos.2 h

/-- The volume check of the constructor passes for a positive volume of at least 1e-6 and for NaN, and only then. -/
lemma det_pos {l : Lattice} (h : l.volumeOk = true) (h0 : 0 ≤ l.dmt.det) : 0 < l.dmt.det := by
  unfold Lattice.volumeOk at h
  rw [Bool.or_eq_true, decide_eq_true_eq, Bool.not_eq_true', decide_eq_false_iff_not, not_lt] at h
  rcases h with h | h
  · linarith
  · by_contra hn
    have : l.dmt.det = 0 := le_antisymm (not_lt.1 hn) h0
    unfold Lattice.vol at h
    rw [this, Real.sqrt_zero] at h
    norm_num at h

lemma dsm_gram {l : Lattice} (h : 0 < l.dmt.det) : l.dsmᵀ * l.dsm = l.dmt := by
  obtain ⟨ha, hb, hc, hs⟩ := pos_facts h
  have hv := vol_sq h
  rw [det_form] at hv
  have h1 := Real.sin_sq_add_cos_sq l.γ
  have h2 := Real.sin_sq_add_cos_sq l.β
  have e1 : Real.cos l.γ ^ 2 = 1 - Real.sin l.γ ^ 2 := by linarith
  have e2 : Real.cos l.β ^ 2 = 1 - Real.sin l.β ^ 2 := by linarith
  ext i j
  fin_cases i <;> fin_cases j <;>
    simp only [Lattice.dsm, Lattice.dmt, Matrix.mul_apply, Matrix.transpose_apply, Fin.sum_univ_three, Fin.zero_eta,
      Fin.mk_one, Fin.reduceFinMk, Matrix.of_apply, Matrix.cons_val', Matrix.cons_val_zero, Matrix.cons_val_one,
      Matrix.cons_val, Matrix.cons_val_fin_one, Matrix.empty_val', Fin.isValue]
  · ring
  · ring
  · ring
  · ring
  · linear_combination l.b ^ 2 * h1
  · field_simp
    ring
  · ring
  · field_simp
    ring
  · field_simp
    linear_combination hv + (l.a * l.b * l.c * Real.sin l.γ) ^ 2 * h2

lemma dsm_det {l : Lattice} (h : 0 < l.dmt.det) : l.dsm.det = l.vol := by
  obtain ⟨ha, hb, hc, hs⟩ := pos_facts h
  simp [Lattice.dsm, Matrix.det_fin_three]
  field_simp

/-- The columns of `dsm`: the Cartesian components of the cell vectors. -/
noncomputable def cellVec (l : Lattice) (j : Fin 3) : Vec := fun i => l.dsm i j

/-- **C53** (for cells whose metric determinant is not negative).  In every cell that passes the volume check the three
columns of the direct structure matrix have the edge lengths `a`, `b`, `c` and include the angles `γ`, `β`, `α`, their
triple product is `vol`, and `calc_dot` in direct space is the Cartesian dot product of the transformed vectors. -/
theorem C53_structure_matrix_partial (l : Lattice) (hok : l.volumeOk = true) (h0 : 0 ≤ l.dmt.det) :
    calcDot l (cellVec l 0) (cellVec l 0) .c = l.a ^ 2 ∧
    calcDot l (cellVec l 1) (cellVec l 1) .c = l.b ^ 2 ∧
    calcDot l (cellVec l 2) (cellVec l 2) .c = l.c ^ 2 ∧
    calcDot l (cellVec l 0) (cellVec l 1) .c = l.a * l.b * Real.cos l.γ ∧
    calcDot l (cellVec l 0) (cellVec l 2) .c = l.a * l.c * Real.cos l.β ∧
    calcDot l (cellVec l 1) (cellVec l 2) .c = l.b * l.c * Real.cos l.α ∧
    calcDot l (cellVec l 0) (cross (cellVec l 1) (cellVec l 2)) .c = l.vol ∧
    l.dsm.det = l.vol ∧ 1e-6 ≤ l.vol ∧
    ∀ p q, calcDot l p q .d = calcDot l (transformSpace l p .d .c) (transformSpace l q .d .c) .c := by
  have h := det_pos hok h0
  have g := dsm_gram h
  have e : ∀ i j, calcDot l (cellVec l i) (cellVec l j) .c = l.dmt i j := by
    intro i j
    rw [← g]
    simp [calcDot, cellVec, Matrix.mul_apply]
  refine ⟨?_, ?_, ?_, ?_, ?_, ?_, ?_, dsm_det h, ?_, ?_⟩
  · rw [e]; simp [Lattice.dmt]
  · rw [e]; simp [Lattice.dmt]
  · rw [e]; simp [Lattice.dmt]
  · rw [e]; simp [Lattice.dmt]
  · rw [e]; simp [Lattice.dmt]
  · rw [e]; simp [Lattice.dmt]
  · rw [← dsm_det h, Matrix.det_fin_three]
    simp [calcDot, cellVec, cross, Fin.sum_univ_three]
    ring
  · unfold Lattice.volumeOk at hok
    rw [Bool.or_eq_true, decide_eq_true_eq, Bool.not_eq_true', decide_eq_false_iff_not, not_lt] at hok
    exact hok.resolve_left (not_lt.2 h0)
  · intro p q
    have : calcDot l p q .d = ∑ i, ∑ j, p i * (l.dsmᵀ * l.dsm) i j * q j := by rw [g]; rfl
    rw [this]
    simp only [calcDot, transformSpace, Matrix.mulVec, dotProduct, Matrix.mul_apply, Matrix.transpose_apply,
      Fin.sum_univ_three]
    ring

/-- A hexagonal cell (a = 0.3 nm, c = 0.5 nm): it is accepted. -/
noncomputable def hexCell : Lattice := ⟨0.3, 0.3, 0.5, Real.pi / 2, Real.pi / 2, 2 * Real.pi / 3⟩

lemma cos_two_pi_div_three : Real.cos (2 * Real.pi / 3) = -1 / 2 := by
  rw [show 2 * Real.pi / 3 = Real.pi - Real.pi / 3 by ring, Real.cos_pi_sub, Real.cos_pi_div_three]; norm_num

lemma sin_two_pi_div_three : Real.sin (2 * Real.pi / 3) = Real.sqrt 3 / 2 := by
  rw [show 2 * Real.pi / 3 = Real.pi - Real.pi / 3 by ring, Real.sin_pi_sub, Real.sin_pi_div_three]

lemma hexCell_det : hexCell.dmt.det = 0.00151875 := by
  rw [det_dmt]
  simp only [hexCell, Real.cos_pi_div_two, cos_two_pi_div_three]
  norm_num

lemma hexCell_vol : hexCell.vol = Real.sqrt 0.00151875 := by
  unfold Lattice.vol; rw [hexCell_det]

lemma hexCell_ok : hexCell.volumeOk = true := by
  unfold Lattice.volumeOk
  rw [Bool.or_eq_true, Bool.not_eq_true', decide_eq_false_iff_not, not_lt, hexCell_vol]
  right
  apply Real.le_sqrt_of_sq_le
  norm_num

example : hexCell.volumeOk = true ∧ 0 ≤ hexCell.dmt.det := ⟨hexCell_ok, by rw [hexCell_det]; norm_num⟩

/-- What is missing in C53: angles that no cell can have (60°, 60°, 150°) pass the check, because the volume is then the
square root of a negative number, NaN, and the comparison with 1e-6 is false. -/
theorem C53_impossible_angles_fails :
    ∃ l : Lattice, 0 < l.a ∧ 0 < l.b ∧ 0 < l.c ∧ l.dmt.det < 0 ∧ l.volumeOk = true := by
  refine ⟨⟨1, 1, 1, Real.pi / 3, Real.pi / 3, 5 * Real.pi / 6⟩, one_pos, one_pos, one_pos, ?_⟩
  have hc : Real.cos (5 * Real.pi / 6) = -(Real.sqrt 3 / 2) := by
    rw [show 5 * Real.pi / 6 = Real.pi - Real.pi / 6 by ring, Real.cos_pi_sub, Real.cos_pi_div_six]
  have hd : (⟨1, 1, 1, Real.pi / 3, Real.pi / 3, 5 * Real.pi / 6⟩ : Lattice).dmt.det < 0 := by
    rw [det_dmt]
    simp only [hc, Real.cos_pi_div_three]
    have h3 := Real.sq_sqrt (show (0 : ℝ) ≤ 3 by norm_num)
    have h4 := Real.sqrt_nonneg 3
    nlinarith
  exact ⟨hd, by unfold Lattice.volumeOk; simp [hd]⟩

/-! ### C54 -/

lemma dsm_inv {l : Lattice} (h : 0 < l.dmt.det) : l.rsm * l.dsm = 1 ∧ l.dsm * l.rsm = 1 := by
  have hu : IsUnit l.dsm.det := by rw [dsm_det h]; exact (vol_pos h).ne'.isUnit
  exact ⟨Matrix.nonsing_inv_mul _ hu, Matrix.mul_nonsing_inv _ hu⟩

lemma dmt_inv {l : Lattice} (h : 0 < l.dmt.det) : l.rmt * l.dmt = 1 ∧ l.dmt * l.rmt = 1 := by
  have hu : IsUnit l.dmt.det := h.ne'.isUnit
  exact ⟨Matrix.nonsing_inv_mul _ hu, Matrix.mul_nonsing_inv _ hu⟩

/-- The structure matrix of a cell with right angles is diagonal. -/
lemma dsm_right {l : Lattice} (h1 : l.α = Real.pi / 2) (h2 : l.β = Real.pi / 2)
    (h3 : l.γ = Real.pi / 2) : l.dsmᵀ = l.dsm := by
  ext i j
  fin_cases i <;> fin_cases j <;> simp [Lattice.dsm, h1, h2, h3]

/-- **C54** (part).  Direct ↔ reciprocal round trips are the identity for every cell, and in cells with right angles all
round trips are. -/
theorem C54_roundtrip_partial (l : Lattice) (h : 0 < l.dmt.det) (t : Vec) :
    transformSpace l (transformSpace l t .d .r) .r .d = t ∧
    transformSpace l (transformSpace l t .r .d) .d .r = t ∧
    (l.α = Real.pi / 2 → l.β = Real.pi / 2 → l.γ = Real.pi / 2 →
      ∀ s s', transformSpace l (transformSpace l t s s') s' s = t) := by
  obtain ⟨e1, e2⟩ := dmt_inv h
  obtain ⟨f1, f2⟩ := dsm_inv h
  have hdr : transformSpace l (transformSpace l t .d .r) .r .d = t := by
    simp only [transformSpace, Matrix.vecMul_vecMul, e2, Matrix.vecMul_one]
  have hrd : transformSpace l (transformSpace l t .r .d) .d .r = t := by
    simp only [transformSpace, Matrix.vecMul_vecMul, e1, Matrix.vecMul_one]
  refine ⟨hdr, hrd, fun h1 h2 h3 s s' => ?_⟩
  have sy := dsm_right h1 h2 h3
  have sy' : l.rsmᵀ = l.rsm := by unfold Lattice.rsm; rw [Matrix.transpose_nonsing_inv, sy]
  have m1 : ∀ v, Matrix.vecMul v l.rsm = l.rsm.mulVec v := fun v => by
    rw [← Matrix.mulVec_transpose, sy']
  have m2 : ∀ v, Matrix.vecMul v l.dsm = l.dsm.mulVec v := fun v => by
    rw [← Matrix.mulVec_transpose, sy]
  cases s <;> cases s' <;> first
    | rfl
    | exact hdr
    | exact hrd
    | simp only [transformSpace, m1, m2, Matrix.mulVec_mulVec, f1, f2, Matrix.one_mulVec]

/-- **C54**, exactly.  `direct → Cartesian → direct` is the identity (on all vectors) in exactly those cells whose
`cos α`, `cos β` and `cos γ` all vanish. -/
theorem C54_direct_cartesian_iff (l : Lattice) (h : 0 < l.dmt.det) :
    (∀ t, transformSpace l (transformSpace l t .d .c) .c .d = t) ↔
      Real.cos l.α = 0 ∧ Real.cos l.β = 0 ∧ Real.cos l.γ = 0 := by
  obtain ⟨f1, f2⟩ := dsm_inv h
  obtain ⟨ha, hb, hc, hs⟩ := pos_facts h
  have key : (∀ t, transformSpace l (transformSpace l t .d .c) .c .d = t) ↔ l.dsmᵀ = l.dsm := by
    have e : ∀ t, transformSpace l (transformSpace l t .d .c) .c .d = (l.rsmᵀ * l.dsm).mulVec t := by
      intro t
      simp only [transformSpace]
      rw [← Matrix.mulVec_transpose, Matrix.mulVec_mulVec]
    constructor
    · intro ht
      have : l.rsmᵀ * l.dsm = 1 := by
        ext i j
        have := congrFun ((e (Pi.single j 1)).symm.trans (ht (Pi.single j 1))) i
        simp only [Matrix.mulVec_single_one, Matrix.col_apply] at this
        rw [this, Matrix.one_apply, Pi.single_apply]
      calc l.dsmᵀ = l.dsmᵀ * (l.rsmᵀ * l.dsm) := by rw [this, Matrix.mul_one]
        _ = (l.rsm * l.dsm)ᵀ * l.dsm := by rw [Matrix.transpose_mul, Matrix.mul_assoc]
        _ = l.dsm := by rw [f1, Matrix.transpose_one, Matrix.one_mul]
    · intro hsy t
      rw [e, show l.rsmᵀ * l.dsm = 1 from ?_, Matrix.one_mulVec]
      rw [← hsy, ← Matrix.transpose_mul, f2, Matrix.transpose_one]
  rw [key]
  constructor
  · intro hsy
    have h01 := congrFun (congrFun hsy 1) 0
    have h02 := congrFun (congrFun hsy 2) 0
    have h12 := congrFun (congrFun hsy 2) 1
    simp [Lattice.dsm, Matrix.transpose_apply] at h01 h02 h12
    have c1 : Real.cos l.γ = 0 := h01.resolve_left hb
    have c2 : Real.cos l.β = 0 := h02.resolve_left hc
    rw [c1, c2] at h12
    simp [hc, hs] at h12
    exact ⟨h12, c2, c1⟩
  · rintro ⟨h1, h2, h3⟩
    ext i j
    fin_cases i <;> fin_cases j <;> simp [Lattice.dsm, h1, h2, h3]

/-- What is missing in C54: in a hexagonal cell `direct → Cartesian → direct` changes vectors. -/
theorem C54_hexagonal_fails : ∃ t, transformSpace hexCell (transformSpace hexCell t .d .c) .c .d ≠ t := by
  by_contra hn
  push Not at hn
  have := ((C54_direct_cartesian_iff hexCell (by rw [hexCell_det]; norm_num)).1 hn).2.2
  simp only [hexCell, cos_two_pi_div_three] at this
  norm_num at this

example : 0 < hexCell.dmt.det := by rw [hexCell_det]; norm_num

/-- The two maps out of Cartesian space that are right in every cell: `direct → Cartesian` preserves the dot product,
and `Cartesian → reciprocal` gives the components with respect to the dual basis (the pairing with direct components is
the Cartesian dot product). -/
theorem C54_dual_pairing (l : Lattice) (p v : Vec) :
    ∑ i, p i * transformSpace l v .c .r i = calcDot l (transformSpace l p .d .c) v .c := by
  simp only [transformSpace, calcDot, Matrix.vecMul, Matrix.mulVec, dotProduct, Fin.sum_univ_three]
  ring

/-- `calc_dot` in reciprocal space is the direct dot product of the transformed vectors, in every accepted cell. -/
theorem C54_reciprocal_dot (l : Lattice) (h : 0 < l.dmt.det) (p q : Vec) :
    calcDot l p q .r = calcDot l (transformSpace l p .r .d) (transformSpace l q .r .d) .d := by
  obtain ⟨e1, e2⟩ := dmt_inv h
  have sy : l.dmtᵀ = l.dmt := by ext i j; fin_cases i <;> fin_cases j <;> simp [Lattice.dmt]
  have sr : l.rmtᵀ = l.rmt := by unfold Lattice.rmt; rw [Matrix.transpose_nonsing_inv, sy]
  have hd : ∀ (M : M3) (x y : Vec), ∑ i, ∑ j, x i * M i j * y j = x ⬝ᵥ M.mulVec y := by
    intro M x y
    simp only [dotProduct, Matrix.mulVec, Fin.sum_univ_three]; ring
  simp only [calcDot, hd, transformSpace]
  have : Matrix.vecMul q l.rmt = l.rmt.mulVec q := by rw [← Matrix.mulVec_transpose, sr]
  rw [this, Matrix.mulVec_mulVec, e2, Matrix.one_mulVec, Matrix.dotProduct_mulVec]

/-! ### C55 -/

/-- **C55** (part), exactly.  `pg_num` is the International Tables point group for precisely the first space group of
each point group and for the groups 221-230; `xtal_system` is right for precisely the first space group of each crystal
system and for all cubic groups.  (All 230 groups are covered.) -/
theorem C55_correct_iff_partial (sg : ℕ) (h1 : 1 ≤ sg) (h2 : sg ≤ 230) :
    (pgNum sg = Spec.PG.all.idxOf (Spec.pgOfSpaceGroup sg) + 1 ↔ sg ∈ Spec.pgFirst ∨ 221 ≤ sg) ∧
    (xtalSystem sg = (Spec.pgOfSpaceGroup sg).system ↔ sg ∈ [1, 3, 16, 75, 143, 168] ∨ 195 ≤ sg) := by
  have : ∀ k < 230, (pgNum (k + 1) = Spec.PG.all.idxOf (Spec.pgOfSpaceGroup (k + 1)) + 1 ↔
      k + 1 ∈ Spec.pgFirst ∨ 221 ≤ k + 1) ∧
      (xtalSystem (k + 1) = (Spec.pgOfSpaceGroup (k + 1)).system ↔ k + 1 ∈ [1, 3, 16, 75, 143, 168] ∨ 195 ≤ k + 1) := by
    decide +kernel
  have h := this (sg - 1) (by omega)
  rwa [Nat.sub_add_cancel h1] at h

example : (1 : ℕ) ≤ 14 ∧ 14 ≤ 230 := by decide

/-- What is missing in C55: P2₁/c (14), the commonest space group, is given the point group `222` and the crystal system
orthorhombic; and Fm-3m (225) the Laue group 12, which does not exist. -/
theorem C55_fails : pgNum 14 = Spec.PG.all.idxOf .p222 + 1 ∧ Spec.pgOfSpaceGroup 14 = .p2om ∧
    xtalSystem 14 = Spec.PG.p222.system ∧ laueGroup 225 = some 12 ∧ (Spec.pgOfSpaceGroup 225).laue = 11 := by
  decide +kernel

/-- The Laue group of every cell is that of the point group *after* the one stored in `pg_num`. -/
theorem C55_laue_shifted (sg : ℕ) (h1 : 1 ≤ sg) (h2 : sg ≤ 215) :
    ∃ p, Spec.PG.all[pgNum sg]? = some p ∧ laueGroup sg = some p.laue := by
  have : ∀ k < 215, ∃ p ∈ Spec.PG.all, Spec.PG.all[pgNum (k + 1)]? = some p ∧ laueGroup (k + 1) = some p.laue := by
    decide +kernel
  obtain ⟨p, -, h⟩ := this (sg - 1) (by omega)
  rw [Nat.sub_add_cancel h1] at h
  exact ⟨p, h⟩

/-! ### C77: cross products -/

private lemma cross_transpose (M : M3) (p q : Vec) :
    Mᵀ.mulVec (cross (M.mulVec p) (M.mulVec q)) = M.det • cross p q := by
  ext i
  rw [Matrix.det_fin_three]
  fin_cases i <;>
    simp [cross, Matrix.mulVec, dotProduct, Fin.sum_univ_three] <;> ring

/-- Cartesian components of a vector given in a space: with respect to the cell vectors (columns of `dsm`), or their
dual basis (columns of `(dsmᵀ)⁻¹`). -/
noncomputable def cartesian (l : Lattice) : Space → Vec → Vec
  | .d, p => l.dsm.mulVec p
  | .r, p => l.rsmᵀ.mulVec p
  | .c, p => p

private lemma cross_rule {M N : M3} {d : ℝ} (h : N * Mᵀ = 1) (hd : M.det = d) (p q : Vec) :
    cross (M.mulVec p) (M.mulVec q) = N.mulVec (d • cross p q) := by
  have := congrArg N.mulVec (cross_transpose M p q)
  rwa [Matrix.mulVec_mulVec, h, Matrix.one_mulVec, hd] at this

/-- **C77** (part).  With `scale_by_volume` the cross product of two direct vectors in direct space, and of two
reciprocal vectors in reciprocal or Cartesian space, is the geometric cross product, in every cell; and Cartesian input
gives the Cartesian cross product. -/
theorem C77_cross_partial (l : Lattice) (h : 0 < l.dmt.det) (p q : Vec) :
    (∃ v, calcCross l p q .d .d true = .ok v ∧
      cartesian l .d v = cross (cartesian l .d p) (cartesian l .d q)) ∧
    (∃ v, calcCross l p q .r .r true = .ok v ∧
      cartesian l .r v = cross (cartesian l .r p) (cartesian l .r q)) ∧
    (∃ v, calcCross l p q .r .c true = .ok v ∧ v = cross (cartesian l .r p) (cartesian l .r q)) ∧
    calcCross l p q .c .c true = .ok (cross p q) := by
  obtain ⟨f1, f2⟩ := dsm_inv h
  obtain ⟨e1, e2⟩ := dmt_inv h
  have g := dsm_gram h
  have sy : l.dmtᵀ = l.dmt := by ext i j; fin_cases i <;> fin_cases j <;> simp [Lattice.dmt]
  have sr : l.rmtᵀ = l.rmt := by unfold Lattice.rmt; rw [Matrix.transpose_nonsing_inv, sy]
  have t1 : l.rsmᵀ * l.dsmᵀ = 1 := by rw [← Matrix.transpose_mul, f2, Matrix.transpose_one]
  have t2 : l.dsmᵀ * l.rsmᵀ = 1 := by rw [← Matrix.transpose_mul, f1, Matrix.transpose_one]
  have dr : l.rsmᵀ.det = 1 / l.vol := by
    have := congrArg Matrix.det t1
    rw [Matrix.det_mul, Matrix.det_transpose l.dsm, dsm_det h, Matrix.det_one] at this
    rw [eq_div_iff (vol_pos h).ne', this]
  have k1 : l.dsm * l.rmt = l.rsmᵀ := by
    have : l.rsmᵀ * l.dmt = l.dsm := by rw [← g, ← Matrix.mul_assoc, t1, Matrix.one_mul]
    rw [← this, Matrix.mul_assoc, e2, Matrix.mul_one]
  have k2 : l.rsmᵀ * l.dmt = l.dsm := by rw [← g, ← Matrix.mul_assoc, t1, Matrix.one_mul]
  refine ⟨⟨_, rfl, ?_⟩, ⟨_, rfl, ?_⟩, ⟨_, rfl, ?_⟩, rfl⟩
  · simp only [cartesian, if_true]
    rw [cross_rule t1 (dsm_det h), ← Matrix.mulVec_transpose l.rmt, sr, Matrix.mulVec_mulVec, k1]
  · simp only [cartesian, if_true]
    rw [cross_rule (N := l.dsm) (by rw [Matrix.transpose_transpose, f2]) dr, ← Matrix.mulVec_transpose l.dmt, sy,
      Matrix.mulVec_mulVec, k2]
  · simp only [cartesian, if_true]
    rw [cross_rule (N := l.dsm) (by rw [Matrix.transpose_transpose, f2]) dr]

/-- What is missing in C77: mixed direct/reciprocal requests raise, although the geometric cross product of direct vectors
*is* a reciprocal vector ... -/
theorem C77_mixed_raises_fails (l : Lattice) (p q : Vec) (b : Bool) :
    calcCross l p q .d .r b = .error .valueError ∧ calcCross l p q .r .d b = .error .valueError := ⟨rfl, rfl⟩

/-- ... Cartesian input ignores the requested output space ... -/
theorem C77_cartesian_ignores_space_fails : ∃ p q v, calcCross hexCell p q .c .d true = .ok v ∧
    cartesian hexCell .d v ≠ cross p q := by
  refine ⟨![0, 1, 0], ![0, 0, 1], _, rfl, fun e => ?_⟩
  have := congrFun e 0
  simp [cartesian, cross, Lattice.dsm, hexCell, Matrix.mulVec, dotProduct, Fin.sum_univ_three] at this
  norm_num at this

/-- ... and direct vectors with Cartesian output are wrong in non-orthogonal cells. -/
theorem C77_direct_to_cartesian_fails : ∃ p q v, calcCross hexCell p q .d .c true = .ok v ∧
    v ≠ cross (cartesian hexCell .d p) (cartesian hexCell .d q) := by
  have h : 0 < hexCell.dmt.det := by rw [hexCell_det]; norm_num
  obtain ⟨f1, f2⟩ := dsm_inv h
  refine ⟨![0, 1, 0], ![0, 0, 1], _, rfl, fun e => ?_⟩
  have e' := congrArg hexCell.dsm.mulVec e
  simp only [if_true, Matrix.mulVec_mulVec, f2, Matrix.one_mulVec] at e'
  have h1 := congrFun e' 1
  have hv := (vol_pos h).ne'
  simp [cartesian, cross, Lattice.dsm, hexCell, Matrix.mulVec, dotProduct, Fin.sum_univ_three,
    cos_two_pi_div_three, sin_two_pi_div_three] at h1
  have n3 : (0.3 : ℝ) ≠ 0 := by norm_num
  rcases h1 with h1 | h1
  · exact n3 h1
  · rcases h1 with h1 | h1
    · exact hv h1
    · exact n3 h1

/-! ### C78: lengths and angles -/

lemma direct_dot {l : Lattice} (h : 0 < l.dmt.det) (p q : Vec) :
    calcDot l p q .d = l.dsm.mulVec p ⬝ᵥ l.dsm.mulVec q := by
  have : calcDot l p q .d = ∑ i, ∑ j, p i * (l.dsmᵀ * l.dsm) i j * q j := by rw [dsm_gram h]; rfl
  rw [this]
  simp only [Matrix.mulVec, dotProduct, Matrix.mul_apply, Matrix.transpose_apply, Fin.sum_univ_three]
  ring

lemma reciprocal_dot {l : Lattice} (h : 0 < l.dmt.det) (p q : Vec) :
    calcDot l p q .r = l.rsmᵀ.mulVec p ⬝ᵥ l.rsmᵀ.mulVec q := by
  obtain ⟨f1, f2⟩ := dsm_inv h
  obtain ⟨e1, e2⟩ := dmt_inv h
  have t1 : l.rsmᵀ * l.dsmᵀ = 1 := by rw [← Matrix.transpose_mul, f2, Matrix.transpose_one]
  have k : l.rmt = l.rsm * l.rsmᵀ := by
    have : l.rsm * l.rsmᵀ * l.dmt = 1 := by
      rw [← dsm_gram h, Matrix.mul_assoc, ← Matrix.mul_assoc l.rsmᵀ, t1, Matrix.one_mul, f1]
    calc l.rmt = (l.rsm * l.rsmᵀ * l.dmt) * l.rmt := by rw [this, Matrix.one_mul]
      _ = _ := by rw [Matrix.mul_assoc, e2, Matrix.mul_one]
  have : calcDot l p q .r = ∑ i, ∑ j, p i * (l.rsm * l.rsmᵀ) i j * q j := by rw [← k]; rfl
  rw [this]
  simp only [Matrix.mulVec, dotProduct, Matrix.mul_apply, Matrix.transpose_apply, Fin.sum_univ_three]
  ring

lemma calcDot_cartesian {l : Lattice} (h : 0 < l.dmt.det) (p q : Vec) (s : Space) :
    calcDot l p q s = cartesian l s p ⬝ᵥ cartesian l s q := by
  cases s
  · exact direct_dot h p q
  · exact reciprocal_dot h p q
  · rfl

lemma cartesian_zero {l : Lattice} (h : 0 < l.dmt.det) (p : Vec) (s : Space) : cartesian l s p = 0 ↔ p = 0 := by
  obtain ⟨f1, f2⟩ := dsm_inv h
  have t2 : l.dsmᵀ * l.rsmᵀ = 1 := by rw [← Matrix.transpose_mul, f1, Matrix.transpose_one]
  cases s
  · constructor
    · intro e
      have := congrArg l.rsm.mulVec e
      simpa only [cartesian, Matrix.mulVec_mulVec, f1, Matrix.one_mulVec, Matrix.mulVec_zero] using this
    · rintro rfl; simp [cartesian]
  · constructor
    · intro e
      have := congrArg l.dsmᵀ.mulVec e
      simpa only [cartesian, Matrix.mulVec_mulVec, t2, Matrix.one_mulVec, Matrix.mulVec_zero] using this
    · rintro rfl; simp [cartesian]
  · rfl

private lemma dot_nonneg (v : Vec) : 0 ≤ v ⬝ᵥ v := by
  simp only [dotProduct, Fin.sum_univ_three]
  nlinarith [mul_self_nonneg (v 0), mul_self_nonneg (v 1), mul_self_nonneg (v 2)]

private lemma dot_zero (v : Vec) : v ⬝ᵥ v = 0 ↔ v = 0 := by
  constructor
  · intro e
    simp only [dotProduct, Fin.sum_univ_three] at e
    have h0 := mul_self_nonneg (v 0); have h1 := mul_self_nonneg (v 1); have h2 := mul_self_nonneg (v 2)
    ext i
    fin_cases i
    · exact mul_self_eq_zero.1 (by linarith : v 0 * v 0 = 0)
    · exact mul_self_eq_zero.1 (by linarith : v 1 * v 1 = 0)
    · exact mul_self_eq_zero.1 (by linarith : v 2 * v 2 = 0)
  · rintro rfl; simp

private lemma cauchy (u v : Vec) : (u ⬝ᵥ v) ^ 2 ≤ (u ⬝ᵥ u) * (v ⬝ᵥ v) := by
  simp only [dotProduct, Fin.sum_univ_three]
  nlinarith [sq_nonneg (u 0 * v 1 - u 1 * v 0), sq_nonneg (u 0 * v 2 - u 2 * v 0), sq_nonneg (u 1 * v 2 - u 2 * v 1)]

lemma calcLength_zero {l : Lattice} (h : 0 < l.dmt.det) (p : Vec) (s : Space) : calcLength l p s = 0 ↔ p = 0 := by
  unfold calcLength
  rw [calcDot_cartesian h, Real.sqrt_eq_zero (dot_nonneg _), dot_zero, cartesian_zero h]

/-- **C78**.  In every cell and every space, lengths and angles are those of the Cartesian vectors: `calc_length` is the
Euclidean length and vanishes only for the zero vector; `calc_angle` raises exactly for a zero vector, and otherwise
returns an angle in `[0, π]` with `cos θ · |p| · |q| = p · q`; `norm_vec` of a non-zero vector has length one. -/
theorem C78_length_angle (l : Lattice) (h : 0 < l.dmt.det) (p q : Vec) (s : Space) :
    calcLength l p s ^ 2 = cartesian l s p ⬝ᵥ cartesian l s p ∧ (calcLength l p s = 0 ↔ p = 0) ∧
    (calcAngle l p q s = .error .valueError ↔ p = 0 ∨ q = 0) ∧
    (p ≠ 0 → q ≠ 0 → ∃ θ, calcAngle l p q s = .ok θ ∧ 0 ≤ θ ∧ θ ≤ Real.pi ∧
      Real.cos θ * (calcLength l p s * calcLength l q s) = cartesian l s p ⬝ᵥ cartesian l s q) ∧
    (p ≠ 0 → calcLength l (normVec l p s) s = 1) := by
  have hz := calcLength_zero h
  have hsq : ∀ v, calcLength l v s ^ 2 = cartesian l s v ⬝ᵥ cartesian l s v := fun v => by
    unfold calcLength
    rw [Real.sq_sqrt (by rw [calcDot_cartesian h]; exact dot_nonneg _), calcDot_cartesian h]
  have hnn : ∀ v, 0 ≤ calcLength l v s := fun v => Real.sqrt_nonneg _
  have pos : ∀ v, v ≠ 0 → 0 < calcLength l v s := fun v hv =>
    lt_of_le_of_ne (hnn v) (fun e => hv ((hz v s).1 e.symm))
  refine ⟨hsq p, hz p s, ?_, ?_, ?_⟩
  · unfold calcAngle
    simp only [hz]
    constructor
    · intro e
      by_contra hn
      rw [if_neg hn] at e
      cases e
    · intro e; rw [if_pos e]
  · intro hp hq
    have hl : 0 < calcLength l p s * calcLength l q s := mul_pos (pos p hp) (pos q hq)
    have hb : |calcDot l p q s| ≤ calcLength l p s * calcLength l q s := by
      apply abs_le_of_sq_le_sq _ hl.le
      rw [mul_pow, hsq, hsq, calcDot_cartesian h]
      exact cauchy _ _
    obtain ⟨b1, b2⟩ := abs_le.1 hb
    have t1 : -1 ≤ calcDot l p q s / (calcLength l p s * calcLength l q s) := by
      rw [le_div_iff₀ hl]; linarith
    have t2 : calcDot l p q s / (calcLength l p s * calcLength l q s) ≤ 1 := by
      rw [div_le_iff₀ hl]; linarith
    have hcos : ∀ θ, Real.cos θ = calcDot l p q s / (calcLength l p s * calcLength l q s) →
        Real.cos θ * (calcLength l p s * calcLength l q s) = cartesian l s p ⬝ᵥ cartesian l s q := by
      intro θ e
      rw [e, div_mul_cancel₀ _ hl.ne', calcDot_cartesian h]
    unfold calcAngle
    simp only [hz]
    rw [if_neg (by tauto)]
    refine ⟨_, rfl, ?_, ?_, hcos _ ?_⟩
    · split_ifs <;> first | exact le_refl _ | exact Real.pi_pos.le | exact Real.arccos_nonneg _
    · split_ifs <;> first | exact Real.pi_pos.le | exact le_refl _ | exact Real.arccos_le_pi _
    · split_ifs with c1 c2
      · rw [Real.cos_zero]; linarith
      · rw [Real.cos_pi]; linarith
      · exact Real.cos_arccos t1 t2
  · intro hp
    have hl := pos p hp
    have e : normVec l p s = (1 / calcLength l p s) • p := by
      unfold normVec
      rw [if_pos hl.ne']
      ext i; simp; ring
    have e2 : calcDot l (normVec l p s) (normVec l p s) s = (1 / calcLength l p s) ^ 2 * calcDot l p p s := by
      rw [calcDot_cartesian h, calcDot_cartesian h, e]
      have : cartesian l s ((1 / calcLength l p s) • p) = (1 / calcLength l p s) • cartesian l s p := by
        cases s <;> simp [cartesian, Matrix.mulVec_smul]
      rw [this, smul_dotProduct, dotProduct_smul]
      simp only [smul_eq_mul]; ring
    have : calcLength l (normVec l p s) s ^ 2 = 1 := by
      rw [hsq, ← calcDot_cartesian h, e2, calcDot_cartesian h p p, ← hsq]
      field_simp
    nlinarith [hnn (normVec l p s)]

example : (0 < hexCell.dmt.det) ∧ (![1, 0, 0] : Vec) ≠ 0 ∧ (![0, 1, 0] : Vec) ≠ 0 :=
  ⟨by rw [hexCell_det]; norm_num, fun e => by simpa using congrFun e 0, fun e => by simpa using congrFun e 1⟩

/-! ### C79: composition -/

/-- **C79** (part).  The Z² percentages of atoms with non-negative weights that are not all zero are non-negative and sum
to one hundred. -/
theorem C79_z2_percent (atoms : List (ℝ × ℝ × ℝ))
    (h : (atoms.map fun a => a.1 * a.2.1 * a.2.2 ^ 2).sum ≠ 0) :
    (z2Percent atoms).sum = 100 ∧ (z2Percent atoms).length = atoms.length ∧
    ((∀ a ∈ atoms, 0 ≤ a.1 ∧ 0 ≤ a.2.1) → ∀ z ∈ z2Percent atoms, 0 ≤ z) := by
  refine ⟨?_, by simp [z2Percent], ?_⟩
  · unfold z2Percent
    simp only
    generalize hz : (atoms.map fun a => a.1 * a.2.1 * a.2.2 ^ 2) = zs at h
    have : ∀ (t : ℝ) (l : List ℝ), (l.map fun z => 100 * z / t).sum = 100 * l.sum / t := by
      intro t l
      induction l with
      | nil => simp
      | cons a l ih => rw [List.map_cons, List.sum_cons, ih, List.sum_cons]; ring
    rw [this]
    field_simp
  · intro hp z hz
    unfold z2Percent at hz
    simp only [List.mem_map, exists_exists_and_eq_and] at hz
    obtain ⟨a, ha, rfl⟩ := hz
    have h1 : ∀ b ∈ atoms.map (fun a => a.1 * a.2.1 * a.2.2 ^ 2), 0 ≤ b := by
      intro b hb
      obtain ⟨c, hc, rfl⟩ := List.mem_map.1 hb
      exact mul_nonneg (mul_nonneg (hp c hc).1 (hp c hc).2) (sq_nonneg _)
    exact div_nonneg (mul_nonneg (by norm_num) (h1 _ (List.mem_map_of_mem ha))) (List.sum_nonneg h1)

example : (([(4, 1, 28), (4, 0.5, 13)] : List (ℝ × ℝ × ℝ)).map fun a => a.1 * a.2.1 * a.2.2 ^ 2).sum ≠ 0 := by
  simp; norm_num

/-- **C79** (part).  The average atomic number of a structure with one fully occupied atom is the atomic number ... -/
theorem C79_average_number_partial (m z : ℝ) (hm : m ≠ 0) : averageNumber [(m, 1, z)] = z := by
  simp [averageNumber]; field_simp

/-- ... but with `n` atoms in the asymmetric unit it is `1/n` of the average, so already for two carbon atoms it is 3. -/
theorem C79_average_number_fails : averageNumber [(4, 1, 6), (4, 1, 6)] = 3 := by
  simp [averageNumber]; norm_num

/-- Exactly: the result times the number of atoms is the multiplicity-weighted average. -/
theorem C79_average_number_scaled (atoms : List (ℝ × ℝ × ℝ)) (hne : atoms ≠ []) :
    averageNumber atoms * atoms.length =
      (atoms.map fun a => a.2.2 * a.2.1 * a.1).sum / (atoms.map fun a => a.1).sum := by
  unfold averageNumber
  have : (atoms.length : ℝ) ≠ 0 := by
    have := List.length_pos_of_ne_nil hne
    positivity
  field_simp

/-- The density is the mass of the cell content over its volume: in g/cm³ with weights in g/mol and nm³ for the volume
(1 nm³ = 1e-21 cm³, Avogadro's number 6.02214076e23). -/
theorem C79_density (l : Lattice) (h : 0 < l.dmt.det) (atoms : List (ℝ × ℝ × ℝ)) :
    density l atoms * (l.vol * 1e-21) * 6.02214076e23 = (atoms.map fun a => a.2.2 * a.2.1 * a.1).sum := by
  have := (vol_pos h).ne'
  unfold density
  rw [show (6.02214076e23 : ℝ) = 6.02214076e2 * 1e21 by norm_num, show (1e-21 : ℝ) = 1 / 1e21 by norm_num]
  field_simp

/-! ### C80: rhombohedral to hexagonal axes -/

/-- The textbook conversion for the rhombohedral cell with edge `a` and angle `α` (in radians). -/
noncomputable def hexOfRhomb (a α : ℝ) : Lattice :=
  ⟨a * Real.sqrt (2 - 2 * Real.cos α), a * Real.sqrt (2 - 2 * Real.cos α), a * Real.sqrt (3 + 6 * Real.cos α),
    Real.pi / 2, Real.pi / 2, 2 * Real.pi / 3⟩

/-- The textbook conversion triples the volume (squared: the determinant of the metric tensor grows by nine). -/
theorem C80_textbook_volume (a α : ℝ) (h : -1 ≤ 2 * Real.cos α) :
    (hexOfRhomb a α).dmt.det = 9 * (⟨a, a, a, α, α, α⟩ : Lattice).dmt.det := by
  rw [det_dmt, det_dmt]
  simp only [hexOfRhomb, Real.cos_pi_div_two, cos_two_pi_div_three]
  have h1 := Real.sq_sqrt (show 0 ≤ 2 - 2 * Real.cos α by linarith [Real.cos_le_one α])
  have h2 := Real.sq_sqrt (show 0 ≤ 3 + 6 * Real.cos α by linarith)
  generalize Real.sqrt (2 - 2 * Real.cos α) = u at *
  generalize Real.sqrt (3 + 6 * Real.cos α) = v at *
  have : (a * u * (a * u) * (a * v)) ^ 2 = a ^ 6 * (u ^ 2) ^ 2 * v ^ 2 := by ring
  rw [this, h1, h2]; ring

/-- **C80** (part): `convert_from_R_to_H` computes the textbook edges for the angle `α·π/180`, i.e. it is right only if the
cell angle had been left in degrees. -/
theorem C80_edges_partial (l : Lattice) (d : ℝ) (h : l.α = d) :
    (convertRtoH l).a = (hexOfRhomb l.a (deg2rad d)).a ∧ (convertRtoH l).c = (hexOfRhomb l.a (deg2rad d)).c := by
  subst h
  simp only [convertRtoH, hexOfRhomb, deg2rad]
  rw [show l.α * Real.pi / 180 = l.α * (Real.pi / 180) by ring]
  exact ⟨rfl, rfl⟩

example : (⟨1, 1, 1, 60, 60, 60⟩ : Lattice).α = 60 := rfl

/-- What fails: for every cell (angles are stored in radians) the new edge `a` is that of a wrong angle: for the 60° cell
the true hexagonal edge equals the rhombohedral one, the computed edge is smaller. -/
theorem C80_fails : (convertRtoH ⟨1, 1, 1, Real.pi / 3, Real.pi / 3, Real.pi / 3⟩).a < 1 ∧
    (hexOfRhomb 1 (Real.pi / 3)).a = 1 ∧
    (convertRtoH ⟨1, 1, 1, Real.pi / 3, Real.pi / 3, Real.pi / 3⟩).γ ≠ 2 * Real.pi / 3 := by
  refine ⟨?_, ?_, ?_⟩
  · simp only [convertRtoH, one_mul]
    rw [Real.sqrt_lt' one_pos]
    have : Real.cos (Real.pi / 3) < Real.cos (Real.pi / 3 * Real.pi / 180) := by
      apply Real.cos_lt_cos_of_nonneg_of_le_pi
      · have := Real.pi_pos; positivity
      · linarith [Real.pi_pos]
      · have h1 := Real.pi_pos
        have h2 := Real.pi_le_four
        nlinarith
    rw [Real.cos_pi_div_three] at this
    linarith
  · simp only [hexOfRhomb, Real.cos_pi_div_three]
    norm_num
  · simp only [convertRtoH]
    have := Real.pi_le_four
    intro e
    linarith

end Verif.Cryst
