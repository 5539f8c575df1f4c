import Verif.Props.Cell
import Verif.Props.Groups
/-! C53/C54, continued: construction of a cell and change of reference frame. -/
namespace Verif.Cryst
open Matrix

/-- **C53**: a cell is accepted only for space groups 1 to 230, a known setting and known units, and then holds the edge
lengths in nm and the angles in radians, whatever the units of the arguments. -/
theorem C53_accepted (sg setting : ℕ) (au an : String) (abc ang : ℝ × ℝ × ℝ) (l : Lattice)
    (h : cellInit sg setting au an abc ang = .ok l) :
    1 ≤ sg ∧ sg ≤ 230 ∧ (setting = 1 ∨ sg ∈ SG.twoSettings) ∧ l.volumeOk = true ∧
    ∃ u v : ℝ, ((au = "nm" ∧ u = 1) ∨ (au = "angstrom" ∧ u = 1 / 10) ∨ (au = "pm" ∧ u = 1 / 1000)) ∧
      ((an = "rad" ∧ v = 1) ∨ (an = "deg" ∧ v = Real.pi / 180)) ∧
      l = ⟨abc.1 * u, abc.2.1 * u, abc.2.2 * u, ang.1 * v, ang.2.1 * v, ang.2.2 * v⟩ := by
  unfold cellInit at h
  by_cases h1 : sg < 1 ∨ 230 < sg
  · rw [if_pos h1] at h; simp at h
  rw [if_neg h1] at h
  by_cases h2 : setting ≠ 1 ∧ sg ∉ SG.twoSettings
  · rw [if_pos h2] at h; simp at h
  rw [if_neg h2] at h
  have hu : (∃ u : ℝ, ((au = "nm" ∧ u = 1) ∨ (au = "angstrom" ∧ u = 1 / 10) ∨ (au = "pm" ∧ u = 1 / 1000)) ∧
      ∀ x, lengthNm au x = .ok (x * u)) ∨ ∀ x, lengthNm au x = .error .valueError := by
    unfold lengthNm
    by_cases a1 : au = "angstrom"
    · left; exact ⟨1 / 10, Or.inr (Or.inl ⟨a1, rfl⟩), fun x => by rw [if_pos a1]; norm_num⟩
    by_cases a2 : au = "pm"
    · left; exact ⟨1 / 1000, Or.inr (Or.inr ⟨a2, rfl⟩), fun x => by rw [if_neg a1, if_pos a2]; norm_num⟩
    by_cases a3 : au = "nm"
    · left; exact ⟨1, Or.inl ⟨a3, rfl⟩, fun x => by rw [if_neg a1, if_neg a2, if_pos a3, mul_one]⟩
    · right; intro x; rw [if_neg a1, if_neg a2, if_neg a3]
  have hv : (∃ v : ℝ, ((an = "rad" ∧ v = 1) ∨ (an = "deg" ∧ v = Real.pi / 180)) ∧
      ∀ x, angleRad an x = .ok (x * v)) ∨ ∀ x, angleRad an x = .error .valueError := by
    unfold angleRad
    by_cases a1 : an = "deg"
    · left; exact ⟨Real.pi / 180, Or.inr ⟨a1, rfl⟩, fun x => by rw [if_pos a1]; rfl⟩
    by_cases a3 : an = "rad"
    · left; exact ⟨1, Or.inl ⟨a3, rfl⟩, fun x => by rw [if_neg a1, if_pos a3, mul_one]⟩
    · right; intro x; rw [if_neg a1, if_neg a3]
  rcases hu with ⟨u, hu, eu⟩ | eu
  · rcases hv with ⟨v, hv, ev⟩ | ev
    · simp only [eu, ev, Except.bind] at h
      by_cases hk : (⟨abc.1 * u, abc.2.1 * u, abc.2.2 * u, ang.1 * v, ang.2.1 * v, ang.2.2 * v⟩ : Lattice).volumeOk = true
      · rw [if_pos hk] at h
        cases hs : SG.sgOperators sg setting with
        | error e => rw [hs] at h; simp [Except.map] at h
        | ok ops =>
          rw [hs] at h
          simp only [Except.map, Except.ok.injEq] at h
          refine ⟨by omega, by omega, ?_, by rw [← h]; exact hk, u, v, hu, hv, h.symm⟩
          by_cases hs1 : setting = 1
          · exact Or.inl hs1
          · right; by_contra hc; exact h2 ⟨hs1, hc⟩
      · rw [if_neg hk] at h; simp at h
    · simp only [eu, ev, Except.bind] at h; cases h
  · simp only [eu, Except.bind] at h; cases h

/-- **C53**: the same cell given in other units is the same cell. -/
theorem C53_units (sg setting : ℕ) (a b c α β γ : ℝ) :
    cellInit sg setting "angstrom" "deg" (10 * a, 10 * b, 10 * c) (α * 180 / Real.pi, β * 180 / Real.pi, γ * 180 / Real.pi)
      = cellInit sg setting "nm" "rad" (a, b, c) (α, β, γ) ∧
    cellInit sg setting "pm" "rad" (1000 * a, 1000 * b, 1000 * c) (α, β, γ)
      = cellInit sg setting "nm" "rad" (a, b, c) (α, β, γ) := by
  have hp := Real.pi_ne_zero
  have l1 : ∀ x : ℝ, lengthNm "angstrom" (10 * x) = lengthNm "nm" x := by
    intro x
    simp only [lengthNm, reduceIte, show ("nm" = "angstrom") = False by decide, show ("nm" = "pm") = False by decide]
    congr 1; ring
  have l2 : ∀ x : ℝ, lengthNm "pm" (1000 * x) = lengthNm "nm" x := by
    intro x
    simp only [lengthNm, reduceIte, show ("nm" = "angstrom") = False by decide, show ("nm" = "pm") = False by decide,
      show ("pm" = "angstrom") = False by decide]
    congr 1; ring
  have l3 : ∀ x : ℝ, angleRad "deg" (x * 180 / Real.pi) = angleRad "rad" x := by
    intro x
    simp only [angleRad, reduceIte, show ("rad" = "deg") = False by decide, deg2rad]
    congr 1; field_simp
  unfold cellInit
  simp only [l1, l2, l3, and_self]

/-- A concrete accepted cell: the unit cube in nm. -/
theorem cube_volumeOk : (⟨1, 1, 1, Real.pi / 2, Real.pi / 2, Real.pi / 2⟩ : Lattice).volumeOk = true := by
  have hd : (⟨1, 1, 1, Real.pi / 2, Real.pi / 2, Real.pi / 2⟩ : Lattice).dmt.det = 1 := by
    simp [Lattice.dmt, Matrix.det_fin_three]
  unfold Lattice.volumeOk Lattice.vol
  rw [hd]
  norm_num

theorem cube_accepted (ops : List _) (h : SG.sgOperators 1 1 = .ok ops) :
    cellInit 1 1 "nm" "rad" (1, 1, 1) (Real.pi / 2, Real.pi / 2, Real.pi / 2)
      = .ok ⟨1, 1, 1, Real.pi / 2, Real.pi / 2, Real.pi / 2⟩ := by
  have l1 : ∀ x : ℝ, lengthNm "nm" x = .ok x := by
    intro x
    simp only [lengthNm, reduceIte, show ("nm" = "angstrom") = False by decide, show ("nm" = "pm") = False by decide]
  have l3 : ∀ x : ℝ, angleRad "rad" x = .ok x := by
    intro x
    simp only [angleRad, reduceIte, show ("rad" = "deg") = False by decide]
  have b : ∀ (x : ℝ) (f : ℝ → Except SG.Err Lattice), Except.bind (Except.ok x) f = f x := fun _ _ => rfl
  unfold cellInit
  rw [if_neg (by omega), if_neg (by rintro ⟨h, -⟩; exact h rfl)]
  simp only [l1, l3, b, cube_volumeOk, if_true, h]
  rfl

example : ∃ l, cellInit 1 1 "nm" "rad" (1, 1, 1) (Real.pi / 2, Real.pi / 2, Real.pi / 2) = .ok l :=
  let ⟨ops, h, _⟩ := SG.C58_group_partial 1 (by decide) (by decide)
  ⟨_, cube_accepted ops h⟩

/-- **C54**: `transform_coordinates` old-to-new multiplies the components by the matrix, new-to-old by its transpose,
in every space. -/
theorem C54_frame_maps (t : Vec) (al : M3) (s : Space) :
    transformCoordinates t al s true = al.mulVec t ∧ transformCoordinates t al s false = alᵀ.mulVec t := by
  constructor <;>
  · funext j
    cases s <;> simp [transformCoordinates, Matrix.mulVec, dotProduct, mul_comm]

/-- **C54 (partial)**: converting to the new frame and back gives the vector again exactly for orthogonal matrices.
Missing: other changes of basis, see `C54_frame_fails`. -/
theorem C54_frame_partial (al : M3) (s : Space) :
    (∀ t, transformCoordinates (transformCoordinates t al s true) al s false = t) ↔ alᵀ * al = 1 := by
  simp only [C54_frame_maps, Matrix.mulVec_mulVec]
  constructor
  · intro h
    apply Matrix.mulVec_injective
    funext t
    rw [h, Matrix.one_mulVec]
  · intro h t
    rw [h, Matrix.one_mulVec]

/-- **C54 fails**: for a change of basis that is not orthogonal (a doubled edge) the conversion back does not undo the
conversion, in no space. -/
theorem C54_frame_fails (s : Space) : ∃ (al : M3) (t : Vec), al.det ≠ 0 ∧
    transformCoordinates (transformCoordinates t al s true) al s false ≠ t := by
  refine ⟨Matrix.diagonal ![2, 1, 1], ![1, 0, 0], by simp [Matrix.det_diagonal, Fin.prod_univ_three], ?_⟩
  simp only [C54_frame_maps]
  intro h
  have := congrFun h 0
  simp [Matrix.mulVec_diagonal, Matrix.diagonal_transpose] at this
  norm_num at this

example : (Matrix.transpose !![0, -1, 0; 1, 0, 0; 0, 0, 1] : M3) * !![0, -1, 0; 1, 0, 0; 0, 0, 1] = 1 := by
  ext i j; fin_cases i <;> fin_cases j <;> simp [Matrix.mul_apply, Fin.sum_univ_three]

end Verif.Cryst
