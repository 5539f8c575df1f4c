import Verif.Model.Atoms
import Verif.Props.CellInit
import Mathlib.Analysis.Real.Pi.Bounds
/-!
C99: averages and density of the unit cell; C100: the second structure matrix of trigonal cells.
-/
namespace Verif.Atoms
open Cryst

/-- Specification: the atoms of a unit cell, one entry (the property `q` of the atom) per equivalent position. -/
def atomsOf (sites : List (ℝ × ℕ)) : List ℝ := sites.flatMap fun s => List.replicate s.2 s.1

/-- Specification: the mean over the atoms of the cell. -/
noncomputable def meanOf (l : List ℝ) : ℝ := l.sum / l.length

/-- Fully occupied sites. -/
def full (sites : List (ℝ × ℕ)) : List (ℝ × ℝ × ℕ) := sites.map fun s => (s.1, 1, s.2)

lemma atoms_sum (sites : List (ℝ × ℕ)) :
    (atomsOf sites).sum = ((full sites).map fun s => s.1 * s.2.1 * (s.2.2 : ℝ)).sum := by
  induction sites with
  | nil => simp [atomsOf, full]
  | cons s t ih =>
    simp only [atomsOf, full, List.flatMap_cons, List.sum_append, List.map_cons, List.sum_cons] at ih ⊢
    rw [ih]
    simp [List.sum_replicate, mul_comm]

lemma atoms_length (sites : List (ℝ × ℕ)) : (atomsOf sites).length = ((full sites).map fun s => s.2.2).sum := by
  induction sites with
  | nil => simp [atomsOf, full]
  | cons s t ih =>
    simp only [atomsOf, full, List.flatMap_cons, List.length_append, List.map_cons, List.sum_cons] at ih ⊢
    rw [ih]
    simp

/-- **C99** (averages).  `average_atomic_number` and `average_atomic_weight` of a fully occupied cell, multiplied by the
number of sites of the asymmetric unit, are the mean over the atoms of the unit cell; so they are that mean exactly for
cells with one site. -/
theorem C99_average_partial (sites : List (ℝ × ℕ)) (h : sites ≠ []) :
    sites.length * average (full sites) = meanOf (atomsOf sites) ∧
    (sites.length = 1 → average (full sites) = meanOf (atomsOf sites)) := by
  have e : sites.length * average (full sites) = meanOf (atomsOf sites) := by
    have hl : (sites.length : ℝ) ≠ 0 := by exact_mod_cast (List.length_pos_of_ne_nil h).ne'
    unfold average meanOf
    rw [← atoms_sum, ← atoms_length, show (full sites).length = sites.length by simp [full]]
    field_simp
  exact ⟨e, fun h1 => by rw [← e, h1]; simp⟩

/-- What is missing in C99: with `n ≥ 2` sites the averages are too small by the factor `n` (the code divides the mean over
the sites, not the sum, by the number of atoms).  These values are passed to the Monte Carlo simulation. -/
theorem C99_average_fails (sites : List (ℝ × ℕ)) (h : 2 ≤ sites.length) (hm : 0 < meanOf (atomsOf sites)) :
    average (full sites) < meanOf (atomsOf sites) := by
  have hne : sites ≠ [] := by rintro rfl; simp at h
  have e := (C99_average_partial sites hne).1
  have hn : (2 : ℝ) ≤ sites.length := by exact_mod_cast h
  have hp : 0 < average (full sites) := by
    by_contra hc
    have : (sites.length : ℝ) * average (full sites) ≤ 0 := mul_nonpos_of_nonneg_of_nonpos (by linarith) (not_lt.1 hc)
    linarith
  nlinarith

/-- non-vacuity: rock salt (Na 4a, Cl 4b) has mean atomic number 14, the code gives 7. -/
example : meanOf (atomsOf [(11, 4), (17, 4)]) = 14 ∧ average (full [(11, 4), (17, 4)]) = 7 := by
  have e := (C99_average_partial [((11 : ℝ), 4), (17, 4)] (by simp)).1
  have m : meanOf (atomsOf [((11 : ℝ), 4), (17, 4)]) = 14 := by
    unfold meanOf atomsOf; simp [List.replicate]; norm_num
  refine ⟨m, ?_⟩
  rw [m] at e
  norm_num at e
  linarith

/-- **C99** (density).  For every list of sites (atomic weight in g/mol, occupancy, multiplicity) and every cell volume in
nm³: density (g/cm³) times volume (cm³) is the mass of the content of the cell, atomic weights times occupancies times
multiplicities divided by Avogadro's number. -/
theorem C99_density (sites : List (ℝ × ℝ × ℕ)) (vol : ℝ) (hv : 0 < vol) :
    density sites vol * (vol * 1e-21) = (sites.map fun s => (s.2.2 : ℝ) * (s.2.1 * s.1)).sum / 6.02214076e23 := by
  have e : (sites.map fun s => s.1 * s.2.1 * (s.2.2 : ℝ)) = sites.map fun s => (s.2.2 : ℝ) * (s.2.1 * s.1) := by
    refine List.map_congr_left fun s _ => by ring
  unfold density
  rw [e]
  generalize (sites.map fun s => (s.2.2 : ℝ) * (s.2.1 * s.1)).sum = S
  field_simp
  ring_nf

/-- non-vacuity: one iron atom (55.845) in a body-centred cell of edge 0.28665 nm: about 7.87 g/cm³. -/
example : |density [(55.845, 1, 2)] (0.28665 ^ 3) - 7.87| < 0.01 := by
  unfold density
  norm_num [abs_lt]

/-! ### C100 -/

lemma rot_metric (M : M3) (d : M3) (h : M.transpose * M = 1) : (M * d).transpose * (M * d) = d.transpose * d := by
  rw [Matrix.transpose_mul, Matrix.mul_assoc, ← Matrix.mul_assoc M.transpose, h, Matrix.one_mul]

/-- **C100** (what holds).  Whenever the second structure matrix of a trigonal cell consists of numbers, it describes the
same lattice geometry as the first (`dsm2ᵀ dsm2 = dsmᵀ dsm`) and the same handedness; outside the trigonal system it is not
computed. -/
theorem C100_metric_partial (sg : ℕ) (l : Lattice) :
    (xtalSystem sg ≠ 5 → dsm2 sg l = none) ∧
    ∀ D, dsm2 sg l = some (some D) → D.transpose * D = l.dsm.transpose * l.dsm ∧ D.det = l.dsm.det := by
  constructor
  · intro h; unfold dsm2; rw [if_neg h]
  · intro D h
    unfold dsm2 at h
    split at h
    swap
    · cases h
    rw [Option.some.injEq] at h
    obtain ⟨my, hmy, h⟩ := Option.bind_eq_some_iff.1 h
    obtain ⟨mx, hmx, rfl⟩ := Option.map_eq_some_iff.1 h
    have hx : mx.transpose * mx = 1 ∧ mx.det = 1 := by
      unfold dsm2Mx at hmx
      simp only at hmx
      split at hmx
      · rename_i hc
        rw [Option.some.injEq] at hmx
        subst hmx
        have hs := Real.mul_self_sqrt hc
        generalize Real.sqrt (1 - 0.5 / Real.cos (Real.pi * 0.5 * l.α) * (0.5 / Real.cos (Real.pi * 0.5 * l.α))) = y at hs
        generalize 0.5 / Real.cos (Real.pi * 0.5 * l.α) = x at hs
        constructor
        · ext i j
          fin_cases i <;> fin_cases j <;> simp [Matrix.mul_apply, Fin.sum_univ_three] <;> linarith
        · simp [Matrix.det_fin_three]; linarith
      · cases hmx
    have hy : my.transpose * my = 1 ∧ my.det = 1 := by
      unfold dsm2My at hmy
      simp only at hmy
      split at hmy
      · rename_i hc
        rw [Option.some.injEq] at hmy
        subst hmy
        have hs := Real.mul_self_sqrt hc
        generalize Real.sqrt (1 - 2 * Real.sin (Real.pi * 0.5 * l.α) / Real.sqrt 3 * (2 * Real.sin (Real.pi * 0.5 * l.α) / Real.sqrt 3)) = y at hs
        generalize 2 * Real.sin (Real.pi * 0.5 * l.α) / Real.sqrt 3 = x at hs
        constructor
        · ext i j
          fin_cases i <;> fin_cases j <;> simp [Matrix.mul_apply, Fin.sum_univ_three] <;> linarith
        · simp [Matrix.det_fin_three]; linarith
      · cases hmy
    constructor
    · rw [Matrix.mul_assoc, rot_metric my _ hy.1, rot_metric mx _ hx.1]
    · rw [Matrix.det_mul, Matrix.det_mul, hx.2, hy.2]; ring

/-- What is missing in C100: the angle is stored in radians but used as if it were in units of 180°, so for a rhombohedral
cell with α = 60° the matrix consists of NaN. -/
theorem C100_nan_fails (l : Lattice) (h : l.α = Real.pi / 3) (sg : ℕ) (hs : xtalSystem sg = 5) : dsm2 sg l = some none := by
  have h1 := Real.pi_gt_d2
  have h2 := Real.pi_lt_d2
  have hc : |Real.cos (Real.pi * 0.5 * l.α)| < 0.2 := by
    have e : Real.cos (Real.pi * 0.5 * l.α) = Real.sin (Real.pi / 2 - Real.pi * 0.5 * l.α) := by rw [Real.sin_pi_div_two_sub]
    rw [e, h]
    refine lt_of_le_of_lt Real.abs_sin_le_abs ?_
    rw [abs_lt]
    constructor <;> nlinarith
  have hneg : Real.cos (Real.pi * 0.5 * l.α) < 0 := by
    rw [h]
    exact Real.cos_neg_of_pi_div_two_lt_of_lt (by nlinarith) (by nlinarith)
  have hx : dsm2Mx l.α = none := by
    unfold dsm2Mx
    simp only
    rw [if_neg]
    intro hc'
    generalize Real.cos (Real.pi * 0.5 * l.α) = c at hc hc' hneg
    have : c * c < 0.04 := by
      have := abs_lt.1 hc
      nlinarith [abs_mul_abs_self c, abs_nonneg c]
    have hcc : 0 < c * c := mul_pos_of_neg_of_neg hneg hneg
    have : 0.5 / c * (0.5 / c) = 0.25 / (c * c) := by rw [div_mul_div_comm]; norm_num
    rw [this] at hc'
    have : 1 < 0.25 / (c * c) := by rw [lt_div_iff₀ hcc]; linarith
    linarith
  unfold dsm2
  rw [if_pos hs, hx]
  cases dsm2My l.α <;> rfl

/-- What is missing in C100, second part: because the crystal system is misread (C55), the matrix is missing for the trigonal
space groups 144-167 (all rhombohedral ones among them) and computed for the tetragonal ones 76-142. -/
theorem C100_system_fails (l : Lattice) : (∀ sg, 144 ≤ sg → sg ≤ 167 → dsm2 sg l = none) ∧
    ∀ sg, 76 ≤ sg → sg ≤ 142 → dsm2 sg l ≠ none := by
  have a : ∀ k : Fin 24, xtalSystem (144 + k) ≠ 5 := by decide
  have b : ∀ k : Fin 67, xtalSystem (76 + k) = 5 := by decide
  constructor
  · intro sg h1 h2
    have := a ⟨sg - 144, by omega⟩
    simp only [Nat.add_sub_cancel' h1] at this
    exact (C100_metric_partial sg l).1 this
  · intro sg h1 h2
    have := b ⟨sg - 76, by omega⟩
    simp only [Nat.add_sub_cancel' h1] at this
    unfold dsm2
    rw [if_pos this]; simp

/-- non-vacuity of `C100_nan_fails`: space group 143 (P3) is classified as trigonal; of `C100_metric_partial`: at `α = 0`
the matrix is NaN-free only if `0.5 ≤ |cos|` and `|sin| ≤ √3/2`, which holds. -/
example : xtalSystem 143 = 5 ∧ (dsm2Mx 0).isSome ∧ (dsm2My 0).isSome := by
  refine ⟨by decide, ?_, ?_⟩
  · unfold dsm2Mx; simp only [mul_zero, Real.cos_zero]; rw [if_pos (by norm_num)]; rfl
  · unfold dsm2My; simp only [mul_zero, Real.sin_zero, zero_div]; rw [if_pos (by norm_num)]; rfl

end Verif.Atoms
