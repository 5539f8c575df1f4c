import Verif.Props.MasterIntensity
import Verif.Spec.StructureFactor
import Verif.Spec.Codata
import Mathlib.Analysis.Real.Pi.Bounds
/-!
C146: the Fourier coefficients of the potential.
-/
namespace Verif.Diff
open Cryst Matrix Spec.Crystal

/-- Specification: length (nm⁻¹) of the reciprocal lattice vector `hkl`. -/
noncomputable def gLength (l : Lattice) (h k m : ℤ) : ℝ := √(cartesian l .r ![(h : ℝ), k, m] ⬝ᵥ cartesian l .r ![(h : ℝ), k, m])

/-- Specification: all atoms of the cell with their scattering factors for the reflection `hkl`: the factor is taken at the angular spatial
frequency `2π|g|` in Å⁻¹, with the root mean square displacement in Å of the Debye-Waller factor `8π² u²` in nm². -/
noncomputable def atomsAt (sf : ScatterFactor) (c : Crystal) (kV : ℝ) (part : ℂ → ℂ) (h k m : ℤ) : List (ℝ × ℂ × (Fin 3 → ℝ)) :=
  c.sites.flatMap fun s => s.pos.map fun r =>
    (s.occ, part (sf kV s.Z (10 * √(s.dw / (8 * Real.pi ^ 2))) (2 * Real.pi * gLength c.l h k m / 10)), r)

theorem gLength_eq {l : Lattice} (hd : 0 < l.dmt.det) (g : Hkl) : calcLength l (hklVec g) .r = gLength l g.1 g.2.1 g.2.2 := by
  have h := (C78_length_angle l hd (hklVec g) 0 .r).1
  have e : hklVec g = ![(g.1 : ℝ), (g.2.1 : ℝ), (g.2.2 : ℝ)] := rfl
  unfold gLength
  rw [← e, ← h, Real.sqrt_sq]
  exact Real.sqrt_nonneg _

theorem sum_flatMap {α β : Type} (l : List α) (f : α → List β) (g : β → ℂ) : ((l.flatMap f).map g).sum = (l.map fun a => ((f a).map g).sum).sum := by
  induction l with
  | nil => rfl
  | cons a l ih => simp [ih]

theorem ff_eq (sf : ScatterFactor) (c : Crystal) (hd : 0 < c.l.dmt.det) (kV : ℝ) (part : ℂ → ℝ) (g : Hkl) :
    (c.sites.map fun s => p1 s g * ((part (factor sf c.l kV s g) : ℝ) : ℂ) * (s.occ : ℂ)).sum =
      cellStructureFactor (atomsAt sf c kV (fun z => (part z : ℂ)) g.1 g.2.1 g.2.2) g.1 g.2.1 g.2.2 := by
  unfold cellStructureFactor atomsAt
  rw [sum_flatMap]
  congr 1
  refine List.map_congr_left fun s _ => ?_
  rw [List.map_map]
  unfold p1 factor
  rw [gLength_eq hd, mul_assoc, ← List.sum_map_mul_right]
  congr 1
  refine List.map_congr_left fun r _ => ?_
  simp only [Function.comp]
  have e1 : (-2 * Complex.I * Real.pi * ((hklDot g r : ℝ) : ℂ)) = -((2 * Real.pi * (g.1 * r 0 + g.2.1 * r 1 + g.2.2 * r 2) : ℝ) : ℂ) * Complex.I := by
    unfold hklDot; push_cast; ring
  have e2 : 0.1 * 2 * Real.pi * gLength c.l g.1 g.2.1 g.2.2 = 2 * Real.pi * gLength c.l g.1 g.2.1 g.2.2 / 10 := by ring
  rw [e1, e2]
  ring

theorem sf_add (atoms : List (ℝ × ℂ × (Fin 3 → ℝ))) (h k l : ℤ) :
    cellStructureFactor (atoms.map fun a => (a.1, ((a.2.1.re : ℝ) : ℂ), a.2.2)) h k l +
      Complex.I * cellStructureFactor (atoms.map fun a => (a.1, ((a.2.1.im : ℝ) : ℂ), a.2.2)) h k l = cellStructureFactor atoms h k l := by
  unfold cellStructureFactor
  induction atoms with
  | nil => simp
  | cons a t ih =>
    simp only [List.map_cons, List.sum_cons, List.map_map] at *
    rw [← ih]
    have e := Complex.re_add_im a.2.1
    generalize Complex.exp _ = E
    linear_combination (a.1 : ℂ) * E * e

theorem atoms_part (sf : ScatterFactor) (c : Crystal) (kV : ℝ) (p : ℂ → ℝ) (h k m : ℤ) :
    atomsAt sf c kV (fun z => (p z : ℂ)) h k m = (atomsAt sf c kV id h k m).map fun a => (a.1, ((p a.2.1 : ℝ) : ℂ), a.2.2) := by
  unfold atomsAt
  rw [List.map_flatMap]
  congr 1
  funext s
  rw [List.map_map]
  rfl

/-- The constant of the code relative to `1 / (10 π)`. -/
noncomputable def fourierScale : ℝ := 0.04787801 * 0.664840340614319 * (10 * Real.pi)

theorem fourierScale_near : 7e-6 ≤ fourierScale - 1 ∧ fourierScale - 1 ≤ 8e-6 := by
  unfold fourierScale
  have h1 := Real.pi_gt_d6
  have h2 := Real.pi_lt_d6
  norm_num at *
  constructor <;> linarith

/-- C146: for every crystal (space group 1-230, non-degenerate cell), atomic scattering factor, `dmin` and voltage, the matrix returned by
`calc_helper_bloch_formalism` consists of the Fourier coefficients `F(g_j - g_i) / (π V)` of the reduced potential, with the structure factor summed
over all atoms of the cell, up to one fixed factor that is 7 to 8 parts per million above 1; without absorption the real parts of the
scattering factors are used and the mean absorption is 0, with absorption the mean absorption is the modulus of the coefficient of the imaginary
parts for `000`. -/
theorem C146_fourier (mem : ℤ → ℂ) (sf : ScatterFactor) (c : Crystal) (h1 : 1 ≤ c.sg) (h2 : c.sg ≤ 230) (hd : 0 < c.l.dmt.det)
    (dmin kV : ℝ) (absorption : Bool) (b : Bloch) (hb : bloch mem sf c dmin kV absorption = .ok b) :
    ∃ K : ℝ, 1 + 7e-6 ≤ K ∧ K ≤ 1 + 8e-6 ∧
      (∀ i j, b.U i j = K * reducedPotential (cellStructureFactor
        (atomsAt sf c kV (fun z => if absorption then z else (z.re : ℂ))
          ((b.gs.get j).1 - (b.gs.get i).1) ((b.gs.get j).2.1 - (b.gs.get i).2.1) ((b.gs.get j).2.2 - (b.gs.get i).2.2))
        ((b.gs.get j).1 - (b.gs.get i).1) ((b.gs.get j).2.1 - (b.gs.get i).2.1) ((b.gs.get j).2.2 - (b.gs.get i).2.2)) c.l.vol) ∧
      b.up = if absorption then K * ‖reducedPotential (cellStructureFactor (atomsAt sf c kV (fun z => (z.im : ℂ)) 0 0 0) 0 0 0) c.l.vol‖ else 0 := by
  obtain ⟨-, hU, -⟩ := C93_lookup mem sf c h1 h2 dmin kV absorption b hb
  have hV : 0 < c.l.vol := Real.sqrt_pos.mpr hd
  have hpi := Real.pi_pos
  obtain ⟨k1, k2⟩ := fourierScale_near
  have hscale : ∀ F : ℂ, ((pref c * preg : ℝ) : ℂ) * F = fourierScale * reducedPotential F c.l.vol := by
    intro F
    unfold reducedPotential fourierScale pref preg
    have e : (0.04787801 / c.l.vol * 0.664840340614319 : ℝ) = 0.04787801 * 0.664840340614319 * (10 * Real.pi) * 0.1 / (Real.pi * c.l.vol) := by
      field_simp; ring
    rw [e]; push_cast; ring
  refine ⟨fourierScale, by linarith, by linarith, fun i j => ?_, ?_⟩
  · rw [hU i j]
    generalize b.gs.get j = gj
    generalize b.gs.get i = gi
    have hf := ff_eq sf c hd kV Complex.re (sub gj gi)
    have hg := ff_eq sf c hd kV Complex.im (sub gj gi)
    unfold ucg
    simp only
    unfold ff gg
    simp only [sub] at hf hg ⊢
    cases absorption
    · rw [if_neg (by decide), hf, hscale]
      simp
    · rw [if_pos rfl]
      simp only [if_true]
      rw [hf, hg, ← hscale]
      congr 1
      rw [atoms_part, atoms_part]
      have e := sf_add (atomsAt sf c kV id (gj.1 - gi.1) (gj.2.1 - gi.2.1) (gj.2.2 - gi.2.2)) (gj.1 - gi.1) (gj.2.1 - gi.2.1) (gj.2.2 - gi.2.2)
      refine Eq.trans ?_ e
      apply Complex.ext <;> simp [Complex.add_re, Complex.mul_re, Complex.add_im, Complex.mul_im]
      ring
  · have hup : b.up = upmod0 sf c kV absorption := by
      unfold bloch at hb
      cases hdd : diffs c dmin with
      | error e => rw [hdd] at hb; cases hb
      | ok ds =>
        rw [hdd] at hb
        obtain ⟨gs, hg, rfl⟩ := except_map_ok hb
        rfl
    rw [hup]
    unfold upmod0
    cases absorption
    · simp
    · simp only [if_true]
      have hg := ff_eq sf c hd kV Complex.im (0, 0, 0)
      unfold gg
      rw [hg, ← Complex.norm_of_nonneg (show 0 ≤ fourierScale by linarith), ← norm_mul, ← hscale, norm_mul,
        Complex.norm_of_nonneg (by unfold pref preg; positivity)]
      ring

/-- the cubic demonstration crystal with factors `Z (1 + i / 10)` -/
example (mem : ℤ → ℂ) : ∃ b, bloch mem (fun _ Z _ _ => (Z : ℂ) * (1 + Complex.I / 10)) demo 0.4 20 true = .ok b ∧ 0 < demo.l.dmt.det ∧
    1 ≤ demo.sg ∧ demo.sg ≤ 230 := by
  obtain ⟨gs, ds, h1, h2⟩ := demo_tables
  refine ⟨_, by unfold bloch; rw [h2, h1]; rfl, demo_det, by decide, by decide⟩

end Verif.Diff
